import Verif.Spec.ViewCount
import Verif.Proofs.Trace
import Verif.Props.Filters

/-! # Counters -/

namespace Larch

open Spec

variable {V : Type}

/-! ### What observers hear -/

theorem lastRead_append (c : Nat) (h1 h2 : List (Nat × Nat)) :
    lastRead c (h1 ++ h2) = (lastRead c h2).or (lastRead c h1) := by
  unfold lastRead
  rw [List.filter_append, List.getLast?_append]
  cases (h2.filter _).getLast? <;> simp

/-- The observers registered at `v` know the number at `v'` if they knew it at `v`. -/
structure Heard (v v' : VC) : Prop where
  grows : ∀ c ∈ v.cllbcks, c ∈ v'.cllbcks
  heard : ∃ h, v'.heard = v.heard ++ h ∧
    ∀ c ∈ v.cllbcks, lastRead c h = some v'.nNodes ∨ (lastRead c h = none ∧ v'.nNodes = v.nNodes)

theorem Heard.refl (v : VC) : Heard v v := ⟨fun _ h => h, [], by simp, fun _ _ => .inr ⟨rfl, rfl⟩⟩

theorem Heard.of_same {v v' : VC} (h1 : v'.cllbcks = v.cllbcks) (h2 : v'.heard = v.heard) (h3 : v'.nodes = v.nodes) :
    Heard v v' :=
  ⟨fun _ h => h1 ▸ h, [], by simp [h2], fun _ _ => .inr ⟨rfl, by unfold VC.nNodes; rw [h3]⟩⟩

theorem Heard.trans {v v' v'' : VC} (h1 : Heard v v') (h2 : Heard v' v'') : Heard v v'' := by
  obtain ⟨a, ha, hc⟩ := h1.heard
  obtain ⟨b, hb, hd⟩ := h2.heard
  refine ⟨fun c h => h2.grows c (h1.grows c h), a ++ b, by rw [hb, ha, List.append_assoc], fun c hcm => ?_⟩
  rw [lastRead_append]
  rcases hd c (h1.grows c hcm) with e | ⟨e, e'⟩
  · rw [e]; exact .inl rfl
  · rw [e, e']
    simpa using hc c hcm

theorem heard_callback {v w : VC} (h1 : w.cllbcks = v.cllbcks) (h2 : w.heard = v.heard) : Heard v w.callback := by
  refine ⟨fun _ h => h1 ▸ h, w.cllbcks.map (fun c => (c, w.nNodes)), by simp [VC.callback, h2], fun c hc => .inl ?_⟩
  rw [← h1] at hc
  show lastRead c _ = some w.nNodes
  unfold lastRead
  cases hl : ((w.cllbcks.map (fun c => (c, w.nNodes))).filter (fun h => decide (h.1 = c))).getLast? with
  | none =>
    rw [List.getLast?_eq_none_iff, List.filter_eq_nil_iff] at hl
    exact absurd (by simp) (hl (c, w.nNodes) (List.mem_map.2 ⟨c, hc, rfl⟩))
  | some e =>
    have := List.mem_of_getLast? hl
    rw [List.mem_filter] at this
    obtain ⟨d, -, rfl⟩ := List.mem_map.1 this.1
    rfl

theorem heard_add (v : VC) (x : Id) : Heard v (v.add x) := by
  unfold VC.add; split
  · exact heard_callback rfl rfl
  · exact Heard.refl v

theorem heard_delete (v : VC) (x : Id) : Heard v (v.delete x) := by
  unfold VC.delete; split
  · exact heard_callback rfl rfl
  · exact Heard.refl v

variable {D : Type}

theorem heard_modify (b : Bank D) (t : Tree) (d : D) (x : Id) (v : VC) : Heard v (VC.modify b t d x v).state := by
  unfold VC.modify; split
  · exact Heard.refl v
  · exact heard_add v x
  · exact heard_delete v x

theorem heard_forEach {α : Type} (body : α → VC → Res VC) (hb : ∀ a v, Heard v (body a v).state) (l : List α) (v : VC) :
    Heard v (Res.forEach body l v).state := by
  induction l generalizing v with
  | nil => exact Heard.refl v
  | cons a l ih =>
    rw [Res.forEach]
    have := hb a v
    cases hr : body a v with
    | ok v' => rw [hr] at this; exact this.trans (ih v')
    | err e v' => rw [hr] at this; exact this

theorem heard_refresh (b : Bank D) (t : Tree) (d : D) (v : VC) : Heard v (v.refresh b t d).state := by
  unfold VC.refresh
  have := heard_forEach (VC.modify b t d) (heard_modify b t d) t.nodes.keys v
  cases hr : Res.forEach (VC.modify b t d) t.nodes.keys v with
  | ok v' => rw [hr] at this; exact this.trans (Heard.of_same rfl rfl rfl)
  | err e v' => rw [hr] at this; exact this

theorem heard_apply (b : Bank D) (t : Tree) (d : D) (n : FName) (r : Bool) (v : VC) :
    Heard v (v.applyFilter b t d n r).state := by
  unfold VC.applyFilter
  have h0 : Heard v { v with applied := v.applied ++ [n] } := Heard.of_same rfl rfl rfl
  split
  · split
    · dsimp only
      split
      · split
        · exact h0.trans (heard_forEach _ (heard_modify b t d) _ _)
        · exact h0.trans (heard_refresh b t d _)
      · exact h0
    · exact Heard.refl v
  · exact Heard.refl v

theorem heard_unapply (b : Bank D) (t : Tree) (d : D) (n : FName) (v : VC) :
    Heard v (v.unapplyFilter b t d n).state := by
  unfold VC.unapplyFilter
  split
  · exact (Heard.of_same rfl rfl rfl : Heard v { v with applied := v.applied.erase n }).trans
      (heard_forEach _ (heard_modify b t d) _ _)
  · exact Heard.refl v

theorem heard_react (b : Bank D) (d : D) (n : Note) (v : VC) : Heard v (VC.react b d n v).state := by
  unfold VC.react
  split
  · exact heard_modify b _ d _ v
  · exact heard_modify b _ d _ v
  · exact heard_delete v _

theorem heard_withVC (a : CApp V) (r : Res VC) (h : Heard a.vc r.state) : Heard a.vc (a.withVC r).state.vc := by
  cases r <;> exact h

theorem heard_edit (a : CApp V) (op : Op) : Heard a.vc (a.edit op).state.vc := by
  unfold CApp.edit
  have := heard_forEach (VC.react a.bank a.data) (heard_react a.bank a.data)
    ((step a.s op).state.log.drop a.s.log.length) a.vc
  dsimp only
  generalize Res.forEach (VC.react a.bank a.data) _ a.vc = r at this
  cases r <;> exact this

theorem heard_act (a : CApp V) (c : CAct V) : Heard a.vc (a.act c).state.vc := by
  cases c with
  | edit op => exact heard_edit a op
  | change x v => exact heard_edit ({ a with data := fun y => if y = x then v else a.data y } : CApp V) (.refreshNode x)
  | bank c => exact Heard.refl _
  | setParams n p => exact Heard.refl _
  | apply n r => exact heard_withVC a _ (heard_apply _ _ _ _ _ _)
  | unapply n => exact heard_withVC a _ (heard_unapply _ _ _ _ _)
  | touch x => exact heard_withVC a _ (heard_modify _ _ _ _ _)
  | register c =>
    show Heard a.vc (a.vc.register c)
    unfold VC.register
    split
    · exact ⟨fun _ h => List.mem_append_left _ h, [], by simp, fun _ _ => .inr ⟨rfl, rfl⟩⟩
    · exact Heard.refl _
  | unregister c => exact Heard.refl _

theorem heard_run (cs : List (CAct V)) (a : CApp V) : Heard a.vc (CApp.run cs a).state.vc := by
  induction cs generalizing a with
  | nil => exact Heard.refl _
  | cons c cs ih =>
    rw [CApp.run]
    have := heard_act a c
    cases hr : a.act c with
    | ok a' => rw [hr] at this; exact this.trans (ih a')
    | err e a' => rw [hr] at this; exact this

/-! ### What is counted -/

/-- The verdict of a filter without the test that the node exists. -/
def verdict (f : Filter (Id → V)) (d : Id → V) (x : Id) : Bool :=
  let value := f.func Tree.init d x (if f.dic.truthy then some f.dic else none)
  if f.dic.negate = some true then !value else value

theorem isDisplayed_verdict (f : Filter (Id → V)) (h : OwnData f.func) (t : Tree) (d : Id → V) (x : Id) :
    f.isDisplayed t d x = (t.has x && verdict f d x) := by
  unfold Filter.isDisplayed verdict
  by_cases hx : t.has x = true
  · rw [if_pos hx, hx, h t Tree.init d d x _ rfl, Bool.true_and]
  · rw [if_neg hx]; simp at hx; rw [hx]; rfl

theorem verdict_data (f : Filter (Id → V)) (h : OwnData f.func) (d d' : Id → V) (x : Id) (e : d x = d' x) :
    verdict f d x = verdict f d' x := by
  unfold verdict; rw [h Tree.init Tree.init d d' x _ e]

/-- All filters of the list are in the bank and accept `x`. -/
def Takes (b : Bank (Id → V)) (t : Tree) (d : Id → V) (l : List FName) (x : Id) : Prop :=
  ∀ n ∈ l, ∃ f, b.getFilter n = some f ∧ f.isDisplayed t d x = true

/-- The bank as far as the counter is concerned. -/
structure BankOK (b : Bank (Id → V)) (applied : List FName) : Prop where
  inv : BankInv b
  known : ∀ n ∈ applied, ∃ f, b.getFilter n = some f

theorem takes_own {b : Bank (Id → V)} {l : List FName} (own : ∀ n ∈ l, ∀ f, b.getFilter n = some f → OwnData f.func) {t t' : Tree}
    {d d' : Id → V} {x : Id} (h : t.has x = true) (h' : t'.has x = true) (e : d x = d' x) :
    Takes b t d l x ↔ Takes b t' d' l x := by
  unfold Takes
  constructor <;> intro hh n hn <;> obtain ⟨f, hf, hv⟩ := hh n hn <;> refine ⟨f, hf, ?_⟩
  · rw [isDisplayed_verdict f (own n hn f hf), h] at hv
    rw [isDisplayed_verdict f (own n hn f hf), h', ← verdict_data f (own n hn f hf) d d' x e]; exact hv
  · rw [isDisplayed_verdict f (own n hn f hf), h'] at hv
    rw [isDisplayed_verdict f (own n hn f hf), h, verdict_data f (own n hn f hf) d d' x e]; exact hv

theorem displayed_spec {b : Bank (Id → V)} {l : List FName} (h : BankOK b l) (t : Tree) (d : Id → V) (x : Id) :
    ∃ r, VC.displayed b t d x l = some r ∧ (r = true ↔ Takes b t d l x) := by
  induction l with
  | nil => exact ⟨true, rfl, by simp [Takes]⟩
  | cons n l ih =>
    obtain ⟨r, hr, hi⟩ := ih ⟨h.inv, fun m hm => h.known m (by simp [hm])⟩
    obtain ⟨f, hf⟩ := h.known n (by simp)
    refine ⟨f.isDisplayed t d x && r, by simp only [VC.displayed, hf, hr, Option.map_some], ?_⟩
    simp only [Bool.and_eq_true, hi]
    unfold Takes
    simp only [List.mem_cons, forall_eq_or_imp, hf, Option.some.injEq, exists_eq_left']

/-- From `v` to `v'` only `x` may come or go, according to `P`. -/
structure Moved (v v' : VC) (x : Id) (P : Prop) : Prop where
  initialized : v'.initialized = v.initialized
  applied : v'.applied = v.applied
  nodup : v.nodes.Nodup → v'.nodes.Nodup
  mem : v.nodes.Nodup → ∀ y, y ∈ v'.nodes ↔ (y = x ∧ P) ∨ (y ≠ x ∧ y ∈ v.nodes)

theorem moved_add (v : VC) (x : Id) (P : Prop) (hP : P) : Moved v (v.add x) x P := by
  unfold VC.add
  split
  · rename_i h
    refine ⟨rfl, rfl, fun hn => ?_, fun _ y => ?_⟩
    · show (v.nodes ++ [x]).Nodup
      rw [List.nodup_append]
      refine ⟨hn, by simp, ?_⟩
      rintro a ha c hc rfl
      simp at hc; subst hc; exact h ha
    · show y ∈ v.nodes ++ [x] ↔ _
      by_cases e : y = x
      · subst e; simp [hP]
      · simp [e]
  · rename_i h
    refine ⟨rfl, rfl, id, fun _ y => ?_⟩
    by_cases e : y = x
    · subst e; simp only [not_not] at h; simp [hP, h]
    · simp [e]

theorem moved_delete (v : VC) (x : Id) (P : Prop) (hP : ¬ P) : Moved v (v.delete x) x P := by
  unfold VC.delete
  split
  · refine ⟨rfl, rfl, fun hn => hn.erase x, fun hn y => ?_⟩
    show y ∈ v.nodes.erase x ↔ _
    rw [hn.mem_erase_iff]
    simp [hP]
  · rename_i h
    refine ⟨rfl, rfl, id, fun _ y => ?_⟩
    by_cases e : y = x
    · subst e; simp [hP, h]
    · simp [e]

theorem modify_spec {b : Bank (Id → V)} {v : VC} (h : BankOK b v.applied) (t : Tree) (d : Id → V) (x : Id) :
    ∃ v', VC.modify b t d x v = .ok v' ∧ Moved v v' x (Takes b t d v.applied x) := by
  obtain ⟨r, hr, hi⟩ := displayed_spec h t d x
  unfold VC.modify
  rw [hr]
  cases r with
  | true => exact ⟨_, rfl, moved_add v x _ (hi.1 rfl)⟩
  | false => exact ⟨_, rfl, moved_delete v x _ (fun h => by cases hi.2 h)⟩

/-- Re-evaluate all nodes of a list. -/
theorem modifyAll_spec {b : Bank (Id → V)} (t : Tree) (d : Id → V) (l : List Id) (v : VC)
    (h : BankOK b v.applied) (hn : v.nodes.Nodup) :
    ∃ v', Res.forEach (VC.modify b t d) l v = .ok v' ∧ v'.initialized = v.initialized ∧ v'.applied = v.applied ∧
      v'.nodes.Nodup ∧ ∀ y, y ∈ v'.nodes ↔ (y ∈ l ∧ Takes b t d v.applied y) ∨ (y ∉ l ∧ y ∈ v.nodes) := by
  induction l generalizing v with
  | nil => exact ⟨v, rfl, rfl, rfl, hn, by simp⟩
  | cons x l ih =>
    obtain ⟨v1, e1, m1⟩ := modify_spec h t d x
    obtain ⟨v2, e2, i2, a2, n2, m2⟩ := ih v1 (m1.applied ▸ h) (m1.nodup hn)
    refine ⟨v2, by rw [Res.forEach, e1]; exact e2, i2.trans m1.initialized, a2.trans m1.applied, n2, fun y => ?_⟩
    rw [m2, m1.mem hn, m1.applied]
    simp only [List.mem_cons]
    by_cases e : y = x
    · subst e
      by_cases hy : y ∈ l <;> simp [hy]
    · by_cases hy : y ∈ l <;> simp [hy, e]

/-- The counter counts what it should. -/
structure Counts (b : Bank (Id → V)) (d : Id → V) (t : Tree) (v : VC) : Prop where
  nodup : v.nodes.Nodup
  mem : ∀ x, x ∈ v.nodes ↔ t.has x = true ∧ Takes b t d v.applied x

/-- The counter is up to date. -/
structure CInv (a : CApp V) : Prop where
  bank : BankOK a.bank a.vc.applied
  counts : Counts a.bank a.data a.s.t a.vc
  initialized : a.vc.initialized = true

theorem mem_keys (t : Tree) (x : Id) : x ∈ t.nodes.keys ↔ t.has x = true := by
  exact Dict.mem_keys _ _

theorem keys_refreshed (a : CApp V) (v : VC) (hb : BankOK a.bank v.applied) (hn : v.nodes.Nodup)
    (hs : ∀ x ∈ v.nodes, a.s.t.has x = true) :
    ∃ v', Res.forEach (VC.modify a.bank a.s.t a.data) a.s.t.nodes.keys v = .ok v' ∧ v'.initialized = v.initialized ∧
      v'.applied = v.applied ∧ Counts a.bank a.data a.s.t v' := by
  obtain ⟨v', e, i, ap, n, m⟩ := modifyAll_spec a.s.t a.data a.s.t.nodes.keys v hb hn
  refine ⟨v', e, i, ap, n, fun y => ?_⟩
  rw [m, mem_keys, ap]
  by_cases hy : a.s.t.has y = true
  · simp [hy]
  · have : y ∉ v.nodes := fun h => hy (hs y h)
    simp [hy, this]

theorem getFilter_add {b : Bank D} (h : BankInv b) (n m : FName) (func : Tree → D → Id → Option Params → Bool)
    (p : Option Params) : (b.addFilter n func p).2.getFilter m = b.getFilter m ∨
      (b.getFilter m = none ∧ ∃ dic, (b.addFilter n func p).2.getFilter m = some ⟨func, dic⟩) := by
  have hi : BankInv (b.addFilter n func p).2 := bank_call b h (.add n func p)
  rw [bank_get _ hi, bank_get _ h]
  unfold Bank.addFilter
  rw [bank_list b h]
  by_cases hm : n ∈ KV.keys b.custom
  · rw [if_neg (by simpa using hm)]; exact .inl rfl
  · rw [if_pos hm]
    cases n with
    | bang n => exact .inl rfl
    | plain k =>
      dsimp only
      rw [KV.get?_set]
      by_cases e : m = .plain k
      · subst e
        rw [if_pos rfl, setParameters_initial]
        exact .inr ⟨(KV.get?_eq_none _ _).2 hm, _, rfl⟩
      · rw [if_neg e]; exact .inl rfl

theorem getFilter_remove {b : Bank D} (h : BankInv b) (n m : FName) :
    (b.removeFilter n).2.getFilter m = if m = n then none else b.getFilter m := by
  have hi : BankInv (b.removeFilter n).2 := bank_call b h (.remove n)
  rw [bank_get _ hi, bank_get _ h]
  unfold Bank.removeFilter
  have hav : KV.has b.available n = false := by rw [h.noStock]; rfl
  rw [hav]
  simp only [Bool.false_eq_true, not_false_eq_true, if_true]
  by_cases hm : KV.has b.custom n = true
  · rw [if_pos hm]
    dsimp only
    rw [KV.get?_del]
  · rw [if_neg hm]
    by_cases e : m = n
    · subst e
      rw [if_pos rfl]
      unfold KV.has at hm; simpa using hm
    · rw [if_neg e]

theorem setParameters_inv {b : Bank D} (h : BankInv b) (n : FName) (p : Option Params) :
    BankInv (b.setParameters n p) := by
  unfold Bank.setParameters
  have hav : KV.has b.available n = false := by rw [h.noStock]; rfl
  rw [hav]
  simp only [Bool.false_eq_true, if_false]
  split
  · exact ⟨h.noStock, KV.keys_set_nodup h.nodup _ _⟩
  · exact h

theorem getFilter_setParameters {b : Bank D} (h : BankInv b) (n m : FName) (p : Option Params) :
    (b.setParameters n p).getFilter m =
      if m = n then (b.getFilter n).map (fun f => f.setParameters p) else b.getFilter m := by
  rw [bank_get _ (setParameters_inv h n p), bank_get _ h, bank_get _ h]
  unfold Bank.setParameters
  have hav : KV.has b.available n = false := by rw [h.noStock]; rfl
  rw [hav]
  simp only [Bool.false_eq_true, if_false]
  cases hg : KV.get? b.custom n with
  | none =>
    dsimp only
    by_cases e : m = n
    · subst e; rw [if_pos rfl, hg]; rfl
    · rw [if_neg e]
  | some f =>
    dsimp only
    rw [KV.get?_set]
    rfl

end Larch
