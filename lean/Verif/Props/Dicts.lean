import Verif.Proofs.Dicts

/-!
# C75: parameter dictionaries are shared with the application
-/

namespace Larch

open Spec

variable {V : Type} {D : Type} {diff : List Id → List Id → List Id}

/-! ### One action -/

theorem HSuite.take_now (a : HSuite V) {c : HAct V} {c' : SuiteAct V} (h : c.now a.dicts = some c') :
    (a.take c (a.now.act diff c').state).now = (a.now.act diff c').state := by
  show Suite.mk _ _ ((a.bankAfter c).now a.dicts) _ _ = _
  rw [HSuite.now_bankAfter (diff := diff) a h]
  rfl

theorem HSuite.act_eq (a : HSuite V) {c : HAct V} {c' : SuiteAct V} (h : c.now a.dicts = some c') :
    a.act diff c = match a.now.act diff c' with
      | .ok b => .ok (a.take c b)
      | .err e b => .err e (a.take c b) := by
  cases c with
  | write i p => cases h
  | _ => cases h; rfl

theorem HSuite.act_ok {a : HSuite V} {c : HAct V} {c' : SuiteAct V} (h : c.now a.dicts = some c') {b : Suite V}
    (e : a.now.act diff c' = .ok b) : a.act diff c = .ok (a.take c b) ∧ (a.take c b).now = b := by
  have := a.take_now (diff := diff) h
  rw [e] at this
  exact ⟨by rw [HSuite.act_eq a h, e], this⟩

theorem HSuite.act_err {a : HSuite V} {c : HAct V} {c' : SuiteAct V} (h : c.now a.dicts = some c') {b : Suite V} {er : Err}
    (e : a.now.act diff c' = .err er b) : a.act diff c = .err er (a.take c b) ∧ (a.take c b).now = b := by
  have := a.take_now (diff := diff) h
  rw [e] at this
  exact ⟨by rw [HSuite.act_eq a h, e], this⟩

theorem HAct.write_or (c : HAct V) (m : Dicts) : (∃ i p, c = .write i p) ∨ ∃ c', c.now m = some c' := by
  cases c with
  | write i p => exact .inl ⟨i, p, rfl⟩
  | _ => exact .inr ⟨_, rfl⟩

theorem HSuite.act_dicts (a : HSuite V) {c : HAct V} {c' : SuiteAct V} (h : c.now a.dicts = some c') :
    (a.act diff c).state.dicts = a.dicts ∧ (a.act diff c).state.bank = a.bankAfter c := by
  rw [HSuite.act_eq a h]
  cases a.now.act diff c' <;> exact ⟨rfl, rfl⟩

/-! ### The bank -/

theorem BankInv.change {b : HBank D} {m : Dicts} (h : BankInv (b.now m)) (m' : Dicts) : BankInv (b.now m') := by
  obtain ⟨h1, h2⟩ := h
  refine ⟨?_, ?_⟩
  · have : b.available = [] := by
      cases hb : b.available with
      | nil => rfl
      | cons e l =>
        have h1' : b.available.map (fun e => (e.1, e.2.now m)) = [] := h1
        rw [hb] at h1'; cases h1'
    show b.available.map _ = []
    rw [this]; rfl
  · have e1 : KV.keys (b.now m').custom = KV.keys b.custom := KV.over_keys _ _
    have e2 : KV.keys (b.now m).custom = KV.keys b.custom := KV.over_keys _ _
    rw [e1, ← e2]; exact h2

theorem HBank.inv_after (a : HSuite V) (h : BankInv a.now.bank) (c : HAct V) : BankInv ((a.bankAfter c).now a.dicts) := by
  cases c with
  | add n f r =>
    show BankInv ((a.bank.addFilter a.dicts n f r).now a.dicts)
    rw [HBank.now_add]
    exact bank_call _ h (.add n f (a.dicts.arg r))
  | remove n =>
    show BankInv ((a.bank.removeFilter n).now a.dicts)
    rw [HBank.now_remove]
    exact bank_call _ h (.remove n)
  | apply k n r rs rf =>
    unfold HSuite.bankAfter
    dsimp only
    split
    · split
      · rw [HBank.now_set]
        exact setParameters_inv h n _
      · exact h
    · exact h
  | _ => exact h

theorem HSuite.act_inv {a : HSuite V} (h : BankInv a.now.bank) (c : HAct V) : BankInv (a.act diff c).state.now.bank := by
  rcases c.write_or a.dicts with ⟨i, p, rfl⟩ | ⟨c', hc⟩
  · exact BankInv.change (b := a.bank) h _
  · obtain ⟨e1, e2⟩ := a.act_dicts (diff := diff) hc
    show BankInv ((a.act diff c).state.bank.now (a.act diff c).state.dicts)
    rw [e1, e2]
    exact HBank.inv_after a h c

theorem init_inv (d : Id → V) : BankInv (HSuite.init d).now.bank := ⟨rfl, by simp [KV.keys, HSuite.init, HSuite.now, HBank.now]⟩

/-! ### Dictionaries that are not changed -/

theorem HFilter.now_write (m : Dicts) (i : Nat) (p : Params) (f : HFilter D) (h : f.dic ≠ some i) :
    f.now (m.write i p) = f.now m := by
  unfold HFilter.now Dicts.write
  cases hd : f.dic with
  | none => rfl
  | some j =>
    dsimp only
    rw [if_neg]
    rintro rfl
    exact h hd

theorem HBank.now_write {a : HSuite V} (hb : BankInv a.now.bank) {i : Nat} (h : ∀ n, ¬ Holds a n i) (p : Params) :
    a.bank.now (a.dicts.write i p) = a.bank.now a.dicts := by
  have hav : a.bank.available = [] := by
    cases hb' : a.bank.available with
    | nil => rfl
    | cons e l =>
      have h1' : a.bank.available.map (fun e => (e.1, e.2.now a.dicts)) = [] := hb.noStock
      rw [hb'] at h1'; cases h1'
  have hnd : (KV.keys a.bank.custom).Nodup := by
    have e2 : KV.keys (a.bank.now a.dicts).custom = KV.keys a.bank.custom := KV.over_keys _ _
    rw [← e2]; exact hb.nodup
  show Bank.mk _ _ = Bank.mk _ _
  rw [hav]
  congr 1
  refine List.map_congr_left fun e he => ?_
  rw [HFilter.now_write]
  intro hd
  refine h e.1 ⟨e.2, ?_, hd⟩
  unfold HBank.getFilter KV.has
  rw [hav, KV.get?_of_mem hnd (x := e.1) (v := e.2) he]
  rfl

/-- What `Suite.run` says, with the dictionaries copied when they are handed over, is what happens. -/
def sameOutcome : Res (HSuite V) → Res (Suite V) → Prop
  | .ok a, .ok b => a.now = b
  | .err e a, .err e' b => e = e' ∧ a.now = b
  | _, _ => False

theorem copied_run (cs : List (HAct V)) (a : HSuite V) (hb : BankInv a.now.bank) (h : Untouched diff cs a) :
    sameOutcome (HSuite.run diff cs a) (Suite.run diff (copied diff cs a) a.now) := by
  induction cs generalizing a with
  | nil => exact rfl
  | cons c cs ih =>
    rcases c.write_or a.dicts with ⟨i, p, rfl⟩ | ⟨c', hc⟩
    · have e : ({ a with dicts := a.dicts.write i p } : HSuite V).now = a.now := by
        show Suite.mk _ _ (a.bank.now (a.dicts.write i p)) _ _ = Suite.mk _ _ _ _ _
        rw [HBank.now_write hb (h.1 i p rfl)]
      have := ih { a with dicts := a.dicts.write i p } (by rw [e]; exact hb) h.2
      rw [e] at this
      exact this
    · show sameOutcome ((a.act diff c).andThen (HSuite.run diff cs)) (Suite.run diff ((c.now a.dicts).toList ++ copied diff cs (a.act diff c).state) a.now)
      rw [hc]
      show sameOutcome _ ((a.now.act diff c').andThen (Suite.run diff (copied diff cs (a.act diff c).state)))
      have hi := HSuite.act_inv (diff := diff) hb c
      have h2 := h.2
      cases e : a.now.act diff c' with
      | ok b =>
        obtain ⟨e1, e2⟩ := HSuite.act_ok hc e
        rw [e1] at hi h2 ⊢
        have := ih _ hi h2
        rw [show (Res.ok (a.take c b) : Res (HSuite V)).state.now = b from e2] at this
        exact this
      | err er b =>
        obtain ⟨e1, e2⟩ := HSuite.act_err hc e
        rw [e1]
        exact ⟨rfl, e2⟩

/-- C75: as long as the application changes no dictionary that a filter holds, everything happens as if dictionaries were copied
when they are handed over: the same exceptions, and the same tree, bank, views and counters. -/
theorem C75_copied (d : Id → V) (cs : List (HAct V)) (h : Untouched diff cs (HSuite.init d)) :
    sameOutcome (HSuite.run diff cs (HSuite.init d)) (Suite.run diff (copied diff cs (HSuite.init d)) (Suite.init d)) :=
  copied_run cs _ (init_inv d) h

/-! ### What a filter goes by -/

theorem Holds.paramsOf {a : HSuite V} {n : FName} {i : Nat} (h : Holds a n i) : paramsOf a n = some (a.dicts i) := by
  obtain ⟨f, h1, h2⟩ := h
  show ((a.bank.now a.dicts).getFilter n).map _ = _
  rw [HBank.now_get, h1]
  show some (f.now a.dicts).dic = _
  unfold HFilter.now
  rw [h2]

theorem HBank.noStock {a : HSuite V} (hb : BankInv a.now.bank) : a.bank.available = [] := by
  cases hb' : a.bank.available with
  | nil => rfl
  | cons e l =>
    have h1' : a.bank.available.map (fun e => (e.1, e.2.now a.dicts)) = [] := hb.noStock
    rw [hb'] at h1'; cases h1'

theorem HBank.get_custom {b : HBank D} (h : b.available = []) (n : FName) : b.getFilter n = KV.get? b.custom n := by
  unfold HBank.getFilter KV.has
  rw [h]
  cases KV.get? b.custom n <;> rfl

theorem HBank.after_other {a : HSuite V} (hb : BankInv a.now.bank) {n : FName} {c : HAct V} (h : ¬ Concerns n c) :
    (a.bankAfter c).getFilter n = a.bank.getFilter n := by
  have hav := HBank.noStock hb
  cases c with
  | add n' f r =>
    have hn : ¬ n = n' := fun e => h e.symm
    show (a.bank.addFilter a.dicts n' f r).getFilter n = _
    unfold HBank.addFilter
    split
    · cases n' with
      | bang k => rfl
      | plain k =>
        dsimp only
        rw [HBank.get_custom hav, HBank.get_custom (by exact hav)]
        exact (KV.get?_set ..).trans (if_neg hn)
    · rfl
  | remove n' =>
    have hn : ¬ n = n' := fun e => h e.symm
    show (a.bank.removeFilter n').getFilter n = _
    unfold HBank.removeFilter
    split
    · split
      · rw [HBank.get_custom hav, HBank.get_custom (by exact hav)]
        exact (KV.get?_del ..).trans (if_neg hn)
      · rfl
    · rfl
  | apply k n' r rs rf =>
    show HBank.getFilter (match a.objs[k]? with
      | some (.view v) => match v.filtersRefused, v.ft with
        | none, some _ => a.bank.setParameters a.dicts n' r
        | _, _ => a.bank
      | _ => a.bank) n = _
    have key : (a.bank.setParameters a.dicts n' r).getFilter n = a.bank.getFilter n := by
      unfold HBank.setParameters
      have hh : KV.has a.bank.available n' = false := by rw [hav]; rfl
      rw [hh]
      simp only [Bool.false_eq_true, if_false]
      cases hk : KV.get? a.bank.custom n' with
      | none => rfl
      | some f =>
        dsimp only
        rw [HBank.get_custom hav, HBank.get_custom (by exact hav)]
        refine (KV.get?_set ..).trans ?_
        split
        · rename_i e
          subst e
          have : r = none := by
            by_contra hr
            exact h ⟨rfl, hr⟩
          subst this
          exact hk.symm
        · rfl
    split
    · split
      · exact key
      · rfl
    · rfl
  | _ => rfl

theorem Holds.stays {a : HSuite V} (hb : BankInv a.now.bank) {n : FName} {i : Nat} (h : Holds a n i) {c : HAct V} (hc : ¬ Concerns n c) :
    Holds (a.act diff c).state n i := by
  obtain ⟨f, h1, h2⟩ := h
  rcases c.write_or a.dicts with ⟨j, p, rfl⟩ | ⟨c', hc'⟩
  · exact ⟨f, h1, h2⟩
  · refine ⟨f, ?_, h2⟩
    rw [(a.act_dicts (diff := diff) hc').2, HBank.after_other hb hc, h1]

theorem Holds.run {a : HSuite V} (hb : BankInv a.now.bank) {n : FName} {i : Nat} (h : Holds a n i) (cs : List (HAct V))
    (hc : ∀ c ∈ cs, ¬ Concerns n c) : Holds (HSuite.run diff cs a).state n i := by
  induction cs generalizing a with
  | nil => exact h
  | cons c cs ih =>
    have hi := HSuite.act_inv (diff := diff) hb c
    have hs := Holds.stays (diff := diff) hb h (hc c (by simp))
    show Holds ((a.act diff c).andThen _).state n i
    cases e : a.act diff c with
    | err er b => rw [e] at hs; exact hs
    | ok b =>
      rw [e] at hi hs
      exact ih hi hs fun c' h' => hc c' (List.mem_cons_of_mem _ h')

theorem run_inv_dicts (cs : List (HAct V)) {a : HSuite V} (hb : BankInv a.now.bank) : BankInv (HSuite.run diff cs a).state.now.bank := by
  induction cs generalizing a with
  | nil => exact hb
  | cons c cs ih =>
    have hi := HSuite.act_inv (diff := diff) hb c
    show BankInv ((a.act diff c).andThen _).state.now.bank
    cases e : a.act diff c with
    | err er b => rw [e] at hi; exact hi
    | ok b => rw [e] at hi; exact ih hi

/-- C75: a filter given a non-empty dictionary goes by what is in that dictionary at the time it is asked, for ever after, until it
is removed or given another one; whatever else happens, and whoever writes into the dictionary. Here the dictionary is given with
`add_filter`, to a name not in use. -/
theorem C75_follows_added (d : Id → V) (cs : List (HAct V)) {a a1 : HSuite V} (ha : HSuite.run diff cs (HSuite.init d) = .ok a)
    {n : FName} {f : Tree → (Id → V) → Id → Option Params → Bool} {i : Nat} (hp : ∃ k, n = .plain k)
    (hn : paramsOf a n = none) (hi : (a.dicts i).truthy = true) (e : a.act diff (.add n f (some i)) = .ok a1)
    (cs' : List (HAct V)) (hc : ∀ c ∈ cs', ¬ Concerns n c) :
    paramsOf (HSuite.run diff cs' a1).state n = some ((HSuite.run diff cs' a1).state.dicts i) := by
  have hb : BankInv a.now.bank := by
    have := run_inv_dicts (diff := diff) cs (init_inv d)
    rw [ha] at this; exact this
  have hb1 : BankInv a1.now.bank := by
    have := HSuite.act_inv (diff := diff) hb (.add n f (some i))
    rw [e] at this; exact this
  refine Holds.paramsOf (Holds.run hb1 ?_ cs' hc)
  have hbk : a1.bank = a.bankAfter (.add n f (some i)) := by
    have := (a.act_dicts (diff := diff) (c := .add n f (some i)) rfl).2
    rw [e] at this; exact this
  refine ⟨⟨f, some i⟩, ?_, rfl⟩
  rw [hbk]
  obtain ⟨k, rfl⟩ := hp
  have hav := HBank.noStock hb
  have hg : KV.get? a.bank.custom (.plain k) = none := by
    rw [← HBank.get_custom hav]
    have : ((a.bank.now a.dicts).getFilter (.plain k)).map (·.dic) = none := hn
    rw [HBank.now_get] at this
    cases hh : a.bank.getFilter (.plain k) with
    | none => rfl
    | some g => rw [hh] at this; cases this
  show (a.bank.addFilter a.dicts (.plain k) f (some i)).getFilter (.plain k) = _
  unfold HBank.addFilter
  rw [if_pos]
  · dsimp only
    rw [HBank.get_custom (by exact hav)]
    refine (KV.get?_set ..).trans ((if_pos rfl).trans ?_)
    show some (if (a.dicts i).truthy then _ else _) = _
    rw [hi]; rfl
  · unfold HBank.listFilters
    rw [hav]
    show FName.plain k ∉ KV.keys a.bank.custom
    exact (KV.get?_eq_none _ _).1 hg

/-- C75, for a dictionary given with `apply_filter` of any view. -/
theorem C75_follows_applied (d : Id → V) (cs : List (HAct V)) {a a1 : HSuite V} (ha : HSuite.run diff cs (HSuite.init d) = .ok a)
    {k : Nat} {n : FName} {i : Nat} {rs rf : Bool} (hv : ∃ ft, viewAt a.now k = some ft)
    (hi : (a.dicts i).truthy = true) (e : a.act diff (.apply k n (some i) rs rf) = .ok a1)
    (cs' : List (HAct V)) (hc : ∀ c ∈ cs', ¬ Concerns n c) :
    paramsOf (HSuite.run diff cs' a1).state n = some ((HSuite.run diff cs' a1).state.dicts i) := by
  have hb : BankInv a.now.bank := by
    have := run_inv_dicts (diff := diff) cs (init_inv d)
    rw [ha] at this; exact this
  have hb1 : BankInv a1.now.bank := by
    have := HSuite.act_inv (diff := diff) hb (.apply k n (some i) rs rf)
    rw [e] at this; exact this
  refine Holds.paramsOf (Holds.run hb1 ?_ cs' hc)
  have hbk : a1.bank = a.bankAfter (.apply k n (some i) rs rf) := by
    have := (a.act_dicts (diff := diff) (c := .apply k n (some i) rs rf) rfl).2
    rw [e] at this; exact this
  have hav := HBank.noStock hb
  obtain ⟨ft, hv⟩ := hv
  obtain ⟨v, ho, hft⟩ : ∃ v, a.objs[k]? = some (Obj.view v) ∧ v.ft = some ft := by
    unfold viewAt at hv
    cases ho : a.now.objs[k]? with
    | none => rw [ho] at hv; cases hv
    | some o =>
      rw [ho] at hv
      cases o with
      | count c => cases hv
      | view v => exact ⟨v, ho, hv⟩
  -- the call was not refused, and the filter is known
  obtain ⟨b, eb⟩ : ∃ b, a.now.act diff (.onView k (.apply n (a.dicts.arg (some i)) rs rf)) = .ok b := by
    cases h : a.now.act diff (.onView k (.apply n (a.dicts.arg (some i)) rs rf)) with
    | ok b => exact ⟨b, rfl⟩
    | err er b =>
      have := (HSuite.act_err (c := .apply k n (some i) rs rf) (a := a) rfl h).1
      rw [e] at this; cases this
  have eb' : a.now.callView diff k v (.apply n (a.dicts.arg (some i)) rs rf) = .ok b := by
    have : (match a.objs[k]? with
      | some (.view v) => a.now.callView diff k v (.apply n (a.dicts.arg (some i)) rs rf)
      | _ => .ok a.now : Res (Suite V)) = .ok b := eb
    rw [ho] at this; exact this
  unfold Suite.callView at eb'
  dsimp only at eb'
  cases hr : v.filtersRefused with
  | some er => rw [hr] at eb'; cases eb'
  | none =>
    rw [hr, hft] at eb'
    dsimp only at eb'
    have hknown : ∃ f, KV.get? a.bank.custom n = some f := by
      rw [← HBank.get_custom hav]
      cases hh : a.bank.getFilter n with
      | some f => exact ⟨f, rfl⟩
      | none =>
        exfalso
        unfold FT.applyFilter at eb'
        dsimp only at eb'
        rw [if_pos] at eb'
        · cases eb'
        · show ((a.dicts i).truthy && ((a.bank.now a.dicts).getFilter n).isNone) = true
          rw [HBank.now_get, hh, hi]; rfl
    obtain ⟨f, hf⟩ := hknown
    refine ⟨{ f with dic := some i }, ?_, rfl⟩
    rw [hbk]
    unfold HSuite.bankAfter
    dsimp only
    rw [ho]
    dsimp only
    rw [hr, hft]
    dsimp only
    unfold HBank.setParameters
    have hh : KV.has a.bank.available n = false := by rw [hav]; rfl
    rw [hh, hf]
    simp only [Bool.false_eq_true, if_false]
    rw [HBank.get_custom (by exact hav)]
    refine (KV.get?_set ..).trans ((if_pos rfl).trans ?_)
    show some (if (a.dicts i).truthy then _ else _) = _
    rw [hi]; rfl

/-- C75: changing a dictionary changes the parameters of exactly the filters that hold it, all at once. -/
theorem C75_exactly_holders (a : HSuite V) (i : Nat) (p : Params) (n : FName) :
    ∃ a', a.act diff (.write i p) = .ok a' ∧ (Holds a n i → paramsOf a' n = some p) ∧ (¬ Holds a n i → paramsOf a' n = paramsOf a n) ∧
      a'.s = a.s ∧ a'.objs = a.objs := by
  refine ⟨_, rfl, fun h => ?_, fun h => ?_, rfl, rfl⟩
  · have : Holds ({ a with dicts := a.dicts.write i p } : HSuite V) n i := h
    rw [Holds.paramsOf this]
    show some (if i = i then p else a.dicts i) = _
    rw [if_pos rfl]
  · show ((a.bank.now (a.dicts.write i p)).getFilter n).map _ = ((a.bank.now a.dicts).getFilter n).map _
    rw [HBank.now_get, HBank.now_get]
    cases hg : a.bank.getFilter n with
    | none => rfl
    | some f =>
      show some (f.now (a.dicts.write i p)).dic = some (f.now a.dicts).dic
      rw [HFilter.now_write]
      exact fun hd => h ⟨f, hg, hd⟩

/-! ### Views and counters -/

theorem SState.write {fresh : Nat → Bool} {a : HSuite V} (h : SState diff fresh a.now) (i : Nat) (p : Params)
    (hf : ∀ n, Holds a n i → NoCounterUses a.now n) :
    SState diff (freshDict fresh a (.write i p)) ({ a with dicts := a.dicts.write i p } : HSuite V).now := by
  have hbi : BankInv (a.bank.now (a.dicts.write i p)) := BankInv.change (m := a.dicts) h.bank _
  have same : ∀ n, ¬ Holds a n i → (a.bank.now (a.dicts.write i p)).getFilter n = (a.bank.now a.dicts).getFilter n := by
    intro n hn
    rw [HBank.now_get, HBank.now_get]
    cases hg : a.bank.getFilter n with
    | none => rfl
    | some f =>
      show some (f.now _) = some (f.now _)
      rw [HFilter.now_write]
      exact fun hd => hn ⟨f, hg, hd⟩
  obtain ⟨v, hv, hm⟩ := h.main
  refine ⟨h.good, h.tidy, hbi, h.roots, ⟨v, hv, hm.elsewhere⟩, ?_, ?_, h.named, h.namedCounts, h.numbered⟩
  · intro k v hk0 hk
    obtain ⟨h1, ft, h2, h3, h4⟩ := h.views k v hk0 hk
    refine ⟨h1, ft, h2, h3, ?_⟩
    have hvw : viewAt a.now k = some ft := by unfold viewAt; rw [show a.now.objs[k]? = _ from hk]; exact h2
    have hfr : freshDict fresh a (.write i p) k = (fresh k && ft.applied.all fun n => decide (¬ Holds a n i)) := by
      unfold freshDict
      dsimp only
      rw [hvw]
    rw [hfr]
    cases hc : (fresh k && ft.applied.all fun n => decide (¬ Holds a n i)) with
    | false => exact h4.anyFilters hbi ft.applied
    | true =>
      rw [Bool.and_eq_true, List.all_eq_true] at hc
      exact (bank_vstate (h4.right hc.1) _ hbi fun n hn => same n (by simpa using hc.2 n hn)).wstate _
  · intro k c hk
    refine bank_inv _ (h.counts k c hk) _ hbi fun n hn => same n fun hh => ?_
    exact hf n hh k c (countAt_of hk) hn

theorem SState.dictAct (hdiff : SetDiff diff) {fresh : Nat → Bool} {a : HSuite V} (h : SState diff fresh a.now) (c : HAct V)
    (hf : DictFair fresh a c) : ∃ a', a.act diff c = .ok a' ∧ SState diff (freshDict fresh a c) a'.now := by
  rcases c.write_or a.dicts with ⟨i, p, rfl⟩ | ⟨c', hc⟩
  · exact ⟨_, rfl, h.write i p hf⟩
  · have hf' : SuiteFair fresh a.now c' := by
      cases c with
      | write i p => cases hc
      | _ => exact hf c' hc
    obtain ⟨b, e, hb⟩ := h.act hdiff c' hf'
    obtain ⟨e1, e2⟩ := HSuite.act_ok hc e
    refine ⟨_, e1, ?_⟩
    rw [e2]
    have : freshDict fresh a c = freshNext fresh a.now c' := by
      funext k
      cases c with
      | write i p => cases hc
      | _ => cases hc; rfl
    rw [this]
    exact hb

theorem SState.dictRun (hdiff : SetDiff diff) (cs : List (HAct V)) {fresh : Nat → Bool} {a : HSuite V} (h : SState diff fresh a.now)
    (hf : DictFairRun diff fresh cs a) :
    ∃ a', HSuite.run diff cs a = .ok a' ∧ SState diff (freshDictEnd diff fresh cs a) a'.now := by
  induction cs generalizing a fresh with
  | nil => exact ⟨a, rfl, h⟩
  | cons c cs ih =>
    obtain ⟨b, e, hb⟩ := h.dictAct hdiff c hf.1
    have hf2 := hf.2
    rw [e] at hf2
    obtain ⟨a', e', h'⟩ := ih hb hf2
    refine ⟨a', ?_, ?_⟩
    · show (a.act diff c).andThen _ = _
      rw [e]; exact e'
    · show SState diff (freshDictEnd diff (freshDict fresh a c) cs (a.act diff c).state) a'.now
      rw [e]; exact h'

/-- C75: an application that keeps its dictionaries, hands the same one to several filters, and changes them when it likes, never
meets an exception; the main view and the counters are right at all times, and a view that uses a filter holding a changed
dictionary is right again after its next refresh. -/
theorem C75_all_right_partial (hdiff : SetDiff diff) (d : Id → V) (cs : List (HAct V))
    (hf : DictFairRun diff (fun _ => true) cs (HSuite.init d)) :
    ∃ a, HSuite.run diff cs (HSuite.init d) = .ok a ∧
      SuiteRight diff (freshDictEnd diff (fun _ => true) cs (HSuite.init d)) a.now := by
  have h0 : SState diff (fun _ => true) (HSuite.init d).now := SState.init diff (fun _ => true) d
  obtain ⟨a, e, h⟩ := h0.dictRun hdiff cs hf
  exact ⟨a, e, h.suiteRight hdiff⟩

/-! ### Examples -/

/-- One dictionary, handed to two filters; the first one is used by a view. Then the dictionary is changed, which the view does
not notice, and handed over again. -/
def dictHistory : List (HAct Nat) :=
  [ .write 0 { negate := some true }, .add (.plain 1) isEven (some 0), .add (.plain 2) isEven (some 0),
    .edit (.addNode (.new (.str 1) .none) .none), .getView (some 5) true, .apply 1 (.plain 1) none false true,
    .write 0 { negate := some false }, .apply 1 (.plain 1) (some 0) false true ]

theorem noCounters {a : Suite V} (h : (a.objs.all fun o => match o with | .view _ => true | .count _ => false) = true) (k : Nat) (c : VC) :
    countAt a k ≠ some c := by
  intro hk
  rw [List.all_eq_true] at h
  exact absurd (h _ (List.mem_of_getElem? (countAt_some hk))) (by simp)

/-- The concrete case for C75: the view first shows nothing, as the filter is negated, and the change of the dictionary shows after
the refresh; both filters have the new parameters. -/
example : ∃ a, HSuite.run someDiff dictHistory (HSuite.init fun _ => 0) = .ok a ∧
    SuiteRight someDiff (freshDictEnd someDiff (fun _ => true) dictHistory (HSuite.init fun _ => 0)) a.now ∧
    freshDictEnd someDiff (fun _ => true) (dictHistory.take 7) (HSuite.init fun _ => 0) 1 = false ∧
    freshDictEnd someDiff (fun _ => true) dictHistory (HSuite.init fun _ => 0) 1 = true ∧
    ((viewAt (HSuite.run someDiff (dictHistory.take 7) (HSuite.init fun _ => 0)).state.now 1).map fun ft => ft.view.kids (rootOf (some 5))) =
      some [] ∧
    ((viewAt a.now 1).map fun ft => ft.view.kids (rootOf (some 5))) = some [.str 1] ∧
    paramsOf a (.plain 1) = some { negate := some false } ∧ paramsOf a (.plain 2) = some { negate := some false } := by
  have hf : DictFairRun someDiff (fun _ => true) dictHistory (HSuite.init fun _ => 0) := by
    refine ⟨fun n hn => ?_, fun c' e => ?_, fun c' e => ?_, fun c' e => ?_, fun c' e => ?_, fun c' e => ?_, fun n hn => ?_, fun c' e => ?_, trivial⟩
    · obtain ⟨f, h, -⟩ := hn; cases h
    · cases e; trivial
    · cases e; trivial
    · cases e
      refine ⟨⟨?_, ?_⟩, careful_add (Made.new _ _) (by decide), small_not_root (by decide), (fun _ e => by cases e)⟩
      · rintro (_ | k) ft hk0 hk
        · exact absurd rfl hk0
        · cases hk
      · exact fun k c hk => absurd hk (noCounters rfl k c)
    · cases e; trivial
    · cases e; exact ⟨by decide, fun h => by cases h⟩
    · exact fun k c hk => absurd hk (noCounters rfl k c)
    · cases e
      refine ⟨by decide, fun _ => ⟨by decide, fun k c hk => absurd hk (noCounters rfl k c)⟩⟩
  obtain ⟨a, e, h⟩ := C75_all_right_partial someDiff_ok (fun _ => 0) dictHistory hf
  refine ⟨a, e, h, by decide, by decide, by decide, ?_⟩
  have : (HSuite.run someDiff dictHistory (HSuite.init fun _ => 0)).state = a := by rw [e]; rfl
  rw [← this]
  exact ⟨by decide, by decide, by decide⟩

/-- The concrete case for the theorems about one filter: the dictionary is handed over with `add_filter`, and with `apply_filter`;
in both cases it is changed afterwards, and the filter goes by the change. In the first part of the history no filter holds the
dictionary when it is written. -/
example : Untouched someDiff (dictHistory.take 6) (HSuite.init fun _ => 0) ∧
    (copied someDiff (dictHistory.take 6) (HSuite.init fun _ => 0)).length = 5 ∧
    (∃ a a1, HSuite.run someDiff (dictHistory.take 1) (HSuite.init fun _ => 0) = .ok a ∧ paramsOf a (.plain 1) = none ∧
      (a.dicts 0).truthy = true ∧ a.act someDiff (.add (.plain 1) isEven (some 0)) = .ok a1 ∧
      (∀ c ∈ [HAct.write 0 { flat := some true }, .add (.plain 2) isEven none], ¬ Concerns (.plain 1) c) ∧
      (HSuite.run someDiff [.write 0 { flat := some true }, .add (.plain 2) isEven none] a1).state.dicts 0 = { flat := some true }) ∧
    ∃ a a1 ft, HSuite.run someDiff (dictHistory.take 7) (HSuite.init fun _ => 0) = .ok a ∧ viewAt a.now 1 = some ft ∧
      (a.dicts 0).truthy = true ∧ a.act someDiff (.apply 1 (.plain 2) (some 0) false true) = .ok a1 ∧
      ∀ c ∈ [(HAct.write 0 {} : HAct Nat)], ¬ Concerns (.plain 2) c := by
  refine ⟨?_, by decide, ⟨_, _, rfl, by decide, by decide, rfl, ?_, by decide⟩, _, _, _, rfl, rfl, by decide, rfl, ?_⟩
  · refine ⟨fun i p e n hn => ?_, (fun _ _ e => by cases e), (fun _ _ e => by cases e), (fun _ _ e => by cases e), (fun _ _ e => by cases e),
      (fun _ _ e => by cases e), trivial⟩
    obtain ⟨f, h, -⟩ := hn; cases h
  · simp [Concerns]
  · simp [Concerns]

/-! ### Where it fails -/

/-- C75 is not literally true: a view that uses a filter is not told when the dictionary of the filter is changed, and shows the
wrong nodes until it is refreshed. -/
theorem C75_refuted_view : ∃ a ft, HSuite.run someDiff (dictHistory.take 7) (HSuite.init fun _ => 0) = .ok a ∧
    viewAt a.now 1 = some ft ∧ ¬ ShowsExactly (alone a.now ft) := by
  refine ⟨_, _, rfl, rfl, fun h => ?_⟩
  refine absurd ((h.shown (.str 1) (by decide)).2 ⟨by decide, fun n hn => ?_⟩) (by decide)
  have hn' : n ∈ [FName.plain 1] := hn
  rw [List.mem_singleton] at hn'
  subst hn'
  exact ⟨_, rfl, by decide⟩

/-- Nor are counters told. -/
theorem C75_refuted_counter : ∃ a c, HSuite.run someDiff
    [ .write 0 { flat := some true }, .add (.plain 1) isEven (some 0), .edit (.addNode (.new (.str 1) .none) .none), .getCount none true,
      .onCount 1 (.apply (.plain 1) true), .write 0 { negate := some true } ] (HSuite.init fun _ => 0) = .ok a ∧
    countAt a.now 1 = some c ∧ ¬ Exact (aloneCount a.now c) := by
  refine ⟨_, _, rfl, rfl, fun h => ?_⟩
  obtain ⟨l, -, hl, hn⟩ := h
  obtain ⟨x, rfl⟩ : ∃ x, l = [x] := List.length_eq_one_iff.1 hn.symm
  obtain ⟨hx, hd⟩ := (hl x).1 (by simp)
  have hx' : x ∈ [Id.str 1] := (mem_keys _ x).2 hx
  simp only [List.mem_singleton] at hx'
  subst hx'
  obtain ⟨f, hf, hd⟩ := hd (.plain 1) (by decide)
  cases hf
  exact absurd hd (by decide)

/-- And a dictionary that is empty when it is handed over is not kept: what is put into it later is not seen. -/
theorem C75_refuted_empty : ∃ a, HSuite.run someDiff
    [ .write 0 {}, .add (.plain 1) isEven (some 0), .write 0 { negate := some true } ] (HSuite.init fun _ => 0) = .ok a ∧
    a.dicts 0 = { negate := some true } ∧ paramsOf a (.plain 1) = some {} :=
  ⟨_, rfl, by decide, by decide⟩

end Larch
