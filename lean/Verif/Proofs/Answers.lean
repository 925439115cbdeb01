import Verif.Spec.Answers
import Verif.Proofs.Suite

/-!
# An application whose filter functions return any Python value behaves as one with `bool`s
-/

namespace Larch

open Spec

variable {V : Type} {D : Type} {diff : List Id → List Id → List Id}

/-! ### Dicts -/

section
variable {κ α β : Type} [DecidableEq κ] (g : α → β)

def KV.over (d : KV κ α) : KV κ β := d.map fun e => (e.1, g e.2)

theorem KV.over_get? (d : KV κ α) (x : κ) : KV.get? (KV.over g d) x = (KV.get? d x).map g := by
  induction d with
  | nil => rfl
  | cons e l ih =>
    obtain ⟨k, v⟩ := e
    change (if k = x then some (g v) else KV.get? (KV.over g l) x) = Option.map g (if k = x then some v else KV.get? l x)
    split
    · rfl
    · exact ih

theorem KV.over_has (d : KV κ α) (x : κ) : KV.has (KV.over g d) x = KV.has d x := by
  unfold KV.has; rw [KV.over_get?]; simp

omit [DecidableEq κ] in
theorem KV.over_keys (d : KV κ α) : KV.keys (KV.over g d) = KV.keys d := by
  simp [KV.keys, KV.over]

theorem KV.over_set (d : KV κ α) (x : κ) (v : α) : KV.over g (KV.set d x v) = KV.set (KV.over g d) x (g v) := by
  induction d with
  | nil => rfl
  | cons e l ih =>
    obtain ⟨k, w⟩ := e
    change KV.over g (if k = x then (k, v) :: l else (k, w) :: KV.set l x v) =
      (if k = x then (k, g v) :: KV.over g l else (k, g w) :: KV.set (KV.over g l) x (g v))
    split
    · rfl
    · rw [← ih]; rfl

theorem KV.over_del (d : KV κ α) (x : κ) : KV.over g (KV.del d x) = KV.del (KV.over g d) x := by
  unfold KV.over KV.del
  rw [List.filter_map]
  rfl

end

/-! ### Filters and the bank -/

/-- The filter whose function ends with `return bool(...)`. -/
def RFilter.bools (f : RFilter D) : Filter D := ⟨asBool f.func, f.dic⟩

theorem RFilter.bools_set (f : RFilter D) (p : Option Params) : (f.setParameters p).bools = f.bools.setParameters p := by
  cases p with
  | none => rfl
  | some d =>
    simp only [RFilter.setParameters, Filter.setParameters]
    split <;> rfl

theorem RFilter.bools_displayed (f : RFilter D) (t : Tree) (d : D) (x : Id) :
    f.bools.isDisplayed t d x = (f.isDisplayed t d x).truth := by
  unfold Filter.isDisplayed RFilter.isDisplayed RFilter.bools asBool
  dsimp only
  split
  · split <;> rfl
  · rfl

/-- The bank with these filters. -/
def RBank.bools (b : RBank D) : Bank D := ⟨KV.over RFilter.bools b.available, KV.over RFilter.bools b.custom⟩

theorem RBank.bools_get (b : RBank D) (n : FName) : b.bools.getFilter n = (b.getFilter n).map RFilter.bools := by
  unfold Bank.getFilter RBank.getFilter RBank.bools
  dsimp only
  simp only [KV.over_has, KV.over_get?]
  split
  · rfl
  · split <;> rfl

theorem RBank.bools_has (b : RBank D) (n : FName) : b.bools.hasFilter n = b.hasFilter n := by
  unfold Bank.hasFilter RBank.hasFilter RBank.bools
  simp only [KV.over_has]

theorem RBank.bools_list (b : RBank D) : b.bools.listFilters = b.listFilters := by
  unfold Bank.listFilters RBank.listFilters RBank.bools
  simp only [KV.over_keys]

theorem RBank.bools_set (b : RBank D) (n : FName) (p : Option Params) : (b.setParameters n p).bools = b.bools.setParameters n p := by
  unfold RBank.setParameters Bank.setParameters RBank.bools
  simp only [KV.over_has, KV.over_get?]
  split
  · cases KV.get? b.available n with
    | none => rfl
    | some f => simp only [Option.map_some, KV.over_set, RFilter.bools_set]
  · cases KV.get? b.custom n with
    | none => rfl
    | some f => simp only [Option.map_some, KV.over_set, RFilter.bools_set]

theorem RBank.bools_add (b : RBank D) (n : FName) (f : Tree → D → Id → Option Params → PyVal) (p : Option Params) :
    (b.addFilter n f p).2.bools = (b.bools.addFilter n (asBool f) p).2 := by
  unfold RBank.addFilter Bank.addFilter
  rw [RBank.bools_list]
  split
  · cases n with
    | bang m => rfl
    | plain k =>
      show RBank.bools _ = _
      unfold RBank.bools
      dsimp only
      rw [KV.over_set, RFilter.bools_set]
      rfl
  · rfl

theorem RBank.bools_remove (b : RBank D) (n : FName) : (b.removeFilter n).2.bools = (b.bools.removeFilter n).2 := by
  unfold RBank.removeFilter Bank.removeFilter RBank.bools
  dsimp only
  simp only [KV.over_has]
  split
  · split
    · simp only [KV.over_del]
    · rfl
  · rfl

/-! ### The view -/

theorem rLoop_eq (b : RBank D) (t : Tree) (d : D) (x : Id) (l : List FName) :
    FT.rLoop b t d x l = l.all fun n => match b.bools.getFilter n with
      | some f => f.isDisplayed t d x
      | none => false := by
  induction l with
  | nil => rfl
  | cons n l ih =>
    unfold FT.rLoop
    rw [List.all_cons, RBank.bools_get, ← ih]
    cases b.getFilter n with
    | none => rfl
    | some f =>
      dsimp only [Option.map_some]
      rw [RFilter.bools_displayed]
      cases (f.isDisplayed t d x).truth <;> rfl

theorem rAccepts_eq (b : RBank D) (t : Tree) (d : D) (l : List FName) : FT.rAccepts b t d l = FT.accepts b.bools t d l := by
  funext x
  unfold FT.rAccepts FT.accepts
  rw [rLoop_eq]
  cases (!x.falsy && t.has x) <;> rfl

theorem rEnv_eq (b : RBank D) (t : Tree) (d : D) (ft : FT) : ft.rEnv diff b t d = ft.env diff b.bools t d := by
  unfold FT.rEnv FT.env
  rw [rAccepts_eq]

theorem rAnyFlat_eq (b : RBank D) (l : List FName) : FT.rAnyFlat b l = FT.anyFlat b.bools l := by
  unfold FT.rAnyFlat FT.anyFlat
  congr 1
  funext n
  rw [RBank.bools_get]
  cases b.getFilter n <;> rfl

theorem rRefilter_eq (b : RBank D) (t : Tree) (d : D) (ft : FT) : ft.rRefilter diff b t d = ft.refilter diff b.bools t d := by
  unfold FT.rRefilter FT.refilter
  simp only [rEnv_eq, rAnyFlat_eq]

theorem rNewFT_eq (b : RBank D) (t : Tree) (d : D) (root : Id) (r : Bool) :
    FT.rNew diff b t d root r = FT.new diff b.bools t d root r := by
  unfold FT.rNew FT.new
  simp only [rRefilter_eq]

theorem rReactFT_eq (b : RBank D) (d : D) (n : Note) (ft : FT) : ft.rReact diff b d n = ft.react diff b.bools d n := by
  unfold FT.rReact FT.react
  rw [rEnv_eq]

theorem rApplyFT_eq (b : RBank D) (t : Tree) (d : D) (ft : FT) (n : FName) (p : Option Params) (rs rf : Bool) :
    ft.applyFilter diff b.bools t d n p rs rf = ((ft.rApplyFilter diff b t d n p rs rf).1,
      (ft.rApplyFilter diff b t d n p rs rf).2.1.bools, (ft.rApplyFilter diff b t d n p rs rf).2.2) := by
  unfold FT.rApplyFilter FT.applyFilter
  have hn : ((b.getFilter n).map RFilter.bools).isNone = (b.getFilter n).isNone := by cases b.getFilter n <;> rfl
  have hb : (if FT.givesParams p = true then b.bools.setParameters n p else b.bools) =
      (if FT.givesParams p = true then b.setParameters n p else b).bools := by
    split
    · rw [RBank.bools_set]
    · rfl
  simp only [RBank.bools_get, hn, hb, rRefilter_eq]
  by_cases h1 : (FT.givesParams p && (b.getFilter n).isNone) = true
  · simp only [if_pos h1]
  · simp only [if_neg h1]
    generalize (if rs = true then ({ root := ft.root, flat := ft.flat, view := ft.view } : FT) else ft) = ft1
    by_cases h2 : (rf && (FT.givesParams p || decide (n ∉ ft1.applied))) = true
    · simp only [if_pos h2]
    · simp only [if_neg h2]

theorem rUnapplyFT_eq (b : RBank D) (t : Tree) (d : D) (ft : FT) (n : FName) (rf : Bool) :
    ft.rUnapplyFilter diff b t d n rf = ft.unapplyFilter diff b.bools t d n rf := by
  unfold FT.rUnapplyFilter FT.unapplyFilter
  simp only [rRefilter_eq]

theorem rReset_eq (b : RBank D) (t : Tree) (d : D) (ft : FT) (rf : Bool) :
    ft.rResetFilters diff b t d rf = ft.resetFilters diff b.bools t d rf := by
  unfold FT.rResetFilters FT.resetFilters
  simp only [rRefilter_eq]

theorem rAsk_eq (t : Tree) (d : D) (x : Id) (l : List (RFilter D)) (v : PyVal) (hv : v.truth = true) :
    (FT.rAsk t d x l v).truth = l.all fun f => (f.isDisplayed t d x).truth := by
  induction l generalizing v with
  | nil => exact hv
  | cons f l ih =>
    unfold FT.rAsk
    rw [List.all_cons]
    cases h : (f.isDisplayed t d x).truth with
    | false => simp [h]
    | true => simp [ih _ h]

theorem rGetNodes_eq (b : RBank D) (t : Tree) (d : D) (ft : FT) (l : List FName) :
    ft.rGetNodes b t d l = ft.getNodes b.bools t d l := by
  unfold FT.rGetNodes FT.getNodes
  have : l.filterMap b.bools.getFilter = (l.filterMap b.getFilter).map RFilter.bools := by
    rw [List.map_filterMap]
    congr 1
    funext n
    exact RBank.bools_get b n
  simp only [this, List.all_map, rAsk_eq _ _ _ _ (.bool true) rfl]
  split
  · rfl
  · congr 2
    funext x
    congr 2
    funext f
    exact (RFilter.bools_displayed f t d x).symm

theorem rNNodes_eq (b : RBank D) (t : Tree) (d : D) (ft : FT) (l : List FName) :
    ft.rNNodes b t d l = ft.nNodes b.bools t d l := by
  unfold FT.rNNodes FT.nNodes
  rw [rGetNodes_eq]
  rfl

theorem rAskFT_eq {α : Type} (b : RBank D) (t : Tree) (d : D) (v : VT) (q : FT → Except Err α) :
    v.rAskFT diff b t d q = v.ask diff b.bools t d q := by
  unfold VT.rAskFT VT.ask VT.ensure
  rw [rNewFT_eq]
  rfl

/-! ### The counter -/

theorem land_zero (n : Int) : Int.land 0 n = 0 := by
  cases n <;> simp [Int.land, Nat.ldiff]

theorem land_one (n : Int) : Int.land 1 n = n % 2 := by
  have h1 : (1 : Int) = Int.bit true 0 := rfl
  rw [← Int.bit_decomp n, h1, Int.land_bit, land_zero]
  cases n.bodd <;> simp [Int.bit]

/-- The number that the loop of the counter sees in an answer: its last bit, if it is a number. -/
def PyVal.lastBit : PyVal → Option Bool
  | .bool b => some b
  | .int n => some (decide (n % 2 = 1))
  | _ => Option.none

/-- What the variable `displayed` of the counter can be. -/
def Bit (v : PyVal) : Prop := (∃ b, v = .bool b) ∨ v = .int 0 ∨ v = .int 1

theorem meet_bit {v w : PyVal} (hv : Bit v) :
    match w.lastBit with
    | none => v.meet w = .error .typeError
    | some b => ∃ u, v.meet w = .ok u ∧ Bit u ∧ u.truth = (v.truth && b) := by
  rcases hv with ⟨b, rfl⟩ | rfl | rfl
  · cases w with
    | none => cases b <;> rfl
    | other t => cases b <;> rfl
    | bool c => exact ⟨_, rfl, .inl ⟨_, rfl⟩, rfl⟩
    | int n =>
      cases b with
      | false => exact ⟨.int 0, by simp [PyVal.meet, PyVal.num, land_zero], .inr (.inl rfl), rfl⟩
      | true =>
        rcases Int.emod_two_eq_zero_or_one n with h | h
        · exact ⟨.int 0, by simp [PyVal.meet, PyVal.num, land_one, h], .inr (.inl rfl), by simp [PyVal.truth, h]⟩
        · exact ⟨.int 1, by simp [PyVal.meet, PyVal.num, land_one, h], .inr (.inr rfl), by simp [PyVal.truth, h]⟩
  · cases w with
    | none => rfl
    | other t => rfl
    | bool c => exact ⟨.int 0, by simp [PyVal.meet, PyVal.num, land_zero], .inr (.inl rfl), rfl⟩
    | int n => exact ⟨.int 0, by simp [PyVal.meet, PyVal.num, land_zero], .inr (.inl rfl), rfl⟩
  · cases w with
    | none => rfl
    | other t => rfl
    | bool c =>
      cases c with
      | false => exact ⟨.int 0, by simp [PyVal.meet, PyVal.num, land_one], .inr (.inl rfl), rfl⟩
      | true => exact ⟨.int 1, by simp [PyVal.meet, PyVal.num, land_one], .inr (.inr rfl), rfl⟩
    | int n =>
      rcases Int.emod_two_eq_zero_or_one n with h | h
      · exact ⟨.int 0, by simp [PyVal.meet, PyVal.num, land_one, h], .inr (.inl rfl), by simp [PyVal.truth, h]⟩
      · exact ⟨.int 1, by simp [PyVal.meet, PyVal.num, land_one, h], .inr (.inr rfl), by simp [PyVal.truth, h]⟩

/-- All filter functions of the bank give plain answers. -/
def PlainBank (b : RBank D) : Prop := ∀ n f, b.getFilter n = some f → ∀ t d x p, Plain (f.func t d x p)

theorem plain_bit {v : PyVal} (h : Plain v) : v.lastBit = some v.truth := by
  cases v with
  | none => cases h
  | other t => cases h
  | bool b => rfl
  | int n =>
    rcases h with rfl | h
    · rfl
    · have : n ≠ 0 := by rintro rfl; cases h
      simp [PyVal.lastBit, PyVal.truth, h, this]

theorem RFilter.plain {f : RFilter D} (h : ∀ t d x p, Plain (f.func t d x p)) (t : Tree) (d : D) (x : Id) :
    Plain (f.isDisplayed t d x) := by
  unfold RFilter.isDisplayed
  dsimp only
  split
  · split
    · trivial
    · exact h _ _ _ _
  · trivial

theorem rLoopVC_eq {b : RBank D} (h : PlainBank b) (t : Tree) (d : D) (x : Id) (l : List FName) (v : PyVal) (hv : Bit v) :
    match VC.displayed b.bools t d x l with
    | none => VC.rLoop b t d x l v = .error .attributeError
    | some r => ∃ u, VC.rLoop b t d x l v = .ok u ∧ u.truth = (v.truth && r) := by
  induction l generalizing v with
  | nil => exact ⟨v, rfl, by simp⟩
  | cons n l ih =>
    unfold VC.displayed VC.rLoop
    rw [RBank.bools_get]
    cases hf : b.getFilter n with
    | none => rfl
    | some f =>
      dsimp only [Option.map_some]
      have := meet_bit (w := f.isDisplayed t d x) hv
      rw [plain_bit (RFilter.plain (h n f hf) t d x)] at this
      obtain ⟨u, e, hu, ht⟩ := this
      rw [e]
      have := ih u hu
      cases hr : VC.displayed b.bools t d x l with
      | none => rw [hr] at this; exact this
      | some r =>
        rw [hr] at this
        obtain ⟨w, e2, h2⟩ := this
        refine ⟨w, e2, ?_⟩
        rw [h2, ht, RFilter.bools_displayed, Bool.and_assoc]

theorem rModify_eq {b : RBank D} (h : PlainBank b) (t : Tree) (d : D) : VC.rModify b t d = VC.modify b.bools t d := by
  funext x v
  unfold VC.rModify VC.modify
  have := rLoopVC_eq h t d x v.applied (.bool true) (.inl ⟨_, rfl⟩)
  cases hr : VC.displayed b.bools t d x v.applied with
  | none => rw [hr] at this; rw [this]
  | some r =>
    rw [hr] at this
    obtain ⟨u, e, hu⟩ := this
    rw [e]
    dsimp only
    rw [hu]
    cases r <;> rfl

theorem rRefresh_eq {b : RBank D} (h : PlainBank b) (t : Tree) (d : D) (v : VC) : v.rRefresh b t d = v.refresh b.bools t d := by
  unfold VC.rRefresh VC.refresh
  rw [rModify_eq h]

theorem rNewVC_eq {b : RBank D} (h : PlainBank b) (t : Tree) (d : D) (r : Bool) : VC.rNew b t d r = VC.new b.bools t d r := by
  unfold VC.rNew VC.new
  rw [rRefresh_eq h]

theorem rApplyVC_eq {b : RBank D} (h : PlainBank b) (t : Tree) (d : D) (n : FName) (r : Bool) (v : VC) :
    v.rApplyFilter b t d n r = v.applyFilter b.bools t d n r := by
  unfold VC.rApplyFilter VC.applyFilter
  simp only [rRefresh_eq h, rModify_eq h, RBank.bools_has]

theorem rUnapplyVC_eq {b : RBank D} (h : PlainBank b) (t : Tree) (d : D) (n : FName) (v : VC) :
    v.rUnapplyFilter b t d n = v.unapplyFilter b.bools t d n := by
  unfold VC.rUnapplyFilter VC.unapplyFilter
  simp only [rModify_eq h]

theorem rReactVC_eq {b : RBank D} (h : PlainBank b) (d : D) (n : Note) (v : VC) : v.rReact b d n = v.react b.bools d n := by
  unfold VC.rReact VC.react
  simp only [rModify_eq h]
  rfl

/-! ### The application -/

/-- There are no counters, or (if `m`) the bank is plain. -/
def Countable (m : Bool) (b : RBank (Id → V)) (l : List Obj) : Prop :=
  match m with
  | false => ∀ c, Obj.count c ∉ l
  | true => PlainBank b

theorem Countable.imp {m : Bool} {b b' : RBank (Id → V)} {l l' : List Obj} (h : Countable m b l)
    (f : (∀ c, Obj.count c ∉ l) → ∀ c, Obj.count c ∉ l') (g : PlainBank b → PlainBank b') : Countable m b' l' := by
  cases m with
  | false => exact f h
  | true => exact g h

theorem rReactObj_eq {b : RBank (Id → V)} {o : Obj} (h : (∀ c, Obj.count c ≠ o) ∨ PlainBank b) (d : Id → V) (n : Note) :
    o.rReact diff b d n = o.react diff b.bools d n := by
  cases o with
  | view v =>
    unfold Obj.rReact Obj.react
    simp only [rReactFT_eq]
    rfl
  | count c =>
    rcases h with h | h
    · exact absurd rfl (h c)
    · unfold Obj.rReact Obj.react
      simp only [rReactVC_eq h]
      rfl

theorem rReactAll_eq {b : RBank (Id → V)} {m : Bool} {l : List Obj} (h : Countable m b l) (d : Id → V) (n : Note) :
    Obj.rReactAll diff b d n l = Obj.reactAll diff b.bools d n l := by
  induction l with
  | nil => rfl
  | cons o l ih =>
    unfold Obj.rReactAll Obj.reactAll
    have ho : (∀ c, Obj.count c ≠ o) ∨ PlainBank b := by
      cases m with
      | false => exact .inl fun c e => h c (by simp [e])
      | true => exact .inr h
    rw [rReactObj_eq ho, ih (h.imp (fun h c hc => h c (by simp [hc])) id)]
    rfl

/-- Objects stay what they are. -/
theorem reactAll_kinds (b : Bank (Id → V)) (d : Id → V) (n : Note) (l : List Obj) (h : ∀ c, Obj.count c ∉ l) :
    ∀ c, Obj.count c ∉ (Obj.reactAll diff b d n l).state := by
  induction l with
  | nil => intro c hc; cases hc
  | cons o l ih =>
    have ho : ∀ c, Obj.count c ≠ (o.react diff b d n).state := by
      cases o with
      | count c => exact absurd (by simp) (h c)
      | view v =>
        unfold Obj.react
        intro c hc
        dsimp only at hc
        cases hf : v.ft with
        | none => rw [hf] at hc; cases hc
        | some ft =>
          rw [hf] at hc
          dsimp only at hc
          cases hr : ft.react diff b d n <;> rw [hr] at hc <;> cases hc
    have ih := ih (fun c hc => h c (by simp [hc]))
    unfold Obj.reactAll
    cases hr : o.react diff b d n with
    | err e o' =>
      rw [hr] at ho
      intro c hc
      rcases List.mem_cons.1 hc with hc | hc
      · exact ho c hc
      · exact h c (by simp [hc])
    | ok o' =>
      rw [hr] at ho
      dsimp only
      cases hl : Obj.reactAll diff b d n l with
      | ok l' =>
        rw [hl] at ih
        intro c hc
        rcases List.mem_cons.1 hc with hc | hc
        · exact ho c hc
        · exact ih c hc
      | err e l' =>
        rw [hl] at ih
        intro c hc
        rcases List.mem_cons.1 hc with hc | hc
        · exact ho c hc
        · exact ih c hc

theorem forEach_same {σ α : Type} {P : σ → Prop} {f g : α → σ → Res σ} (h : ∀ x s, P s → f x s = g x s)
    (k : ∀ x s, P s → P (g x s).state) (l : List α) : ∀ s, P s →
      Res.forEach f l s = Res.forEach g l s ∧ P (Res.forEach g l s).state := by
  induction l with
  | nil => intro s hs; exact ⟨rfl, hs⟩
  | cons x l ih =>
    intro s hs
    have h1 := k x s hs
    show (f x s).andThen (Res.forEach f l) = (g x s).andThen (Res.forEach g l) ∧ P ((g x s).andThen (Res.forEach g l)).state
    rw [h x s hs]
    cases hr : g x s with
    | err e s' => rw [hr] at h1; exact ⟨rfl, h1⟩
    | ok s' => rw [hr] at h1; exact ih s' h1

theorem rNotes_eq {m : Bool} {b : RBank (Id → V)} (d : Id → V) (ns : List Note) {l : List Obj} (h : Countable m b l) :
    Res.forEach (Obj.rReactAll diff b d) ns l = Res.forEach (Obj.reactAll diff b.bools d) ns l ∧
      Countable m b (Res.forEach (Obj.reactAll diff b.bools d) ns l).state :=
  forEach_same (P := Countable m b) (fun n _ hl => rReactAll_eq hl d n)
    (fun n l hl => hl.imp (reactAll_kinds b.bools d n l) id) ns l h

/-- The application with filter functions that end with `return bool(...)`. -/
def RSuite.bools (a : RSuite V) : Suite V := ⟨a.s, a.data, a.bank.bools, a.names, a.objs⟩

/-- Apply a function to the state in an outcome. -/
def Res.over {σ τ : Type} (g : σ → τ) : Res σ → Res τ
  | .ok s => .ok (g s)
  | .err e s => .err e (g s)

/-- The two applications do the same, and there still are no counters or the bank is still plain. -/
structure Same (m : Bool) (r : Res (RSuite V)) (q : Res (Suite V)) : Prop where
  eq : r.over RSuite.bools = q
  countable : Countable m r.state.bank r.state.objs

theorem rEdit_same {m : Bool} {a : RSuite V} (h : Countable m a.bank a.objs) (op : Op) : Same m (a.edit diff op) (a.bools.edit diff op) := by
  obtain ⟨e, hc⟩ := rNotes_eq (diff := diff) a.data ((step a.s op).state.log.drop a.s.log.length) h
  unfold RSuite.edit Suite.edit RSuite.bools
  dsimp only
  rw [e]
  generalize Res.forEach (Obj.reactAll diff a.bank.bools a.data) ((step a.s op).state.log.drop a.s.log.length) a.objs = r at hc ⊢
  cases r with
  | ok l => exact ⟨rfl, hc⟩
  | err er l => exact ⟨rfl, hc⟩

theorem no_count_set {l : List Obj} (h : ∀ c, Obj.count c ∉ l) (k : Nat) (v : VT) : ∀ c, Obj.count c ∉ l.set k (.view v) := by
  intro c hc
  rcases List.mem_or_eq_of_mem_set hc with hc | hc
  · exact h c hc
  · cases hc

theorem putFT_same {m : Bool} {a : RSuite V} (h : Countable m a.bank a.objs) (k : Nat) (v : VT) (r : Res FT) :
    Same m (a.putFT k v r) (a.bools.putFT k v r) := by
  cases r with
  | ok ft => exact ⟨rfl, h.imp (fun h => no_count_set h k _) id⟩
  | err e ft => exact ⟨rfl, h.imp (fun h => no_count_set h k _) id⟩

theorem asked_same {α : Type} {m : Bool} {a : RSuite V} (h : Countable m a.bank a.objs) (k : Nat) (r : VT.Answer α) :
    Same m (a.asked k r) (a.bools.asked k r) := by
  obtain ⟨q, v⟩ := r
  cases q with
  | ok ft => exact ⟨rfl, h.imp (fun h => no_count_set h k _) id⟩
  | error e => exact ⟨rfl, h.imp (fun h => no_count_set h k _) id⟩

theorem putVC_same {a : RSuite V} (h : PlainBank a.bank) (k : Nat) (r : Res VC) : Same true (a.putVC k r) (a.bools.putVC k r) := by
  cases r with
  | ok c => exact ⟨rfl, h⟩
  | err e c => exact ⟨rfl, h⟩

theorem RFilter.set_func (f : RFilter D) (p : Option Params) : (f.setParameters p).func = f.func := by
  cases p with
  | none => rfl
  | some d => unfold RFilter.setParameters; dsimp only; split <;> rfl

theorem plain_set {b : RBank D} (h : PlainBank b) (m : FName) (p : Option Params) : PlainBank (b.setParameters m p) := by
  intro n f hf
  unfold RBank.setParameters at hf
  split at hf
  · rename_i hm
    cases hg : KV.get? b.available m with
    | none => rw [hg] at hf; exact h n f hf
    | some g =>
      rw [hg] at hf
      by_cases hn : n = m
      · subst hn
        have : f = g.setParameters p := by
          unfold RBank.getFilter at hf
          dsimp only at hf
          unfold KV.has at hf
          rw [KV.get?_set] at hf
          simp at hf
          exact hf.symm
        rw [this, RFilter.set_func]
        exact h n g (by unfold RBank.getFilter; rw [if_pos hm]; exact hg)
      · refine h n f ?_
        unfold RBank.getFilter at hf ⊢
        dsimp only at hf
        unfold KV.has at hf ⊢
        simp only [KV.get?_set, if_neg hn] at hf
        exact hf
  · rename_i hm
    cases hg : KV.get? b.custom m with
    | none => rw [hg] at hf; exact h n f hf
    | some g =>
      rw [hg] at hf
      by_cases hn : n = m
      · subst hn
        have : f = g.setParameters p := by
          unfold RBank.getFilter at hf
          dsimp only at hf
          rw [if_neg hm] at hf
          unfold KV.has at hf
          rw [KV.get?_set] at hf
          simp at hf
          exact hf.symm
        rw [this, RFilter.set_func]
        refine h n g ?_
        unfold RBank.getFilter
        rw [if_neg hm, if_pos (by unfold KV.has; rw [hg]; rfl)]
        exact hg
      · refine h n f ?_
        unfold RBank.getFilter at hf ⊢
        dsimp only at hf
        unfold KV.has at hf ⊢
        simp only [KV.get?_set, if_neg hn] at hf
        exact hf

theorem plain_apply {b : RBank D} (h : PlainBank b) (t : Tree) (d : D) (ft : FT) (n : FName) (p : Option Params) (rs rf : Bool) :
    PlainBank (ft.rApplyFilter diff b t d n p rs rf).2.1 := by
  unfold FT.rApplyFilter
  dsimp only
  have : PlainBank (if FT.givesParams p = true then b.setParameters n p else b) := by
    split
    · exact plain_set h _ _
    · exact h
  generalize (if rs = true then ({ root := ft.root, flat := ft.flat, view := ft.view } : FT) else ft) = ft1
  by_cases h1 : (FT.givesParams p && (b.getFilter n).isNone) = true
  · simp only [if_pos h1]
    exact h
  · simp only [if_neg h1]
    split
    · exact this
    · exact this

theorem callView_same {m : Bool} {a : RSuite V} (h : Countable m a.bank a.objs) (k : Nat) (v : VT) (c : ViewCall) :
    Same m (a.callView diff k v c) (a.bools.callView diff k v c) := by
  cases c with
  | apply n p rs rf =>
    unfold RSuite.callView Suite.callView
    dsimp only
    cases v.filtersRefused with
    | some e => exact ⟨rfl, h⟩
    | none =>
      cases v.ft with
      | none => exact ⟨rfl, h⟩
      | some ft =>
        dsimp only
        have e : ft.applyFilter diff a.bools.bank a.bools.s.t a.bools.data n p rs rf = _ := rApplyFT_eq a.bank a.s.t a.data ft n p rs rf
        rw [e]
        dsimp only
        exact putFT_same (a := { a with bank := (ft.rApplyFilter diff a.bank a.s.t a.data n p rs rf).2.1 })
          (h.imp id fun h => plain_apply h _ _ _ _ _ _ _) k v _
  | unapply n rf =>
    unfold RSuite.callView Suite.callView
    dsimp only
    cases v.filtersRefused with
    | some e => exact ⟨rfl, h⟩
    | none =>
      cases v.ft with
      | none => exact ⟨rfl, h⟩
      | some ft =>
        dsimp only
        rw [rUnapplyFT_eq]
        exact putFT_same h k v _
  | reset rf =>
    unfold RSuite.callView Suite.callView
    dsimp only
    cases v.filtersRefused with
    | some e => exact ⟨rfl, h⟩
    | none =>
      cases v.ft with
      | none => exact ⟨rfl, h⟩
      | some ft =>
        dsimp only
        rw [rReset_eq]
        exact putFT_same h k v _
  | currentState =>
    unfold RSuite.callView Suite.callView
    dsimp only
    split
    · show Same m (Res.forEach _ a.s.t.nodes.keys a) (Res.forEach _ a.s.t.nodes.keys a.bools)
      generalize a.s.t.nodes.keys = l
      induction l generalizing a with
      | nil => exact ⟨rfl, h⟩
      | cons x l ih =>
        have h1 := rEdit_same (diff := diff) h (.refreshNode x)
        simp only [Res.forEach]
        cases hr : a.edit diff (.refreshNode x) with
        | ok b =>
          rw [hr] at h1
          rw [← h1.eq]
          exact ih h1.countable
        | err e b =>
          rw [hr] at h1
          rw [← h1.eq]
          exact ⟨rfl, h1.countable⟩
    · cases v.ft with
      | none => exact ⟨rfl, h⟩
      | some ft => exact putFT_same h k v _
  | nNodes fs =>
    unfold RSuite.callView Suite.callView VT.nNodes
    dsimp only
    rw [rAskFT_eq]
    simp only [rNNodes_eq]
    exact asked_same h k _
  | getNodes fs =>
    unfold RSuite.callView Suite.callView VT.getNodes
    dsimp only
    rw [rAskFT_eq]
    simp only [rGetNodes_eq]
    exact asked_same h k _
  | nChildren x r =>
    unfold RSuite.callView Suite.callView VT.nChildren
    dsimp only
    rw [rAskFT_eq]
    exact asked_same h k _

theorem callCount_same {a : RSuite V} (h : PlainBank a.bank) (k : Nat) (v : VC) (c : CountCall) :
    Same true (a.callCount k v c) (a.bools.callCount k v c) := by
  cases c with
  | apply n r =>
    unfold RSuite.callCount Suite.callCount
    dsimp only
    rw [rApplyVC_eq h]
    exact putVC_same h k _
  | unapply n =>
    unfold RSuite.callCount Suite.callCount
    dsimp only
    rw [rUnapplyVC_eq h]
    exact putVC_same h k _
  | touch x =>
    unfold RSuite.callCount Suite.callCount
    dsimp only
    rw [rModify_eq h]
    exact putVC_same h k _
  | register f => exact putVC_same h k (.ok (v.register f))
  | unregister f => exact putVC_same h k (v.unregister f)

theorem plain_add {b : RBank D} (h : PlainBank b) {n : FName} {f : Tree → D → Id → Option Params → PyVal} (p : Option Params)
    (hf : ∀ t d x q, Plain (f t d x q)) : PlainBank (b.addFilter n f p).2 := by
  unfold RBank.addFilter
  split
  · cases n with
    | bang m => exact h
    | plain k =>
      intro m g hg
      unfold RBank.getFilter at hg
      dsimp only at hg
      split at hg
      · rename_i hm
        exact h m g (by unfold RBank.getFilter; rw [if_pos hm]; exact hg)
      · rename_i hm
        split at hg
        · rw [KV.get?_set] at hg
          split at hg
          · cases hg
            rw [RFilter.set_func]
            exact hf
          · refine h m g ?_
            unfold RBank.getFilter
            rw [if_neg hm, if_pos (by unfold KV.has; rw [hg]; rfl)]
            exact hg
        · cases hg
  · exact h

theorem plain_remove {b : RBank D} (h : PlainBank b) (n : FName) : PlainBank (b.removeFilter n).2 := by
  unfold RBank.removeFilter
  split
  · split
    · intro m g hg
      unfold RBank.getFilter at hg
      dsimp only at hg
      split at hg
      · rename_i hm
        exact h m g (by unfold RBank.getFilter; rw [if_pos hm]; exact hg)
      · rename_i hm
        split at hg
        · refine h m g ?_
          have : KV.get? b.custom m = some g := by
            rw [KV.get?_del] at hg
            split at hg
            · cases hg
            · exact hg
          unfold RBank.getFilter
          rw [if_neg hm, if_pos (by unfold KV.has; rw [this]; rfl)]
          exact this
        · cases hg
    · exact h
  · exact h

/-- The action makes no counter, or (if `m`) the filter function it adds gives plain answers. -/
def CountableAct (m : Bool) (c : RAct V) : Prop :=
  match m with
  | false => ∀ n r, c ≠ .getCount n r
  | true => ∀ n f p, c = .bank (.add n f p) → ∀ t d x q, Plain (f t d x q)

theorem act_same {m : Bool} {a : RSuite V} {c : RAct V} (h0 : Countable m a.bank a.objs) (h : CountableAct m c) :
    Same m (a.act diff c) (a.bools.act diff (withBools c)) := by
  cases c with
  | edit op => exact rEdit_same h0 op
  | change x v => exact rEdit_same (a := { a with data := fun y => if y = x then v else a.data y }) h0 _
  | bank b =>
    cases b with
    | add n f p =>
      refine ⟨?_, ?_⟩
      swap
      · cases m with
        | false => exact h0
        | true => exact plain_add h0 p (h n f p rfl)
      show Res.ok (RSuite.bools _) = Res.ok _
      unfold RSuite.bools
      dsimp only
      rw [show (a.bank.call (.add n f p)).2.bools = _ from RBank.bools_add a.bank n f p]
      rfl
    | remove n =>
      refine ⟨?_, h0.imp id fun h => plain_remove h n⟩
      show Res.ok (RSuite.bools _) = Res.ok _
      unfold RSuite.bools
      dsimp only
      rw [show (a.bank.call (.remove n)).2.bools = _ from RBank.bools_remove a.bank n]
      rfl
  | getView name r =>
    show Same m (a.getView diff name r) (a.bools.getView diff name r)
    unfold RSuite.getView Suite.getView
    rw [rNewFT_eq]
    by_cases hn : (a.names.getViewtree name).1 = a.names.next
    · rw [if_pos hn, if_pos (show (a.bools.names.getViewtree name).1 = a.bools.names.next from hn)]
      change Same _ (match FT.new diff a.bank.bools a.s.t a.data (rootOf name) r with | .ok ft => _ | .err e _ => _)
        (match FT.new diff a.bank.bools a.s.t a.data (rootOf name) r with | .ok ft => _ | .err e _ => _)
      cases FT.new diff a.bank.bools a.s.t a.data (rootOf name) r with
      | ok ft =>
        refine ⟨rfl, h0.imp (fun h c hc => ?_) id⟩
        rcases List.mem_append.1 hc with hc | hc
        · exact h c hc
        · simp at hc
      | err e ft => exact ⟨rfl, h0⟩
    · rw [if_neg hn, if_neg (show ¬ (a.bools.names.getViewtree name).1 = a.bools.names.next from hn)]
      exact ⟨rfl, h0⟩
  | getCount name r =>
    cases m with
    | false => exact absurd rfl (h name r)
    | true =>
      show Same true (a.getCount name r) (a.bools.getCount name r)
      unfold RSuite.getCount Suite.getCount
      rw [rNewVC_eq h0]
      by_cases hn : (a.names.getViewcount name).1 = a.names.next
      · rw [if_pos hn, if_pos (show (a.bools.names.getViewcount name).1 = a.bools.names.next from hn)]
        change Same _ (match VC.new a.bank.bools a.s.t a.data r with | .ok ft => _ | .err e _ => _)
          (match VC.new a.bank.bools a.s.t a.data r with | .ok ft => _ | .err e _ => _)
        cases VC.new a.bank.bools a.s.t a.data r with
        | ok c => exact ⟨rfl, h0⟩
        | err e c => exact ⟨rfl, h0⟩
      · rw [if_neg hn, if_neg (show ¬ (a.bools.names.getViewcount name).1 = a.bools.names.next from hn)]
        exact ⟨rfl, h0⟩
  | onView k c =>
    show Same _ (RSuite.act diff a (.onView k c)) (Suite.act diff a.bools (.onView k c))
    unfold RSuite.act Suite.act
    dsimp only
    show Same _ _ (match a.objs[k]? with | some (.view v) => _ | _ => _)
    cases a.objs[k]? with
    | none => exact ⟨rfl, h0⟩
    | some o =>
      cases o with
      | view v => exact callView_same h0 k v c
      | count v => exact ⟨rfl, h0⟩
  | onCount k c =>
    show Same _ (RSuite.act diff a (.onCount k c)) (Suite.act diff a.bools (.onCount k c))
    unfold RSuite.act Suite.act
    dsimp only
    show Same _ _ (match a.objs[k]? with | some (.count v) => _ | _ => _)
    cases hk : a.objs[k]? with
    | none => exact ⟨rfl, h0⟩
    | some o =>
      cases o with
      | view v => exact ⟨rfl, h0⟩
      | count v =>
        cases m with
        | false => exact absurd (List.mem_of_getElem? hk) (h0 v)
        | true => exact callCount_same h0 k v c

theorem run_same {m : Bool} (cs : List (RAct V)) {a : RSuite V} (h0 : Countable m a.bank a.objs) (h : ∀ c ∈ cs, CountableAct m c) :
    (RSuite.run diff cs a).over RSuite.bools = Suite.run diff (cs.map withBools) a.bools := by
  induction cs generalizing a with
  | nil => rfl
  | cons c cs ih =>
    have hs := act_same (diff := diff) h0 (h c (by simp))
    simp only [RSuite.run, List.map_cons, Suite.run]
    rw [← hs.eq]
    cases hr : a.act diff c with
    | err e b => rfl
    | ok b =>
      rw [hr] at hs
      exact ih hs.countable fun c hc => h c (by simp [hc])

theorem init_same (cs : List (RAct V)) (h : PlainWhereCounted cs) (d : Id → V) :
    (RSuite.run diff cs (RSuite.init d)).over RSuite.bools = Suite.run diff (cs.map withBools) (Suite.init d) := by
  rcases h with h | h
  · refine run_same (m := false) cs (fun c hc => ?_) fun c hc n r e => h n r (e ▸ hc)
    simp [RSuite.init] at hc
  · exact run_same (m := true) cs (fun n f hf => by cases hf) fun c hc n f p e => h n f p (e ▸ hc)

end Larch
