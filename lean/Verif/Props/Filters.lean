import Verif.Spec.Filters
import Verif.Lib.KV
import Verif.Props.Consistency

/-! # C22, C23: filters and the filter bank -/

namespace Larch

open Spec

variable {D : Type}

theorem setParameters_initial (func : Tree → D → Id → Option Params → Bool) (p : Option Params) :
    ({ func := func } : Filter D).setParameters p = ⟨func, initialParams p⟩ := by
  cases p with
  | none => rfl
  | some d =>
    unfold Filter.setParameters
    dsimp only
    split
    · rfl
    · rename_i h
      simp only [Params.truthy, Bool.or_eq_true, not_or, Bool.not_eq_true] at h
      obtain ⟨⟨h1, h2⟩, h3⟩ := h
      obtain ⟨n, f, o⟩ := d
      simp at h1 h2 h3
      subst h1; subst h2; subst h3; rfl

/-- What holds of every bank made by calls. -/
structure BankInv (b : Bank D) : Prop where
  noStock : b.available = []
  nodup : (KV.keys b.custom).Nodup

theorem bank_get (b : Bank D) (h : BankInv b) (n : FName) : b.getFilter n = KV.get? b.custom n := by
  unfold Bank.getFilter KV.has
  rw [h.noStock]
  simp only [KV.get?, Option.isSome_none, Bool.false_eq_true, if_false]
  cases KV.get? b.custom n <;> simp

theorem bank_list (b : Bank D) (h : BankInv b) : b.listFilters = KV.keys b.custom := by
  unfold Bank.listFilters; rw [h.noStock]; rfl

theorem bank_call (b : Bank D) (h : BankInv b) (c : Bank.Call D) : BankInv (b.call c).2 := by
  cases c with
  | add n f p =>
    show BankInv (b.addFilter n f p).2
    unfold Bank.addFilter
    split
    · cases n with
      | bang n => exact h
      | plain k => exact ⟨h.noStock, KV.keys_set_nodup h.nodup _ _⟩
    · exact h
  | remove n =>
    show BankInv (b.removeFilter n).2
    unfold Bank.removeFilter
    split
    · split
      · exact ⟨h.noStock, KV.keys_del_nodup h.nodup _⟩
      · exact h
    · exact h

theorem bank_run (cs : List (Bank.Call D)) (b : Bank D) (h : BankInv b) : BankInv (b.run cs) := by
  induction cs generalizing b with
  | nil => exact h
  | cons c cs ih => exact ih _ (bank_call b h c)

theorem bank_map (cs : List (Bank.Call D)) (hp : PlainNames cs) (b : Bank D) (h : BankInv b) :
    (b.run cs).getFilter = bankMap cs b.getFilter := by
  induction cs generalizing b with
  | nil => rfl
  | cons c cs ih =>
    have hp' : PlainNames cs := fun n f p hm => hp n f p (List.mem_cons_of_mem _ hm)
    rw [Bank.run, ih hp' _ (bank_call b h c)]
    cases c with
    | add n f p =>
      obtain ⟨k, rfl⟩ := hp n f p (by simp)
      rw [bankMap]
      congr 1
      funext x
      rw [bank_get _ (bank_call b h _), bank_get b h, bank_get b h]
      show KV.get? (b.addFilter (.plain k) f p).2.custom x = _
      unfold Bank.addFilter
      rw [bank_list b h]
      by_cases hm : FName.plain k ∈ KV.keys b.custom
      · rw [if_neg (by simpa using hm)]
        have : KV.get? b.custom (.plain k) ≠ none := by rw [ne_eq, KV.get?_eq_none]; simpa using hm
        simp [this]
      · rw [if_pos hm]
        have : KV.get? b.custom (.plain k) = none := (KV.get?_eq_none _ _).2 hm
        dsimp only
        rw [KV.get?_set, setParameters_initial]
        simp [this]
    | remove n =>
      rw [bankMap]
      congr 1
      funext x
      rw [bank_get _ (bank_call b h _), bank_get b h]
      show KV.get? (b.removeFilter n).2.custom x = _
      unfold Bank.removeFilter
      have hav : KV.has b.available n = false := by rw [h.noStock]; rfl
      rw [hav]
      simp only [Bool.false_eq_true, not_false_eq_true, if_true]
      by_cases hm : KV.has b.custom n = true
      · rw [if_pos hm]
        dsimp only
        rw [KV.get?_del]
      · rw [if_neg hm]
        by_cases e : x = n
        · subst e
          rw [if_pos rfl]
          have : KV.get? b.custom x = none := by
            unfold KV.has at hm; simpa using hm
          exact this
        · rw [if_neg e]

/-- C22: after any history of calls with names that do not start with `'!'`, looking a filter up in the bank is
looking it up in the map described by the calls; `has_filter` and `list_filters` agree with it, and each name is listed
once. Missing for the literal claim: see `C22_refuted`. -/
theorem C22_bank_is_map_partial (cs : List (Bank.Call D)) (hp : PlainNames cs) (n : FName) :
    (Bank.run {} cs).getFilter n = bankMap cs (fun _ => none) n ∧
    ((Bank.run {} cs).hasFilter n = true ↔ bankMap cs (fun _ => none) n ≠ none) ∧
    (n ∈ (Bank.run {} cs).listFilters ↔ bankMap cs (fun _ => none) n ≠ none) ∧
    (Bank.run ({} : Bank D) cs).listFilters.Nodup := by
  have h0 : BankInv ({} : Bank D) := ⟨rfl, by simp [KV.keys]⟩
  have hb := bank_run cs ({} : Bank D) h0
  have hm : (Bank.run ({} : Bank D) cs).getFilter = bankMap cs (fun _ => none) := bank_map cs hp {} h0
  have hl : n ∈ (Bank.run ({} : Bank D) cs).listFilters ↔ bankMap cs (fun _ => none) n ≠ none := by
    rw [← hm, bank_get _ hb, bank_list _ hb, ne_eq, KV.get?_eq_none, not_not]
  refine ⟨by rw [hm], ?_, hl, by rw [bank_list _ hb]; exact hb.nodup⟩
  rw [← hm, bank_get _ hb]
  unfold Bank.hasFilter KV.has
  rw [hb.noStock]
  cases KV.get? (Bank.run ({} : Bank D) cs).custom n <;> simp [KV.get?]

/-- C22: the calls report whether they changed the bank. -/
theorem C22_return_values (cs : List (Bank.Call D)) (hp : PlainNames cs) (k : Nat)
    (f : Tree → D → Id → Option Params → Bool) (p : Option Params) :
    ((Bank.run {} cs).addFilter (.plain k) f p).1 = .ok (bankMap cs (fun _ => none) (.plain k)).isNone ∧
    ((Bank.run ({} : Bank D) cs).removeFilter (.plain k)).1 = (bankMap cs (fun _ => none) (.plain k)).isSome := by
  have h0 : BankInv ({} : Bank D) := ⟨rfl, by simp [KV.keys]⟩
  have hb := bank_run cs ({} : Bank D) h0
  obtain ⟨h1, h2, h3, -⟩ := C22_bank_is_map_partial cs hp (.plain k)
  constructor
  · unfold Bank.addFilter
    by_cases hm : FName.plain k ∈ (Bank.run ({} : Bank D) cs).listFilters
    · rw [if_neg (by simpa using hm)]
      rw [h3, Option.ne_none_iff_isSome] at hm
      dsimp only
      rw [← Option.not_isSome, hm]; rfl
    · rw [if_pos hm]
      rw [h3, not_not] at hm
      dsimp only
      rw [hm]; rfl
  · unfold Bank.removeFilter
    have hav : KV.has (Bank.run ({} : Bank D) cs).available (.plain k) = false := by rw [hb.noStock]; rfl
    rw [hav]
    simp only [Bool.false_eq_true, not_false_eq_true, if_true]
    rw [← h1, bank_get _ hb]
    unfold KV.has
    cases KV.get? (Bank.run ({} : Bank D) cs).custom (.plain k) <;> simp

/-- C22 is false for names with a `'!'` in front: adding such a filter raises and adds nothing. -/
theorem C22_refuted (n : FName) (f : Tree → D → Id → Option Params → Bool) (p : Option Params) :
    (({} : Bank D).addFilter (.bang n) f p).1 = .error .unboundLocal ∧
    ∀ m, (({} : Bank D).addFilter (.bang n) f p).2.getFilter m = none := by
  have e : ({} : Bank D).addFilter (.bang n) f p = (.error .unboundLocal, {}) := rfl
  rw [e]
  exact ⟨rfl, fun m => rfl⟩

/-- Add two filters, add the first again with another function, remove the second. -/
def bankDemo : List (Bank.Call Unit) :=
  [ .add (.plain 1) (fun _ _ x _ => x = .str 1) (some { negate := some true }),
    .add (.plain 2) (fun _ _ _ _ => true) none, .add (.plain 1) (fun _ _ _ _ => false) none, .remove (.plain 2) ]

example : PlainNames bankDemo ∧ (Bank.run {} bankDemo).listFilters = [.plain 1] ∧
    ((Bank.run {} bankDemo).getFilter (.plain 1)).map (·.dic) = some { negate := some true } := by
  refine ⟨?_, by rfl, by rfl⟩
  intro n f p hm
  simp only [bankDemo, List.mem_cons, Bank.Call.add.injEq, reduceCtorEq, List.not_mem_nil, or_false] at hm
  rcases hm with ⟨rfl, -⟩ | ⟨rfl, -⟩ | ⟨rfl, -⟩
  · exact ⟨_, rfl⟩
  · exact ⟨_, rfl⟩
  · exact ⟨_, rfl⟩

/-! ### C23 -/

/-- C23: a filter hides ids that are not in the tree. -/
theorem C23_absent_hidden (f : Filter D) (t : Tree) (d : D) (x : Id) (h : t.has x = false) :
    f.isDisplayed t d x = false := by
  unfold Filter.isDisplayed; rw [h]; rfl

/-- C23: on a node of the tree, a filter without a true `'negate'` answers what its function answers. -/
theorem C23_verdict (f : Filter D) (t : Tree) (d : D) (x : Id) (h : t.has x = true) (hn : f.dic.negate ≠ some true) :
    f.isDisplayed t d x = f.func t d x (if f.dic = {} then none else some f.dic) := by
  have ht : f.dic.truthy = true ↔ f.dic ≠ {} := by
    generalize f.dic = p
    obtain ⟨a, b, c⟩ := p
    cases a <;> cases b <;> cases c <;> simp [Params.truthy]
  unfold Filter.isDisplayed
  rw [if_pos h]
  dsimp only
  rw [if_neg hn]
  by_cases e : f.dic = {}
  · rw [if_pos e, if_neg (by rw [ht]; exact fun hh => hh e)]
  · rw [if_neg e, if_pos (ht.2 e)]

/-- C23: with a true `'negate'` it answers the opposite. -/
theorem C23_negated (f : Filter D) (t : Tree) (d : D) (x : Id) (h : t.has x = true) (hn : f.dic.negate = some true) :
    f.isDisplayed t d x = !(f.func t d x (some f.dic)) := by
  have ht : f.dic.truthy = true := by unfold Params.truthy; rw [hn]; rfl
  unfold Filter.isDisplayed
  rw [if_pos h]
  dsimp only
  rw [if_pos hn, if_pos ht]

example : demo.t.has (.str 2) = true ∧ demo.t.has (.str 4) = false ∧
    ({ func := fun t _ x _ => !(t.getChildren x).isEmpty, dic := { negate := some true } } : Filter Unit).isDisplayed
      demo.t () (.str 3) = true ∧
    ({ func := fun t _ x _ => !(t.getChildren x).isEmpty } : Filter Unit).isDisplayed demo.t () (.str 2) = true := by
  decide

end Larch
