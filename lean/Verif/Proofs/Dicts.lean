import Verif.Spec.Dicts
import Verif.Proofs.Answers
import Verif.Props.Suite

/-!
# Dictionaries by reference and by value
-/

namespace Larch

open Spec

variable {V : Type} {D : Type} {diff : List Id → List Id → List Id}

theorem HFilter.now_setParameters (m : Dicts) (f : HFilter D) (r : Option Nat) :
    (f.setParameters m r).now m = (f.now m).setParameters (m.arg r) := by
  cases r with
  | none => rfl
  | some i =>
    show (if (m i).truthy then { f with dic := some i } else f : HFilter D).now m = _
    show _ = (if (m i).truthy then { f.now m with dic := m i } else f.now m : Filter D)
    split <;> rfl

theorem HBank.now_eq (m : Dicts) (b : HBank D) : b.now m = ⟨KV.over (HFilter.now m) b.available, KV.over (HFilter.now m) b.custom⟩ := rfl

theorem HBank.now_list (m : Dicts) (b : HBank D) : (b.now m).listFilters = b.listFilters := by
  unfold Bank.listFilters HBank.listFilters
  rw [HBank.now_eq]
  simp only [KV.over_keys]

theorem HBank.now_get (m : Dicts) (b : HBank D) (n : FName) : (b.now m).getFilter n = (b.getFilter n).map (HFilter.now m) := by
  unfold Bank.getFilter HBank.getFilter
  rw [HBank.now_eq]
  simp only [KV.over_has, KV.over_get?]
  split
  · rfl
  · split <;> rfl

theorem HBank.now_add (m : Dicts) (b : HBank D) (n : FName) (func : Tree → D → Id → Option Params → Bool) (r : Option Nat) :
    (b.addFilter m n func r).now m = ((b.now m).addFilter n func (m.arg r)).2 := by
  unfold HBank.addFilter Bank.addFilter
  rw [HBank.now_list]
  split
  · cases n with
    | bang k => rfl
    | plain k =>
      dsimp only
      rw [HBank.now_eq, HBank.now_eq]
      dsimp only
      rw [KV.over_set, HFilter.now_setParameters]
      rfl
  · rfl

theorem HBank.now_remove (m : Dicts) (b : HBank D) (n : FName) : (b.removeFilter n).now m = ((b.now m).removeFilter n).2 := by
  unfold HBank.removeFilter Bank.removeFilter
  rw [HBank.now_eq m b]
  dsimp only
  rw [KV.over_has, KV.over_has]
  split
  · split
    · rw [HBank.now_eq]
      dsimp only
      rw [KV.over_del]
    · rfl
  · rfl

theorem HBank.now_set (m : Dicts) (b : HBank D) (n : FName) (r : Option Nat) :
    (b.setParameters m n r).now m = (b.now m).setParameters n (m.arg r) := by
  unfold HBank.setParameters Bank.setParameters
  rw [HBank.now_eq m b]
  dsimp only
  rw [KV.over_has, KV.over_get?, KV.over_get?]
  split
  · cases KV.get? b.available n with
    | none => rfl
    | some f =>
      dsimp only [Option.map]
      rw [HBank.now_eq]
      dsimp only
      rw [KV.over_set, HFilter.now_setParameters]
  · cases KV.get? b.custom n with
    | none => rfl
    | some f =>
      dsimp only [Option.map]
      rw [HBank.now_eq]
      dsimp only
      rw [KV.over_set, HFilter.now_setParameters]

/-! ### What an action does to the bank -/

theorem edit_bank (a : Suite V) (op : Op) : (a.edit diff op).state.bank = a.bank := by
  unfold Suite.edit
  dsimp only
  split <;> rfl

theorem putFT_bank (a : Suite V) (k : Nat) (v : VT) (r : Res FT) : (a.putFT k v r).state.bank = a.bank := by cases r <;> rfl

theorem asked_bank {α : Type} (a : Suite V) (k : Nat) (r : VT.Answer α) : (a.asked k r).state.bank = a.bank := by
  obtain ⟨e | x, v⟩ := r <;> rfl

theorem putVC_bank (a : Suite V) (k : Nat) (r : Res VC) : (a.putVC k r).state.bank = a.bank := by cases r <;> rfl

theorem forEach_bank (l : List Id) (a : Suite V) :
    (Res.forEach (fun x (w : Suite V) => w.edit diff (.refreshNode x)) l a).state.bank = a.bank := by
  induction l generalizing a with
  | nil => rfl
  | cons x l ih =>
    show ((a.edit diff (.refreshNode x)).andThen _).state.bank = _
    have := edit_bank (diff := diff) a (.refreshNode x)
    cases h : a.edit diff (.refreshNode x) with
    | ok b =>
      rw [h] at this
      exact (ih b).trans this
    | err e b =>
      rw [h] at this
      exact this

theorem setParameters_unknown {b : Bank D} {n : FName} (h : b.getFilter n = none) (p : Option Params) : b.setParameters n p = b := by
  unfold Bank.getFilter at h
  unfold Bank.setParameters
  split
  · rename_i h1
    rw [if_pos h1] at h
    rw [h]
  · rename_i h1
    rw [if_neg h1] at h
    split at h
    · rw [h]
    · rename_i h2
      unfold KV.has at h2
      cases hk : KV.get? b.custom n with
      | none => rfl
      | some f => rw [hk] at h2; exact absurd rfl h2

theorem Filter.setParameters_not {f : Filter D} {p : Option Params} (h : FT.givesParams p = false) : f.setParameters p = f := by
  unfold Filter.setParameters
  cases p with
  | none => rfl
  | some d =>
    have : d.truthy = false := h
    simp [this]

theorem KV.set_same {κ α : Type} [DecidableEq κ] {d : KV κ α} {x : κ} {v : α} (h : KV.get? d x = some v) : KV.set d x v = d := by
  induction d with
  | nil => cases h
  | cons e l ih =>
    obtain ⟨k, w⟩ := e
    change (if k = x then some w else KV.get? l x) = some v at h
    show (if k = x then (k, v) :: l else (k, w) :: KV.set l x v) = _
    by_cases hk : k = x
    · rw [if_pos hk] at h
      rw [if_pos hk]
      cases h; rfl
    · rw [if_neg hk] at h
      rw [if_neg hk, ih h]

theorem setParameters_not (b : Bank D) (n : FName) {p : Option Params} (h : FT.givesParams p = false) : b.setParameters n p = b := by
  unfold Bank.setParameters
  split
  · cases hk : KV.get? b.available n with
    | none => rfl
    | some f => dsimp only; rw [Filter.setParameters_not h, KV.set_same hk]
  · cases hk : KV.get? b.custom n with
    | none => rfl
    | some f => dsimp only; rw [Filter.setParameters_not h, KV.set_same hk]

theorem applyFilter_gives (b : Bank D) (t : Tree) (d : D) (ft : FT) (n : FName) (p : Option Params) (rs rf : Bool) :
    (ft.applyFilter diff b t d n p rs rf).2.1 = b.setParameters n p := by
  unfold FT.applyFilter
  dsimp only
  split
  · rename_i h
    rw [Bool.and_eq_true] at h
    exact (setParameters_unknown (by simpa using h.2) p).symm
  · have : (if FT.givesParams p then b.setParameters n p else b) = b.setParameters n p := by
      split
      · rfl
      · rename_i hg
        exact (setParameters_not b n (Bool.eq_false_iff.2 hg)).symm
    rw [this]
    generalize (rf && (FT.givesParams p || decide (n ∉ (if rs then { ft with applied := [] } else ft : FT).applied))) = c
    cases c <;> rfl

theorem onCount_bank (a : Suite V) (k : Nat) (c : CountCall) : (a.act diff (.onCount k c)).state.bank = a.bank := by
  show (match a.objs[k]? with | some (.count v) => a.callCount k v c | _ => .ok a : Res (Suite V)).state.bank = _
  split
  · unfold Suite.callCount
    split <;> exact putVC_bank _ _ _
  · rfl

theorem onView_bank (a : Suite V) (k : Nat) (c : ViewCall) (hc : ∀ n p rs rf, c ≠ .apply n p rs rf) :
    (a.act diff (.onView k c)).state.bank = a.bank := by
  show (match a.objs[k]? with | some (.view v) => a.callView diff k v c | _ => .ok a : Res (Suite V)).state.bank = _
  split
  · rename_i v _
    unfold Suite.callView
    cases c with
    | apply n p rs rf => exact absurd rfl (hc _ _ _ _)
    | nNodes fs => exact asked_bank _ _ _
    | getNodes fs => exact asked_bank _ _ _
    | nChildren x r => exact asked_bank _ _ _
    | currentState =>
      dsimp only
      split
      · exact forEach_bank _ _
      · cases v.ft with
        | none => rfl
        | some ft => exact putFT_bank _ _ _ _
    | unapply n rf =>
      dsimp only
      cases v.filtersRefused with
      | some e => rfl
      | none => cases v.ft with
        | none => rfl
        | some ft => exact putFT_bank _ _ _ _
    | reset rf =>
      dsimp only
      cases v.filtersRefused with
      | some e => rfl
      | none => cases v.ft with
        | none => rfl
        | some ft => exact putFT_bank _ _ _ _
  · rfl

theorem HSuite.now_bankAfter (a : HSuite V) {c : HAct V} {c' : SuiteAct V} (h : c.now a.dicts = some c') :
    (a.bankAfter c).now a.dicts = (a.now.act diff c').state.bank := by
  cases c with
  | write i p => cases h
  | add n f r => cases h; exact HBank.now_add _ _ _ _ _
  | remove n => cases h; exact HBank.now_remove _ _ _
  | edit op => cases h; exact (edit_bank (diff := diff) a.now op).symm
  | change x v => cases h; exact (edit_bank (diff := diff) ({ a.now with data := fun y => if y = x then v else a.data y } : Suite V) (.refreshNode x)).symm
  | getView name rf =>
    cases h
    show _ = (a.now.getView diff name rf).state.bank
    unfold Suite.getView
    split
    · split <;> rfl
    · rfl
  | getCount name rf =>
    cases h
    show _ = (a.now.getCount name rf).state.bank
    unfold Suite.getCount
    split
    · split <;> rfl
    · rfl
  | onCount k c =>
    cases h
    exact (onCount_bank a.now k c).symm
  | apply k n r rs rf =>
    cases h
    show (match a.objs[k]? with
      | some (.view v) => match v.filtersRefused, v.ft with
        | none, some _ => a.bank.setParameters a.dicts n r
        | _, _ => a.bank
      | _ => a.bank : HBank (Id → V)).now a.dicts =
      (match a.objs[k]? with | some (.view v) => a.now.callView diff k v (.apply n (a.dicts.arg r) rs rf) | _ => .ok a.now : Res (Suite V)).state.bank
    cases a.objs[k]? with
    | none => rfl
    | some o =>
      cases o with
      | count c => rfl
      | view v =>
        dsimp only
        show _ = (match v.filtersRefused, v.ft with
          | some e, _ => .err e a.now
          | none, none => .err .attributeError a.now
          | none, some ft => ({ a.now with bank := (ft.applyFilter diff a.now.bank a.s.t a.data n (a.dicts.arg r) rs rf).2.1 } : Suite V).putFT k v
              (ft.applyFilter diff a.now.bank a.s.t a.data n (a.dicts.arg r) rs rf).2.2 : Res (Suite V)).state.bank
        cases v.filtersRefused with
        | some e => rfl
        | none =>
          cases v.ft with
          | none => rfl
          | some ft =>
            dsimp only
            rw [putFT_bank]
            dsimp only
            rw [applyFilter_gives]
            exact HBank.now_set _ _ _ _
  | unapply k n rf => cases h; exact (onView_bank a.now k (.unapply n rf) fun _ _ _ _ e => by cases e).symm
  | reset k rf => cases h; exact (onView_bank a.now k (.reset rf) fun _ _ _ _ e => by cases e).symm
  | currentState k => cases h; exact (onView_bank a.now k .currentState fun _ _ _ _ e => by cases e).symm
  | nNodes k fs => cases h; exact (onView_bank a.now k (.nNodes fs) fun _ _ _ _ e => by cases e).symm
  | getNodes k fs => cases h; exact (onView_bank a.now k (.getNodes fs) fun _ _ _ _ e => by cases e).symm
  | nChildren k x r => cases h; exact (onView_bank a.now k (.nChildren x r) fun _ _ _ _ e => by cases e).symm

end Larch
