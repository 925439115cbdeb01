import Verif.Spec.Waiting
import Verif.Spec.Announce

/-!
# What is claimed about edits of a forest while a view waits for its refresh
-/

namespace Larch
namespace Spec

variable {V : Type}

/-- What the application keeps to: edits are careful and give no node two parents, parameters are given to known filters only, and
`get_current_state` is not called. The filters may look at whatever they like, the data may be changed freely, and it does not matter
whether the view is up to date. -/
def ForestFair (a : FApp V) : FAct V → Prop
  | .edit op => EditFair a op ∧ Forest (step a.s op).state.t
  | .change _ _ => True
  | .apply n p _ _ => FT.givesParams p = true → (a.bank.getFilter n).isSome = true
  | .currentState => False
  | _ => True

/-- Every action of the history meets the condition in the state where it is made. -/
def ForestFairRun (diff : List Id → List Id → List Id) : List (FAct V) → FApp V → Prop
  | [], _ => True
  | c :: cs, a => ForestFair a c ∧ ForestFairRun diff cs (a.act diff c).state

open Classical in
/-- Is the view up to date after the action, if `fresh` tells whether it was before? As `freshAfter` says; but after an edit or a
change of data only if the applied filters let the view follow it. -/
noncomputable def keepsUp (fresh : Bool) (a : FApp V) : FAct V → Bool
  | .edit op => fresh && decide (ViewFair a (.edit op))
  | .change x v => fresh && decide (ViewFair a (.change x v))
  | c => freshAfter fresh a c

/-- Is the view up to date after the history? -/
noncomputable def upToDate (diff : List Id → List Id → List Id) : Bool → List (FAct V) → FApp V → Bool
  | fresh, [], _ => fresh
  | fresh, c :: cs, a => upToDate diff (keepsUp fresh a c) cs (a.act diff c).state

/-- The view holds together, up to date or not: it shows nodes of the tree only, each of them once, at the top or below its own
parent. -/
structure HoldsTogether (a : FApp V) : Prop where
  real : ∀ x, x ≠ a.ft.root → a.ft.view.has x = true → a.s.t.has x = true
  placed : ∀ x, x ≠ a.ft.root → a.ft.view.has x = true → ∃ p, a.ft.view.pars x = [p] ∧ a.ft.view.has p = true ∧
    (p = a.ft.root ∨ IsParent a.s.t p x)
  top : a.ft.view.pars a.ft.root = []
  mirror : ∀ p x, x ∈ a.ft.view.kids p ↔ p ∈ a.ft.view.pars x
  once : ∀ x, (a.ft.view.kids x).Nodup

end Spec
end Larch
