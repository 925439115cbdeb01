import Verif.Spec.FilteredTree

/-!
# What is claimed about needless signals
-/

namespace Larch
namespace Spec

/-- The view shows `z` only before or only after, or shows it below other parents. -/
def Shifted (ft ft' : FT) (z : Id) : Prop :=
  ft'.view.has z ≠ ft.view.has z ∨ ∃ p, ¬ (p ∈ ft'.view.pars z ↔ p ∈ ft.view.pars z)

/-- C51: rows are added and deleted only if they pass through a node that comes, goes or gets other parents in the view, and
a row that is there before and afterwards is neither added nor deleted on the way. -/
structure OnlyNeeded (ft ft' : FT) (sent : List Sig) : Prop where
  through : ∀ s ∈ sent, s.ev ≠ .modified → ∃ z ∈ s.path, Shifted ft ft' z
  kept : ∀ s ∈ sent, s.ev ≠ .modified → ¬ (IsRow ft s.path ∧ IsRow ft' s.path)

/-- Edits of the tree, and changes of a node's data that are announced. -/
def IsEdit {V : Type} : FAct V → Prop
  | .edit _ => True
  | .change _ _ => True
  | _ => False

end Spec
end Larch
