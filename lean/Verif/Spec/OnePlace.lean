import Verif.Spec.Hierarchy
import Verif.Spec.Reading

/-!
# What is claimed about the place of a node
-/

namespace Larch
namespace Spec

variable {V : Type}

/-- The path `l` leads down to `x` through ancestors of `x` only, each the parent of the next one. -/
structure LeadsDown (t : Tree) (l : List Id) (x : Id) : Prop where
  ends : l.getLast? = some x
  down : l.IsChain (IsParent t)
  above : ∀ y ∈ l, y = x ∨ Ancestor t y x

/-- The node `x` has exactly one path in the tree, which is found again, and it consists of all its ancestors and itself. -/
def OnePath (t : Tree) (x : Id) : Prop :=
  ∃ l, t.getPaths x = .ok [l] ∧ t.nodeForPath l = .ok (some x) ∧ LeadsDown t l x ∧ ∀ y, Ancestor t y x → y ∈ l

/-- The node `x` has exactly one row in the view, which is found again, and above it are only ancestors. -/
def OneRow (a : FApp V) (x : Id) : Prop :=
  ∃ l, a.ft.pathsFor x = .ok [l] ∧ a.ft.nodeForPath l = .ok (some x) ∧ LeadsDown a.s.t l x

end Spec
end Larch
