import Verif.Spec.Hierarchy
import Verif.Spec.Leftover

/-!
# What is claimed about the edits of a hierarchy
-/

namespace Larch
namespace Spec

/-- The tree is sound and nobody has two parents. -/
def SoundForest (t : Tree) : Prop := Sound t ∧ Forest t

/-- From `t` to `t'` the node `x` gets the parents `ps`, and nothing else happens. -/
structure PutAt (t t' : Tree) (x : Id) (ps : List Id) : Prop where
  nodes : ∀ y, t'.has y = t.has y
  place : t'.getParents x = ps
  others : ∀ y, y ≠ x → t'.getParents y = t.getParents y
  sound : SoundForest t'

/-- From `t` to `t'` the new node `x` comes with the parents `ps`, and nothing else happens. -/
structure Arrives (t t' : Tree) (x : Id) (ps : List Id) : Prop where
  nodes : ∀ y, t'.has y = true ↔ t.has y = true ∨ y = x
  place : t'.getParents x = ps
  others : ∀ y, y ≠ x → t'.getParents y = t.getParents y
  sound : SoundForest t'

/-- From `t` to `t'` the nodes in `gone` leave; the others keep their parents as far as these stay. -/
structure Leave (t t' : Tree) (gone : Id → Prop) : Prop where
  nodes : ∀ y, t'.has y = true ↔ t.has y = true ∧ ¬ gone y
  parents : ∀ p y, IsParent t' p y ↔ IsParent t p y ∧ ¬ gone p ∧ ¬ gone y
  sound : SoundForest t'

end Spec
end Larch
