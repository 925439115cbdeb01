import Verif.Spec.HierarchyEdits

/-!
# What is claimed about the order of siblings in a hierarchy
-/

namespace Larch
namespace Spec

/-- The nodes below `y`; `None` stands for the top level. -/
def kidsAt (t : Tree) (y : Id) : List Id := if y = .none then t.rootChildren else t.getChildren y

/-- From `t` to `t'` the node `x` is taken out from the place `q` and put last at the place `p`; the order is unchanged otherwise. If both
places are the same, nothing moves. -/
def Resettles (t t' : Tree) (x q p : Id) : Prop :=
  ∀ y, kidsAt t' y = if p = q then kidsAt t y else if y = q then (kidsAt t y).erase x else if y = p then kidsAt t y ++ [x] else kidsAt t y

end Spec
end Larch
