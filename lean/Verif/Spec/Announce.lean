import Verif.Spec.FilteredTree
import Verif.Model.Announce

/-!
# What is claimed about changes that are announced later
-/

namespace Larch
namespace Spec

variable {V : Type}

/-- Nobody has two parents. -/
def Forest (t : Tree) : Prop := ∀ x p q, IsParent t p x → IsParent t q x → p = q

/-- A change from `a` to `a'` that the view can catch up with: whether the view is flat stays the same, and the view is flat,
or the tree is a forest, or no displayed node has to go. -/
def CatchUp (a a' : FApp V) : Prop :=
  (FlatView a' ↔ FlatView a) ∧ (FlatView a ∨ Forest a.s.t ∨ ∀ x, Wanted a x → Wanted a' x)

/-- What the application keeps to: announced actions are fair (`ViewFair`), the view can catch up with the other ones
(`CatchUp`), and all nodes for which the filters' answer changed are announced. -/
def LateFair (a : FApp V) : LAct V → Prop
  | .act c => ViewFair a c
  | .late d ps told => CatchUp a (a.silently d ps) ∧ ∀ x, x ∉ told → (Wanted (a.silently d ps) x ↔ Wanted a x)
  | .lateAll d ps => CatchUp a (a.silently d ps)

/-- Every action of the history meets the condition in the state where it is made. -/
def LateFairRun (diff : List Id → List Id → List Id) : List (LAct V) → FApp V → Prop
  | [], _ => True
  | c :: cs, a => LateFair a c ∧ LateFairRun diff cs (a.actLate diff c).state

end Spec
end Larch
