import Verif.Spec.Tree

/-!
# What is claimed about following the tree through its notifications
-/

namespace Larch
namespace Spec

/-- What somebody knows after a notification, who keeps a table of (parent, child) pairs: the pairs with the named node
are thrown away and its parents and children are read again. -/
def reread (R : Id → Id → Prop) (n : Note) : Id → Id → Prop := fun p c =>
  (p ≠ n.nid ∧ c ≠ n.nid ∧ R p c) ∨ (c = n.nid ∧ IsParent n.snap p c) ∨ (p = n.nid ∧ IsChild n.snap p c)

/-- The same after several notifications. -/
def heard (R : Id → Id → Prop) : List Note → Id → Id → Prop
  | [] => R
  | n :: log => heard (reread R n) log

/-- The table is right. -/
structure Knows (R : Id → Id → Prop) (t : Tree) : Prop where
  parents : ∀ p c, R p c ↔ IsParent t p c
  children : ∀ p c, R p c ↔ IsChild t p c

end Spec
end Larch
