import Verif.Spec.Leftover

/-!
# What a view shows after a subtree was removed (C80)
-/

namespace Larch
namespace Spec

variable {V : Type}

/-- From `a` to `a'` the view loses `x` and everything below it in the tree of `a`, and nothing else: every other node is still
shown, below the same parents, and the rows are those without removed nodes. -/
structure LosesSubtree (a a' : FApp V) (x : Id) : Prop where
  shown : ∀ y, y ≠ a.ft.root → (a'.ft.view.has y = true ↔ a.ft.view.has y = true ∧ y ≠ x ∧ ¬ Descendant a.s.t y x)
  parents : ∀ y, y ≠ a.ft.root → a'.ft.view.has y = true → ∀ p, p ∈ a'.ft.view.pars y ↔ p ∈ a.ft.view.pars y
  rows : ∀ l, IsRow a'.ft l ↔ IsRow a.ft l ∧ ∀ y ∈ l, y ≠ x ∧ ¬ Descendant a.s.t y x

end Spec
end Larch
