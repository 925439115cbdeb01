import Verif.Spec.FilteredTree

/-!
# Filter changes without refresh

`apply_filter`, `unapply_filter` and `reset_filters` can be told not to refresh the view, and a view can be created without
being filled (`filteredtree.py:39, 598, 632, 647`, "performance optimization"). The same happens when somebody else changes a
filter in use. Until the next refresh the view is out of date.
-/

namespace Larch
namespace Spec

variable {V : Type}

/-- Is the view up to date after the action, if `fresh` tells whether it was before? -/
def freshAfter (fresh : Bool) (a : FApp V) : FAct V → Bool
  | .edit _ => fresh
  | .change _ _ => fresh
  | .bank (.add n _ _) => fresh && (decide (n ∉ a.ft.applied) || (a.bank.getFilter n).isSome)
  | .bank (.remove n) => fresh && decide (n ∉ a.ft.applied)
  | .setParams n _ => fresh && decide (n ∉ a.ft.applied)
  | .apply n p reset refresh =>
    if FT.givesParams p || reset || decide (n ∉ a.ft.applied) then refresh else fresh
  | .unapply n refresh => if n ∈ a.ft.applied then refresh else fresh
  | .reset refresh => refresh || (fresh && decide (a.ft.applied = []))
  | .currentState => fresh

/-- What the application keeps to, if `fresh` tells whether the view is up to date: as in `ViewFair`, but the tree and the data
are touched only while the view is up to date, and filters may be changed by anybody, with or without refresh. -/
def BatchFair (fresh : Bool) (a : FApp V) : FAct V → Prop
  | .edit op => fresh = true ∧ ViewFair a (.edit op)
  | .change x v => fresh = true ∧ ViewFair a (.change x v)
  | .bank _ => True
  | .setParams _ _ => True
  | .apply n p _ _ => FT.givesParams p = true → (a.bank.getFilter n).isSome = true
  | .unapply _ _ => True
  | .reset _ => True
  | .currentState => False

/-- Every action of the history meets the condition in the state where it is made. -/
def BatchFairRun (diff : List Id → List Id → List Id) : Bool → List (FAct V) → FApp V → Prop
  | _, [], _ => True
  | fresh, c :: cs, a => BatchFair fresh a c ∧ BatchFairRun diff (freshAfter fresh a c) cs (a.act diff c).state

/-- Is the view up to date after the history? -/
def freshEnd (diff : List Id → List Id → List Id) : Bool → List (FAct V) → FApp V → Bool
  | fresh, [], _ => fresh
  | fresh, c :: cs, a => freshEnd diff (freshAfter fresh a c) cs (a.act diff c).state

end Spec
end Larch
