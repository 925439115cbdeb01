import Verif.Spec.Batch

/-!
# What is claimed about edits while a view waits for its refresh

A view that was created without being filled, or whose filters were changed without a refresh, is told of every edit all the same.
-/

namespace Larch
namespace Spec

variable {V : Type}

/-- Whatever the view shows, it should show. (It may lack nodes, and the nodes it shows may be at the wrong places.) -/
def NothingToGo (a : FApp V) : Prop := ∀ x, x ≠ a.ft.root → a.ft.view.has x = true → Wanted a x

/-- From `a` to `a'` an edit was made: still nothing has to leave the view, nothing that it showed is lost, and it shows every wanted
node that the tree has announced. -/
structure FollowsWaiting (a a' : FApp V) : Prop where
  nothingToGo : NothingToGo a'
  kept : ∀ x, x ≠ a.ft.root → a.ft.view.has x = true → a'.s.t.has x = true → a'.ft.view.has x = true
  announced : ∀ n ∈ a'.s.log.drop a.s.log.length, Wanted a' n.nid → a'.ft.view.has n.nid = true

/-- What the application keeps to, if `fresh` tells whether the view is up to date: as in `BatchFair`, but the tree and the data may
also be touched while the view waits, provided that the applied filters look at a node's own data only and that nothing has to
leave the view, before an edit and after a change of the data. Then a node is removed recursively only if its descendants
have one parent each. -/
def WaitFair (fresh : Bool) (a : FApp V) : FAct V → Prop
  | .edit op => (fresh = true ∧ ViewFair a (.edit op)) ∨ (OwnApplied a ∧ EditFair a op ∧ PlainRemoval a op ∧ NothingToGo a)
  | .change x v => (fresh = true ∧ ViewFair a (.change x v)) ∨
      (OwnApplied a ∧ NothingToGo { a with data := fun y => if y = x then v else a.data y })
  | c => BatchFair fresh a c

/-- Every action of the history meets the condition in the state where it is made. -/
def WaitFairRun (diff : List Id → List Id → List Id) : Bool → List (FAct V) → FApp V → Prop
  | _, [], _ => True
  | fresh, c :: cs, a => WaitFair fresh a c ∧ WaitFairRun diff (freshAfter fresh a c) cs (a.act diff c).state

end Spec
end Larch
