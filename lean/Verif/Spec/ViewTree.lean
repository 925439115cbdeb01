import Verif.Model.ViewTree
import Verif.Spec.FilteredTree

/-! # What is claimed about the main view -/

namespace Larch
namespace Spec

variable {V : Type}

/-- What the application keeps to: edits are careful (`Careful`), no node is called `'anonymous_root'`, and, once the main view
has a `FilteredTree`, a node is removed recursively only if its descendants have at most three parents. Filters and data are
changed freely. -/
def MainFair (a : MApp V) : MAct V → Prop
  | .edit op => Careful a.s op ∧ (∀ nd p, op = .addNode nd p → nd.id ≠ anonRoot) ∧
      (a.vt.ft.isSome = true → ∀ x, op = .delNode x true → ∀ y, Descendant a.s.t y x → (a.s.t.getParents y).length ≤ 3)
  | _ => True

/-- Every action of the history meets the condition in the state where it is made. -/
def MainFairRun (diff : List Id → List Id → List Id) : List (MAct V) → MApp V → Prop
  | [], _ => True
  | c :: cs, a => MainFair a c ∧ MainFairRun diff cs (a.act diff c).state

/-- The answers of the main view are those of the tree. -/
structure MainAgrees (diff : List Id → List Id → List Id) (a : MApp V) : Prop where
  displayed : ∀ x, a.vt.isDisplayed a.s.t x = .ok (a.s.t.has x)
  nodes : ∃ l, a.vt.allNodes a.s.t = .ok l ∧ l.Nodup ∧ (∀ x, x ∈ l ↔ a.s.t.has x = true) ∧
    (a.vt.nNodes diff a.bank a.s.t a.data []).1 = .ok l.length
  filtered : ∀ fs, ∃ l, (a.vt.getNodes diff a.bank a.s.t a.data fs).1 = .ok l ∧
    (a.vt.nNodes diff a.bank a.s.t a.data fs).1 = .ok l.length ∧ l.Nodup ∧
    ∀ x, x ∈ l ↔ a.s.t.has x = true ∧ ∀ n ∈ fs, ∀ f, a.bank.getFilter n = some f → f.isDisplayed a.s.t a.data x = true
  children : ∀ x, a.s.t.has x = true → a.vt.allChildren a.s.t x = .ok (a.s.t.getChildren x) ∧
    (a.vt.nChildren diff a.bank a.s.t a.data x false).1 = .ok (a.s.t.getChildren x).length ∧
    a.vt.hasChild a.s.t x = .ok (decide (a.s.t.getChildren x ≠ []))
  top : a.vt.allChildren a.s.t .none = .ok a.s.t.rootChildren ∧
    (a.vt.nChildren diff a.bank a.s.t a.data .none false).1 = .ok a.s.t.rootChildren.length ∧
    a.vt.hasChild a.s.t .none = .ok (decide (a.s.t.rootChildren ≠ []))
  nth : ∀ x n, a.s.t.has x = true →
    a.vt.nthChild a.s.t x n = match (a.s.t.getChildren x)[n]? with | some c => .ok c | none => .error .valueError
  nth_top : ∀ n,
    a.vt.nthChild a.s.t .none n = match a.s.t.rootChildren[n]? with | some c => .ok c | none => .error .valueError
  /-- The recursive number counts the chains of children that begin below the node. -/
  below : ∀ x, a.s.t.has x = true → ∃ rows : List (List Id), (a.vt.nChildren diff a.bank a.s.t a.data x true).1 = .ok rows.length ∧
    rows.Nodup ∧ ∀ l, l ∈ rows ↔ l ≠ [] ∧ List.IsChain (IsChild a.s.t) (x :: l)
  parents : ∀ x, a.s.t.has x = true → a.vt.nodeParents a.s.t x = .ok (a.s.t.getParents x) ∧
    a.vt.hasParent a.s.t x = .ok (decide (a.s.t.getParents x ≠ []))
  unknown : ∀ x, a.s.t.has x = false → x ≠ .none → x ≠ anonRoot → ∀ r,
    (a.vt.nChildren diff a.bank a.s.t a.data x r).1 = .ok 0
  unknown_kids : ∀ x, a.s.t.has x = false → x ≠ .none → x ≠ .empty → a.vt.allChildren a.s.t x = .ok []
  refused : a.vt.filtersRefused = some .inconsistent

end Spec
end Larch
