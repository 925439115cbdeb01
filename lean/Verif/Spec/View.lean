import Mathlib.Data.List.Chain
import Verif.Model.FilteredTree

/-!
# What a view should look like

Rows of a view are identified by their path: the chain of nodes from below the virtual root to the row.
-/

namespace Larch
namespace Spec

/-- An observer's list of rows after one signal; `none` if the signal makes no sense to it:
* a row to insert must be new and its parent row must exist;
* a row to update must exist;
* a row to delete must exist and must have no rows below it. -/
def applySig (rows : List (List Id)) (s : Sig) : Option (List (List Id)) :=
  if s.path.getLast? = some s.nid then
    match s.ev with
    | .added =>
      if s.path ∉ rows ∧ (s.path.dropLast = [] ∨ s.path.dropLast ∈ rows) then some (s.path :: rows) else none
    | .modified => if s.path ∈ rows then some rows else none
    | .deleted =>
      if s.path ∈ rows ∧ ∀ r ∈ rows, s.path <+: r → r = s.path then some (rows.erase s.path) else none
  else none

/-- The rows of an observer that starts with `rows`. -/
def replay : List Sig → List (List Id) → Option (List (List Id))
  | [], rows => some rows
  | s :: l, rows => (applySig rows s).bind (replay l)

/-- `l` is a chain of displayed parent/child pairs that starts below the virtual root. -/
def IsRow (ft : FT) (l : List Id) : Prop :=
  l ≠ [] ∧ List.IsChain (fun p c => c ∈ ft.view.kids p) (ft.root :: l)

/-- Any order in which Python may iterate over the difference of two sets. -/
def SetDiff (diff : List Id → List Id → List Id) : Prop :=
  ∀ a b, (diff a b).Nodup ∧ ∀ x, x ∈ diff a b ↔ x ∈ a ∧ x ∉ b

/-- A view that holds together, whatever the tree and the filters are: the virtual root is there and has no parents,
children are displayed, parents and children mirror each other and are listed once, and nobody is below itself. -/
structure ViewOK (ft : FT) : Prop where
  once : ft.view.nodes.keys.Nodup
  root : ft.view.has ft.root = true
  top : ft.view.pars ft.root = []
  shown : ∀ p c, c ∈ ft.view.kids p → ft.view.has c = true
  mirror : ∀ p c, c ∈ ft.view.kids p ↔ p ∈ ft.view.pars c
  parents_once : ∀ x, (ft.view.pars x).Nodup
  children_once : ∀ x, (ft.view.kids x).Nodup
  noCycle : ∀ x, ¬ Relation.TransGen (fun p c => c ∈ ft.view.kids p) x x

/-- C30: `sent` announces every row of the view once, rows after their parent rows, and nothing else. -/
structure Announces (ft : FT) (sent : List Sig) : Prop where
  added : ∀ s ∈ sent, s.ev = .added
  node : ∀ s ∈ sent, s.path.getLast? = some s.nid
  once : (sent.map Sig.path).Nodup
  rows : ∀ l, l ∈ sent.map Sig.path ↔ IsRow ft l
  order : ∀ before s after, sent = before ++ s :: after → s.path.dropLast = [] ∨ s.path.dropLast ∈ before.map Sig.path

end Spec
end Larch
