import Verif.Model.Print
import Verif.Spec.View
import Verif.Spec.Reading
import Verif.Spec.TreeModel

/-!
# What is claimed about printing and checking
-/

namespace Larch
namespace Spec

variable {α : Type}

/-- `l` starts at the top and goes from each element to one of its children. -/
def Downward (top : List α) (kids : α → List α) (l : List α) : Prop :=
  (∃ x ∈ top, l.head? = some x) ∧ l.IsChain fun p c => c ∈ kids p

/-- The children of the last element, or the top level. -/
def below (top : List α) (kids : α → List α) (l : List α) : List α :=
  match l.getLast? with
  | none => top
  | some x => kids x

/-- `l` comes before `l'` when going down first: `l'` goes on where `l` ends, or they part somewhere and `l` takes the child that
is listed earlier. -/
def DepthFirst (top : List α) (kids : α → List α) (l l' : List α) : Prop :=
  l ≠ l' ∧ (l <+: l' ∨ ∃ p x y r r', l = p ++ x :: r ∧ l' = p ++ y :: r' ∧ [x, y].Sublist (below top kids p))

/-- All ways down, once each, depth first. -/
structure Listing (top : List α) (kids : α → List α) (rows : List (List α)) : Prop where
  all : ∀ l, l ∈ rows ↔ Downward top kids l
  order : rows.Pairwise (DepthFirst top kids)

/-- The line for a row: indented by its depth, with the id of its node. -/
def lineOf (l : List Id) : Line := (l.length, l.getLast?.getD .none)

/-- What GTK promises about the order of the rows: the children of a row are in some order (`order`), `iter_nth_child` and
`iter_next` answer in this order. No two rows live at the same address. -/
structure GtkOrdered (O : GtkOrder) (order : List GRow → Option Nat → List Nat) : Prop where
  mem : ∀ rows p a, a ∈ order rows p ↔ ∃ r ∈ rows, r.addr = a ∧ r.parent = p
  once : ∀ rows p, (rows.map GRow.addr).Nodup → (order rows p).Nodup
  nth : ∀ rows p n, O.nth rows p n = (order rows p)[n]?
  next : ∀ rows p before a after, (rows.map GRow.addr).Nodup → order rows p = before ++ a :: after → O.next rows a = after.head?

/-- C57: what `test_validity` tests. -/
structure Valid (ft : FT) : Prop where
  parents : ∀ x, ft.view.has x = true → ∀ p ∈ ft.view.pars x, ft.view.has p = true ∧ x ∈ ft.view.kids p
  orphans : ∀ x, ft.view.has x = true → ft.view.pars x = [] → x = ft.root
  children : ∀ x, ft.view.has x = true → ∀ c ∈ ft.view.kids x, ft.view.has c = true ∧ x ∈ ft.view.pars c

end Spec
end Larch
