import Verif.Model.TreeModel
import Verif.Spec.View

/-!
# What is claimed about the GTK tree model
-/

namespace Larch
namespace Spec

open TM

/-- The path of the row at an address: the first columns from the top down to it. -/
inductive RowPath (rows : List GRow) : Nat → List Id → Prop
  | top {r : GRow} : r ∈ rows → r.parent = none → RowPath rows r.addr [r.nid]
  | under {r : GRow} {p : Nat} {l : List Id} :
    r ∈ rows → r.parent = some p → RowPath rows p l → RowPath rows r.addr (l ++ [r.nid])

/-- The rows of the store are exactly the announced paths: every row has one path and it is announced, and every
announced path has one row. -/
structure Mirrors (store : List GRow) (rows : List (List Id)) : Prop where
  addrs : (store.map GRow.addr).Nodup
  row : ∀ r ∈ store, ∃ l ∈ rows, RowPath store r.addr l ∧ ∀ l', RowPath store r.addr l' → l' = l
  path : ∀ l ∈ rows, ∃ r ∈ store, RowPath store r.addr l ∧ ∀ r' ∈ store, RowPath store r'.addr l → r' = r

/-- What GTK promises about its answers: the `n`-th child is a child, the next sibling is another child of the same
row. -/
structure GtkSound (O : GtkOrder) : Prop where
  nth : ∀ rows p n a, O.nth rows p n = some a → ∃ r ∈ rows, r.addr = a ∧ r.parent = p
  next : ∀ rows a b, O.next rows a = some b →
    ∃ q ∈ rows, q.addr = b ∧ b ≠ a ∧ ∃ r ∈ rows, r.addr = a ∧ q.parent = r.parent

/-- The signals of a history. -/
def signals : List Act → List Sig
  | [] => []
  | .sig s _ _ :: h => s :: signals h
  | .lookup _ :: h => signals h

/-- The addresses of the rows created in a history. -/
def addresses : List Act → List Nat
  | [] => []
  | .sig s a _ :: h => if s.ev = .added then a :: addresses h else addresses h
  | .lookup _ :: h => addresses h

/-- A new row lives where no row lives now. -/
def FreshNow (m : TM) : Act → Prop
  | .sig s a _ => s.ev = .added → ∀ r ∈ m.rows, r.addr ≠ a
  | .lookup _ => True

/-- No other path of the same node is cached with the address where the new row will live. -/
def NotCached (m : TM) : Act → Prop
  | .sig s a _ => s.ev = .added → ∀ k, m.cpaths k = some a → k.head? = some s.nid → k = s.path.reverse
  | .lookup _ => True

/-- Paths are looked up only if the row above them is there. -/
def ParentThere (m : TM) : Act → Prop
  | .sig _ _ _ => True
  | .lookup path => path.dropLast = [] ∨ ∃ a, RowPath m.rows a path.dropLast

/-- Something holds before every step of a history. -/
def Throughout (O : GtkOrder) (P : TM → Act → Prop) : List Act → TM → Prop
  | [], _ => True
  | c :: cs, m => P m c ∧ Throughout O P cs (m.act O c).state

/-- What is found for a path, if the row above is announced: its row, if it has one. -/
def Finds (O : GtkOrder) (m : TM) (rows : List (List Id)) : Prop :=
  ∀ path, path.dropLast = [] ∨ path.dropLast ∈ rows → ∀ a, (m.getIter O path).1 = some a ↔ RowPath m.rows a path

end Spec
end Larch
