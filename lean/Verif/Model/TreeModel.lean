import Verif.Model.View

/-!
# The GTK tree model

`TreeModel` (`liblarch_gtk/treemodel.py`), a `Gtk.TreeStore` filled by the signals of a view, with its two caches.

A row of the store is a block of memory; an iterator (`Gtk.TreeIter`) points to it. What GTK does, and is taken from its
documentation and source and not from `/repo`:

* an iterator is valid exactly if a row lives at the address it points to (`gtk_tree_store_iter_is_valid`); the memory of
  a removed row may be used again for a new row;
* `remove(it)` removes the row with all rows below it and changes the iterator *in place*: it points to the next sibling
  afterwards, or is invalid if there is none;
* rows keep their addresses when the store is sorted.

The store may be sorted in any way, so which child is the `n`-th and which sibling is the next one is decided by a
`GtkOrder`.

Simplifications: ids are strings (`str(path[-1])` at 75 changes nothing); the first column of a row is the id of its node
(33); the other columns and the functions that compute them are left out; the counters `count` and `count2` are left out.
Paths are read from the node upwards.
-/

namespace Larch

/-- A row of the `Gtk.TreeStore`: where it lives, the address of its parent row, and its first column. -/
structure GRow where
  addr : Nat
  parent : Option Nat
  nid : Id
deriving DecidableEq, Repr

/-- The order of the rows: `nth rows p n` is the result of `iter_nth_child(p, n)`, `next rows a` the sibling after `a`. -/
structure GtkOrder where
  nth : List GRow → Option Nat → Nat → Option Nat
  next : List GRow → Nat → Option Nat

/-- The rows, `cache_paths` and `cache_position` (`treemodel.py:37-38`). A path that is not cached, one cached as `None`
and one cached with an iterator that has become invalid in place are not distinguished (`treemodel.py:80`). -/
structure TM where
  rows : List GRow := []
  cpaths : List Id → Option Nat := fun _ => none
  cpos : List Id → Option Nat := fun _ => none

namespace TM

/-- `self.get_value(iter, 0)`; `none` if the iterator is not valid. -/
def value (m : TM) (a : Nat) : Option Id := (m.rows.find? (fun r => r.addr = a)).map GRow.nid

/-- Going through the children of `p` until the first column is `x` (`treemodel.py:94-99`). -/
def scan (m : TM) (p : Option Nat) (x : Id) : Option Nat :=
  (m.rows.find? (fun r => r.parent = p ∧ r.nid = x)).map GRow.addr

/-- `dict[path] = value` for the two caches. -/
def put (d : List Id → Option Nat) (k : List Id) (v : Option Nat) : List Id → Option Nat :=
  fun k' => if k' = k then v else d k'

/-- The ad-hoc optimisation with the last known position (`treemodel.py:88-92`): `if pos` ignores position 0. -/
def byPosition (O : GtkOrder) (m : TM) (root : Option Nat) (k : List Id) (x : Id) : Option Nat :=
  match m.cpos k with
  | none => none
  | some pos =>
    if pos = 0 then none
    else
      match O.nth m.rows root pos with
      | none => none
      | some a => if m.value a = some x then some a else none

/-- `my_get_iter` (`treemodel.py:67-102`), with the path read upwards. -/
def getIterUp (O : GtkOrder) : List Id → TM → Option Nat × TM
  | [], m => (none, m)
  | x :: up, m =>
    match m.cpaths (x :: up) with
    | some a =>
      if m.value a = some x then (some a, m)
      else
        let (root, m) := getIterUp O up m
        let it := (m.byPosition O root (x :: up) x).or (m.scan root x)
        (it, { m with cpaths := put m.cpaths (x :: up) it })
    | none =>
      let (root, m) := getIterUp O up m
      let it := (m.byPosition O root (x :: up) x).or (m.scan root x)
      (it, { m with cpaths := put m.cpaths (x :: up) it })

/-- `my_get_iter(path)`. -/
def getIter (O : GtkOrder) (path : List Id) (m : TM) : Option Nat × TM := getIterUp O path.reverse m

/-- The addresses of a row and of all rows below it; as many steps down as there are rows. -/
def subtree (rows : List GRow) (a : Nat) : Nat → List Nat
  | 0 => [a]
  | n + 1 =>
    let s := subtree rows a n
    s ++ (rows.filter (fun r => r.parent.any (s.contains ·))).map GRow.addr

/-- `add_task` (`treemodel.py:127-146`); the new row lives at `a`. -/
def addTask (O : GtkOrder) (m : TM) (nid : Id) (path : List Id) (a : Nat) : Res TM :=
  let (it, m) := m.getIter O path.dropLast
  let n := (m.rows.filter (fun r => r.parent = it)).length
  .ok { m with cpos := put m.cpos path.reverse (some n), rows := m.rows ++ [⟨a, it, nid⟩] }

/-- `remove_task` (`treemodel.py:148-161`). -/
def removeTask (O : GtkOrder) (m : TM) (nid : Id) (path : List Id) : Res TM :=
  let (it, m) := m.getIter O path
  match it with
  | none => .err .inconsistent m
  | some a =>
    if m.value a = some nid then
      let gone := subtree m.rows a m.rows.length
      -- the iterator removed is the one kept in the cache
      let m := { m with
        cpaths := put m.cpaths path.reverse (O.next m.rows a)
        rows := m.rows.filter (fun r => !gone.contains r.addr) }
      match m.cpos path.reverse with
      | none => .err .keyError m
      | some _ => .ok { m with cpos := put m.cpos path.reverse none }
    else .err .inconsistent m

/-- `update_task` (`treemodel.py:163-182`); `shown` is the answer of `is_displayed`. Setting the first column changes
nothing. -/
def updateTask (O : GtkOrder) (m : TM) (path : List Id) (shown : Bool) : Res TM :=
  if shown then .ok (m.getIter O path).2 else .ok m

/-- What happens to the model: a signal (with the address of the row if one is added, and with the answer of
`is_displayed`), or somebody looking up a path. -/
inductive Act where
  | sig (s : Sig) (addr : Nat) (shown : Bool)
  | lookup (path : List Id)

def act (O : GtkOrder) (m : TM) : Act → Res TM
  | .sig s a shown =>
    match s.ev with
    | .added => m.addTask O s.nid s.path a
    | .modified => m.updateTask O s.path shown
    | .deleted => m.removeTask O s.nid s.path
  | .lookup path => .ok (m.getIter O path).2

/-- A history, ended by the first exception. -/
def run (O : GtkOrder) : List Act → TM → Res TM
  | [], m => .ok m
  | c :: cs, m => (m.act O c).andThen (run O cs)

end TM
end Larch
