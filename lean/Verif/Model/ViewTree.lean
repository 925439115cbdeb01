import Verif.Model.FilteredTree

/-!
# `ViewTree`

`liblarch/viewtree.py`, the object the application gets from `get_main_view` and `get_viewtree`. The main view is *static*:
it reads the main tree, but makes a `FilteredTree` for itself at the first question that needs one. The other views read
their `FilteredTree`.

The registration of callbacks (`viewtree.py:89-119`) is modelled in `Model/Callbacks.lean`, `queue_action` (82-83) in
`Model/RunOnce.lean`. Simplification: numbers of children are asked for with `n ≥ 0`.
-/

namespace Larch

/-- `'anonymous_root'` (`filteredtree.py:57`). -/
def anonRoot : Id := .str 1000

/-- `ViewTree` (`viewtree.py:28-80`): `static` and `__ft`. -/
structure VT where
  static : Bool
  ft : Option FT := none

namespace VT

variable {D : Type}

/-- What a method returns, and the view afterwards. -/
abbrev Answer (α : Type) := Except Err α × VT

/-- `ViewTree(..., static=True)` (`viewtree.py:53-64`). -/
def newStatic : VT := { static := true }

/-- `ViewTree(..., static=False)` (`viewtree.py:65-68`) around its `FilteredTree`. -/
def ofFT (ft : FT) : VT := { static := false, ft := some ft }

/-- `if not self.__ft: self.__ft = FilteredTree(...)` (`viewtree.py:159-161, 171-173, 220-222`). -/
def ensure (diff : List Id → List Id → List Id) (b : Bank D) (t : Tree) (d : D) (v : VT) : Res FT :=
  match v.ft with
  | some ft => .ok ft
  | none => FT.new diff b t d anonRoot true

/-- Ask the `FilteredTree`, after making it if necessary. -/
def ask {α : Type} (diff : List Id → List Id → List Id) (b : Bank D) (t : Tree) (d : D) (v : VT)
    (q : FT → Except Err α) : Answer α :=
  match v.ensure diff b t d with
  | .ok ft => (q ft, { v with ft := some ft })
  | .err e _ => (.error e, v)

/-- `self.__ft.…` where nothing makes the `FilteredTree`: `None` has no such attribute. -/
def direct {α : Type} (v : VT) (q : FT → Except Err α) : Except Err α :=
  match v.ft with
  | some ft => q ft
  | none => .error .attributeError

/-- `get_n_nodes` (`viewtree.py:152-162`). -/
def nNodes (diff : List Id → List Id → List Id) (b : Bank D) (t : Tree) (d : D) (v : VT) (fs : List FName) : Answer Nat :=
  v.ask diff b t d fun ft => ft.nNodes b t d fs

/-- `get_nodes` (`viewtree.py:164-174`). -/
def getNodes (diff : List Id → List Id → List Id) (b : Bank D) (t : Tree) (d : D) (v : VT) (fs : List FName) :
    Answer (List Id) :=
  v.ask diff b t d fun ft => ft.getNodes b t d fs

/-- `node_n_children` (`viewtree.py:216-223`). -/
def nChildren (diff : List Id → List Id → List Id) (b : Bank D) (t : Tree) (d : D) (v : VT) (x : Id) (recursive : Bool) :
    Answer Nat :=
  v.ask diff b t d fun ft => ft.nChildren x recursive

/-- `get_all_nodes` (`viewtree.py:148-150`). -/
def allNodes (t : Tree) (v : VT) : Except Err (List Id) :=
  if v.static then .ok t.allNodes else v.direct FT.allNodes

/-- `get_node_for_path` (`viewtree.py:176-180`). -/
def nodeForPath (t : Tree) (v : VT) (path : List Id) : Except Err (Option Id) :=
  if v.static then t.nodeForPath path else v.direct fun ft => ft.nodeForPath path

/-- `get_paths_for_node` (`viewtree.py:182-188`). -/
def pathsFor (t : Tree) (v : VT) (x : Id) : Except Err (List (List Id)) :=
  if v.static then t.getPaths x else v.direct fun ft => ft.pathsFor x

/-- `next_node` (`viewtree.py:191-197`). -/
def nextNode (t : Tree) (v : VT) (x p : Id) : Except Err (Option Id) :=
  if v.static then t.nextNode x p else v.direct fun ft => ft.nextNode x p

/-- `node_has_child` (`viewtree.py:199-204`). -/
def hasChild (t : Tree) (v : VT) (x : Id) : Except Err Bool :=
  if v.static then
    match t.getNode x with
    | .ok nd => .ok (Tree.nodeHasChild nd)
    | .error e => .error e
  else v.direct fun ft => ft.hasChild x

/-- `node_all_children` (`viewtree.py:206-214`). -/
def allChildren (t : Tree) (v : VT) (x : Id) : Except Err (List Id) :=
  if v.static then
    if x.falsy || t.has x then
      match t.getNode x with
      | .ok nd => .ok (t.childrenOf nd)
      | .error e => .error e
    else .ok []
  else v.direct fun ft => ft.allChildren x

/-- `node_nth_child` (`viewtree.py:225-243`) for `n ≥ 0`. -/
def nthChild (t : Tree) (v : VT) (x : Id) (n : Nat) : Except Err Id :=
  if v.static then
    match (if x.falsy || x = rootId then .ok t.root else t.getNode x) with
    | .error e => .error e
    | .ok nd => if (t.childrenOf nd).length > n then Tree.nthChild nd n else .error .valueError
  else v.direct fun ft =>
    match ft.nChildren x false with
    | .error e => .error e
    | .ok realn => if realn ≤ n then .error .valueError else ft.nthChild x n

/-- `node_parents` (`viewtree.py:249-259`). -/
def nodeParents (t : Tree) (v : VT) (x : Id) : Except Err (List Id) :=
  if v.static then
    match t.getNode x with
    | .ok nd => .ok (t.parentsOf nd)
    | .error e => .error e
  else v.direct fun ft => ft.nodeParents x

/-- `node_has_parent` (`viewtree.py:245-247`). -/
def hasParent (t : Tree) (v : VT) (x : Id) : Except Err Bool :=
  match v.nodeParents t x with
  | .ok l => .ok (decide (l.length > 0))
  | .error e => .error e

/-- `is_displayed` (`viewtree.py:261-266`, `filteredtree.py:350-353`). -/
def isDisplayed (t : Tree) (v : VT) (x : Id) : Except Err Bool :=
  if v.static then .ok (t.has x) else v.direct fun ft => .ok (ft.view.has x)

/-- `list_applied_filters` (`viewtree.py:269-270`). -/
def listApplied (v : VT) : Except Err (List FName) := v.direct fun ft => .ok ft.applied

/-- `apply_filter`, `unapply_filter` and `reset_filters` of a static view raise before they do anything
(`viewtree.py:281-283, 292-294, 300-302`); here: what they raise, if they do. -/
def filtersRefused (v : VT) : Option Err := if v.static then some .inconsistent else none

end VT

/-- `MainTree.refresh_all` (`tree.py:97-100`), also `ViewTree.refresh_all` and `get_current_state` of the main view
(`viewtree.py:130-131, 139-140`), for the thread that made the tree. -/
def refreshAll (s : St) : Res St := Res.forEach (fun x s => modifyNode s x) s.t.nodes.keys s

/-- An application with the main view: the tree, each node's own data, the filter bank and the main view. -/
structure MApp (V : Type) where
  s : St
  data : Id → V
  bank : Bank (Id → V)
  vt : VT

/-- What it can do. The last three are the questions for which the main view makes a `FilteredTree`. -/
inductive MAct (V : Type) where
  | edit (op : Op)
  | change (x : Id) (v : V)               -- change a node's data, then node.modified() (treenode.py:49-52)
  | bank (c : Bank.Call (Id → V))         -- Tree.add_filter, Tree.remove_filter
  | setParams (n : FName) (p : Params)    -- a view applies the filter with parameters (filteredtree.py:612-616)
  | nNodes (fs : List FName)
  | getNodes (fs : List FName)
  | nChildren (x : Id) (recursive : Bool)

namespace MApp

variable {V : Type}

/-- A new application: no nodes, no filters (`__init__.py:56-63`). -/
def init (d : Id → V) : MApp V := ⟨St.init, d, {}, VT.newStatic⟩

/-- An edit; the `FilteredTree` of the main view, if there is one, handles the notifications (`filteredtree.py:66-68`).
As in `FApp.edit` it does so after the edit, on the recorded notifications. -/
def edit (diff : List Id → List Id → List Id) (a : MApp V) (op : Op) : Res (MApp V) :=
  let s' := (step a.s op).state
  match a.vt.ft with
  | none => .ok { a with s := s' }
  | some ft =>
    match Res.forEach (FT.react diff a.bank a.data) (s'.log.drop a.s.log.length) ft with
    | .ok ft' => .ok { a with s := s', vt := { a.vt with ft := some ft' } }
    | .err e ft' => .err e { a with s := s', vt := { a.vt with ft := some ft' } }

/-- The application after a question; the question may raise. -/
def asked {α : Type} (a : MApp V) : VT.Answer α → Res (MApp V)
  | (.ok _, v) => .ok { a with vt := v }
  | (.error e, v) => .err e { a with vt := v }

/-- One action. -/
def act (diff : List Id → List Id → List Id) (a : MApp V) : MAct V → Res (MApp V)
  | .edit op => a.edit diff op
  | .change x v => ({ a with data := fun y => if y = x then v else a.data y } : MApp V).edit diff (.refreshNode x)
  | .bank c => .ok { a with bank := (a.bank.call c).2 }
  | .setParams n p => .ok { a with bank := a.bank.setParameters n (some p) }
  | .nNodes fs => a.asked (a.vt.nNodes diff a.bank a.s.t a.data fs)
  | .getNodes fs => a.asked (a.vt.getNodes diff a.bank a.s.t a.data fs)
  | .nChildren x r => a.asked (a.vt.nChildren diff a.bank a.s.t a.data x r)

/-- A history of actions, ended by the first exception of the view. -/
def run (diff : List Id → List Id → List Id) : List (MAct V) → MApp V → Res (MApp V)
  | [], a => .ok a
  | c :: cs, a => (a.act diff c).andThen (run diff cs)

end MApp
end Larch
