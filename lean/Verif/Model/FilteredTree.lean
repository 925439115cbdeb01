import Verif.Model.View

/-!
# `FilteredTree` with its filters, and an application with one view

`liblarch/filteredtree.py`. The view reads the main tree, the filter bank and the data `D` the filter functions look at.
-/

namespace Larch

/-- `FilteredTree` (`filteredtree.py:39-77`): the dict of displayed nodes with the signals sent (`view`), `root_id`,
`applied_filters` and `__flat`. -/
structure FT where
  root : Id
  applied : List FName := []
  flat : Bool := false
  view : View

namespace FT

variable {D : Type}

/-- `__is_displayed` (`filteredtree.py:335-348`). -/
def accepts (b : Bank D) (t : Tree) (d : D) (applied : List FName) (x : Id) : Bool :=
  !x.falsy && t.has x && applied.all fun n =>
    match b.getFilter n with
    | some f => f.isDisplayed t d x
    | none => false

/-- What the view reads. -/
def env (diff : List Id → List Id → List Id) (b : Bank D) (t : Tree) (d : D) (ft : FT) : VEnv where
  root := ft.root
  has := t.has
  par := t.getParents
  chi := t.getChildren
  top := t.rootChildren
  disp := accepts b t d ft.applied
  flat := ft.flat
  diff := diff

/-- Put the outcome of a view operation back. -/
def withView (ft : FT) : Res View → Res FT
  | .ok v => .ok { ft with view := v }
  | .err e v => .err e { ft with view := v }

/-- Recursion depth that suffices for `__update_node`. -/
def depth (t : Tree) (v : View) : Nat := 2 * (t.nodes.entries.length + v.nodes.entries.length) + 8

/-- Number of chains of children from `x` with fewer than `d` steps; used as fuel only. -/
def treeWalks (t : Tree) : Nat → Id → Nat
  | 0, _ => 0
  | d + 1, x => 1 + ((t.getChildren x).map (treeWalks t d)).sum

/-- Number of rounds that suffices for the loop of `refilter`: one for every chain of children from the root. -/
def rounds (t : Tree) : Nat := (t.rootChildren.map (treeWalks t (t.nodes.entries.length + 2))).sum

/-- The loop at `filteredtree.py:313-317`: is one of the applied filters flat? -/
def anyFlat (b : Bank D) (applied : List FName) : Bool := applied.any fun n =>
  match b.getFilter n with
  | some f => f.isFlat
  | none => false

/-- `refilter` (`filteredtree.py:309-333`). -/
def refilter (diff : List Id → List Id → List Id) (b : Bank D) (t : Tree) (d : D) (ft : FT) : Res FT :=
  -- 312-317
  let ft1 : FT := { ft with flat := anyFlat b ft.applied }
  ft1.withView ((env diff b t d ft1).refilter (depth t ft.view) (rounds t) ft1.view)

/-- `__init__` (`filteredtree.py:39-77`); `root` is the value computed from the name. -/
def new (diff : List Id → List Id → List Id) (b : Bank D) (t : Tree) (d : D) (root : Id) (refresh : Bool) : Res FT :=
  let ft : FT := { root := root, view := ⟨View.rootOnly root, []⟩ }
  if refresh then ft.refilter diff b t d else .ok ft

/-- `__external_modify` (`filteredtree.py:129-130`), the reaction to every notification of the main tree. -/
def react (diff : List Id → List Id → List Id) (b : Bank D) (d : D) (n : Note) (ft : FT) : Res FT :=
  ft.withView ((env diff b n.snap d ft).update (depth n.snap ft.view) n.nid .both ft.view)

/-- `bool(parameters)`: a non-empty dictionary was passed. -/
def givesParams : Option Params → Bool
  | some p => p.truthy
  | none => false

/-- `apply_filter` (`filteredtree.py:598-630`): the value returned, the bank and the view. The `parameters` dictionary is
given to the filter object in the bank, which all views share. -/
def applyFilter (diff : List Id → List Id → List Id) (b : Bank D) (t : Tree) (d : D) (ft : FT) (n : FName)
    (params : Option Params) (reset refresh : Bool) : Bool × Bank D × Res FT :=
  let ft1 : FT := if reset then { ft with applied := [] } else ft
  -- 612-619
  if givesParams params && (b.getFilter n).isNone then (false, b, .err .valueError ft1)
  else
    let b1 := if givesParams params then b.setParameters n params else b
    -- 621-626
    let isNew := decide (n ∉ ft1.applied)
    let ft2 : FT := if isNew then { ft1 with applied := ft1.applied ++ [n] } else ft1
    -- 628-630
    if refresh && (givesParams params || isNew) then (isNew, b1, ft2.refilter diff b1 t d)
    else (isNew, b1, .ok ft2)

/-- `unapply_filter` (`filteredtree.py:632-645`): the value returned, and the view. -/
def unapplyFilter (diff : List Id → List Id → List Id) (b : Bank D) (t : Tree) (d : D) (ft : FT) (n : FName)
    (refresh : Bool) : Bool × Res FT :=
  if n ∈ ft.applied then
    let ft1 : FT := { ft with applied := ft.applied.erase n }
    (true, if refresh then ft1.refilter diff b t d else .ok ft1)
  else (false, .ok ft)

/-- `reset_filters` (`filteredtree.py:647-654`). -/
def resetFilters (diff : List Id → List Id → List Id) (b : Bank D) (t : Tree) (d : D) (ft : FT) (refresh : Bool) :
    Res FT :=
  let ft1 : FT := { ft with applied := [] }
  if refresh then ft1.refilter diff b t d else .ok ft1

/-! ### Reading the view -/

/-- `get_all_nodes` (`filteredtree.py:466-469`). -/
def allNodes (ft : FT) : Except Err (List Id) :=
  if ft.root ∈ ft.view.nodes.keys then .ok (ft.view.nodes.keys.erase ft.root) else .error .valueError

/-- `get_nodes` (`filteredtree.py:481-516`). The branch for `filter_cache` is never taken, because nothing is ever put
there. -/
def getNodes (b : Bank D) (t : Tree) (d : D) (ft : FT) (withfilters : List FName) : Except Err (List Id) :=
  if withfilters = [] then ft.allNodes
  else
    let filters := withfilters.filterMap b.getFilter
    .ok (ft.view.nodes.keys.filter fun x => decide (x ≠ ft.root) && filters.all fun f => f.isDisplayed t d x)

/-- `get_n_nodes` (`filteredtree.py:471-479`). -/
def nNodes (b : Bank D) (t : Tree) (d : D) (ft : FT) (withfilters : List FName) : Except Err Nat :=
  match ft.getNodes b t d withfilters with
  | .ok l => .ok l.length
  | .error e => .error e

/-- `get_paths_for_node` (`filteredtree.py:415-439`). -/
def pathsFor (ft : FT) (x : Id) : Except Err (List (List Id)) := ft.view.paths ft.root x

/-- `get_node_for_path` (`filteredtree.py:518-526`). -/
def nodeForPath (ft : FT) (path : List Id) : Except Err (Option Id) :=
  match path.getLast? with
  | none => .ok none
  | some x =>
    match ft.pathsFor x with
    | .error e => .error e
    | .ok ps => .ok (if path ∈ ps then some x else none)

/-- `next_node` (`filteredtree.py:528-546`). -/
def nextNode (ft : FT) (x p : Id) : Except Err (Option Id) :=
  if x = ft.root then .error .inconsistent
  else match ft.view.nodes.get? x with
    | none => .error .inconsistent
    | some n =>
      let parent : Except Err Id :=
        if p.falsy then (match n.parents with | [] => .error .indexError | q :: _ => .ok q)
        else if p ∉ n.parents then .error .inconsistent else .ok p
      match parent with
      | .error e => .error e
      | .ok q =>
        match ft.view.nodes.get? q with
        | none => .error .keyError
        | some m =>
          if x ∈ m.children then .ok (m.children[m.children.idxOf x + 1]?)
          else .error .valueError

/-- `None` stands for the virtual root in some methods. -/
def orRoot (ft : FT) (x : Id) : Id := if x = .none then ft.root else x

/-- `node_all_children` (`filteredtree.py:548-551`). -/
def allChildren (ft : FT) (x : Id) : Except Err (List Id) :=
  match ft.view.nodes.get? (ft.orRoot x) with
  | none => .error .keyError
  | some n => .ok n.children

/-- `node_has_child` (`filteredtree.py:553-554`). -/
def hasChild (ft : FT) (x : Id) : Except Err Bool :=
  match ft.view.nodes.get? x with
  | none => .error .keyError
  | some n => .ok (decide (0 < n.children.length))

/-- `node_n_children(recursive=True)` (`filteredtree.py:556-571`) below the first call, where no child is `None`;
the first argument is the recursion depth allowed. -/
def countBelow (v : View) : Nat → Id → Except Err Nat
  | 0, _ => .error .diverge
  | f + 1, x =>
    if v.has x = false then .ok 0
    else (v.kids x).foldl (fun acc c =>
      match acc with
      | .error e => .error e
      | .ok n => match countBelow v f c with
        | .error e => .error e
        | .ok m => .ok (n + m + 1)) (.ok 0)

/-- `node_n_children` (`filteredtree.py:556-571`). -/
def nChildren (ft : FT) (x : Id) (recursive : Bool) : Except Err Nat :=
  let x := ft.orRoot x
  if ft.view.has x = false then .ok 0
  else if recursive then countBelow ft.view (ft.view.nodes.entries.length + 2) x
  else .ok (ft.view.kids x).length

/-- `node_nth_child` (`filteredtree.py:573-574`) for `n ≥ 0`. -/
def nthChild (ft : FT) (x : Id) (n : Nat) : Except Err Id :=
  match ft.view.nodes.get? x with
  | none => .error .keyError
  | some m => match m.children[n]? with
    | none => .error .indexError
    | some c => .ok c

/-- `node_parents` (`filteredtree.py:576-582`). -/
def nodeParents (ft : FT) (x : Id) : Except Err (List Id) :=
  match ft.view.nodes.get? x with
  | none => .error .indexError
  | some n => .ok (n.parents.erase ft.root)

/-- `get_current_state` (`filteredtree.py:584-592`). -/
def currentState (ft : FT) : Res FT :=
  ft.withView (Res.forEach (fun x v => v.sendAdd ft.root x ft.root) (ft.view.kids ft.root) ft.view)

end FT

/-- An application with one view: the tree, each node's own data, the filter bank and the view. -/
structure FApp (V : Type) where
  s : St
  data : Id → V
  bank : Bank (Id → V)
  ft : FT

/-- What the application can do. -/
inductive FAct (V : Type) where
  | edit (op : Op)
  | change (x : Id) (v : V)               -- change a node's data, then node.modified() (treenode.py:49-52)
  | bank (c : Bank.Call (Id → V))         -- Tree.add_filter, Tree.remove_filter
  | setParams (n : FName) (p : Params)    -- another view applies the filter with parameters (filteredtree.py:612-616)
  | apply (n : FName) (params : Option Params) (reset refresh : Bool)
  | unapply (n : FName) (refresh : Bool)
  | reset (refresh : Bool)
  | currentState

namespace FApp

variable {V : Type}

/-- Lift a result of the view. -/
def withFT (a : FApp V) : Res FT → Res (FApp V)
  | .ok ft => .ok { a with ft := ft }
  | .err e ft => .err e { a with ft := ft }

/-- The view handles the notifications an edit sends. The model runs the edit first and the view afterwards on the
recorded notifications; the two agree as long as the view does not raise, and `act` reports if it does. -/
def edit (diff : List Id → List Id → List Id) (a : FApp V) (op : Op) : Res (FApp V) :=
  let s' := (step a.s op).state
  ({ a with s := s' } : FApp V).withFT
    (Res.forEach (FT.react diff a.bank a.data) (s'.log.drop a.s.log.length) a.ft)

/-- One action. `diff` is the order in which Python iterates over a difference of sets. -/
def act (diff : List Id → List Id → List Id) (a : FApp V) : FAct V → Res (FApp V)
  | .edit op => a.edit diff op
  | .change x v => ({ a with data := fun y => if y = x then v else a.data y } : FApp V).edit diff (.refreshNode x)
  | .bank c => .ok { a with bank := (a.bank.call c).2 }
  | .setParams n p => .ok { a with bank := a.bank.setParameters n (some p) }
  | .apply n p rs rf =>
    let (_, b, r) := a.ft.applyFilter diff a.bank a.s.t a.data n p rs rf
    ({ a with bank := b } : FApp V).withFT r
  | .unapply n rf => a.withFT (a.ft.unapplyFilter diff a.bank a.s.t a.data n rf).2
  | .reset rf => a.withFT (a.ft.resetFilters diff a.bank a.s.t a.data rf)
  | .currentState => a.withFT a.ft.currentState

/-- A history of actions, ended by the first exception of the view. -/
def run (diff : List Id → List Id → List Id) : List (FAct V) → FApp V → Res (FApp V)
  | [], a => .ok a
  | c :: cs, a => (a.act diff c).andThen (run diff cs)

end FApp
end Larch
