import Verif.Model.Filters

/-!
# `FilteredTree`

`liblarch/filteredtree.py`. Between two notifications of the main tree nothing but the view changes, so the main tree,
the filters and the data they look at enter a call as a constant `VEnv`.

Simplifications:
* `cache_paths` is written but never read (`filteredtree.py:62, 438`) and `filter_cache` is never filled
  (`filteredtree.py:63, 142-146, 311, 492`); both are left out.
* Signals are recorded in the order they are sent; the callbacks behind them are modelled in `Model/RunOnce.lean` and
  `Model/TreeModel.lean`. They do not edit the main tree.
* Python's object identity is used in one place only: `current_children` (`filteredtree.py:226`) is the list stored for
  the node, and the loop sees what the recursive calls append to it. The model looks that list up again in every round.
-/

namespace Larch

/-- An entry of `FilteredTree.nodes`. -/
structure VNode where
  parents : List Id := []
  children : List Id := []
deriving DecidableEq, Repr

/-- Signals of a view (`filteredtree.py:99-126`); `reordered` is never sent. -/
inductive SigEv where
  | added | modified | deleted
deriving DecidableEq, Repr

/-- One signal: event, node and path. -/
structure Sig where
  ev : SigEv
  nid : Id
  path : List Id
deriving DecidableEq, Repr

/-- The state of a `FilteredTree` (`filteredtree.py:51-63`), with the signals sent so far. -/
structure View where
  nodes : Dict VNode
  out : List Sig
deriving DecidableEq, Repr

/-- What a view reads besides its own state. -/
structure VEnv where
  root : Id                              -- `root_id` of the view
  has : Id → Bool                        -- `tree.has_node`
  par : Id → List Id                     -- `tree.get_node(x).get_parents()`
  chi : Id → List Id                     -- `tree.get_node(x).get_children()`
  top : List Id                          -- `tree.get_root().get_children()`
  disp : Id → Bool                       -- `__is_displayed`
  flat : Bool                            -- `__flat`
  /-- `set(a) - set(b)` in the order in which Python iterates over it. -/
  diff : List Id → List Id → List Id

/-- Directions of an update (`filteredtree.py:132-134`). -/
inductive Dir where
  | up | down | both
deriving DecidableEq, Repr

/-- `direction == "both" or direction == "up"`. -/
def Dir.goesUp : Dir → Bool
  | .down => false
  | _ => true

/-- `direction == "both" or direction == "down"`. -/
def Dir.goesDown : Dir → Bool
  | .up => false
  | _ => true

namespace View

/-- `is_displayed` (`filteredtree.py:350-353`). -/
def has (v : View) (x : Id) : Bool := v.nodes.has x

/-- `self.nodes[x]['parents']` (`[]` if absent). -/
def pars (v : View) (x : Id) : List Id := ((v.nodes.get? x).map VNode.parents).getD []

/-- `self.nodes[x]['children']` (`[]` if absent). -/
def kids (v : View) (x : Id) : List Id := ((v.nodes.get? x).map VNode.children).getD []

/-- Mutate the entry of `x`. -/
def upd (v : View) (x : Id) (f : VNode → VNode) : View := { v with nodes := v.nodes.modify x f }

/-- `self.callback(ev, x, path)` for each path of the list. -/
def send (v : View) (ev : SigEv) (x : Id) (paths : List (List Id)) : View :=
  { v with out := v.out ++ paths.map (fun p => ⟨ev, x, p⟩) }

/-- A view with nothing in it (`filteredtree.py:61, 323`). -/
def rootOnly (root : Id) : Dict VNode := Dict.empty.set root {}

/-- `get_paths_for_node` (`filteredtree.py:415-439`); the first argument is the recursion depth allowed. -/
def pathsFuel (root : Id) (v : View) : Nat → Id → Except Err (List (List Id))
  | 0, _ => .error .diverge
  | f + 1, x =>
    if x = root ∨ v.has x = false then .ok [[]]
    else Tree.collect (fun p =>
      if v.has p = false then .error .inconsistent
      else if x ∉ v.kids p then .error .inconsistent
      else match pathsFuel root v f p with
        | .error e => .error e
        | .ok ps => .ok (ps.map (· ++ [x]))) (v.pars x)

/-- `get_paths_for_node` (`filteredtree.py:415-439`). -/
def paths (root : Id) (v : View) (x : Id) : Except Err (List (List Id)) :=
  v.pathsFuel root (v.nodes.entries.length + 2) x

/-- Number of chains of children from `x` with fewer than `d` steps; used as fuel only. -/
def downWalks (v : View) : Nat → Id → Nat
  | 0, _ => 0
  | d + 1, x => 1 + ((v.kids x).map (downWalks v d)).sum

/-- Fuel for the two loops below. -/
def walksBelow (v : View) (x : Id) : Nat := v.downWalks (v.nodes.entries.length + 2) x

/-- The loop of `send_add_tree` (`filteredtree.py:264-272`). -/
def addLoop (starts : List (List Id)) : Nat → View → List (Id × List Id) → Res View
  | _, v, [] => .ok v
  | 0, v, _ :: _ => .err .diverge v
  | f + 1, v, (x, rel) :: q =>
    let v1 := v.send .added x (starts.map (· ++ rel))
    match v.nodes.get? x with
    | none => .err .keyError v1
    | some n => addLoop starts f v1 (q ++ n.children.map (fun c => (c, rel ++ [c])))

/-- `send_add_tree` (`filteredtree.py:260-272`). -/
def sendAdd (root : Id) (v : View) (x p : Id) : Res View :=
  match v.paths root p with
  | .error e => .err e v
  | .ok starts => addLoop starts (v.walksBelow x) v [(x, [x])]

/-- The loop of `send_remove_tree` (`filteredtree.py:278-290`); the head of the list is the top of the stack. -/
def removeLoop (starts : List (List Id)) : Nat → View → List (Id × List Id × Bool) → Res View
  | _, v, [] => .ok v
  | 0, v, _ :: _ => .err .diverge v
  | f + 1, v, (x, rel, first) :: q =>
    if first then
      match v.nodes.get? x with
      | none => .err .keyError v
      | some n =>
        removeLoop starts f v ((n.children.map (fun c => (c, rel ++ [c], true))).reverse ++ (x, rel, false) :: q)
    else removeLoop starts f (v.send .deleted x (starts.map (· ++ rel))) q

/-- `send_remove_tree` (`filteredtree.py:274-290`). -/
def sendRemove (root : Id) (v : View) (x p : Id) : Res View :=
  match v.paths root p with
  | .error e => .err e v
  | .ok starts => removeLoop starts (2 * v.walksBelow x) v [(x, [x], true)]

/-- `self.nodes[p]['children'].remove(x)`. -/
def dropKid (v : View) (p x : Id) : Res View :=
  match v.nodes.get? p with
  | none => .err .keyError v
  | some n => if x ∈ n.children then .ok (v.upd p fun n => { n with children := n.children.erase x })
    else .err .valueError v

/-- `self.nodes[c]['parents'].remove(x)`. -/
def dropPar (v : View) (c x : Id) : Res View :=
  match v.nodes.get? c with
  | none => .err .keyError v
  | some n => if x ∈ n.parents then .ok (v.upd c fun n => { n with parents := n.parents.erase x })
    else .err .valueError v

end View

namespace VEnv

/-- `__node_children` (`filteredtree.py:355-375`). -/
def newKids (E : VEnv) (x : Id) : List Id :=
  if E.flat = false ∧ E.has x = true then (E.chi x).filter E.disp else []

/-- `__node_parents` (`filteredtree.py:377-396`). -/
def newPars (E : VEnv) (v : View) (x : Id) : List Id :=
  let l := if E.flat = false ∧ E.has x = true then (E.par x).filter (fun p => v.has p && E.disp p) else []
  if l = [] then [E.root] else l

/-- The body of the loop at `filteredtree.py:200-204`: `x` leaves the parent `p`. -/
def leave (E : VEnv) (upd : Id → View → Res View) (goUp : Bool) (x p : Id) (v : View) : Res View :=
  (v.sendRemove E.root x p).andThen fun v =>
  (v.dropKid p x).andThen fun v =>
  if goUp then upd p v else .ok v

/-- The body of the loop at `filteredtree.py:206-214`: `x` joins the parent `p`. -/
def join (E : VEnv) (upd : Id → View → Res View) (goUp : Bool) (x p : Id) (v : View) : Res View :=
  if v.has p = false then .err .inconsistent v
  else
    ((v.upd p fun n => { n with children := n.children ++ [x] }).sendAdd E.root x p).andThen fun v =>
    if goUp then upd p v else .ok v

/-- The body of the loop at `filteredtree.py:236-239`: the child `c` leaves the vanishing node `x`. -/
def abandon (E : VEnv) (upd : Id → View → Res View) (x c : Id) (v : View) : Res View :=
  (v.sendRemove E.root c x).andThen fun v =>
  (v.dropPar c x).andThen fun v => upd c v

/-- The first half of the branch for a node to be shown (`filteredtree.py:167-223`); `up` is the recursive call with
direction `"up"`. -/
def settle (E : VEnv) (up : Id → View → Res View) (x : Id) (dir : Dir) (v : View) : Res View :=
  -- 167-168
  let isNew := !v.has x
  let v1 : View := if isNew then { v with nodes := v.nodes.set x {} } else v
  -- 172-181
  let absent := (E.par x).filter fun p => decide (p ∉ E.newPars v1 x ∧ p ∉ v1.pars x)
  (if isNew then Res.forEach up absent v1 else .ok v1).andThen fun v2 =>
  -- 184-193
  match v2.nodes.get? x with
  | none => .err .keyError v2
  | some n =>
    let cur := n.parents
    let new := E.newPars v2 x
    let v3 := v2.upd x fun n => { n with parents := new.filter v2.has }
    let addTo := E.diff new cur
    -- 197-198
    let dir := if dir = .down ∧ E.root ∈ addTo then .both else dir
    -- 200-204
    (Res.forEach (E.leave up dir.goesUp x) (E.diff cur new) v3).andThen fun v4 =>
    -- 206-214
    (Res.forEach (E.join up dir.goesUp x) addTo v4).andThen fun v5 =>
    -- 216-218
    (if dir.goesUp then Res.forEach up (E.diff new addTo) v5 else .ok v5).andThen fun v6 =>
    -- 221-223
    if isNew then .ok v6
    else match v6.paths E.root x with
      | .error e => .err e v6
      | .ok ps => .ok (v6.send .modified x ps)

/-- The branch for a node that is shown and should not be (`filteredtree.py:233-256`); `up` and `down` are the recursive
calls with these directions. -/
def vanish (E : VEnv) (up down : Id → View → Res View) (x : Id) (v : View) : Res View :=
  -- 234-239
  match v.paths E.root x with
  | .error e => .err e v
  | .ok ps =>
    (Res.forEach (E.abandon down x) (v.kids x).reverse v).andThen fun v1 =>
    -- 241-243
    match v1.nodes.get? x with
    | none => .err .keyError v1
    | some n =>
      let v2 := ({ v1 with nodes := v1.nodes.del x } : View).send .deleted x ps
      -- 246-248
      (Res.forEach (fun p v => (v.dropKid p x).andThen (up p)) n.parents v2).andThen fun v3 =>
      -- 252-256
      if E.has x then
        Res.forEach (fun p v => if v.has p = false then up p v else .ok v) (E.par x) v3
      else .ok v3

/-- `__update_node` (`filteredtree.py:132-258`); the first argument is the recursion depth allowed. The direction is
changed at line 198 from `"down"` to `"both"` only, which makes no difference for the test at line 228. -/
def update (E : VEnv) : Nat → Id → Dir → View → Res View
  | 0, _, _, v => .err .diverge v
  | f + 1, x, dir, v =>
    -- 136-140
    if x = E.root then .ok v
    else if v.has x = false ∧ E.disp x = false then
      -- 150-158
      if E.has x then Res.forEach (fun p v => update E f p .up v) (E.par x) v else .ok v
    else if E.disp x = true then
      (E.settle (fun p v => update E f p .up v) x dir v).andThen fun v =>
      -- 226-231
      if v.has x = false then .err .keyError v
      else if dir.goesDown then
        Res.forEach (fun c v => if c ∉ v.kids x then update E f c .down v else .ok v) (E.newKids x) v
      else .ok v
    else E.vanish (fun p v => update E f p .up v) (fun c v => update E f c .down v) x v

/-- The loop of `refilter` (`filteredtree.py:329-333`). -/
def fillLoop (E : VEnv) (depth : Nat) : Nat → View → List Id → Res View
  | _, v, [] => .ok v
  | 0, v, _ :: _ => .err .diverge v
  | f + 1, v, x :: q =>
    (update E depth x .both v).andThen fun v =>
    if E.has x = false then .err .valueError v else fillLoop E depth f v (q ++ E.chi x)

/-- `refilter` (`filteredtree.py:309-333`); the flat flag is computed by the caller. The recursion depth and the number
of rounds allowed are arguments. -/
def refilter (E : VEnv) (depth rounds : Nat) (v : View) : Res View :=
  -- 320-321
  (Res.forEach (fun x v => v.sendRemove E.root x E.root) (v.kids E.root).reverse v).andThen fun v =>
  -- 323-333
  fillLoop E depth rounds { v with nodes := View.rootOnly E.root } E.top

end VEnv
end Larch
