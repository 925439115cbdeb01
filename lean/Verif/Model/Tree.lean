import Verif.Model.Base

/-!
# `liblarch/tree.py` and `liblarch/treenode.py`

The main tree, its nodes, and the edits a user can make from the thread that created the
tree (for that thread `SyncQueue.push` runs the action at once, `processqueue.py:65-68`).
-/

namespace Larch

/-- `_Node` (`liblarch/treenode.py:21-39`). `hasTree` is the truth value of `self.tree`.
Simplification: the node refers to its tree by that flag only. `Model/Objects.lean` has the reference, and several trees. -/
structure Node where
  id : Id
  parentsEnabled : Bool := true
  childrenEnabled : Bool := true
  parents : List Id := []
  children : List Id := []
  hasTree : Bool := false
  pending : List (Id × Id) := []
deriving DecidableEq, Repr

/-- `MainTree` (`liblarch/tree.py:24-42`) without the callback table (see `Model/Callbacks.lean`)
and the queue (see `Model/Queue.lean`). -/
structure Tree where
  nodes : Dict Node
  pending : List (Id × Id)
  root : Node
deriving DecidableEq, Repr

/-- Tree events (`tree.py:217, 240, 248, 256, 261, 290, 313`). -/
inductive Ev where
  | added | modified | deleted
deriving DecidableEq, Repr

/-- One notification: the event, the node id, and the tree as it is at that moment. -/
structure Note where
  snap : Tree
  ev : Ev
  nid : Id
deriving DecidableEq, Repr

/-- A tree together with the notifications sent so far (oldest first). -/
structure St where
  t : Tree
  log : List Note
deriving DecidableEq, Repr

/-- `MainTree._callback` (`tree.py:74-79`): every observer is told; observers are run
separately on the recorded notifications. -/
def St.emit (s : St) (ev : Ev) (n : Id) : St := { s with log := s.log ++ [⟨s.t, ev, n⟩] }

/-- Change the tree, keep the log. -/
def St.mapTree (s : St) (f : Tree → Tree) : St := { s with t := f s.t }

namespace Node

/-- `_Node.__init__` without parent (`treenode.py:23-37`). -/
def fresh (x : Id) : Node := { id := x }

/-- `_Node.add_parent` on a detached node, i.e. `self.tree` is None (`treenode.py:75-81`). -/
def detachedAddParent (nd : Node) (p : Id) : Node :=
  if p ≠ nd.id ∧ nd.parentsEnabled = true ∧ p ∉ nd.parents then
    { nd with pending := nd.pending ++ [(p, nd.id)] }
  else nd

/-- `_Node.add_child` on a detached node (`treenode.py:155-161`). -/
def detachedAddChild (nd : Node) (c : Id) : Node :=
  if nd.childrenEnabled = true ∧ c ≠ nd.id ∧ c ∉ nd.children then
    { nd with pending := nd.pending ++ [(nd.id, c)] }
  else nd

/-- `_Node.set_parent` on a detached node (`treenode.py:90-95`). -/
def detachedSetParent (nd : Node) (p : Id) : Node :=
  if p ≠ nd.id ∧ nd.parentsEnabled = true then
    { nd with pending := nd.pending ++ [(p, nd.id)] }
  else nd

/-- `_Node.__init__(node_id, parent)` (`treenode.py:23-40`). -/
def new (x : Id) (parent : Id) : Node :=
  if parent.falsy then fresh x else (fresh x).detachedAddParent parent

end Node

namespace Tree

/-- `MainTree.__init__` (`tree.py:27-42`). -/
def init : Tree :=
  { nodes := Dict.empty, pending := [], root := { id := rootId, hasTree := true } }

/-- `has_node` (`tree.py:317-319`). -/
def has (t : Tree) (x : Id) : Bool := t.nodes.has x

/-- `self.nodes[x]` as an object, if present. -/
def node? (t : Tree) (x : Id) : Option Node := t.nodes.get? x

/-- Mutate the object stored under `x`. -/
def updNode (t : Tree) (x : Id) (f : Node → Node) : Tree := { t with nodes := t.nodes.modify x f }

/-- Mutate the root's list of children. -/
def updRoot (t : Tree) (f : List Id → List Id) : Tree :=
  { t with root := { t.root with children := f t.root.children } }

/-- The raw attribute `self.nodes[x].parents` (`[]` for an absent node). -/
def rawParents (t : Tree) (x : Id) : List Id := ((t.node? x).map Node.parents).getD []

/-- The raw attribute `self.nodes[x].children` (`[]` for an absent node). -/
def rawChildren (t : Tree) (x : Id) : List Id := ((t.node? x).map Node.children).getD []

/-- `get_node` (`tree.py:321-328`). -/
def getNode (t : Tree) (x : Id) : Except Err Node :=
  match t.node? x with
  | some nd => .ok nd
  | none => if x = rootId ∨ x = .none then .ok t.root else .error .valueError

/-- `_Node.get_parents` (`treenode.py:135-143`). -/
def parentsOf (t : Tree) (nd : Node) : List Id :=
  if nd.parentsEnabled && nd.hasTree then nd.parents.filter t.has else []

/-- `_Node.get_children` (`treenode.py:188-196`). -/
def childrenOf (t : Tree) (nd : Node) : List Id :=
  if nd.childrenEnabled && nd.hasTree then nd.children.filter t.has else []

/-- `tree.get_node(x).get_parents()` for a node of the tree (`[]` if absent). -/
def getParents (t : Tree) (x : Id) : List Id := ((t.node? x).map t.parentsOf).getD []

/-- `tree.get_node(x).get_children()` for a node of the tree (`[]` if absent). -/
def getChildren (t : Tree) (x : Id) : List Id := ((t.node? x).map t.childrenOf).getD []

/-- `tree.get_root().get_children()` (`tree.py:47-49`, `treenode.py:188-196`). -/
def rootChildren (t : Tree) : List Id := t.childrenOf t.root

/-- `_create_relationship` (`tree.py:103-115`); `none` is the `KeyError` of the two lookups,
raised before anything is changed. -/
def create (t : Tree) (p c : Id) : Option Tree :=
  if t.has p = true ∧ t.has c = true then
    let t1 := t.updNode p (fun nd => { nd with children := appendNew nd.children c })
    let t2 := t1.updNode c (fun nd => { nd with parents := appendNew nd.parents p })
    some (t2.updRoot (fun l => l.erase c))
  else none

/-- `_destroy_relationship` (`tree.py:117-126`); `none` is `KeyError`. -/
def destroy (t : Tree) (p c : Id) : Option Tree :=
  if t.has p = true ∧ t.has c = true then
    let t1 := t.updNode p (fun nd => { nd with children := nd.children.erase c })
    some (t1.updNode c (fun nd => { nd with parents := nd.parents.erase p }))
  else none

/-- Number of upward walks from `x` of length less than `d`; used as fuel only. -/
def upWalks (t : Tree) : Nat → Id → Nat
  | 0, _ => 0
  | d + 1, x => 1 + ((t.rawParents x).map (upWalks t d)).sum

/-- The `while` loop of `_is_circular_relation` (`tree.py:137-147`); the list is `ancestors`.
`visited` is never filled by the code (`tree.py:135, 146`), so the test on it is dropped.
`none`: the loop is still running when the fuel is used up. -/
def circLoop (t : Tree) (c : Id) : Nat → List Id → Option Bool
  | _, [] => some false
  | 0, _ :: _ => none
  | f + 1, x :: q =>
    if x = c then some true
    else match t.node? x with
      | none => circLoop t c f q
      | some nd => circLoop t c f (q ++ nd.parents)

/-- `_is_circular_relation` (`tree.py:128-149`). -/
def isCircular (t : Tree) (p c : Id) : Option Bool :=
  t.circLoop c (t.upWalks (t.nodes.entries.length + 2) p) [p]

end Tree

/-- `_new_relationship` (`tree.py:263-291`). The return values are dropped, as
`SyncQueue.push` drops them (`processqueue.py:65-68`). -/
def newRelationship (s : St) (p c : Id) : Res St :=
  -- 268-269
  let s1 := s.mapTree fun t => { t with pending := t.pending.erase (p, c) }
  -- 271-272
  if p.falsy || c.falsy || p = c then .ok s1
  -- 274-276
  else if !s1.t.has p || !s1.t.has c then
    .ok (s1.mapTree fun t => { t with pending := t.pending ++ [(p, c)] })
  else match s1.t.isCircular p c with
    | none => .err .diverge s1
    -- 278-282
    | some true =>
      match s1.t.destroy p c with
      | none => .err .keyError s1
      | some t2 => .err .circular { s1 with t := t2 }
    -- 284-291
    | some false =>
      match s1.t.create p c with
      | none => .err .keyError s1
      | some t2 =>
        let s2 := { s1 with t := t2.updRoot (fun l => l.erase c) }
        .ok ((s2.emit .modified p).emit .modified c)

/-- `self.root.add_child(child_id)` (`tree.py:311`, `treenode.py:155-172`) for a child that may or
may not be in the tree; the root's own `tree` attribute is always set (`tree.py:40`). -/
def rootAddChild (s : St) (c : Id) : Res St :=
  if s.t.root.childrenEnabled = true ∧ c ≠ s.t.root.id then
    if c ∉ s.t.root.children then
      match s.t.node? c with
      | none => .ok (s.mapTree fun t => { t with pending := t.pending ++ [(t.root.id, c)] })
      | some child =>
        if child.parentsEnabled then
          newRelationship (s.mapTree fun t => t.updRoot (fun l => l ++ [c])) s.t.root.id c
        else .ok s
    else .ok s
  else .ok s

/-- The loop at `tree.py:297-299`: drop every pending copy of the relation. -/
def dropPending (l : List (Id × Id)) (p c : Id) : List (Id × Id) :=
  l.foldl (fun acc r => if r.1 = p ∧ r.2 = c then acc.erase r else acc) l

/-- `_break_relationship` (`tree.py:293-314`). -/
def breakRelationship (s : St) (p c : Id) : Res St :=
  let s1 := s.mapTree fun t => { t with pending := dropPending t.pending p c }
  if p.falsy || c.falsy || p = c then .ok s1
  else if !s1.t.has p || !s1.t.has c then .ok s1
  else match s1.t.destroy p c with
    | none => .err .keyError s1
    | some t2 =>
      let s2 := { s1 with t := t2 }
      let r := if s2.t.getParents c = [] then rootAddChild s2 c else .ok s2
      r.andThen fun s3 => .ok ((s3.emit .modified p).emit .modified c)

/-- One round of the pending-relationship loop of `_add_node` (`tree.py:175-196`).
The accumulator is the tree and `add_to_root`. `parents_to_refresh` and `children_to_refresh`
are never read by the code and are dropped. `none` is a cycle test that does not end or a
`KeyError`. -/
def addPendingStep (x : Id) (acc : Option (Tree × Bool)) (r : Id × Id) : Option (Tree × Bool) :=
  acc.bind fun (t, toRoot) =>
    -- 177-186
    let first : Option (Tree × Bool) :=
      if r.2 = x ∧ t.has r.1 = true then
        match t.isCircular r.1 x with
        | none => none
        | some false => (t.create r.1 x).map fun t' => ({ t' with pending := t'.pending.erase r }, false)
        | some true => some ({ t with pending := t.pending.erase r }, toRoot)
      else some (t, toRoot)
    first.bind fun (t, toRoot) =>
      -- 189-196
      if r.1 = x ∧ t.has r.2 = true then
        match t.isCircular x r.2 with
        | none => none
        | some false => (t.create x r.2).map fun t' => ({ t' with pending := t'.pending.erase r }, toRoot)
        | some true => some ({ t with pending := t.pending.erase r }, toRoot)
      else some (t, toRoot)

/-- `tree.py:163-165`: merge the node's pending relationships into the tree's. -/
def mergePending (tp np : List (Id × Id)) : List (Id × Id) := np.foldl appendNew tp

/-- `tree.py:162-168`: the node enters the dict. -/
def insertNode (t : Tree) (nd : Node) : Tree :=
  { t with pending := mergePending t.pending nd.pending,
           nodes := t.nodes.set nd.id { nd with hasTree := true, pending := [] } }

/-- `_add_node` (`tree.py:151-217`). `parent = none` is `parent_id=None`. -/
def addNode (s : St) (nd : Node) (parent : Id) : Res St :=
  -- 157-160
  if s.t.has nd.id then .ok s
  else
    let t1 := insertNode s.t nd
    -- 175-196
    match t1.pending.foldl (addPendingStep nd.id) (some (t1, true)) with
    | none => .err .diverge { s with t := t1 }
    | some (t2, toRoot) =>
      let s2 := { s with t := t2 }
      -- 199-209
      let r : Res (St × Bool) :=
        if parent = .none then .ok (s2, toRoot)
        else match t2.isCircular parent nd.id with
          | none => .err .diverge (s2, toRoot)
          | some true => .err .circular (s2, toRoot)
          | some false =>
            if t2.has parent then
              match t2.create parent nd.id with
              | none => .err .keyError (s2, toRoot)
              | some t3 => .ok ({ s2 with t := t3 }, false)
            else .ok (s2.mapTree fun t => { t with pending := t.pending ++ [(parent, nd.id)] }, toRoot)
      match r with
      | .err e (s3, _) => .err e s3
      | .ok (s3, toRoot) =>
        -- 212-217
        let s4 := if toRoot then s3.mapTree (fun t => t.updRoot (fun l => l ++ [nd.id])) else s3
        .ok (s4.emit .added nd.id)

/-- `tree.py:231-233`: drop the pending relations that mention `x`. -/
def dropPendingOf (l : List (Id × Id)) (x : Id) : List (Id × Id) :=
  l.foldl (fun acc r => if x = r.1 ∨ x = r.2 then acc.erase r else acc) l

/-- `tree.py:238-240`: `for parent_id in node.parents: ...`. The body removes `parent_id` from the
very list that is being iterated, so Python's iterator skips the element after it: the loop is
modelled with the iterator's index `i`. The first argument is fuel (the initial length). -/
def removeParentsLoop : Nat → Nat → St → Id → Res St
  | 0, _, s, _ => .ok s
  | f + 1, i, s, x =>
    match (s.t.rawParents x)[i]? with
    | none => .ok s
    | some p =>
      match s.t.destroy p x with
      | none => .err .keyError s
      | some t' => removeParentsLoop f (i + 1) (({ s with t := t' } : St).emit .modified p) x

/-- Body of the loop at `tree.py:243-250` in the non-recursive case. -/
def orphanChild (x : Id) (c : Id) (s : St) : Res St :=
  match s.t.destroy x c with
  | none => .err .keyError s
  | some t' =>
    let s1 := ({ s with t := t' } : St).emit .modified c
    .ok (if s1.t.rawParents c = [] then s1.mapTree (fun t => t.updRoot (fun l => l ++ [c])) else s1)

/-- `_remove_node` (`tree.py:219-256`). The first argument is the recursion depth allowed. -/
def removeNode : Nat → St → Id → Bool → Res St
  | 0, s, _, _ => .err .diverge s
  | f + 1, s, x, recursive =>
    -- 222-228
    if !s.t.has x || x = .none then .ok s
    else
      -- 231-233
      let s1 := s.mapTree fun t => { t with pending := dropPendingOf t.pending x }
      -- 238-240
      (removeParentsLoop (s1.t.rawParents x).length 0 s1 x).andThen fun s2 =>
      -- 243-250
      (Res.forEach (fun c s => if recursive then removeNode f s c true else orphanChild x c s)
        (s2.t.rawChildren x) s2).andThen fun s3 =>
      -- 252-256
      if s3.t.has x then
        .ok ((s3.mapTree fun t =>
          let t1 := t.updRoot (fun l => l.erase x)
          { t1 with nodes := t1.nodes.del x }).emit .deleted x)
      else .err .keyError (s3.mapTree fun t => t.updRoot (fun l => l.erase x))

/-- Recursion depth that suffices on an acyclic tree. -/
def removeFuel (t : Tree) : Nat := t.nodes.entries.length + 1

/-- `_modify_node` (`tree.py:258-261`). -/
def modifyNode (s : St) (x : Id) : Res St :=
  if x ≠ rootId ∧ s.t.has x = true then .ok (s.emit .modified x) else .ok s

/-! ### Methods of `_Node` on a node `x` of the tree -/

/-- `_Node.add_parent` (`treenode.py:75-88`) for the object stored under `x`. -/
def nodeAddParent (s : St) (x p : Id) : Res St :=
  match s.t.node? x with
  | none => .err .valueError s
  | some nd =>
    if p ≠ x ∧ nd.parentsEnabled = true ∧ p ∉ nd.parents then
      match s.t.node? p with
      | none => .ok (s.mapTree fun t => { t with pending := t.pending ++ [(p, x)] })
      | some par => if par.childrenEnabled then newRelationship s p x else .ok s
    else .ok s

/-- `_Node.remove_parent` (`treenode.py:113-117`). -/
def nodeRemoveParent (s : St) (x p : Id) : Res St :=
  match s.t.node? x with
  | none => .err .valueError s
  | some nd =>
    if nd.parentsEnabled = true ∧ p ∈ nd.parents then
      breakRelationship (s.mapTree fun t => t.updNode x (fun nd => { nd with parents := nd.parents.erase p })) p x
    else .ok s

/-- The loop at `treenode.py:105-109` of `set_parent`: `for node_id in self.parents` while
`remove_parent` shrinks `self.parents`; `i` is the iterator's index, the first argument is fuel.
Returns also `is_already_parent_flag`. -/
def setParentLoop : Nat → Nat → St → Id → Id → Bool → Res (St × Bool)
  | 0, _, s, _, _, flag => .ok (s, flag)
  | f + 1, i, s, x, p, flag =>
    match (s.t.rawParents x)[i]? with
    | none => .ok (s, flag)
    | some q =>
      if q ≠ p then
        match nodeRemoveParent s x q with
        | .err e s' => .err e (s', flag)
        | .ok s' => setParentLoop f (i + 1) s' x p flag
      else setParentLoop f (i + 1) s x p true

/-- `_Node.set_parent` (`treenode.py:90-111`). -/
def nodeSetParent (s : St) (x p : Id) : Res St :=
  match s.t.node? x with
  | none => .err .valueError s
  | some nd =>
    if p ≠ x ∧ nd.parentsEnabled = true then
      match s.t.node? p with
      | none =>
        (Res.forEach (fun q s => breakRelationship s q x) (s.t.getParents x) s).andThen fun s =>
          .ok (s.mapTree fun t => { t with pending := t.pending ++ [(p, x)] })
      | some par =>
        if par.childrenEnabled then
          match setParentLoop nd.parents.length 0 s x p false with
          | .err e (s', _) => .err e s'
          | .ok (s', flag) => if !p.falsy && !flag then nodeAddParent s' x p else .ok s'
        else .ok s
    else .ok s

/-- `_Node.add_child` (`treenode.py:155-172`). -/
def nodeAddChild (s : St) (x c : Id) : Res St :=
  match s.t.node? x with
  | none => .err .valueError s
  | some nd =>
    if nd.childrenEnabled = true ∧ c ≠ x then
      if c ∉ nd.children then
        match s.t.node? c with
        | none => .ok (s.mapTree fun t => { t with pending := t.pending ++ [(x, c)] })
        | some child =>
          if child.parentsEnabled then
            newRelationship (s.mapTree fun t =>
              t.updNode x (fun nd => { nd with children := nd.children ++ [c] })) x c
          else .ok s
      else .ok s
    else .ok s

/-- `_Node.set_parents_enabled` (`treenode.py:66-70`). -/
def nodeSetParentsEnabled (s : St) (x : Id) (b : Bool) : Res St :=
  match s.t.node? x with
  | none => .err .valueError s
  | some _ =>
    let r := if b then .ok s
      else Res.forEach (fun p s => nodeRemoveParent s x p) (s.t.getParents x) s
    r.andThen fun s => .ok (s.mapTree fun t => t.updNode x (fun nd => { nd with parentsEnabled := b }))

/-- `_Node.set_children_enabled` (`treenode.py:146-150`). -/
def nodeSetChildrenEnabled (s : St) (x : Id) (b : Bool) : Res St :=
  match s.t.node? x with
  | none => .err .valueError s
  | some _ =>
    let r := if b then .ok s
      else Res.forEach (fun c s => breakRelationship s x c) (s.t.getChildren x) s
    r.andThen fun s => .ok (s.mapTree fun t => t.updNode x (fun nd => { nd with childrenEnabled := b }))

/-! ### `Tree` (`liblarch/__init__.py`) -/

/-- `Tree.move_node` (`__init__.py:93-103`). -/
def moveNode (s : St) (x p : Id) : Res St :=
  if s.t.has x then nodeSetParent s x p else .ok s

/-- `Tree.add_parent` (`__init__.py:105-113`). -/
def treeAddParent (s : St) (x p : Id) : Res St :=
  if s.t.has x then nodeAddParent s x p else .ok s

/-- The edits of the public interface. -/
inductive Op where
  | addNode (nd : Node) (parent : Id)      -- Tree.add_node
  | delNode (x : Id) (recursive : Bool)    -- Tree.del_node
  | refreshNode (x : Id)                   -- Tree.refresh_node / TreeNode.modified
  | moveNode (x p : Id)                    -- Tree.move_node
  | addParent (x p : Id)                   -- Tree.add_parent / TreeNode.add_parent
  | setParent (x p : Id)                   -- TreeNode.set_parent
  | removeParent (x p : Id)                -- TreeNode.remove_parent
  | addChild (x c : Id)                    -- TreeNode.add_child
  | setParentsEnabled (x : Id) (b : Bool)  -- TreeNode.set_parents_enabled
  | setChildrenEnabled (x : Id) (b : Bool) -- TreeNode.set_children_enabled
  | newRelationship (p c : Id)             -- MainTree.new_relationship
  | breakRelationship (p c : Id)           -- MainTree.break_relationship
deriving DecidableEq, Repr

/-- One edit. -/
def step (s : St) : Op → Res St
  | .addNode nd p => addNode s nd p
  | .delNode x r => removeNode (removeFuel s.t) s x r
  | .refreshNode x => modifyNode s x
  | .moveNode x p => moveNode s x p
  | .addParent x p => treeAddParent s x p
  | .setParent x p => nodeSetParent s x p
  | .removeParent x p => nodeRemoveParent s x p
  | .addChild x c => nodeAddChild s x c
  | .setParentsEnabled x b => nodeSetParentsEnabled s x b
  | .setChildrenEnabled x b => nodeSetChildrenEnabled s x b
  | .newRelationship p c => newRelationship s p c
  | .breakRelationship p c => breakRelationship s p c

/-- A history of edits. A call that raises leaves the state it reached; the user goes on. -/
def runOps (s : St) : List Op → St
  | [] => s
  | op :: ops => runOps (step s op).state ops

/-- The empty tree without notifications. -/
def St.init : St := ⟨Tree.init, []⟩

/-! ### Reading the tree -/

namespace Tree

/-- `_Node.has_parent()` without argument (`treenode.py:119-133`). -/
def nodeHasParent (nd : Node) : Bool := nd.parentsEnabled && !nd.parents.isEmpty

/-- `_Node.has_child()` without argument (`treenode.py:174-186`). -/
def nodeHasChild (nd : Node) : Bool := nd.childrenEnabled && !nd.children.isEmpty

/-- Concatenate the results of `f` over a list, stopping at the first exception. -/
def collect {α β : Type} (f : α → Except Err (List β)) : List α → Except Err (List β)
  | [] => .ok []
  | x :: l =>
    match f x with
    | .error e => .error e
    | .ok ys => match collect f l with
      | .error e => .error e
      | .ok zs => .ok (ys ++ zs)

/-- `get_paths_for_node` (`tree.py:344-362`); the first argument is the recursion depth allowed. -/
def pathsFuel (t : Tree) : Nat → Id → Except Err (List (List Id))
  | 0, _ => .error .diverge
  | f + 1, x =>
    if x.falsy || x = rootId then .ok [[]]
    else match t.node? x with
      | none => .error .valueError
      | some nd =>
        if nodeHasParent nd then
          collect (fun p => match t.pathsFuel f p with
            | .error e => .error e
            | .ok ps => .ok (ps.map (· ++ [x]))) (t.parentsOf nd)
        else .ok [[x]]

/-- `get_paths_for_node` (`tree.py:344-362`). -/
def getPaths (t : Tree) (x : Id) : Except Err (List (List Id)) :=
  t.pathsFuel (t.nodes.entries.length + 2) x

/-- `get_node_for_path` (`tree.py:330-342`); Python's `None` is `Option.none`. -/
def nodeForPath (t : Tree) (path : List Id) : Except Err (Option Id) :=
  match path.getLast? with
  | none => .ok none
  | some x =>
    match t.getPaths x with
    | .error e => .error e
    | .ok ps => .ok (if path ∈ ps then some x else none)

/-- `get_all_nodes` (`tree.py:364-366`). -/
def allNodes (t : Tree) : List Id := t.nodes.keys

/-- `_Node.get_nth_child` (`treenode.py:205-210`) for a non-negative index. -/
def nthChild (nd : Node) (i : Nat) : Except Err Id :=
  match nd.children[i]? with
  | some c => .ok c
  | none => .error .valueError

/-- `_Node.get_child_index` (`treenode.py:212-216`). -/
def childIndex (nd : Node) (x : Id) : Option Nat :=
  if nd.childrenEnabled = true ∧ x ∈ nd.children then some (nd.children.idxOf x) else none

/-- `next_node` (`tree.py:368-400`). -/
def nextNode (t : Tree) (x parent : Id) : Except Err (Option Id) :=
  -- 375-376
  if x = .none then .error .valueError
  else match t.getNode x with
    | .error e => .error e
    | .ok nd =>
      let ps := t.parentsOf nd
      -- 380-385
      let parid := if parent ∈ ps then parent else ps.headD rootId
      match t.getNode parid with
      | .error e => .error e
      | .ok par =>
        -- 391-400
        match childIndex par x with
        | none => .error .indexError
        | some i =>
          if (t.childrenOf par).length > i + 1 then (nthChild par (i + 1)).map some
          else .ok none

end Tree

end Larch
