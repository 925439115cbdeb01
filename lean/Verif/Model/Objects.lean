import Verif.Model.Kept

/-!
# Node objects and several trees

In `Model/Tree.lean` a node is a record in the dict of the one tree. Here the node objects live in memory and are known by their
address; a tree maps names to addresses, every object refers to the tree it was added to last, and there are any number of trees.
The methods are written again, line by line, on this memory, so that an object in two trees is seen by both.

Simplification: the root object of a tree is reached by that tree only (`get_root()` hands it out, but the program does not add it
to a tree and does not call its methods); it is kept in the record of the tree. All calls come from the thread that made the trees.
-/

namespace Larch

/-- A `_Node` object in memory (`treenode.py:21-39`): its attributes, and the address of the tree it refers to (`self.tree`).
`core.hasTree` is the truth value of `self.tree`. -/
structure NodeObj where
  core : Node
  tree : Option Nat
deriving DecidableEq

/-- A `MainTree` (`tree.py:24-42`): `self.nodes` holds objects. The notifications sent so far are kept with it. -/
structure OTree where
  nodes : Dict Nat
  pending : List (Id × Id)
  root : Node
  log : List Note
deriving DecidableEq

/-- `MainTree.__init__` (`tree.py:27-42`). -/
def OTree.init : OTree := ⟨Dict.empty, [], Tree.init.root, []⟩

/-- The memory: objects and trees by address. -/
structure World where
  objs : List NodeObj
  trees : List OTree
deriving DecidableEq

namespace World

/-- The tree at an address. -/
def tree (w : World) (i : Nat) : OTree := (w.trees[i]?).getD OTree.init

/-- The attributes of the object at an address. -/
def obj (w : World) (a : Nat) : Node := ((w.objs[a]?).map NodeObj.core).getD (Node.fresh .none)

/-- `self.tree` of the object at an address. -/
def treeOf (w : World) (a : Nat) : Option Nat := (w.objs[a]?).bind NodeObj.tree

/-- Mutate an object. -/
def updObj (w : World) (a : Nat) (f : Node → Node) : World :=
  { w with objs := w.objs.modify a fun o => { o with core := f o.core } }

/-- Mutate a tree. -/
def updTree (w : World) (i : Nat) (f : OTree → OTree) : World := { w with trees := w.trees.modify i f }

/-- Mutate `self.pending_relationships` of a tree. -/
def updPending (w : World) (i : Nat) (f : List (Id × Id) → List (Id × Id)) : World :=
  w.updTree i fun t => { t with pending := f t.pending }

/-- Mutate the list of children of the root of a tree. -/
def updRoot (w : World) (i : Nat) (f : List Id → List Id) : World :=
  w.updTree i fun t => { t with root := { t.root with children := f t.root.children } }

/-- `has_node` (`tree.py:317-319`). -/
def has (w : World) (i : Nat) (x : Id) : Bool := (w.tree i).nodes.has x

/-- The address of the object that the tree has under a name. -/
def at? (w : World) (i : Nat) (x : Id) : Option Nat := (w.tree i).nodes.get? x

/-- `self.nodes[x]`, if present. -/
def node? (w : World) (i : Nat) (x : Id) : Option Node := (w.at? i x).map w.obj

/-- What a reader finds when it follows the addresses of a tree. -/
def seen (w : World) (i : Nat) : Tree :=
  { nodes := ⟨(w.tree i).nodes.entries.map fun e => (e.1, w.obj e.2)⟩, pending := (w.tree i).pending, root := (w.tree i).root }

/-- The tree as a reader finds it, and the notifications it has sent. -/
def st (w : World) (i : Nat) : St := ⟨w.seen i, (w.tree i).log⟩

/-- `MainTree._callback` (`tree.py:74-79`), as `St.emit`: the observers can read the tree as it is at that moment. -/
def emit (w : World) (i : Nat) (ev : Ev) (x : Id) : World :=
  let note : Note := ⟨w.seen i, ev, x⟩
  w.updTree i fun t => { t with log := t.log ++ [note] }

/-- `self.nodes[x].parents` (`[]` for an absent node). -/
def rawParents (w : World) (i : Nat) (x : Id) : List Id := ((w.node? i x).map Node.parents).getD []

/-- `self.nodes[x].children` (`[]` for an absent node). -/
def rawChildren (w : World) (i : Nat) (x : Id) : List Id := ((w.node? i x).map Node.children).getD []

/-- `_Node.get_parents` (`treenode.py:135-143`): the tree asked is the one the object refers to. -/
def getParents (w : World) (a : Nat) : List Id :=
  match w.treeOf a with
  | none => []
  | some j => if (w.obj a).parentsEnabled then (w.obj a).parents.filter (w.has j) else []

/-- `_Node.get_children` (`treenode.py:188-196`). -/
def getChildren (w : World) (a : Nat) : List Id :=
  match w.treeOf a with
  | none => []
  | some j => if (w.obj a).childrenEnabled then (w.obj a).children.filter (w.has j) else []

/-! ### `MainTree` -/

/-- `_create_relationship` (`tree.py:103-115`); `none` is `KeyError`. -/
def create (w : World) (i : Nat) (p c : Id) : Option World :=
  match w.at? i p, w.at? i c with
  | some a, some b =>
    let w1 := w.updObj a fun nd => { nd with children := appendNew nd.children c }
    let w2 := w1.updObj b fun nd => { nd with parents := appendNew nd.parents p }
    some (w2.updRoot i fun l => l.erase c)
  | _, _ => none

/-- `_destroy_relationship` (`tree.py:117-126`); `none` is `KeyError`. -/
def destroy (w : World) (i : Nat) (p c : Id) : Option World :=
  match w.at? i p, w.at? i c with
  | some a, some b =>
    let w1 := w.updObj a fun nd => { nd with children := nd.children.erase c }
    some (w1.updObj b fun nd => { nd with parents := nd.parents.erase p })
  | _, _ => none

/-- The loop of `_is_circular_relation` (`tree.py:137-147`), as `Tree.circLoop`. -/
def circLoop (w : World) (i : Nat) (c : Id) : Nat → List Id → Option Bool
  | _, [] => some false
  | 0, _ :: _ => none
  | f + 1, x :: q =>
    if x = c then some true
    else match w.node? i x with
      | none => circLoop w i c f q
      | some nd => circLoop w i c f (q ++ nd.parents)

/-- `_is_circular_relation` (`tree.py:128-149`). The fuel is that of `Tree.isCircular`. -/
def isCircular (w : World) (i : Nat) (p c : Id) : Option Bool :=
  w.circLoop i c ((w.seen i).upWalks ((w.seen i).nodes.entries.length + 2) p) [p]

/-- `_new_relationship` (`tree.py:263-291`). -/
def newRelationship (w : World) (i : Nat) (p c : Id) : Res World :=
  -- 268-269
  let w1 := w.updPending i fun l => l.erase (p, c)
  -- 271-272
  if p.falsy || c.falsy || p = c then .ok w1
  -- 274-276
  else if !w1.has i p || !w1.has i c then .ok (w1.updPending i fun l => l ++ [(p, c)])
  else match w1.isCircular i p c with
    | none => .err .diverge w1
    -- 278-282
    | some true =>
      match w1.destroy i p c with
      | none => .err .keyError w1
      | some w2 => .err .circular w2
    -- 284-291
    | some false =>
      match w1.create i p c with
      | none => .err .keyError w1
      | some w2 => .ok (((w2.updRoot i fun l => l.erase c).emit i .modified p).emit i .modified c)

/-- `self.root.add_child(child_id)` (`tree.py:311`, `treenode.py:155-172`). -/
def rootAddChild (w : World) (i : Nat) (c : Id) : Res World :=
  if (w.tree i).root.childrenEnabled = true ∧ c ≠ (w.tree i).root.id then
    if c ∉ (w.tree i).root.children then
      match w.node? i c with
      | none => .ok (w.updPending i fun l => l ++ [((w.tree i).root.id, c)])
      | some child =>
        if child.parentsEnabled then newRelationship (w.updRoot i fun l => l ++ [c]) i (w.tree i).root.id c else .ok w
    else .ok w
  else .ok w

/-- `_break_relationship` (`tree.py:293-314`). -/
def breakRelationship (w : World) (i : Nat) (p c : Id) : Res World :=
  -- 297-299
  let w1 := w.updPending i fun l => dropPending l p c
  -- 301-305
  if p.falsy || c.falsy || p = c then .ok w1
  else if !w1.has i p || !w1.has i c then .ok w1
  else match w1.destroy i p c with
    | none => .err .keyError w1
    | some w2 =>
      -- 310-311
      let r := if ((w2.at? i c).map w2.getParents).getD [] = [] then rootAddChild w2 i c else .ok w2
      -- 313-314
      r.andThen fun w3 => .ok ((w3.emit i .modified p).emit i .modified c)

/-- One round of the loop over the pending relationships in `_add_node` (`tree.py:175-196`), as `addPendingStep`. -/
def addPendingStep (i : Nat) (x : Id) (acc : Option (World × Bool)) (r : Id × Id) : Option (World × Bool) :=
  acc.bind fun (w, toRoot) =>
    -- 177-186
    let first : Option (World × Bool) :=
      if r.2 = x ∧ w.has i r.1 = true then
        match w.isCircular i r.1 x with
        | none => none
        | some false => (w.create i r.1 x).map fun w' => (w'.updPending i fun l => l.erase r, false)
        | some true => some (w.updPending i fun l => l.erase r, toRoot)
      else some (w, toRoot)
    first.bind fun (w, toRoot) =>
      -- 189-196
      if r.1 = x ∧ w.has i r.2 = true then
        match w.isCircular i x r.2 with
        | none => none
        | some false => (w.create i x r.2).map fun w' => (w'.updPending i fun l => l.erase r, toRoot)
        | some true => some (w.updPending i fun l => l.erase r, toRoot)
      else some (w, toRoot)

/-- `tree.py:162-168`: the object at `a` gets its attribute `tree`, hands its pending relationships over, and enters the dict. -/
def enter (w : World) (i a : Nat) : World :=
  let nd := w.obj a
  let w1 : World := { w with objs := w.objs.modify a fun o =>
    { core := { o.core with hasTree := true, pending := [] }, tree := some i } }
  w1.updTree i fun t => { t with pending := mergePending t.pending nd.pending, nodes := t.nodes.set nd.id a }

/-- `_add_node` (`tree.py:151-217`) for the object at `a`. -/
def addNode (w : World) (i a : Nat) (parent : Id) : Res World :=
  let x := (w.obj a).id
  -- 157-160
  if w.has i x then .ok w
  else
    let w1 := w.enter i a
    -- 175-196
    match (w1.tree i).pending.foldl (addPendingStep i x) (some (w1, true)) with
    | none => .err .diverge w1
    | some (w2, toRoot) =>
      -- 199-209
      let r : Res (World × Bool) :=
        if parent = .none then .ok (w2, toRoot)
        else match w2.isCircular i parent x with
          | none => .err .diverge (w2, toRoot)
          | some true => .err .circular (w2, toRoot)
          | some false =>
            if w2.has i parent then
              match w2.create i parent x with
              | none => .err .keyError (w2, toRoot)
              | some w3 => .ok (w3, false)
            else .ok (w2.updPending i fun l => l ++ [(parent, x)], toRoot)
      match r with
      | .err e (w3, _) => .err e w3
      | .ok (w3, toRoot) =>
        -- 212-217
        let w4 := if toRoot then w3.updRoot i fun l => l ++ [x] else w3
        .ok (w4.emit i .added x)

/-- `tree.py:238-240`, as `removeParentsLoop`. -/
def removeParentsLoop (i : Nat) : Nat → Nat → World → Id → Res World
  | 0, _, w, _ => .ok w
  | f + 1, k, w, x =>
    match (w.rawParents i x)[k]? with
    | none => .ok w
    | some p =>
      match w.destroy i p x with
      | none => .err .keyError w
      | some w' => removeParentsLoop i f (k + 1) (w'.emit i .modified p) x

/-- Body of the loop at `tree.py:243-250` in the non-recursive case. -/
def orphanChild (i : Nat) (x : Id) (c : Id) (w : World) : Res World :=
  match w.destroy i x c with
  | none => .err .keyError w
  | some w' =>
    let w1 := w'.emit i .modified c
    .ok (if w1.rawParents i c = [] then w1.updRoot i fun l => l ++ [c] else w1)

/-- `_remove_node` (`tree.py:219-256`). The object stays in memory, and its attribute `tree` is not touched. -/
def removeNode (i : Nat) : Nat → World → Id → Bool → Res World
  | 0, w, _, _ => .err .diverge w
  | f + 1, w, x, recursive =>
    -- 222-228
    if !w.has i x || x = .none then .ok w
    else
      -- 231-233
      let w1 := w.updPending i fun l => dropPendingOf l x
      -- 238-240
      (removeParentsLoop i (w1.rawParents i x).length 0 w1 x).andThen fun w2 =>
      -- 243-250
      (Res.forEach (fun c w => if recursive then removeNode i f w c true else orphanChild i x c w)
        (w2.rawChildren i x) w2).andThen fun w3 =>
      -- 252-256
      let w4 := w3.updRoot i fun l => l.erase x
      if w3.has i x then
        .ok ((w4.updTree i fun t => { t with nodes := t.nodes.del x }).emit i .deleted x)
      else .err .keyError w4

/-- `_modify_node` (`tree.py:258-261`). -/
def modifyNode (w : World) (i : Nat) (x : Id) : Res World :=
  if x ≠ rootId ∧ w.has i x = true then .ok (w.emit i .modified x) else .ok w

/-! ### Methods of the object at the address `a` -/

/-- `add_parent` (`treenode.py:75-88`). -/
def addParent (w : World) (a : Nat) (p : Id) : Res World :=
  let nd := w.obj a
  if p ≠ nd.id ∧ nd.parentsEnabled = true ∧ p ∉ nd.parents then
    match w.treeOf a with
    | none => .ok (w.updObj a fun nd => { nd with pending := nd.pending ++ [(p, nd.id)] })
    | some i =>
      match w.node? i p with
      | none => .ok (w.updPending i fun l => l ++ [(p, nd.id)])
      | some par => if par.childrenEnabled then w.newRelationship i p nd.id else .ok w
  else .ok w

/-- `remove_parent` (`treenode.py:113-117`). -/
def removeParent (w : World) (a : Nat) (p : Id) : Res World :=
  let nd := w.obj a
  if nd.parentsEnabled = true ∧ p ∈ nd.parents then
    let w1 := w.updObj a fun nd => { nd with parents := nd.parents.erase p }
    match w.treeOf a with
    | none => .err .attributeError w1
    | some i => w1.breakRelationship i p nd.id
  else .ok w

/-- The loop of `set_parent` (`treenode.py:105-109`) over `self.parents`, which `remove_parent` shrinks, as `setParentLoop`. -/
def setParentLoop (a : Nat) : Nat → Nat → World → Id → Bool → Res (World × Bool)
  | 0, _, w, _, flag => .ok (w, flag)
  | f + 1, k, w, p, flag =>
    match (w.obj a).parents[k]? with
    | none => .ok (w, flag)
    | some q =>
      if q ≠ p then
        match w.removeParent a q with
        | .err e w' => .err e (w', flag)
        | .ok w' => setParentLoop a f (k + 1) w' p flag
      else setParentLoop a f (k + 1) w p true

/-- `set_parent` (`treenode.py:90-111`). -/
def setParent (w : World) (a : Nat) (p : Id) : Res World :=
  let nd := w.obj a
  if p ≠ nd.id ∧ nd.parentsEnabled = true then
    match w.treeOf a with
    | none => .ok (w.updObj a fun nd => { nd with pending := nd.pending ++ [(p, nd.id)] })
    | some i =>
      match w.node? i p with
      | none =>
        (Res.forEach (fun q (w : World) => w.breakRelationship i q nd.id) (w.getParents a) w).andThen fun w =>
          .ok (w.updPending i fun l => l ++ [(p, nd.id)])
      | some par =>
        if par.childrenEnabled then
          match setParentLoop a nd.parents.length 0 w p false with
          | .err e (w', _) => .err e w'
          | .ok (w', flag) => if !p.falsy && !flag then w'.addParent a p else .ok w'
        else .ok w
  else .ok w

/-- `add_child` (`treenode.py:155-172`). -/
def addChild (w : World) (a : Nat) (c : Id) : Res World :=
  let nd := w.obj a
  if nd.childrenEnabled = true ∧ c ≠ nd.id then
    if c ∉ nd.children then
      match w.treeOf a with
      | none => .ok (w.updObj a fun nd => { nd with pending := nd.pending ++ [(nd.id, c)] })
      | some i =>
        match w.node? i c with
        | none => .ok (w.updPending i fun l => l ++ [(nd.id, c)])
        | some child =>
          if child.parentsEnabled then
            (w.updObj a fun nd => { nd with children := nd.children ++ [c] }).newRelationship i nd.id c
          else .ok w
    else .ok w
  else .ok w

/-- `set_parents_enabled` (`treenode.py:66-70`). -/
def setParentsEnabled (w : World) (a : Nat) (b : Bool) : Res World :=
  let r := if b then .ok w else Res.forEach (fun p (w : World) => w.removeParent a p) (w.getParents a) w
  r.andThen fun w => .ok (w.updObj a fun nd => { nd with parentsEnabled := b })

/-- `set_children_enabled` (`treenode.py:146-150`). -/
def setChildrenEnabled (w : World) (a : Nat) (b : Bool) : Res World :=
  let r : Res World := if b then .ok w
    else match w.treeOf a with
      | none => .ok w
      | some i => Res.forEach (fun c (w : World) => w.breakRelationship i (w.obj a).id c) (w.getChildren a) w
  r.andThen fun w => .ok (w.updObj a fun nd => { nd with childrenEnabled := b })

/-- `modified` (`treenode.py:49-52`). -/
def modified (w : World) (a : Nat) : Res World :=
  match w.treeOf a with
  | none => .ok w
  | some i => w.modifyNode i (w.obj a).id

/-- The call of a method of the object. -/
def call (w : World) (a : Nat) : Call → Res World
  | .addParent p => w.addParent a p
  | .setParent p => w.setParent a p
  | .removeParent p => w.removeParent a p
  | .addChild c => w.addChild a c
  | .setParentsEnabled b => w.setParentsEnabled a b
  | .setChildrenEnabled b => w.setChildrenEnabled a b
  | .modified => w.modified a

end World

/-- Something the program does with trees and objects. -/
inductive WorldAct where
  | newTree                                       -- Tree()
  | make (x parent : Id)                          -- TreeNode(x, parent)
  | addNode (i a : Nat) (parent : Id)             -- tree.add_node(object, parent)
  | delNode (i : Nat) (x : Id) (recursive : Bool) -- tree.del_node
  | refreshNode (i : Nat) (x : Id)                -- tree.refresh_node
  | moveNode (i : Nat) (x p : Id)                 -- tree.move_node
  | addParent (i : Nat) (x p : Id)                -- tree.add_parent
  | newRelationship (i : Nat) (p c : Id)          -- MainTree.new_relationship
  | breakRelationship (i : Nat) (p c : Id)        -- MainTree.break_relationship
  | call (a : Nat) (c : Call)                     -- a method of an object
deriving DecidableEq, Repr

namespace World

/-- Nothing has been made yet. -/
def init : World := ⟨[], []⟩

/-- A tree or an object that does not exist yet cannot be used: then nothing happens. -/
def withTree (w : World) (i : Nat) (r : Res World) : Res World := if i < w.trees.length then r else .ok w

/-- One thing the program does. `move_node` and `add_parent` of a tree look the object up and call its method
(`__init__.py:93-113`). -/
def step (w : World) : WorldAct → Res World
  | .newTree => .ok { w with trees := w.trees ++ [OTree.init] }
  | .make x parent => .ok { w with objs := w.objs ++ [⟨Node.new x parent, none⟩] }
  | .addNode i a parent => if a < w.objs.length then w.withTree i (w.addNode i a parent) else .ok w
  | .delNode i x r => w.withTree i (removeNode i (removeFuel (w.seen i)) w x r)
  | .refreshNode i x => w.withTree i (w.modifyNode i x)
  | .moveNode i x p =>
    match w.at? i x with
    | none => .ok w
    | some a => w.setParent a p
  | .addParent i x p =>
    match w.at? i x with
    | none => .ok w
    | some a => w.addParent a p
  | .newRelationship i p c => w.withTree i (w.newRelationship i p c)
  | .breakRelationship i p c => w.withTree i (w.breakRelationship i p c)
  | .call a c => if a < w.objs.length then w.call a c else .ok w

/-- A sequence of things the program does. A call that raises leaves the state it reached; the program goes on. -/
def run (w : World) : List WorldAct → World
  | [] => w
  | d :: ds => run (w.step d).state ds

end World
end Larch
