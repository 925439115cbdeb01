import Verif.Model.Tree

/-!
# Node objects that have left the tree

`_remove_node` takes a node out of the dict of the tree, but the object lives on in the hands of the program, and its attribute
`tree` is still set (`tree.py:252-256` does not touch it). Here the removed objects are kept beside the tree: they can be handed to
`add_node` again, and their methods can be called. Simplification: an object that `add_node` refused because its name is in use
and that has never been in the tree is not kept here; its methods are those of a newly made object (`Model/Tree.lean`).
-/

namespace Larch

/-- Change what a call returns beside the exception. -/
def Res.map {σ τ : Type} (f : σ → τ) : Res σ → Res τ
  | .ok s => .ok (f s)
  | .err e s => .err e (f s)

/-- `_remove_node` (`tree.py:219-256`) as in `Model/Tree.lean`, also listing the objects taken out of the dict (`tree.py:255`), as
they are at that moment. The first argument is the recursion depth allowed. -/
def removeKeep : Nat → St × List Node → Id → Bool → Res (St × List Node)
  | 0, a, _, _ => .err .diverge a
  | f + 1, a, x, recursive =>
    -- 222-228
    if !a.1.t.has x || x = .none then .ok a
    else
      -- 231-233
      let s1 := a.1.mapTree fun t => { t with pending := dropPendingOf t.pending x }
      -- 238-240
      ((removeParentsLoop (s1.t.rawParents x).length 0 s1 x).map fun s => (s, a.2)).andThen fun a2 =>
      -- 243-250
      (Res.forEach (fun c b => if recursive then removeKeep f b c true else (orphanChild x c b.1).map fun s => (s, b.2))
        (a2.1.t.rawChildren x) a2).andThen fun a3 =>
      -- 252-256
      match a3.1.t.node? x with
      | some nd =>
        .ok ((a3.1.mapTree fun t =>
          let t1 := t.updRoot (fun l => l.erase x)
          { t1 with nodes := t1.nodes.del x }).emit .deleted x, a3.2 ++ [nd])
      | none => .err .keyError (a3.1.mapTree fun t => t.updRoot (fun l => l.erase x), a3.2)

/-! ### Methods of `_Node` on an object that is not in the tree but still refers to it -/

namespace Dead

/-- `add_parent` (`treenode.py:75-88`). -/
def addParent (s : St) (nd : Node) (p : Id) : Res (St × Node) :=
  if p ≠ nd.id ∧ nd.parentsEnabled = true ∧ p ∉ nd.parents then
    match s.t.node? p with
    | none => .ok (s.mapTree fun t => { t with pending := t.pending ++ [(p, nd.id)] }, nd)
    | some par => if par.childrenEnabled then (newRelationship s p nd.id).map fun s => (s, nd) else .ok (s, nd)
  else .ok (s, nd)

/-- `remove_parent` (`treenode.py:113-117`). -/
def removeParent (s : St) (nd : Node) (p : Id) : Res (St × Node) :=
  if nd.parentsEnabled = true ∧ p ∈ nd.parents then
    (breakRelationship s p nd.id).map fun s => (s, { nd with parents := nd.parents.erase p })
  else .ok (s, nd)

/-- The loop of `set_parent` (`treenode.py:105-109`) over `self.parents`, which `remove_parent` shrinks: `i` is the index of the
iterator, the first argument is fuel. Returns also `is_already_parent_flag`. -/
def setParentLoop : Nat → Nat → St → Node → Id → Bool → Res ((St × Node) × Bool)
  | 0, _, s, nd, _, flag => .ok ((s, nd), flag)
  | f + 1, i, s, nd, p, flag =>
    match nd.parents[i]? with
    | none => .ok ((s, nd), flag)
    | some q =>
      if q ≠ p then
        match removeParent s nd q with
        | .err e a => .err e (a, flag)
        | .ok a => setParentLoop f (i + 1) a.1 a.2 p flag
      else setParentLoop f (i + 1) s nd p true

/-- `set_parent` (`treenode.py:90-111`). -/
def setParent (s : St) (nd : Node) (p : Id) : Res (St × Node) :=
  if p ≠ nd.id ∧ nd.parentsEnabled = true then
    match s.t.node? p with
    | none =>
      (Res.forEach (fun q s => breakRelationship s q nd.id) (s.t.parentsOf nd) s).andThen (fun s =>
        .ok (s.mapTree fun t => { t with pending := t.pending ++ [(p, nd.id)] })) |>.map fun s => (s, nd)
    | some par =>
      if par.childrenEnabled then
        match setParentLoop nd.parents.length 0 s nd p false with
        | .err e (a, _) => .err e a
        | .ok (a, flag) => if !p.falsy && !flag then addParent a.1 a.2 p else .ok a
      else .ok (s, nd)
  else .ok (s, nd)

/-- `add_child` (`treenode.py:155-172`). -/
def addChild (s : St) (nd : Node) (c : Id) : Res (St × Node) :=
  if nd.childrenEnabled = true ∧ c ≠ nd.id then
    if c ∉ nd.children then
      match s.t.node? c with
      | none => .ok (s.mapTree fun t => { t with pending := t.pending ++ [(nd.id, c)] }, nd)
      | some child =>
        if child.parentsEnabled then
          (newRelationship s nd.id c).map fun s => (s, { nd with children := nd.children ++ [c] })
        else .ok (s, nd)
    else .ok (s, nd)
  else .ok (s, nd)

/-- `set_parents_enabled` (`treenode.py:66-70`). -/
def setParentsEnabled (s : St) (nd : Node) (b : Bool) : Res (St × Node) :=
  let r := if b then .ok (s, nd)
    else Res.forEach (fun p (a : St × Node) => removeParent a.1 a.2 p) (s.t.parentsOf nd) (s, nd)
  r.andThen fun a => .ok (a.1, { a.2 with parentsEnabled := b })

/-- `set_children_enabled` (`treenode.py:146-150`). -/
def setChildrenEnabled (s : St) (nd : Node) (b : Bool) : Res (St × Node) :=
  let r := if b then .ok s
    else Res.forEach (fun c s => breakRelationship s nd.id c) (s.t.childrenOf nd) s
  (r.map fun s => (s, nd)).andThen fun a => .ok (a.1, { a.2 with childrenEnabled := b })

/-- `modified` (`treenode.py:49-52`). -/
def modified (s : St) (nd : Node) : Res (St × Node) := (modifyNode s nd.id).map fun s => (s, nd)

end Dead

/-- A call of a method of a removed object. -/
inductive Call where
  | addParent (p : Id)
  | setParent (p : Id)
  | removeParent (p : Id)
  | addChild (c : Id)
  | setParentsEnabled (b : Bool)
  | setChildrenEnabled (b : Bool)
  | modified
deriving DecidableEq, Repr

/-- The call on the object. -/
def Dead.call (s : St) (nd : Node) : Call → Res (St × Node)
  | .addParent p => Dead.addParent s nd p
  | .setParent p => Dead.setParent s nd p
  | .removeParent p => Dead.removeParent s nd p
  | .addChild c => Dead.addChild s nd c
  | .setParentsEnabled b => Dead.setParentsEnabled s nd b
  | .setChildrenEnabled b => Dead.setChildrenEnabled s nd b
  | .modified => Dead.modified s nd

/-- A tree and the node objects that were removed from it and that the program still holds, oldest first. -/
structure Home where
  s : St
  kept : List Node
deriving DecidableEq

/-- Something the program does: an edit as in `Model/Tree.lean`, `Tree.add_node(kept[k], parent)`, or a method of `kept[k]`. -/
inductive Deed where
  | edit (op : Op)
  | again (k : Nat) (parent : Id)
  | call (k : Nat) (c : Call)
deriving DecidableEq, Repr

namespace Home

/-- The empty tree, and no removed object. -/
def init : Home := ⟨St.init, []⟩

/-- One deed. A deed on an object that does not exist does nothing. `_add_node` puts the object into the dict before anything in
it can raise (`tree.py:157-168`). -/
def step (h : Home) : Deed → Res Home
  | .edit (.delNode x r) => (removeKeep (removeFuel h.s.t) (h.s, h.kept) x r).map fun a => ⟨a.1, a.2⟩
  | .edit op => (Larch.step h.s op).map fun s => ⟨s, h.kept⟩
  | .again k parent =>
    match h.kept[k]? with
    | none => .ok h
    | some nd =>
      if h.s.t.has nd.id then .ok h
      else (addNode h.s nd parent).map fun s => ⟨s, h.kept.eraseIdx k⟩
  | .call k c =>
    match h.kept[k]? with
    | none => .ok h
    | some nd => (Dead.call h.s nd c).map fun a => ⟨a.1, h.kept.set k a.2⟩

/-- A sequence of deeds. A call that raises leaves the state it reached; the program goes on. -/
def run (h : Home) : List Deed → Home
  | [] => h
  | d :: ds => run (h.step d).state ds

end Home
end Larch
