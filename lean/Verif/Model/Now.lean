import Verif.Model.Desk

/-!
# Edits whose observers are told in the middle of them

`Model/Tree.lean` records the notifications of an edit, and the models of views and counters let the observers react to the
recorded notifications after the edit. Here the same functions of `liblarch/tree.py` and `liblarch/treenode.py` call the observers
at the moment of the notification, as `MainTree._callback` does (`tree.py:74-79`). An exception of an observer ends the edit at
that point, and the tree stays as it is then.

The edits are given the function that notifies. `Now.quietly` is the one for observers that do not edit the tree;
`Model/Nested.lean` has observers that do.
-/

namespace Larch

/-- A tree, the notifications sent so far, and the state of the observers. -/
structure Now (σ : Type) where
  s : St
  o : σ

namespace Now

variable {σ : Type}

/-- Change the tree only. -/
def mapTree (w : Now σ) (f : Tree → Tree) : Now σ := ⟨w.s.mapTree f, w.o⟩

/-- `_callback` (`tree.py:74-79`), for observers that look at the tree and do not edit it. -/
def emit (hear : Note → σ → Res σ) (w : Now σ) (ev : Ev) (n : Id) : Res (Now σ) :=
  match hear ⟨w.s.t, ev, n⟩ w.o with
  | .ok o => .ok ⟨w.s.emit ev n, o⟩
  | .err e o => .err e ⟨w.s.emit ev n, o⟩

/-- The notifications, as the edits below send them, to observers of this kind. -/
def quietly (hear : Note → σ → Res σ) : Ev → Id → Now σ → Res (Now σ) := fun ev n w => w.emit hear ev n

variable (tell : Ev → Id → Now σ → Res (Now σ))

/-- `_new_relationship` (`tree.py:263-291`). -/
def newRelationship (w : Now σ) (p c : Id) : Res (Now σ) :=
  -- 268-269
  let w1 := w.mapTree fun t => { t with pending := t.pending.erase (p, c) }
  -- 271-272
  if p.falsy || c.falsy || p = c then .ok w1
  -- 274-276
  else if !w1.s.t.has p || !w1.s.t.has c then
    .ok (w1.mapTree fun t => { t with pending := t.pending ++ [(p, c)] })
  else match w1.s.t.isCircular p c with
    | none => .err .diverge w1
    -- 278-282
    | some true =>
      match w1.s.t.destroy p c with
      | none => .err .keyError w1
      | some t2 => .err .circular (w1.mapTree fun _ => t2)
    -- 284-291
    | some false =>
      match w1.s.t.create p c with
      | none => .err .keyError w1
      | some t2 =>
        (tell .modified p (w1.mapTree fun _ => t2.updRoot (fun l => l.erase c))).andThen (tell .modified c)

/-- `self.root.add_child(child_id)` (`tree.py:311`, `treenode.py:155-172`). -/
def rootAddChild (w : Now σ) (c : Id) : Res (Now σ) :=
  if w.s.t.root.childrenEnabled = true ∧ c ≠ w.s.t.root.id then
    if c ∉ w.s.t.root.children then
      match w.s.t.node? c with
      | none => .ok (w.mapTree fun t => { t with pending := t.pending ++ [(t.root.id, c)] })
      | some child =>
        if child.parentsEnabled then
          newRelationship tell (w.mapTree fun t => t.updRoot (fun l => l ++ [c])) w.s.t.root.id c
        else .ok w
    else .ok w
  else .ok w

/-- `_break_relationship` (`tree.py:293-314`). -/
def breakRelationship (w : Now σ) (p c : Id) : Res (Now σ) :=
  let w1 := w.mapTree fun t => { t with pending := dropPending t.pending p c }
  if p.falsy || c.falsy || p = c then .ok w1
  else if !w1.s.t.has p || !w1.s.t.has c then .ok w1
  else match w1.s.t.destroy p c with
    | none => .err .keyError w1
    | some t2 =>
      let w2 := w1.mapTree fun _ => t2
      let r := if w2.s.t.getParents c = [] then rootAddChild tell w2 c else .ok w2
      r.andThen fun w3 => (tell .modified p w3).andThen (tell .modified c)

/-- `_add_node` (`tree.py:151-217`). -/
def addNode (w : Now σ) (nd : Node) (parent : Id) : Res (Now σ) :=
  -- 157-160
  if w.s.t.has nd.id then .ok w
  else
    let t1 := insertNode w.s.t nd
    -- 175-196
    match t1.pending.foldl (addPendingStep nd.id) (some (t1, true)) with
    | none => .err .diverge (w.mapTree fun _ => t1)
    | some (t2, toRoot) =>
      -- 199-209
      let r : Res (Tree × Bool) :=
        if parent = .none then .ok (t2, toRoot)
        else match t2.isCircular parent nd.id with
          | none => .err .diverge (t2, toRoot)
          | some true => .err .circular (t2, toRoot)
          | some false =>
            if t2.has parent then
              match t2.create parent nd.id with
              | none => .err .keyError (t2, toRoot)
              | some t3 => .ok (t3, false)
            else .ok ({ t2 with pending := t2.pending ++ [(parent, nd.id)] }, toRoot)
      match r with
      | .err e (t3, _) => .err e (w.mapTree fun _ => t3)
      | .ok (t3, toRoot) =>
        -- 212-217
        let t4 := if toRoot then t3.updRoot (fun l => l ++ [nd.id]) else t3
        tell .added nd.id (w.mapTree fun _ => t4)

/-- `for parent_id in node.parents: ...` (`tree.py:238-240`), with the index of the iterator. -/
def removeParentsLoop : Nat → Nat → Now σ → Id → Res (Now σ)
  | 0, _, w, _ => .ok w
  | f + 1, i, w, x =>
    match (w.s.t.rawParents x)[i]? with
    | none => .ok w
    | some p =>
      match w.s.t.destroy p x with
      | none => .err .keyError w
      | some t' => (tell .modified p (w.mapTree fun _ => t')).andThen fun w => removeParentsLoop f (i + 1) w x

/-- Body of the loop at `tree.py:243-250` in the non-recursive case. -/
def orphanChild (x : Id) (c : Id) (w : Now σ) : Res (Now σ) :=
  match w.s.t.destroy x c with
  | none => .err .keyError w
  | some t' =>
    (tell .modified c (w.mapTree fun _ => t')).andThen fun w =>
      .ok (if w.s.t.rawParents c = [] then w.mapTree (fun t => t.updRoot (fun l => l ++ [c])) else w)

/-- `_remove_node` (`tree.py:219-256`). `more` is the number of rounds by which observers may lengthen the loop over the parents. -/
def removeNode (more : Nat := 0) : Nat → Now σ → Id → Bool → Res (Now σ)
  | 0, w, _, _ => .err .diverge w
  | f + 1, w, x, recursive =>
    -- 222-228
    if !w.s.t.has x || x = .none then .ok w
    else
      -- 231-233
      let w1 := w.mapTree fun t => { t with pending := dropPendingOf t.pending x }
      -- 238-240
      (removeParentsLoop tell ((w1.s.t.rawParents x).length + more) 0 w1 x).andThen fun w2 =>
      -- 243-250
      (Res.forEach (fun c w => if recursive then removeNode more f w c true else orphanChild tell x c w)
        (w2.s.t.rawChildren x) w2).andThen fun w3 =>
      -- 252-256
      if w3.s.t.has x then
        tell .deleted x (w3.mapTree fun t =>
          let t1 := t.updRoot (fun l => l.erase x)
          { t1 with nodes := t1.nodes.del x })
      else .err .keyError (w3.mapTree fun t => t.updRoot (fun l => l.erase x))

/-- `_modify_node` (`tree.py:258-261`). -/
def modifyNode (w : Now σ) (x : Id) : Res (Now σ) :=
  if x ≠ rootId ∧ w.s.t.has x = true then tell .modified x w else .ok w

/-- `_Node.add_parent` (`treenode.py:75-88`). -/
def nodeAddParent (w : Now σ) (x p : Id) : Res (Now σ) :=
  match w.s.t.node? x with
  | none => .err .valueError w
  | some nd =>
    if p ≠ x ∧ nd.parentsEnabled = true ∧ p ∉ nd.parents then
      match w.s.t.node? p with
      | none => .ok (w.mapTree fun t => { t with pending := t.pending ++ [(p, x)] })
      | some par => if par.childrenEnabled then newRelationship tell w p x else .ok w
    else .ok w

/-- `_Node.remove_parent` (`treenode.py:113-117`). -/
def nodeRemoveParent (w : Now σ) (x p : Id) : Res (Now σ) :=
  match w.s.t.node? x with
  | none => .err .valueError w
  | some nd =>
    if nd.parentsEnabled = true ∧ p ∈ nd.parents then
      breakRelationship tell (w.mapTree fun t => t.updNode x (fun nd => { nd with parents := nd.parents.erase p })) p x
    else .ok w

/-- The loop at `treenode.py:105-109` of `set_parent`, with the index of the iterator. Returns also `is_already_parent_flag`. -/
def setParentLoop : Nat → Nat → Now σ → Id → Id → Bool → Res (Now σ × Bool)
  | 0, _, w, _, _, flag => .ok (w, flag)
  | f + 1, i, w, x, p, flag =>
    match (w.s.t.rawParents x)[i]? with
    | none => .ok (w, flag)
    | some q =>
      if q ≠ p then
        match nodeRemoveParent tell w x q with
        | .err e w' => .err e (w', flag)
        | .ok w' => setParentLoop f (i + 1) w' x p flag
      else setParentLoop f (i + 1) w x p true

/-- `_Node.set_parent` (`treenode.py:90-111`). `more` as in `removeNode`. -/
def nodeSetParent (w : Now σ) (x p : Id) (more : Nat := 0) : Res (Now σ) :=
  match w.s.t.node? x with
  | none => .err .valueError w
  | some nd =>
    if p ≠ x ∧ nd.parentsEnabled = true then
      match w.s.t.node? p with
      | none =>
        (Res.forEach (fun q w => breakRelationship tell w q x) (w.s.t.getParents x) w).andThen fun w =>
          .ok (w.mapTree fun t => { t with pending := t.pending ++ [(p, x)] })
      | some par =>
        if par.childrenEnabled then
          match setParentLoop tell (nd.parents.length + more) 0 w x p false with
          | .err e (w', _) => .err e w'
          | .ok (w', flag) => if !p.falsy && !flag then nodeAddParent tell w' x p else .ok w'
        else .ok w
    else .ok w

/-- `_Node.add_child` (`treenode.py:155-172`). -/
def nodeAddChild (w : Now σ) (x c : Id) : Res (Now σ) :=
  match w.s.t.node? x with
  | none => .err .valueError w
  | some nd =>
    if nd.childrenEnabled = true ∧ c ≠ x then
      if c ∉ nd.children then
        match w.s.t.node? c with
        | none => .ok (w.mapTree fun t => { t with pending := t.pending ++ [(x, c)] })
        | some child =>
          if child.parentsEnabled then
            newRelationship tell (w.mapTree fun t =>
              t.updNode x (fun nd => { nd with children := nd.children ++ [c] })) x c
          else .ok w
      else .ok w
    else .ok w

/-- `_Node.set_parents_enabled` (`treenode.py:66-70`). -/
def nodeSetParentsEnabled (w : Now σ) (x : Id) (b : Bool) : Res (Now σ) :=
  match w.s.t.node? x with
  | none => .err .valueError w
  | some _ =>
    let r := if b then .ok w
      else Res.forEach (fun p w => nodeRemoveParent tell w x p) (w.s.t.getParents x) w
    r.andThen fun w => .ok (w.mapTree fun t => t.updNode x (fun nd => { nd with parentsEnabled := b }))

/-- `_Node.set_children_enabled` (`treenode.py:146-150`). -/
def nodeSetChildrenEnabled (w : Now σ) (x : Id) (b : Bool) : Res (Now σ) :=
  match w.s.t.node? x with
  | none => .err .valueError w
  | some _ =>
    let r := if b then .ok w
      else Res.forEach (fun c w => breakRelationship tell w x c) (w.s.t.getChildren x) w
    r.andThen fun w => .ok (w.mapTree fun t => t.updNode x (fun nd => { nd with childrenEnabled := b }))

/-- `Tree.move_node` (`__init__.py:93-103`). -/
def moveNode (w : Now σ) (x p : Id) (more : Nat := 0) : Res (Now σ) :=
  if w.s.t.has x then nodeSetParent tell w x p more else .ok w

/-- `Tree.add_parent` (`__init__.py:105-113`). -/
def treeAddParent (w : Now σ) (x p : Id) : Res (Now σ) :=
  if w.s.t.has x then nodeAddParent tell w x p else .ok w

/-- One edit. Observers that do not edit the tree cannot lengthen the lists of parents, so that `more` is 0 for them. -/
def step (w : Now σ) (op : Op) (more : Nat := 0) : Res (Now σ) :=
  match op with
  | .addNode nd p => addNode tell w nd p
  | .delNode x r => removeNode tell more (removeFuel w.s.t) w x r
  | .refreshNode x => modifyNode tell w x
  | .moveNode x p => moveNode tell w x p more
  | .addParent x p => treeAddParent tell w x p
  | .setParent x p => nodeSetParent tell w x p more
  | .removeParent x p => nodeRemoveParent tell w x p
  | .addChild x c => nodeAddChild tell w x c
  | .setParentsEnabled x b => nodeSetParentsEnabled tell w x b
  | .setChildrenEnabled x b => nodeSetChildrenEnabled tell w x b
  | .newRelationship p c => newRelationship tell w p c
  | .breakRelationship p c => breakRelationship tell w p c

end Now

/-! ### The application with any number of views and counters -/

namespace Suite

variable {V : Type}

/-- An edit of the application. -/
def editNow (diff : List Id → List Id → List Id) (a : Suite V) (op : Op) : Res (Suite V) :=
  match Now.step (Now.quietly (Obj.reactAll diff a.bank a.data)) ⟨a.s, a.objs⟩ op with
  | .ok w => .ok { a with s := w.s, objs := w.o }
  | .err e w => .err e { a with s := w.s, objs := w.o }

/-- One action: as `Suite.act`, with the edits of this file. -/
def actNow (diff : List Id → List Id → List Id) (a : Suite V) : SuiteAct V → Res (Suite V)
  | .edit op => a.editNow diff op
  | .change x v => ({ a with data := fun y => if y = x then v else a.data y } : Suite V).editNow diff (.refreshNode x)
  | .bank c => .ok { a with bank := (a.bank.call c).2 }
  | .getView name rf => a.getView diff name rf
  | .getCount name rf => a.getCount name rf
  | .onView k c =>
    match a.objs[k]?, c with
    | some (.view v), .currentState =>
      -- `refresh_all` of the tree (`tree.py:98-101`): every node is notified
      if v.static then Res.forEach (fun x (w : Suite V) => w.editNow diff (.refreshNode x)) a.s.t.nodes.keys a
      else a.callView diff k v .currentState
    | some (.view v), c => a.callView diff k v c
    | _, _ => .ok a
  | .onCount k c =>
    match a.objs[k]? with
    | some (.count v) => a.callCount k v c
    | _ => .ok a

/-- A history of actions. The application catches what is raised and goes on. -/
def runNow (diff : List Id → List Id → List Id) : List (SuiteAct V) → Suite V → Suite V
  | [], a => a
  | c :: cs, a => runNow diff cs (a.actNow diff c).state

end Suite

/-! ### Other threads -/

namespace Desk

variable {V : Type}

/-- One event: as `Desk.step`, with the edits of this file. -/
def stepNow (diff : List Id → List Id → List Id) (d : Desk V) : DeskEv V → Desk V
  | .push p op => { d with q := Queue.step d.q (.push p op) }
  | .tick src => { d with q := Queue.step d.q (.tick src) }
  | .done =>
    match d.q.running with
    | none => d
    | some (_, op) => ⟨(d.app.editNow diff op).state, Queue.step d.q (.done (!(d.app.editNow diff op).isOk))⟩
  | .main c =>
    match d.q.running with
    | none => { d with app := (d.app.actNow diff c).state }
    | some _ => d

/-- A schedule. -/
def runNow (diff : List Id → List Id → List Id) : List (DeskEv V) → Desk V → Desk V
  | [], d => d
  | ev :: evs, d => runNow diff evs (d.stepNow diff ev)

end Desk
end Larch
