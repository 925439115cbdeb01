import Verif.Proofs.Remove

/-!
# Properties of tree and log that survive every elementary mutation survive every edit

`Keeps J` lists the elementary mutations; the theorems below lift it to the edits, whatever the
state of the tree.
-/

namespace Larch

/-- `J` survives every elementary mutation other than adding and deleting a node. -/
structure Keeps (J : St → Prop) : Prop where
  nodes : ∀ {s s' : St}, J s → s'.t.nodes = s.t.nodes → s'.log = s.log → J s'
  create : ∀ {s : St} {p c : Id} {t' : Tree}, J s → s.t.create p c = some t' →
    s.t.isCircular p c = some false → J { s with t := t' }
  destroy : ∀ {s : St} {p c : Id} {t' : Tree}, J s → s.t.destroy p c = some t' → J { s with t := t' }
  eraseParent : ∀ {s : St}, J s → ∀ x p,
    J (s.mapTree fun t => t.updNode x (fun nd => { nd with parents := nd.parents.erase p }))
  appendChild : ∀ {s : St}, J s → ∀ x c, s.t.has c = true →
    J (s.mapTree fun t => t.updNode x (fun nd => { nd with children := nd.children ++ [c] }))
  setParentsEnabled : ∀ {s : St}, J s → ∀ x b,
    J (s.mapTree fun t => t.updNode x (fun nd => { nd with parentsEnabled := b }))
  setChildrenEnabled : ∀ {s : St}, J s → ∀ x b,
    J (s.mapTree fun t => t.updNode x (fun nd => { nd with childrenEnabled := b }))
  modified : ∀ {s : St}, J s → ∀ {n}, s.t.has n = true → J (s.emit .modified n)

variable {J : St → Prop}

/-! ### Edits -/

theorem newRelationship_keeps (K : Keeps J) (s : St) (p c : Id) (h : J s) :
    J (newRelationship s p c).state := by
  have h1 : J (s.mapTree fun t => { t with pending := t.pending.erase (p, c) }) :=
    K.nodes h rfl rfl
  unfold newRelationship
  generalize (s.mapTree fun t => { t with pending := t.pending.erase (p, c) }) = s1 at h1 ⊢
  dsimp only
  split
  · exact h1
  · split
    · exact K.nodes h1 rfl rfl
    · split
      · exact h1
      · split
        · exact h1
        · rename_i t2 hd; exact K.destroy h1 hd
      · rename_i hcirc
        split
        · exact h1
        · rename_i t2 hcr
          obtain ⟨hp, hc, ef⟩ := Tree.create_eq_some hcr
          have h2 : J { s1 with t := t2.updRoot (fun l => l.erase c) } := K.nodes (K.create h1 hcr hcirc) rfl rfl
          exact K.modified (K.modified h2 ((ef.has p).trans hp)) ((ef.has c).trans hc)

theorem newRelationship_absent {s : St} {p c : Id} (h : s.t.has p = false) (y : Id) :
    (newRelationship s p c).state.t.has y = s.t.has y := by
  unfold newRelationship
  dsimp only
  split
  · rfl
  · rw [if_pos (by simp [St.mapTree, h])]; rfl

theorem newRelationship_has (s : St) (p c : Id) (y : Id) :
    (newRelationship s p c).state.t.has y = s.t.has y := by
  unfold newRelationship
  generalize hs : (s.mapTree fun t => { t with pending := t.pending.erase (p, c) }) = s1
  have h1 : ∀ y, s1.t.has y = s.t.has y := by intro y; rw [← hs]; rfl
  dsimp only
  split
  · exact h1 y
  · split
    · exact h1 y
    · split
      · exact h1 y
      · split
        · exact h1 y
        · rename_i t2 hd; exact ((Tree.destroy_eq_some hd).2.2.has y).trans (h1 y)
      · split
        · exact h1 y
        · rename_i t2 hd; exact ((Tree.create_eq_some hd).2.2.has y).trans (h1 y)

theorem rootAddChild_has (s : St) (c : Id) (y : Id) : (rootAddChild s c).state.t.has y = s.t.has y := by
  unfold rootAddChild
  split
  · split
    · split
      · rfl
      · split
        · rw [newRelationship_has]; rfl
        · rfl
    · rfl
  · rfl

theorem rootAddChild_keeps (K : Keeps J) (s : St) (c : Id) (h : J s) : J (rootAddChild s c).state := by
  unfold rootAddChild
  split
  · split
    · split
      · exact K.nodes h rfl rfl
      · split
        · exact newRelationship_keeps K _ _ _ (K.nodes h rfl rfl)
        · exact h
    · exact h
  · exact h

theorem breakRelationship_keeps (K : Keeps J) (s : St) (p c : Id) (h : J s) :
    J (breakRelationship s p c).state := by
  have h1 : J (s.mapTree fun t => { t with pending := dropPending t.pending p c }) :=
    K.nodes h rfl rfl
  unfold breakRelationship
  generalize (s.mapTree fun t => { t with pending := dropPending t.pending p c }) = s1 at h1 ⊢
  dsimp only
  split
  · exact h1
  · split
    · exact h1
    · split
      · exact h1
      · rename_i t2 hd
        obtain ⟨hp, hc, ef⟩ := Tree.destroy_eq_some hd
        have h2 : J ⟨t2, s1.log⟩ := K.destroy h1 hd
        have h3 : J (if t2.getParents c = [] then rootAddChild ⟨t2, s1.log⟩ c else .ok ⟨t2, s1.log⟩).state := by
          split
          · exact rootAddChild_keeps K _ _ h2
          · exact h2
        have h4 : ∀ y, (if t2.getParents c = [] then rootAddChild ⟨t2, s1.log⟩ c else .ok ⟨t2, s1.log⟩).state.t.has y =
            s1.t.has y := by
          intro y
          split
          · rw [rootAddChild_has]; exact ef.has y
          · exact ef.has y
        cases hr : (if t2.getParents c = [] then rootAddChild ⟨t2, s1.log⟩ c else .ok ⟨t2, s1.log⟩) with
        | ok s' =>
          rw [hr] at h3 h4
          exact K.modified (K.modified h3 ((h4 p).trans hp)) ((h4 c).trans hc)
        | err e s' => rw [hr] at h3; exact h3

theorem nodeAddParent_keeps (K : Keeps J) (s : St) (x p : Id) (h : J s) :
    J (nodeAddParent s x p).state := by
  unfold nodeAddParent
  split
  · exact h
  · split
    · split
      · exact K.nodes h rfl rfl
      · split
        · exact newRelationship_keeps K _ _ _ h
        · exact h
    · exact h

theorem nodeRemoveParent_keeps (K : Keeps J) (s : St) (x p : Id) (h : J s) :
    J (nodeRemoveParent s x p).state := by
  unfold nodeRemoveParent
  split
  · exact h
  · split
    · exact breakRelationship_keeps K _ _ _ (K.eraseParent h x p)
    · exact h

theorem setParentLoop_keeps (K : Keeps J) (f i : Nat) (s : St) (x p : Id) (flag : Bool) (h : J s) :
    J (setParentLoop f i s x p flag).state.1 := by
  induction f generalizing i s flag with
  | zero => exact h
  | succ f ih =>
    unfold setParentLoop
    split
    · exact h
    · split
      · rename_i q _ _
        have := nodeRemoveParent_keeps K s x q h
        split
        · rename_i heq; rw [heq] at this; exact this
        · rename_i heq; rw [heq] at this; exact ih _ _ _ this
      · exact ih _ _ _ h

theorem nodeSetParent_keeps (K : Keeps J) (s : St) (x p : Id) (h : J s) :
    J (nodeSetParent s x p).state := by
  unfold nodeSetParent
  split
  · exact h
  · split
    · split
      · have := forEach_inv (J) (fun q s => breakRelationship s q x)
          (s.t.getParents x) (fun q _ s hs => breakRelationship_keeps K s q x hs) s h
        cases hr : Res.forEach (fun q s => breakRelationship s q x) (s.t.getParents x) s with
        | ok s' => rw [hr] at this; exact K.nodes this rfl rfl
        | err e s' => rw [hr] at this; exact this
      · split
        · rename_i nd _ _ _ _ _ _
          have := setParentLoop_keeps K nd.parents.length 0 s x p false h
          split
          · rename_i heq; rw [heq] at this; exact this
          · rename_i heq; rw [heq] at this
            split
            · exact nodeAddParent_keeps K _ _ _ this
            · exact this
        · exact h
    · exact h

theorem nodeAddChild_keeps (K : Keeps J) (s : St) (x c : Id) (h : J s) :
    J (nodeAddChild s x c).state := by
  unfold nodeAddChild
  split
  · exact h
  · split
    · split
      · split
        · exact K.nodes h rfl rfl
        · rename_i hcn
          split
          · exact newRelationship_keeps K _ _ _ (K.appendChild h x c ((Tree.has_iff _ _).2 ⟨_, hcn⟩))
          · exact h
      · exact h
    · exact h

theorem nodeSetParentsEnabled_keeps (K : Keeps J) (s : St) (x : Id) (b : Bool) (h : J s) :
    J (nodeSetParentsEnabled s x b).state := by
  unfold nodeSetParentsEnabled
  split
  · exact h
  · have : J (if b = true then Res.ok s
        else Res.forEach (fun p s => nodeRemoveParent s x p) (s.t.getParents x) s).state := by
      split
      · exact h
      · exact forEach_inv (J) _ _ (fun p _ s hs => nodeRemoveParent_keeps K s x p hs) s h
    cases hr : (if b = true then Res.ok s
        else Res.forEach (fun p s => nodeRemoveParent s x p) (s.t.getParents x) s) with
    | ok s' => rw [hr] at this; exact K.setParentsEnabled this x b
    | err e s' => rw [hr] at this; exact this

theorem nodeSetChildrenEnabled_keeps (K : Keeps J) (s : St) (x : Id) (b : Bool) (h : J s) :
    J (nodeSetChildrenEnabled s x b).state := by
  unfold nodeSetChildrenEnabled
  split
  · exact h
  · have : J (if b = true then Res.ok s
        else Res.forEach (fun c s => breakRelationship s x c) (s.t.getChildren x) s).state := by
      split
      · exact h
      · exact forEach_inv (J) _ _ (fun p _ s hs => breakRelationship_keeps K s x p hs) s h
    cases hr : (if b = true then Res.ok s
        else Res.forEach (fun c s => breakRelationship s x c) (s.t.getChildren x) s) with
    | ok s' => rw [hr] at this; exact K.setChildrenEnabled this x b
    | err e s' => rw [hr] at this; exact this


theorem modifyNode_keeps (K : Keeps J) (s : St) (x : Id) (h : J s) : J (modifyNode s x).state := by
  unfold modifyNode
  split
  · rename_i hx; exact K.modified h hx.2
  · exact h

/-- The edits other than adding and deleting. -/
def Op.isLocal : Op → Bool
  | .addNode _ _ => false
  | .delNode _ _ => false
  | _ => true

theorem step_keeps (K : Keeps J) (s : St) (op : Op) (hl : op.isLocal = true) (h : J s) :
    J (step s op).state := by
  cases op with
  | addNode nd p => cases hl
  | delNode x r => cases hl
  | refreshNode x => exact modifyNode_keeps K s x h
  | moveNode x p =>
    show J (moveNode s x p).state
    unfold moveNode; split
    · exact nodeSetParent_keeps K s x p h
    · exact h
  | addParent x p =>
    show J (treeAddParent s x p).state
    unfold treeAddParent; split
    · exact nodeAddParent_keeps K s x p h
    · exact h
  | setParent x p => exact nodeSetParent_keeps K s x p h
  | removeParent x p => exact nodeRemoveParent_keeps K s x p h
  | addChild x c => exact nodeAddChild_keeps K s x c h
  | setParentsEnabled x b => exact nodeSetParentsEnabled_keeps K s x b h
  | setChildrenEnabled x b => exact nodeSetChildrenEnabled_keeps K s x b h
  | newRelationship p c => exact newRelationship_keeps K s p c h
  | breakRelationship p c => exact breakRelationship_keeps K s p c h

/-! ### Removal -/

/-- `J` survives the elementary mutations of a removal, other than deleting the node. -/
structure KeepsCut (J : St → Prop) : Prop where
  nodes : ∀ {s s' : St}, J s → s'.t.nodes = s.t.nodes → s'.log = s.log → J s'
  destroy : ∀ {s : St} {p c : Id} {t' : Tree}, J s → s.t.destroy p c = some t' → J { s with t := t' }
  modified : ∀ {s : St}, J s → ∀ {n}, s.t.has n = true → J (s.emit .modified n)

theorem Keeps.cuts (K : Keeps J) : KeepsCut J := ⟨K.nodes, K.destroy, K.modified⟩

theorem removeParentsLoop_keeps (K : KeepsCut J) (f i : Nat) (s : St) (x : Id) (h : J s) :
    J (removeParentsLoop f i s x).state := by
  induction f generalizing i s with
  | zero => exact h
  | succ f ih =>
    unfold removeParentsLoop
    split
    · exact h
    · split
      · exact h
      · rename_i p _ _ t' hd
        obtain ⟨hp, -, ef⟩ := Tree.destroy_eq_some hd
        exact ih _ _ (K.modified (K.destroy h hd) ((ef.has p).trans hp))

theorem orphanChild_keeps (K : KeepsCut J) (x c : Id) (s : St) (h : J s) : J (orphanChild x c s).state := by
  unfold orphanChild
  split
  · exact h
  · rename_i t' hd
    obtain ⟨-, hc, ef⟩ := Tree.destroy_eq_some hd
    have := K.modified (K.destroy h hd) ((ef.has c).trans hc)
    simp only [Res.state_ok]
    split
    · exact K.nodes this rfl rfl
    · exact this

theorem removeNode_keeps (K : KeepsCut J)
    (hdel : ∀ (s : St) x, J s → s.t.has x = true →
      J ((s.mapTree fun t => { t with nodes := t.nodes.del x }).emit .deleted x))
    (f : Nat) (s : St) (x : Id) (rec : Bool) (h : J s) :
    J (removeNode f s x rec).state := by
  induction f generalizing s x rec with
  | zero => exact h
  | succ f ih =>
    unfold removeNode
    split
    · exact h
    · refine andThen_inv J _ _ ?_ ?_
      · exact removeParentsLoop_keeps K _ _ _ _ (K.nodes h rfl rfl)
      · intro s2 _ h2
        refine andThen_inv J _ _ ?_ ?_
        · refine forEach_inv J _ _ ?_ _ h2
          intro c _ s hs
          split
          · exact ih _ _ _ hs
          · exact orphanChild_keeps K _ _ _ hs
        · intro s3 _ h3
          split
          · rename_i hx
            exact hdel (s3.mapTree fun t => t.updRoot (fun l => l.erase x)) x (K.nodes h3 rfl rfl) hx
          · exact K.nodes h3 rfl rfl

end Larch
