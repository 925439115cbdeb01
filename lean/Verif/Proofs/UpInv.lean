import Verif.Proofs.TreeBasic

/-!
# The parent relation stays acyclic, whatever the history

`UpInv` only speaks about the parents direction; it survives every edit, also those that
damage the children lists.
-/

namespace Larch

open Graph

/-- The parents direction of the graph has no cycle. Ids of absent nodes may occur in
the lists; an absent node has no parents. -/
structure UpInv (t : Tree) : Prop where
  acyclic : Acyclic t.rawParents

namespace UpInv

variable {t t' : Tree}

theorem mono (h : UpInv t) (hp : ∀ x y, y ∈ t'.rawParents x → y ∈ t.rawParents x) : UpInv t' :=
  ⟨h.acyclic.mono hp⟩

theorem congr (h : UpInv t) (hp : ∀ x, t'.rawParents x = t.rawParents x) : UpInv t' :=
  h.mono (fun x y hy => by rwa [hp] at hy)

theorem create (h : UpInv t) {p c : Id} (hc : t.create p c = some t')
    (hn : ¬ ReachEq t.rawParents p c) : UpInv t' := by
  obtain ⟨h1, h2, e⟩ := Tree.create_eq_some hc
  refine ⟨Acyclic.add_edge (c := c) (p := p) ?_ h.acyclic hn⟩
  intro x y hy
  rw [e.parents] at hy
  by_cases hx : x = c
  · subst hx
    rw [if_pos rfl, mem_appendNew] at hy
    exact hy.imp id (fun h => ⟨rfl, h⟩)
  · rw [if_neg hx] at hy; exact Or.inl hy

theorem destroy (h : UpInv t) {p c : Id} (hd : t.destroy p c = some t') : UpInv t' := by
  obtain ⟨h1, h2, e⟩ := Tree.destroy_eq_some hd
  refine h.mono ?_
  intro x y hy
  rw [e.parents] at hy
  split at hy
  · rename_i hx; subst hx; exact List.mem_of_mem_erase hy
  · exact hy

theorem updNode (h : UpInv t) (x : Id) (f : Node → Node)
    (hf : ∀ nd p, p ∈ (f nd).parents → p ∈ nd.parents) : UpInv (t.updNode x f) := by
  refine h.mono ?_
  intro y q hq
  unfold Tree.rawParents at *
  rw [Tree.node?_updNode] at hq
  by_cases e : y = x
  · subst e; rw [if_pos rfl] at hq; cases hn : t.node? y <;> simp [hn] at hq ⊢; exact hf _ _ hq
  · rwa [if_neg e] at hq

theorem insertNode (h : UpInv t) (nd : Node) (hp : nd.parents = []) :
    UpInv (Larch.insertNode t nd) := by
  refine h.mono ?_
  intro y q hq
  unfold Tree.rawParents Tree.node? Larch.insertNode at *
  simp only [Dict.get?_set] at hq
  by_cases e : y = nd.id
  · simp [e, hp] at hq
  · simpa [e] using hq

theorem delNode (h : UpInv t) (x : Id) :
    UpInv ({ t with nodes := t.nodes.del x } : Tree) := by
  refine h.mono ?_
  intro y q hq
  unfold Tree.rawParents Tree.node? at *
  simp only [Dict.get?_del] at hq
  split at hq
  · simp at hq
  · exact hq

end UpInv

/-! ### Edits -/

theorem newRelationship_upInv (s : St) (p c : Id) (h : UpInv s.t) :
    UpInv (newRelationship s p c).state.t := by
  have h1 : UpInv (s.mapTree fun t => { t with pending := t.pending.erase (p, c) }).t :=
    h.congr (fun _ => rfl)
  unfold newRelationship
  generalize (s.mapTree fun t => { t with pending := t.pending.erase (p, c) }) = s1 at h1 ⊢
  dsimp only
  split
  · exact h1
  · split
    · exact h1.congr (fun _ => rfl)
    · split
      · exact h1
      · split
        · exact h1
        · rename_i t2 hd; exact h1.destroy hd
      · rename_i hcirc
        split
        · exact h1
        · rename_i t2 hcr
          refine (h1.create hcr ?_).congr (fun _ => rfl)
          intro hre
          rw [Tree.isCircular_true h1.acyclic hre] at hcirc
          cases hcirc

theorem rootAddChild_upInv (s : St) (c : Id) (h : UpInv s.t) : UpInv (rootAddChild s c).state.t := by
  unfold rootAddChild
  split
  · split
    · split
      · exact h.congr (fun _ => rfl)
      · split
        · exact newRelationship_upInv _ _ _ (h.congr (fun _ => rfl))
        · exact h
    · exact h
  · exact h

theorem breakRelationship_upInv (s : St) (p c : Id) (h : UpInv s.t) :
    UpInv (breakRelationship s p c).state.t := by
  have h1 : UpInv (s.mapTree fun t => { t with pending := dropPending t.pending p c }).t :=
    h.congr (fun _ => rfl)
  unfold breakRelationship
  generalize (s.mapTree fun t => { t with pending := dropPending t.pending p c }) = s1 at h1 ⊢
  dsimp only
  split
  · exact h1
  · split
    · exact h1
    · split
      · exact h1
      · rename_i t2 hd
        have h2 : UpInv t2 := h1.destroy hd
        split
        · have h3 := rootAddChild_upInv ⟨t2, s1.log⟩ c h2
          cases hr : rootAddChild ⟨t2, s1.log⟩ c with
          | ok s' => rw [hr] at h3; exact h3
          | err e s' => rw [hr] at h3; exact h3
        · exact h2

theorem forEach_inv {α σ : Type} (P : σ → Prop) (body : α → σ → Res σ) (l : List α)
    (hb : ∀ x ∈ l, ∀ s, P s → P (body x s).state) (s : σ) (hs : P s) :
    P (Res.forEach body l s).state := by
  induction l generalizing s with
  | nil => exact hs
  | cons x l ih =>
    unfold Res.forEach
    have h1 := hb x (by simp) s hs
    cases hx : body x s with
    | ok s' => rw [hx] at h1; exact ih (fun y hy => hb y (by simp [hy])) s' h1
    | err e s' => rw [hx] at h1; exact h1

theorem nodeAddParent_upInv (s : St) (x p : Id) (h : UpInv s.t) :
    UpInv (nodeAddParent s x p).state.t := by
  unfold nodeAddParent
  split
  · exact h
  · split
    · split
      · exact h.congr (fun _ => rfl)
      · split
        · exact newRelationship_upInv _ _ _ h
        · exact h
    · exact h

theorem nodeRemoveParent_upInv (s : St) (x p : Id) (h : UpInv s.t) :
    UpInv (nodeRemoveParent s x p).state.t := by
  unfold nodeRemoveParent
  split
  · exact h
  · split
    · exact breakRelationship_upInv _ _ _ (h.updNode x _ (fun _ _ hq => List.mem_of_mem_erase hq))
    · exact h

theorem setParentLoop_upInv (f i : Nat) (s : St) (x p : Id) (flag : Bool) (h : UpInv s.t) :
    UpInv (setParentLoop f i s x p flag).state.1.t := by
  induction f generalizing i s flag with
  | zero => exact h
  | succ f ih =>
    unfold setParentLoop
    split
    · exact h
    · split
      · rename_i q _ _
        have := nodeRemoveParent_upInv s x q h
        split
        · rename_i heq; rw [heq] at this; exact this
        · rename_i heq; rw [heq] at this; exact ih _ _ _ this
      · exact ih _ _ _ h

theorem nodeSetParent_upInv (s : St) (x p : Id) (h : UpInv s.t) :
    UpInv (nodeSetParent s x p).state.t := by
  unfold nodeSetParent
  split
  · exact h
  · split
    · split
      · have := forEach_inv (fun s : St => UpInv s.t) (fun q s => breakRelationship s q x)
          (s.t.getParents x) (fun q _ s hs => breakRelationship_upInv s q x hs) s h
        cases hr : Res.forEach (fun q s => breakRelationship s q x) (s.t.getParents x) s with
        | ok s' => rw [hr] at this; exact UpInv.congr this (fun _ => rfl)
        | err e s' => rw [hr] at this; exact this
      · split
        · rename_i nd _ _ _ _ _ _
          have := setParentLoop_upInv nd.parents.length 0 s x p false h
          split
          · rename_i heq; rw [heq] at this; exact this
          · rename_i heq; rw [heq] at this
            split
            · exact nodeAddParent_upInv _ _ _ this
            · exact this
        · exact h
    · exact h

theorem nodeAddChild_upInv (s : St) (x c : Id) (h : UpInv s.t) :
    UpInv (nodeAddChild s x c).state.t := by
  unfold nodeAddChild
  split
  · exact h
  · split
    · split
      · split
        · exact h.congr (fun _ => rfl)
        · split
          · exact newRelationship_upInv _ _ _ (h.updNode x _ (fun _ _ hq => hq))
          · exact h
      · exact h
    · exact h

theorem nodeSetParentsEnabled_upInv (s : St) (x : Id) (b : Bool) (h : UpInv s.t) :
    UpInv (nodeSetParentsEnabled s x b).state.t := by
  unfold nodeSetParentsEnabled
  split
  · exact h
  · have : UpInv (if b = true then Res.ok s
        else Res.forEach (fun p s => nodeRemoveParent s x p) (s.t.getParents x) s).state.t := by
      split
      · exact h
      · exact forEach_inv (fun s : St => UpInv s.t) _ _ (fun p _ s hs => nodeRemoveParent_upInv s x p hs) s h
    cases hr : (if b = true then Res.ok s
        else Res.forEach (fun p s => nodeRemoveParent s x p) (s.t.getParents x) s) with
    | ok s' => rw [hr] at this; exact UpInv.updNode this x _ (fun _ _ hq => hq)
    | err e s' => rw [hr] at this; exact this

theorem nodeSetChildrenEnabled_upInv (s : St) (x : Id) (b : Bool) (h : UpInv s.t) :
    UpInv (nodeSetChildrenEnabled s x b).state.t := by
  unfold nodeSetChildrenEnabled
  split
  · exact h
  · have : UpInv (if b = true then Res.ok s
        else Res.forEach (fun c s => breakRelationship s x c) (s.t.getChildren x) s).state.t := by
      split
      · exact h
      · exact forEach_inv (fun s : St => UpInv s.t) _ _ (fun p _ s hs => breakRelationship_upInv s x p hs) s h
    cases hr : (if b = true then Res.ok s
        else Res.forEach (fun c s => breakRelationship s x c) (s.t.getChildren x) s) with
    | ok s' => rw [hr] at this; exact UpInv.updNode this x _ (fun _ _ hq => hq)
    | err e s' => rw [hr] at this; exact this

/-! ### `add_node` -/

/-- One round of the loop over pending relations, as a relation. -/
inductive PendStep (x : Id) (r : Id × Id) (t : Tree) (b : Bool) : Tree → Bool → Prop
  | skip : ¬ (r.2 = x ∧ t.has r.1 = true) → ¬ (r.1 = x ∧ t.has r.2 = true) → PendStep x r t b t b
  | drop (l : List (Id × Id)) : r.1 = x ∨ r.2 = x → ReachEq t.rawParents r.1 r.2 →
      l = t.pending.erase r ∨ l = (t.pending.erase r).erase r →
      PendStep x r t b { t with pending := l } b
  | asChild (t' : Tree) : r.2 = x → t.has r.1 = true → ¬ ReachEq t.rawParents r.1 r.2 →
      t.create r.1 r.2 = some t' →
      PendStep x r t b { t' with pending := t'.pending.erase r } false
  | asParent (t' : Tree) : r.1 = x → t.has r.2 = true → ¬ ReachEq t.rawParents r.1 r.2 →
      t.create r.1 r.2 = some t' →
      PendStep x r t b { t' with pending := t'.pending.erase r } b

theorem addPendingStep_spec {t : Tree} (h : UpInv t) {x : Id} (hx : t.has x = true) (r : Id × Id)
    (b : Bool) : ∃ t' b', addPendingStep x (some (t, b)) r = some (t', b') ∧ PendStep x r t b t' b' := by
  obtain ⟨p, c⟩ := r
  by_cases h1 : c = x ∧ t.has p = true
  · obtain ⟨rfl, hp⟩ := h1
    by_cases hre : ReachEq t.rawParents p c
    · have e1 := Tree.isCircular_true h.acyclic hre
      by_cases h2 : p = c
      · subst h2
        refine ⟨_, _, ?_, PendStep.drop ((t.pending.erase (p, p)).erase (p, p)) (Or.inl rfl) hre
          (Or.inr rfl)⟩
        have e2 : Tree.isCircular { t with pending := t.pending.erase (p, p) } p p = some true :=
          Tree.isCircular_true (t := { t with pending := t.pending.erase (p, p) }) h.acyclic hre
        simp [addPendingStep, hp, e1, e2]
      · refine ⟨_, _, ?_, PendStep.drop (t.pending.erase (p, c)) (Or.inr rfl) hre (Or.inl rfl)⟩
        simp [addPendingStep, hp, e1, h2]
    · have e1 := Tree.isCircular_false h.acyclic hre
      have h2 : p ≠ c := fun e => hre (Or.inl e)
      obtain ⟨t', ht', _⟩ := Tree.create_spec hp hx
      refine ⟨_, _, ?_, PendStep.asChild t' rfl hp hre ht'⟩
      simp [addPendingStep, hp, e1, h2, ht']
  · by_cases h2 : p = x ∧ t.has c = true
    · obtain ⟨rfl, hc⟩ := h2
      have hcp : c ≠ p := fun e => h1 ⟨e, hx⟩
      by_cases hre : ReachEq t.rawParents p c
      · have e1 := Tree.isCircular_true h.acyclic hre
        refine ⟨_, _, ?_, PendStep.drop (t.pending.erase (p, c)) (Or.inl rfl) hre (Or.inl rfl)⟩
        simp [addPendingStep, hc, e1, hcp]
      · have e1 := Tree.isCircular_false h.acyclic hre
        obtain ⟨t', ht', _⟩ := Tree.create_spec hx hc
        refine ⟨_, _, ?_, PendStep.asParent t' rfl hc hre ht'⟩
        simp [addPendingStep, hc, e1, hcp, ht']
    · refine ⟨t, b, ?_, PendStep.skip h1 h2⟩
      simp only [addPendingStep, Option.bind_some]
      rw [if_neg h1]
      simp only [Option.bind_some]
      rw [if_neg h2]

theorem PendStep.upInv {x : Id} {r : Id × Id} {t t' : Tree} {b b' : Bool}
    (hs : PendStep x r t b t' b') (h : UpInv t) : UpInv t' := by
  cases hs with
  | skip => exact h
  | drop => exact h.congr (fun _ => rfl)
  | asChild t2 _ _ hn hc => exact (h.create hc hn).congr (fun _ => rfl)
  | asParent t2 _ _ hn hc => exact (h.create hc hn).congr (fun _ => rfl)

theorem PendStep.has {x : Id} {r : Id × Id} {t t' : Tree} {b b' : Bool}
    (hs : PendStep x r t b t' b') (y : Id) : t'.has y = t.has y := by
  cases hs with
  | skip => rfl
  | drop => rfl
  | asChild t2 _ _ hn hc => exact (Tree.create_eq_some hc).2.2.has y
  | asParent t2 _ _ hn hc => exact (Tree.create_eq_some hc).2.2.has y

/-- The loop over pending relations ends normally, and any property that its rounds keep holds
afterwards. The property may speak about the relations still to come. -/
theorem addPending_fold (x : Id) (P : List (Id × Id) → Tree → Bool → Prop)
    (hP : ∀ r l t b t' b', UpInv t → t.has x = true → P (r :: l) t b → PendStep x r t b t' b' → P l t' b') :
    ∀ (l : List (Id × Id)) (t : Tree) (b : Bool), UpInv t → t.has x = true → P l t b →
      ∃ t' b', l.foldl (addPendingStep x) (some (t, b)) = some (t', b') ∧ UpInv t' ∧
        t'.has x = true ∧ P [] t' b' := by
  intro l
  induction l with
  | nil => intro t b h hx hp; exact ⟨t, b, rfl, h, hx, hp⟩
  | cons r l ih =>
    intro t b h hx hp
    obtain ⟨t1, b1, e1, hs⟩ := addPendingStep_spec h hx r b
    rw [List.foldl_cons, e1]
    exact ih t1 b1 (hs.upInv h) (by rw [hs.has]; exact hx) (hP r l t b t1 b1 h hx hp hs)

theorem has_insertNode (t : Tree) (nd : Node) (y : Id) :
    (insertNode t nd).has y = (decide (y = nd.id) || t.has y) := by
  unfold insertNode Tree.has
  simp only [Dict.has_set]

/-- The end of `_add_node` (`tree.py:212-217`). -/
def finishAdd (log : List Note) (t : Tree) (toRoot : Bool) (x : Id) : St :=
  (St.mk (if toRoot then t.updRoot (fun l => l ++ [x]) else t) log).emit .added x

/-- The possible ends of `_add_node`, once the pending relations are dealt with. -/
inductive AddEnd (log : List Note) (x parent : Id) (t : Tree) (b : Bool) : Res St → Prop
  | noParent : parent = .none → AddEnd log x parent t b (.ok (finishAdd log t b x))
  | circular : parent ≠ .none → ReachEq t.rawParents parent x →
      AddEnd log x parent t b (.err .circular ⟨t, log⟩)
  | linked (t' : Tree) : parent ≠ .none → ¬ ReachEq t.rawParents parent x → t.has parent = true →
      t.create parent x = some t' → AddEnd log x parent t b (.ok (finishAdd log t' false x))
  | later : parent ≠ .none → ¬ ReachEq t.rawParents parent x → t.has parent = false →
      AddEnd log x parent t b
        (.ok (finishAdd log { t with pending := t.pending ++ [(parent, x)] } b x))

theorem addNode_spec (s : St) (nd : Node) (parent : Id) (hnd : nd.parents = []) (h : UpInv s.t)
    (hx : s.t.has nd.id = false) (P : List (Id × Id) → Tree → Bool → Prop)
    (h0 : P (insertNode s.t nd).pending (insertNode s.t nd) true)
    (hP : ∀ r l t b t' b', UpInv t → t.has nd.id = true → P (r :: l) t b →
      PendStep nd.id r t b t' b' → P l t' b') :
    ∃ t b, (insertNode s.t nd).pending.foldl (addPendingStep nd.id) (some (insertNode s.t nd, true)) =
        some (t, b) ∧ UpInv t ∧ t.has nd.id = true ∧ P [] t b ∧
      AddEnd s.log nd.id parent t b (addNode s nd parent) := by
  have h1 := h.insertNode nd hnd
  obtain ⟨t, b, e, h2, hx2, hp⟩ := addPending_fold nd.id P hP
    (insertNode s.t nd).pending (insertNode s.t nd) true h1 (by simp [has_insertNode]) h0
  refine ⟨t, b, e, h2, hx2, hp, ?_⟩
  unfold addNode
  rw [if_neg (by simp [hx])]
  dsimp only
  rw [e]
  dsimp only
  by_cases hpar : parent = .none
  · simp only [if_pos hpar]
    cases b <;> exact AddEnd.noParent hpar
  · simp only [if_neg hpar]
    by_cases hre : ReachEq t.rawParents parent nd.id
    · rw [Tree.isCircular_true h2.acyclic hre]
      exact AddEnd.circular hpar hre
    · rw [Tree.isCircular_false h2.acyclic hre]
      dsimp only
      by_cases hh : t.has parent = true
      · obtain ⟨t', ht', _⟩ := Tree.create_spec hh hx2
        simp only [if_pos hh, ht']
        exact AddEnd.linked t' hpar hre hh ht'
      · simp only [if_neg hh]
        cases b <;> exact AddEnd.later hpar hre (by simpa using hh)

theorem addNode_upInv (s : St) (nd : Node) (parent : Id) (hnd : nd.parents = []) (h : UpInv s.t) :
    UpInv (addNode s nd parent).state.t := by
  by_cases hx : s.t.has nd.id = true
  · unfold addNode; rw [if_pos hx]; exact h
  · obtain ⟨t, b, -, h2, -, -, hend⟩ := addNode_spec s nd parent hnd h (by simpa using hx)
      (fun _ _ _ => True) trivial (fun _ _ _ _ _ _ _ _ _ _ => trivial)
    have fin : ∀ log t b, UpInv t → UpInv (finishAdd log t b nd.id).t := by
      intro log t b ht
      unfold finishAdd
      cases b
      · exact ht
      · exact ht.congr (fun _ => rfl)
    generalize addNode s nd parent = r at hend
    cases hend with
    | noParent => exact fin _ _ _ h2
    | circular => exact h2
    | linked t' _ hn _ hc => exact fin _ _ _ (h2.create hc hn)
    | later => exact fin _ _ _ (h2.congr (fun _ => rfl))

/-! ### `remove_node` -/

theorem removeParentsLoop_upInv (f i : Nat) (s : St) (x : Id) (h : UpInv s.t) :
    UpInv (removeParentsLoop f i s x).state.t := by
  induction f generalizing i s with
  | zero => exact h
  | succ f ih =>
    unfold removeParentsLoop
    split
    · exact h
    · split
      · exact h
      · rename_i t' hd
        exact ih _ _ (h.destroy hd)

theorem orphanChild_upInv (x c : Id) (s : St) (h : UpInv s.t) : UpInv (orphanChild x c s).state.t := by
  unfold orphanChild
  split
  · exact h
  · rename_i t' hd
    simp only [Res.state_ok]
    split
    · exact (h.destroy hd).congr (fun _ => rfl)
    · exact h.destroy hd

theorem andThen_inv {σ : Type} (P : σ → Prop) (r : Res σ) (f : σ → Res σ) (hr : P r.state)
    (hf : ∀ s, r = .ok s → P s → P (f s).state) : P (r.andThen f).state := by
  cases r with
  | ok s => exact hf s rfl hr
  | err e s => exact hr

theorem removeNode_upInv (f : Nat) (s : St) (x : Id) (rec : Bool) (h : UpInv s.t) :
    UpInv (removeNode f s x rec).state.t := by
  induction f generalizing s x rec with
  | zero => exact h
  | succ f ih =>
    unfold removeNode
    split
    · exact h
    · refine andThen_inv (fun s : St => UpInv s.t) _ _ ?_ ?_
      · exact removeParentsLoop_upInv _ _ _ _ (h.congr (fun _ => rfl))
      · intro s2 _ h2
        refine andThen_inv (fun s : St => UpInv s.t) _ _ ?_ ?_
        · refine forEach_inv (fun s : St => UpInv s.t) _ _ ?_ _ h2
          intro c _ s hs
          split
          · exact ih _ _ _ hs
          · exact orphanChild_upInv _ _ _ hs
        · intro s3 _ h3
          split
          · exact (h3.delNode x).congr (fun _ => rfl)
          · exact h3.congr (fun _ => rfl)

theorem modifyNode_upInv (s : St) (x : Id) (h : UpInv s.t) : UpInv (modifyNode s x).state.t := by
  unfold modifyNode
  split <;> exact h

/-- The nodes handed to `add_node` are newly made: nobody has attached parents to them. -/
def Op.Fresh : Op → Prop
  | .addNode nd _ => nd.parents = []
  | _ => True

theorem step_upInv (s : St) (op : Op) (hf : op.Fresh) (h : UpInv s.t) : UpInv (step s op).state.t := by
  cases op with
  | addNode nd p => exact addNode_upInv s nd p hf h
  | delNode x r => exact removeNode_upInv _ s x r h
  | refreshNode x => exact modifyNode_upInv s x h
  | moveNode x p =>
    show UpInv (moveNode s x p).state.t
    unfold moveNode; split
    · exact nodeSetParent_upInv s x p h
    · exact h
  | addParent x p =>
    show UpInv (treeAddParent s x p).state.t
    unfold treeAddParent; split
    · exact nodeAddParent_upInv s x p h
    · exact h
  | setParent x p => exact nodeSetParent_upInv s x p h
  | removeParent x p => exact nodeRemoveParent_upInv s x p h
  | addChild x c => exact nodeAddChild_upInv s x c h
  | setParentsEnabled x b => exact nodeSetParentsEnabled_upInv s x b h
  | setChildrenEnabled x b => exact nodeSetChildrenEnabled_upInv s x b h
  | newRelationship p c => exact newRelationship_upInv s p c h
  | breakRelationship p c => exact breakRelationship_upInv s p c h

theorem init_upInv : UpInv Tree.init := by
  constructor
  intro x hx
  obtain ⟨y, hy, _⟩ := (reach_iff _ _ _).1 hx
  simp [Tree.rawParents, Tree.node?, Tree.init, Dict.empty, Dict.get?, Dict.lookup] at hy

theorem runOps_upInv (ops : List Op) (s : St) (hf : ∀ op ∈ ops, op.Fresh) (h : UpInv s.t) :
    UpInv (runOps s ops).t := by
  induction ops generalizing s with
  | nil => exact h
  | cons op ops ih =>
    exact ih _ (fun o ho => hf o (by simp [ho])) (step_upInv s op (hf op (by simp)) h)

end Larch
