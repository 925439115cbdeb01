import Verif.Proofs.Edits

/-!
# The methods of a node, on consistent trees
-/

namespace Larch

open Graph

theorem WF.linkable_flags {t : Tree} {p c : Id} {np nc : Node} (hp : t.node? p = some np)
    (hc : t.node? c = some nc) (h1 : np.childrenEnabled = true) (h2 : nc.parentsEnabled = true) :
    t.Linkable p c := by
  constructor
  · intro nd hnd; rw [hp] at hnd; cases hnd; exact h1
  · intro nd hnd; rw [hc] at hnd; cases hnd; exact h2

theorem Good.appendPending {t : Tree} (h : Good t) {p c : Id}
    (hn : ¬ (t.has p = true ∧ t.has c = true)) : Good { t with pending := t.pending ++ [(p, c)] } := by
  refine h.pending _ (fun a b hab => ?_)
  rcases List.mem_append.1 hab with hab | hab
  · exact h.pend a b hab
  · simp at hab; obtain ⟨rfl, rfl⟩ := hab; exact hn

theorem not_has_of_none {t : Tree} {p : Id} (h : t.node? p = none) : t.has p = false :=
  (Tree.has_false_iff t p).2 h

theorem has_of_some {t : Tree} {p : Id} {nd : Node} (h : t.node? p = some nd) : t.has p = true :=
  (Tree.has_iff t p).2 ⟨nd, h⟩

theorem nodeAddParent_good {s : St} (h : Good s.t) (x p : Id) : Good (nodeAddParent s x p).state.t := by
  unfold nodeAddParent
  split
  · exact h
  · rename_i nd hnd
    split
    · rename_i hcond
      split
      · rename_i hpn
        exact h.appendPending (by simp [not_has_of_none hpn])
      · rename_i par hpar
        split
        · rename_i hce
          exact newRelationship_good h p x (WF.linkable_flags hpar hnd hce hcond.2.1)
        · exact h
    · exact h

theorem breakRelationship_of_destroy (s : St) {p c : Id} (hd : dropPending s.t.pending p c = s.t.pending)
    (hp : p.falsy = false) (hc : c.falsy = false) (hpc : p ≠ c) {t2 : Tree}
    (ht2 : s.t.destroy p c = some t2) : breakRelationship s p c =
      (if t2.getParents c = [] then rootAddChild ⟨t2, s.log⟩ c else .ok ⟨t2, s.log⟩).andThen
        fun s3 => .ok ((s3.emit .modified p).emit .modified c) := by
  have e : (s.mapTree fun t => { t with pending := dropPending t.pending p c }) = s := by
    unfold St.mapTree
    dsimp only
    rw [hd]
  obtain ⟨h1, h2, -⟩ := Tree.destroy_eq_some ht2
  unfold breakRelationship
  rw [e]
  dsimp only
  rw [if_neg (by simp [hp, hc, hpc]), if_neg (by simp [h1, h2]), ht2]

/-- `remove_parent` erases the parent from its own list before it asks the tree to break the
relation; the outcome is that of breaking the relation. -/
theorem nodeRemoveParent_eq {s : St} (h : Good s.t) {x p : Id} (hp : p ∈ s.t.rawParents x) :
    nodeRemoveParent s x p = breakRelationship s p x := by
  have hx := Tree.has_of_mem_rawParents hp
  have hpp := h.wf.has_parent hp
  obtain ⟨nd, hnd⟩ := (Tree.has_iff _ _).1 hx
  have hmem : p ∈ nd.parents := by rw [← Tree.rawParents_of_node hnd]; exact hp
  have hpx : p ≠ x := by
    rintro rfl
    exact h.wf.acyclic p (Reach.single hp)
  have hf : nd.parentsEnabled = true := by
    by_contra hf
    rw [h.wf.flagP x nd hnd (by simpa using hf)] at hmem
    simp at hmem
  unfold nodeRemoveParent
  rw [hnd]
  dsimp only
  rw [if_pos ⟨hf, hmem⟩]
  have hnd2 : (nd.parents.erase p).erase p = nd.parents.erase p := by
    apply List.erase_of_not_mem
    have := h.wf.ndP x
    rw [Tree.rawParents_of_node hnd] at this
    exact this.not_mem_erase
  have key : ∀ t : Tree, t.node? x = some nd →
      (t.updNode x (fun nd => { nd with parents := nd.parents.erase p })).destroy p x = t.destroy p x := by
    intro t ht
    unfold Tree.destroy
    simp only [Tree.has_updNode]
    split
    · congr 1
      rw [Tree.updNode_comm _ x p _ _ (Ne.symm hpx), Tree.updNode_updNode]
      apply Tree.updNode_congr
      intro nd' hnd'
      rw [Tree.node?_updNode, if_neg (Ne.symm hpx), ht] at hnd'
      cases hnd'
      dsimp only
      rw [hnd2]
    · rfl
  obtain ⟨t2, ht2, -⟩ := Tree.destroy_spec hpp hx
  rw [breakRelationship_of_destroy s (h.pend.dropPending hpp hx) (h.wf.ids p hpp).1 (h.wf.ids x hx).1 hpx ht2]
  exact breakRelationship_of_destroy
    (s.mapTree fun t => t.updNode x (fun nd => { nd with parents := nd.parents.erase p }))
    (h.pend.dropPending hpp hx) (h.wf.ids p hpp).1 (h.wf.ids x hx).1 hpx
    ((key s.t hnd).trans ht2)

theorem nodeRemoveParent_noop {s : St} {x p : Id} {nd : Node} (hnd : s.t.node? x = some nd)
    (hp : p ∉ s.t.rawParents x) : nodeRemoveParent s x p = .ok s := by
  unfold nodeRemoveParent
  rw [hnd]
  dsimp only
  rw [if_neg]
  rintro ⟨_, h⟩
  rw [Tree.rawParents_of_node hnd] at hp
  exact hp h

theorem nodeRemoveParent_good {s : St} (h : Good s.t) (x p : Id) :
    Good (nodeRemoveParent s x p).state.t ∧
      (s.t.has x = true → ∃ s', nodeRemoveParent s x p = .ok s') := by
  cases hnd : s.t.node? x with
  | none =>
    unfold nodeRemoveParent
    rw [hnd]
    exact ⟨h, fun hx => by rw [not_has_of_none hnd] at hx; cases hx⟩
  | some nd =>
    by_cases hp : p ∈ s.t.rawParents x
    · rw [nodeRemoveParent_eq h hp]
      obtain ⟨s', e, hg⟩ := breakRelationship_good h p x
      rw [e]
      exact ⟨hg, fun _ => ⟨s', rfl⟩⟩
    · rw [nodeRemoveParent_noop hnd hp]
      exact ⟨h, fun _ => ⟨s, rfl⟩⟩

theorem setParentLoop_good (f i : Nat) (s : St) (x p : Id) (flag : Bool) (h : Good s.t) :
    Good (setParentLoop f i s x p flag).state.1.t := by
  induction f generalizing i s flag with
  | zero => exact h
  | succ f ih =>
    unfold setParentLoop
    split
    · exact h
    · split
      · rename_i q _ _
        have := (nodeRemoveParent_good h x q).1
        split
        · rename_i heq; rw [heq] at this; exact this
        · rename_i heq; rw [heq] at this; exact ih _ _ _ this
      · exact ih _ _ _ h

theorem forEach_break_good (l : List Id) (mk : Id → Id × Id) (s : St) (h : Good s.t) :
    ∃ s', Res.forEach (fun q s => breakRelationship s (mk q).1 (mk q).2) l s = .ok s' ∧ Good s'.t := by
  induction l generalizing s with
  | nil => exact ⟨s, rfl, h⟩
  | cons q l ih =>
    obtain ⟨s1, e, hg⟩ := breakRelationship_good h (mk q).1 (mk q).2
    obtain ⟨s2, e2, hg2⟩ := ih s1 hg
    exact ⟨s2, by unfold Res.forEach; rw [e]; exact e2, hg2⟩

theorem breakRelationship_has {s : St} (h : Good s.t) (p c : Id) (y : Id) :
    (breakRelationship s p c).state.t.has y = s.t.has y := by
  by_cases h1 : p.falsy = true ∨ c.falsy = true ∨ p = c ∨ s.t.has p = false ∨ s.t.has c = false
  · rw [breakRelationship_skip s h1]; rfl
  · push Not at h1
    obtain ⟨t', e, hg, ef⟩ := breakRelationship_spec h (by simpa using h1.2.2.2.1) (by simpa using h1.2.2.2.2) h1.2.2.1
    rw [e]; exact ef.has y

theorem forEach_break_has (l : List Id) (mk : Id → Id × Id) (s : St) (h : Good s.t) (y : Id) :
    (Res.forEach (fun q s => breakRelationship s (mk q).1 (mk q).2) l s).state.t.has y = s.t.has y := by
  induction l generalizing s with
  | nil => rfl
  | cons q l ih =>
    obtain ⟨s1, e, hg⟩ := breakRelationship_good h (mk q).1 (mk q).2
    have h1 := breakRelationship_has h (mk q).1 (mk q).2 y
    unfold Res.forEach
    rw [e] at h1 ⊢
    exact (ih s1 hg).trans h1

theorem nodeSetParent_good {s : St} (h : Good s.t) (x p : Id) : Good (nodeSetParent s x p).state.t := by
  unfold nodeSetParent
  split
  · exact h
  · split
    · split
      · rename_i hp
        obtain ⟨s', e, hg⟩ := forEach_break_good (s.t.getParents x) (fun q => (q, x)) s h
        have hh := forEach_break_has (s.t.getParents x) (fun q => (q, x)) s h p
        dsimp only at e hh
        rw [e] at hh ⊢
        exact hg.appendPending (by
          have h2 : s'.t.has p = false := hh.trans (not_has_of_none hp)
          simp [h2])
      · split
        · rename_i nd _ _ _ _ _ _
          have := setParentLoop_good nd.parents.length 0 s x p false h
          split
          · rename_i heq; rw [heq] at this; exact this
          · rename_i heq; rw [heq] at this
            split
            · exact nodeAddParent_good this x p
            · exact this
        · exact h
    · exact h

/-- `add_child` appends the child before asking the tree for the relation. The outcome is the
same as without: the relation is created once, or refused and nothing has changed. -/
theorem nodeAddChild_eq {s : St} (h : Good s.t) {x c : Id} {nd child : Node} (hnd : s.t.node? x = some nd)
    (hchild : s.t.node? c = some child) (hce : nd.childrenEnabled = true) (hcx : c ≠ x)
    (hnew : c ∉ nd.children) (hpe : child.parentsEnabled = true) :
    nodeAddChild s x c = newRelationship s x c := by
  have hx := has_of_some hnd
  have hc := has_of_some hchild
  have hxp : x ∉ s.t.rawParents c := fun hm => hnew (by
    have := h.wf.up _ _ hm; rwa [Tree.rawChildren_of_node hnd] at this)
  unfold nodeAddChild
  rw [hnd]
  dsimp only
  rw [if_pos ⟨hce, hcx⟩, if_pos hnew, hchild]
  dsimp only
  rw [if_pos hpe]
  have rp : (s.t.updNode x (fun nd => { nd with children := nd.children ++ [c] })).rawParents = s.t.rawParents :=
    funext (Tree.rawParents_updChildren s.t x (fun l => l ++ [c]))
  have e : ((s.mapTree fun t => t.updNode x (fun nd => { nd with children := nd.children ++ [c] })).mapTree
      fun t => { t with pending := t.pending.erase (x, c) }) =
      (s.mapTree fun t => t.updNode x (fun nd => { nd with children := nd.children ++ [c] })) := by
    simp only [St.mapTree, Tree.pending_updNode]
    rw [h.pend.erase hx hc]
    rfl
  have hcr : (s.t.updNode x (fun nd => { nd with children := nd.children ++ [c] })).create x c = s.t.create x c := by
    unfold Tree.create
    simp only [Tree.has_updNode]
    split
    · rw [Tree.updNode_updNode, Tree.updNode_congr s.t x _ (fun nd => { nd with children := appendNew nd.children c })]
      intro nd' hnd'
      rw [hnd] at hnd'; cases hnd'
      simp [appendNew, hnew]
    · rfl
  have hds : (s.t.updNode x (fun nd => { nd with children := nd.children ++ [c] })).destroy x c = some s.t := by
    rw [← Tree.destroy_noop hx hc hxp (by rw [Tree.rawChildren_of_node hnd]; exact hnew)]
    unfold Tree.destroy
    simp only [Tree.has_updNode]
    split
    · rw [Tree.updNode_updNode, Tree.updNode_congr s.t x _ (fun nd => { nd with children := nd.children.erase c })]
      intro nd' hnd'
      rw [hnd] at hnd'; cases hnd'
      simp [List.erase_append_right _ hnew, List.erase_of_not_mem hnew]
    · rfl
  by_cases hre : ReachEq s.t.rawParents x c
  · rw [newRelationship_refused h.wf h.pend (Ne.symm hcx) hx hc hre]
    unfold newRelationship
    rw [e]
    dsimp only
    rw [if_neg (by simp [(h.wf.ids x hx).1, (h.wf.ids c hc).1, Ne.symm hcx]),
      if_neg (by simp [St.mapTree, hx, hc])]
    rw [Tree.isCircular_true (by simp only [St.mapTree]; rw [rp]; exact h.wf.acyclic)
      (by simp only [St.mapTree]; rw [rp]; exact hre)]
    simp only [St.mapTree, hds]
  · obtain ⟨t', ht', er⟩ := newRelationship_linked h.wf h.root h.pend hx hc hre
    rw [er]
    unfold newRelationship
    rw [e]
    dsimp only
    rw [if_neg (by simp [(h.wf.ids x hx).1, (h.wf.ids c hc).1, Ne.symm hcx]),
      if_neg (by simp [St.mapTree, hx, hc])]
    rw [Tree.isCircular_false (by simp only [St.mapTree]; rw [rp]; exact h.wf.acyclic)
      (by simp only [St.mapTree]; rw [rp]; exact hre)]
    simp only [St.mapTree, hcr, ht']
    rw [(h.root.create ht').erase_child]
    rw [(Tree.create_eq_some ht').2.2.parents, if_pos rfl]
    exact List.ne_nil_of_mem ((mem_appendNew _ _ _).2 (Or.inr rfl))

theorem nodeAddChild_good {s : St} (h : Good s.t) (x c : Id) : Good (nodeAddChild s x c).state.t := by
  cases hnd : s.t.node? x with
  | none => unfold nodeAddChild; rw [hnd]; exact h
  | some nd =>
    by_cases h1 : nd.childrenEnabled = true ∧ c ≠ x
    · by_cases h2 : c ∉ nd.children
      · cases hc : s.t.node? c with
        | none =>
          unfold nodeAddChild; rw [hnd]; dsimp only; rw [if_pos h1, if_pos h2, hc]
          exact h.appendPending (by simp [not_has_of_none hc])
        | some child =>
          by_cases h3 : child.parentsEnabled = true
          · rw [nodeAddChild_eq h hnd hc h1.1 h1.2 h2 h3]
            exact newRelationship_good h x c (WF.linkable_flags hnd hc h1.1 h3)
          · unfold nodeAddChild; rw [hnd]; dsimp only; rw [if_pos h1, if_pos h2, hc]; dsimp only
            rw [if_neg h3]; exact h
      · unfold nodeAddChild; rw [hnd]; dsimp only; rw [if_pos h1, if_neg h2]; exact h
    · unfold nodeAddChild; rw [hnd]; dsimp only; rw [if_neg h1]; exact h

/-! ### The two flags -/

theorem updNode_flags_raw (t : Tree) (x : Id) (f : Node → Node) (hp : ∀ nd, (f nd).parents = nd.parents)
    (hc : ∀ nd, (f nd).children = nd.children) :
    (t.updNode x f).rawParents = t.rawParents ∧ (t.updNode x f).rawChildren = t.rawChildren := by
  constructor
  · funext y; unfold Tree.rawParents; rw [Tree.node?_updNode]
    by_cases e : y = x
    · subst e; rw [if_pos rfl]; cases t.node? y <;> simp [hp]
    · rw [if_neg e]
  · funext y; unfold Tree.rawChildren; rw [Tree.node?_updNode]
    by_cases e : y = x
    · subst e; rw [if_pos rfl]; cases t.node? y <;> simp [hc]
    · rw [if_neg e]

theorem Good.setFlags {t : Tree} (h : Good t) (x : Id) (f : Node → Node)
    (hp : ∀ nd, (f nd).parents = nd.parents) (hc : ∀ nd, (f nd).children = nd.children)
    (hid : ∀ nd, (f nd).id = nd.id ∧ (f nd).hasTree = nd.hasTree)
    (hfp : ∀ nd, t.node? x = some nd → (f nd).parentsEnabled = false → nd.parents = [])
    (hfc : ∀ nd, t.node? x = some nd → (f nd).childrenEnabled = false → ∀ c ∈ nd.children, t.has c = false) :
    Good (t.updNode x f) := by
  obtain ⟨rp, rc⟩ := updNode_flags_raw t x f hp hc
  refine ⟨?_, ?_, ?_⟩
  · constructor
    · rw [Tree.keys_updNode]; exact h.wf.keys
    · intro y nd hnd
      rw [Tree.node?_updNode] at hnd
      split at hnd
      · rename_i e; subst e
        cases hn : t.node? y with
        | none => simp [hn] at hnd
        | some nd0 =>
          simp [hn] at hnd
          subst hnd
          rw [(hid nd0).1, (hid nd0).2]; exact h.wf.self y nd0 hn
      · exact h.wf.self y nd hnd
    · intro y hy; rw [Tree.has_updNode] at hy; exact h.wf.ids y hy
    · exact h.wf.rootIs
    · exact h.wf.rootTree
    · exact h.wf.rootKids
    · rw [rp, rc]; exact h.wf.up
    · rw [rp, rc]; intro p c; rw [Tree.has_updNode]; exact h.wf.down p c
    · rw [rp]; exact h.wf.ndP
    · rw [rc]; exact h.wf.ndC
    · rw [rp]; exact h.wf.acyclic
    · intro y nd hnd hf
      rw [Tree.node?_updNode] at hnd
      split at hnd
      · rename_i e; subst e
        cases hn : t.node? y with
        | none => simp [hn] at hnd
        | some nd0 =>
          simp [hn] at hnd
          subst hnd
          rw [hp]; exact hfp nd0 hn hf
      · exact h.wf.flagP y nd hnd hf
    · intro y nd hnd hf c hcc
      rw [Tree.has_updNode]
      rw [Tree.node?_updNode] at hnd
      split at hnd
      · rename_i e; subst e
        cases hn : t.node? y with
        | none => simp [hn] at hnd
        | some nd0 =>
          simp [hn] at hnd
          subst hnd
          rw [hc] at hcc; exact hfc nd0 hn hf c hcc
      · exact h.wf.flagC y nd hnd hf c hcc
  · refine ⟨h.root.nodup, fun y => ?_⟩
    rw [Tree.has_updNode, rp]; exact h.root.mem y
  · intro a b hab
    rw [Tree.has_updNode, Tree.has_updNode]; exact h.pend a b hab

/-- Removing a list of parents one after the other. -/
theorem forEach_removeParent (x : Id) (l : List Id) (s : St) (h : Good s.t) (hx : s.t.has x = true) :
    ∃ s', Res.forEach (fun p s => nodeRemoveParent s x p) l s = .ok s' ∧ Good s'.t ∧
      (∀ y, s'.t.has y = s.t.has y) ∧
      (∀ y, s'.t.nodeAttrs y = s.t.nodeAttrs y) ∧
      (∀ q, q ∈ s'.t.rawParents x ↔ q ∈ s.t.rawParents x ∧ q ∉ l) := by
  induction l generalizing s with
  | nil => exact ⟨s, rfl, h, fun _ => rfl, fun _ => rfl, by simp⟩
  | cons p l ih =>
    obtain ⟨nd, hnd⟩ := (Tree.has_iff _ _).1 hx
    by_cases hp : p ∈ s.t.rawParents x
    · have hpx : p ≠ x := by rintro rfl; exact h.wf.acyclic p (Reach.single hp)
      obtain ⟨t', e, hg, ef⟩ := breakRelationship_spec h (h.wf.has_parent hp) hx hpx
      rw [← nodeRemoveParent_eq h hp] at e
      obtain ⟨s2, e2, hg2, hh2, ha2, hm2⟩ := ih (((⟨t', s.log⟩ : St).emit _ _).emit _ _) hg (by show t'.has x = true; rw [ef.has]; exact hx)
      refine ⟨s2, by unfold Res.forEach; rw [e]; exact e2, hg2, fun y => (hh2 y).trans (ef.has y),
        fun y => (ha2 y).trans (ef.attrs y), ?_⟩
      intro q
      rw [hm2]
      show q ∈ t'.rawParents x ∧ _ ↔ _
      rw [ef.parents, if_pos rfl, (h.wf.ndP x).mem_erase_iff]
      simp only [List.mem_cons]; tauto
    · have e := nodeRemoveParent_noop hnd hp
      obtain ⟨s2, e2, hg2, hh2, ha2, hm2⟩ := ih s h hx
      refine ⟨s2, by unfold Res.forEach; rw [e]; exact e2, hg2, hh2, ha2, ?_⟩
      intro q
      rw [hm2]
      simp only [List.mem_cons]
      constructor
      · rintro ⟨h1, h2⟩; exact ⟨h1, by rintro (rfl | h3); exacts [hp h1, h2 h3]⟩
      · tauto

/-- Breaking the relation to a list of children one after the other. -/
theorem forEach_breakChildren (x : Id) (l : List Id) (s : St) (h : Good s.t) (hx : s.t.has x = true)
    (hl : ∀ c ∈ l, s.t.has c = true ∧ c ≠ x) :
    ∃ s', Res.forEach (fun c s => breakRelationship s x c) l s = .ok s' ∧ Good s'.t ∧
      (∀ y, s'.t.has y = s.t.has y) ∧
      (∀ y, s'.t.nodeAttrs y = s.t.nodeAttrs y) ∧
      (∀ q, q ∈ s'.t.rawChildren x ↔ q ∈ s.t.rawChildren x ∧ q ∉ l) := by
  induction l generalizing s with
  | nil => exact ⟨s, rfl, h, fun _ => rfl, fun _ => rfl, by simp⟩
  | cons c l ih =>
    obtain ⟨t', e, hg, ef⟩ := breakRelationship_spec h hx (hl c (by simp)).1 (Ne.symm (hl c (by simp)).2)
    obtain ⟨s2, e2, hg2, hh2, ha2, hm2⟩ := ih (((⟨t', s.log⟩ : St).emit _ _).emit _ _) hg (by show t'.has x = true; rw [ef.has]; exact hx)
      (by intro d hd; show t'.has d = true ∧ _; rw [ef.has]; exact hl d (by simp [hd]))
    refine ⟨s2, by unfold Res.forEach; rw [e]; exact e2, hg2, fun y => (hh2 y).trans (ef.has y),
      fun y => (ha2 y).trans (ef.attrs y), ?_⟩
    intro q
    rw [hm2]
    show q ∈ t'.rawChildren x ∧ _ ↔ _
    rw [ef.children, if_pos rfl, (h.wf.ndC x).mem_erase_iff]
    simp only [List.mem_cons]; tauto

theorem attrs_flags {t t' : Tree} {x : Id} {nd' : Node} (ha : t'.nodeAttrs x = t.nodeAttrs x)
    (hn : t'.node? x = some nd') : ∃ nd, t.node? x = some nd ∧ Tree.attrs nd' = Tree.attrs nd := by
  rw [nodeAttrs_some hn] at ha
  unfold Tree.nodeAttrs at ha
  cases h2 : t.node? x with
  | none => simp [h2] at ha
  | some nd => simp [h2] at ha; exact ⟨nd, rfl, ha⟩

theorem nodeSetParentsEnabled_good {s : St} (h : Good s.t) (x : Id) (b : Bool) :
    Good (nodeSetParentsEnabled s x b).state.t := by
  unfold nodeSetParentsEnabled
  split
  · exact h
  · rename_i nd hnd
    have hx := has_of_some hnd
    dsimp only
    cases b with
    | true =>
      simp only [if_true, Res.andThen_ok, Res.state_ok]
      refine Good.setFlags h x _ (fun _ => rfl) (fun _ => rfl) (fun _ => ⟨rfl, rfl⟩)
        (fun _ _ hf => by cases hf) ?_
      intro nd' hnd' hf
      exact h.wf.flagC x nd' hnd' hf
    | false =>
      simp only [Bool.false_eq_true, if_false]
      obtain ⟨s', e, hg, hh, ha, hm⟩ := forEach_removeParent x (s.t.getParents x) s h hx
      rw [e]
      simp only [Res.andThen_ok, Res.state_ok]
      refine Good.setFlags hg x _ (fun _ => rfl) (fun _ => rfl) (fun _ => ⟨rfl, rfl⟩) ?_ ?_
      · intro nd' hnd' _
        rw [← Tree.rawParents_of_node hnd']
        apply List.eq_nil_iff_forall_not_mem.2
        intro q hq
        rw [hm, h.wf.getParents_eq] at hq
        exact hq.2 hq.1
      · intro nd' hnd' hf
        exact hg.wf.flagC x nd' hnd' hf

theorem nodeSetChildrenEnabled_good {s : St} (h : Good s.t) (x : Id) (b : Bool) :
    Good (nodeSetChildrenEnabled s x b).state.t := by
  unfold nodeSetChildrenEnabled
  split
  · exact h
  · rename_i nd hnd
    have hx := has_of_some hnd
    dsimp only
    cases b with
    | true =>
      simp only [if_true, Res.andThen_ok, Res.state_ok]
      refine Good.setFlags h x _ (fun _ => rfl) (fun _ => rfl) (fun _ => ⟨rfl, rfl⟩) ?_
        (fun _ _ hf => by cases hf)
      intro nd' hnd' hf
      exact h.wf.flagP x nd' hnd' hf
    | false =>
      simp only [Bool.false_eq_true, if_false]
      obtain ⟨s', e, hg, hh, ha, hm⟩ := forEach_breakChildren x (s.t.getChildren x) s h hx (by
        intro c hc
        have := (h.wf.mem_getChildren x c).1 hc
        refine ⟨Tree.has_of_mem_rawParents this, ?_⟩
        rintro rfl
        exact h.wf.acyclic c (Reach.single this))
      rw [e]
      simp only [Res.andThen_ok, Res.state_ok]
      refine Good.setFlags hg x _ (fun _ => rfl) (fun _ => rfl) (fun _ => ⟨rfl, rfl⟩) ?_ ?_
      · intro nd' hnd' hf
        exact hg.wf.flagP x nd' hnd' hf
      · intro nd' hnd' _ c hc
        rw [← Tree.rawChildren_of_node hnd', hm, h.wf.getChildren_eq, List.mem_filter] at hc
        rw [hh]
        by_contra hcc
        exact hc.2 ⟨hc.1, by simpa using hcc⟩

end Larch
