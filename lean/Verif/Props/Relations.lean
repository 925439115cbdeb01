import Verif.Props.Consistency

/-!
# C03, C04, C07, C11: the cycle test and the effect of single edits
-/

namespace Larch

open Graph Spec

/-! ### C03 -/

/-- C03: on an acyclic tree the loop of the circularity test ends after finitely many rounds, whatever
further rounds it is granted, and its answer is whether the proposed child is the proposed parent or is
reached from it through `parents` attributes. -/
theorem C03_cycle_check_exact (t : Tree) (hac : Acyclic t.rawParents) (p c : Id) :
    ∃ N b, (∀ f ≥ N, t.circLoop c f [p] = some b) ∧ t.isCircular p c = some b ∧
      (b = true ↔ c = p ∨ Relation.TransGen (fun y q => q ∈ t.rawParents y) p c) := by
  obtain ⟨ht, hle, hlt⟩ := exists_height t.rawParents t.nodes.keys t.rawParents_keys hac
  have hW : ∀ x, t.upWalks (t.nodes.entries.length + 2) x =
      1 + ((t.rawParents x).map (t.upWalks (t.nodes.entries.length + 2))).sum := by
    intro x
    have := walks_eq t.rawParents ht hlt (t.nodes.entries.length + 2) x
      (by have := hle x; rw [Dict.keys_length] at this; omega)
    rw [Tree.upWalks_eq, this]
    congr 2
    exact List.map_congr_left (fun y _ => (Tree.upWalks_eq t _ y).symm)
  obtain ⟨b, hb, hiff⟩ := t.isCircular_correct hac p c
  refine ⟨t.upWalks (t.nodes.entries.length + 2) p, b, fun f hf => ?_, hb, ?_⟩
  · obtain ⟨b', hb', hiff'⟩ := t.circLoop_correct c _ hW f [p] (by simpa using hf)
    rw [hb']; congr 1
    have : b' = true ↔ b = true := by
      rw [hiff', hiff]; simp
    cases b <;> cases b' <;> simp_all
  · rw [hiff]; unfold ReachEq
    constructor
    · rintro (rfl | h)
      · exact Or.inl rfl
      · exact Or.inr h
    · rintro (rfl | h)
      · exact Or.inl rfl
      · exact Or.inr h

/-- C03 in terms of the public interface, on consistent trees. -/
theorem C03_cycle_check_ancestors (t : Tree) (h : Good t) (p c : Id) :
    ∃ b, t.isCircular p c = some b ∧ (b = true ↔ c = p ∨ Ancestor t c p) := by
  obtain ⟨b, hb, hiff⟩ := t.isCircular_correct h.wf.acyclic p c
  refine ⟨b, hb, ?_⟩
  rw [hiff, h.wf.ancestor_iff]
  unfold ReachEq
  constructor <;> (rintro (rfl | h); exacts [Or.inl rfl, Or.inr h])

example : Acyclic demo.t.rawParents ∧ demo.t.isCircular (.str 3) (.str 1) = some true ∧
    demo.t.isCircular (.str 1) (.str 3) = some false ∧ demo.t.isCircular (.str 9) (.str 1) = some false :=
  ⟨demo_good.wf.acyclic, by decide, by decide, by decide⟩

/-! ### C04 -/

/-- C04: on a consistent tree a refused relation changes nothing and tells nobody, whichever way it is
asked for: `new_relationship`, `add_parent` or `add_child`. The node methods raise unless a flag already
makes them ignore the request. -/
theorem C04_refused_changes_nothing (s : St) (h : Good s.t) (p c : Id) (hp : s.t.has p = true)
    (hanc : Ancestor s.t c p) :
    newRelationship s p c = .err .circular s ∧
    (nodeAddParent s c p).state = s ∧ (treeAddParent s c p).state = s ∧ (nodeAddChild s p c).state = s ∧
    (Accept s.t p c → nodeAddParent s c p = .err .circular s ∧ nodeAddChild s p c = .err .circular s) := by
  have hr := (h.wf.ancestor_iff c p).1 hanc
  have hpc : p ≠ c := by rintro rfl; exact h.wf.acyclic p hr
  have hc : s.t.has c = true := by
    have := hr
    unfold Reach at this
    obtain ⟨z, -, hz⟩ := (Relation.TransGen.tail'_iff).1 this
    exact h.wf.has_parent hz
  have key := newRelationship_refused h.wf h.pend hpc hp hc (Or.inr hr)
  obtain ⟨np, hnp⟩ := (Tree.has_iff _ _).1 hp
  obtain ⟨nc, hnc⟩ := (Tree.has_iff _ _).1 hc
  have hnotp : p ∉ s.t.rawParents c := fun hm => h.wf.acyclic p (hr.trans (Reach.single hm))
  have hnotp' : p ∉ nc.parents := by rwa [Tree.rawParents_of_node hnc] at hnotp
  have hnotc : c ∉ np.children := by
    intro hm; exact hnotp (h.wf.down p c (by rw [Tree.rawChildren_of_node hnp]; exact hm) hc)
  have hap : ∀ r, r = nodeAddParent s c p → r = .ok s ∨ r = .err .circular s := by
    rintro r rfl
    unfold nodeAddParent
    rw [hnc]; dsimp only
    split
    · rw [hnp]; dsimp only
      split
      · exact Or.inr key
      · exact Or.inl rfl
    · exact Or.inl rfl
  have hac : ∀ r, r = nodeAddChild s p c → r = .ok s ∨ r = .err .circular s := by
    rintro r rfl
    by_cases h1 : np.childrenEnabled = true
    · by_cases h2 : nc.parentsEnabled = true
      · right; rw [nodeAddChild_eq h hnp hnc h1 (Ne.symm hpc) hnotc h2]; exact key
      · left; unfold nodeAddChild; rw [hnp]; dsimp only
        rw [if_pos ⟨h1, Ne.symm hpc⟩, if_pos hnotc, hnc]; dsimp only; rw [if_neg h2]
    · left; unfold nodeAddChild; rw [hnp]; dsimp only; rw [if_neg (fun h => h1 h.1)]
  refine ⟨key, ?_, ?_, ?_, fun hacc => ⟨?_, ?_⟩⟩
  · rcases hap _ rfl with e | e <;> rw [e] <;> rfl
  · unfold treeAddParent
    rw [if_pos hc]
    rcases hap _ rfl with e | e <;> rw [e] <;> rfl
  · rcases hac _ rfl with e | e <;> rw [e] <;> rfl
  · unfold nodeAddParent
    rw [hnc]; dsimp only
    rw [if_pos ⟨hpc, hacc.2 _ hnc, hnotp'⟩, hnp]; dsimp only
    rw [if_pos (hacc.1 _ hnp)]; exact key
  · rw [nodeAddChild_eq h hnp hnc (hacc.1 _ hnp) (Ne.symm hpc) hnotc (hacc.2 _ hnc)]; exact key

example : Good demo.t ∧ demo.t.has (.str 3) = true ∧ Ancestor demo.t (.str 1) (.str 3) :=
  ⟨demo_good, by decide, Relation.TransGen.head (b := .str 2) (by decide) (Relation.TransGen.single (by decide))⟩

/-- On a tree damaged by the removal of a node with two parents, a refused relation does change the tree. -/
theorem C04_refuted_damaged : ∃ ops p c, NewNodes ops ∧ NoRaise St.init ops ∧
    (let s := runOps St.init ops
     (newRelationship s p c).isOk = false ∧ (newRelationship s p c).state.t ≠ s.t) := by
  refine ⟨twoParentsOps ++ [.newRelationship (.str 3) (.str 2)], .str 2, .str 3, ?_, by decide, by decide⟩
  intro nd p hm
  simp only [twoParentsOps, List.cons_append, List.nil_append, List.mem_cons, Op.addNode.injEq, reduceCtorEq,
    List.not_mem_nil, or_false, false_or] at hm
  rcases hm with ⟨rfl, -⟩ | ⟨rfl, -⟩ | ⟨rfl, -⟩ | ⟨rfl, -⟩ <;> exact Made.new _ _

/-! ### C07 -/

/-- C07: adding an id that is in use leaves tree and log alone, for every tree and every node object. -/
theorem C07_existing_id_is_noop (s : St) (nd : Node) (parent : Id) (h : s.t.has nd.id = true) :
    step s (.addNode nd parent) = .ok s := addNode_existing h parent

example : demo.t.has (Node.new (.str 3) (.str 1)).id = true := by decide

/-! ### C11 -/

theorem rootChildren_eq {t : Tree} (h : Good t) : t.rootChildren = t.root.children := by
  unfold Tree.rootChildren Tree.childrenOf
  rw [h.wf.rootKids, h.wf.rootTree, if_pos (by rfl), List.filter_eq_self]
  intro x hx; exact ((h.root.mem x).1 hx).1

/-- C11, adding: a relation between existing nodes that would not close a cycle is added, and nothing else
changes; both ends are announced as modified, parent first. -/
theorem C11_new_relationship (s : St) (h : Good s.t) (p c : Id) (hp : s.t.has p = true) (hc : s.t.has c = true)
    (hne : p ≠ c) (hanc : ¬ Ancestor s.t c p) (hacc : Accept s.t p c) :
    ∃ t', newRelationship s p c = .ok ⟨t', s.log ++ [⟨t', .modified, p⟩, ⟨t', .modified, c⟩]⟩ ∧
      AddsExactly s.t t' p c ∧ Good t' := by
  have hre : ¬ ReachEq s.t.rawParents p c := by
    rintro (e | hr)
    · exact hne e
    · exact hanc ((h.wf.ancestor_iff c p).2 hr)
  obtain ⟨t', ht', e⟩ := newRelationship_linked h.wf h.root h.pend hp hc hre
  have hg := h.create ht' hre hacc
  obtain ⟨-, -, ef⟩ := Tree.create_eq_some ht'
  refine ⟨t', ?_, ?_, hg⟩
  · rw [e]; simp [St.emit]
  · have hpar : ∀ q y, q ∈ t'.rawParents y ↔ q ∈ s.t.rawParents y ∨ (q = p ∧ y = c) := by
      intro q y
      rw [ef.parents]
      split
      · rename_i e; subst e; rw [mem_appendNew]; simp
      · rename_i e; simp [e]
    refine ⟨ef.has, fun q y => ?_, fun q y => ?_, fun y hy => ?_, fun y hy => ?_, fun x => ?_, ef.pending⟩
    · rw [hg.wf.isParent, h.wf.isParent]; exact hpar q y
    · rw [hg.wf.isChild, h.wf.isChild]; exact hpar q y
    · rw [hg.wf.getParents_eq, h.wf.getParents_eq, ef.parents, if_neg hy]
    · rw [hg.wf.getChildren_eq, h.wf.getChildren_eq, ef.children, if_neg hy]
      congr 1; funext z; exact ef.has z
    · rw [rootChildren_eq hg, rootChildren_eq h, ef.root]
      show x ∈ s.t.root.children.erase c ↔ _
      rw [h.root.nodup.mem_erase_iff]; tauto

/-- `add_parent` and `add_child` do the same as `new_relationship` when the relation is new. -/
theorem C11_node_methods (s : St) (h : Good s.t) (p c : Id) (hp : s.t.has p = true) (hc : s.t.has c = true)
    (hne : p ≠ c) (hnew : ¬ IsParent s.t p c) (hacc : Accept s.t p c) :
    nodeAddParent s c p = newRelationship s p c ∧ treeAddParent s c p = newRelationship s p c ∧
    nodeAddChild s p c = newRelationship s p c := by
  obtain ⟨np, hnp⟩ := (Tree.has_iff _ _).1 hp
  obtain ⟨nc, hnc⟩ := (Tree.has_iff _ _).1 hc
  rw [h.wf.isParent] at hnew
  have h1 : nodeAddParent s c p = newRelationship s p c := by
    unfold nodeAddParent
    rw [hnc]; dsimp only
    rw [Tree.rawParents_of_node hnc] at hnew
    rw [if_pos ⟨hne, hacc.2 _ hnc, hnew⟩, hnp]; dsimp only
    rw [if_pos (hacc.1 _ hnp)]
  refine ⟨h1, ?_, ?_⟩
  · unfold treeAddParent; rw [if_pos hc]; exact h1
  · refine nodeAddChild_eq h hnp hnc (hacc.1 _ hnp) (Ne.symm hne) ?_ (hacc.2 _ hnc)
    intro hm
    exact hnew (h.wf.down p c (by rw [Tree.rawChildren_of_node hnp]; exact hm) hc)

/-- C11, breaking: exactly the relation goes (if it was there), and both ends are announced as modified. -/
theorem C11_break_relationship (s : St) (h : Good s.t) (p c : Id) (hp : s.t.has p = true) (hc : s.t.has c = true)
    (hne : p ≠ c) :
    ∃ t', breakRelationship s p c = .ok ⟨t', s.log ++ [⟨t', .modified, p⟩, ⟨t', .modified, c⟩]⟩ ∧
      RemovesExactly s.t t' p c ∧ Good t' := by
  obtain ⟨t', e, hg, ef⟩ := breakRelationship_spec h hp hc hne
  refine ⟨t', by rw [e]; simp [St.emit], ?_, hg⟩
  have hpar : ∀ q y, q ∈ t'.rawParents y ↔ q ∈ s.t.rawParents y ∧ ¬ (q = p ∧ y = c) := by
    intro q y
    rw [ef.parents]
    split
    · rename_i e; subst e; rw [(h.wf.ndP y).mem_erase_iff]; simp; tauto
    · rename_i e; simp [e]
  refine ⟨ef.has, fun q y => ?_, fun q y => ?_, fun y hy => ?_, fun y hy => ?_, fun x => ?_, fun r hr => ?_⟩
  · rw [hg.wf.isParent, h.wf.isParent]; exact hpar q y
  · rw [hg.wf.isChild, h.wf.isChild]; exact hpar q y
  · rw [hg.wf.getParents_eq, h.wf.getParents_eq, ef.parents, if_neg hy]
  · rw [hg.wf.getChildren_eq, h.wf.getChildren_eq, ef.children, if_neg hy]
    congr 1; funext z; exact ef.has z
  · rw [rootChildren_eq hg, rootChildren_eq h, ef.rootIs, h.wf.getParents_eq]
    split
    · rename_i e; simp [e]
    · rename_i e; simp [e]
  · rw [ef.pending]
    split
    · simp [List.mem_erase_of_ne hr, hr]
    · rfl

/-- `remove_parent` of a parent the node has is `break_relationship`. -/
theorem C11_remove_parent (s : St) (h : Good s.t) (x p : Id) (hp : IsParent s.t p x) :
    nodeRemoveParent s x p = breakRelationship s p x :=
  nodeRemoveParent_eq h ((h.wf.isParent p x).1 hp)

example : Good demo.t ∧ demo.t.has (.str 5) = true ∧ demo.t.has (.str 3) = true ∧
    ¬ Ancestor demo.t (.str 3) (.str 5) ∧ Accept demo.t (.str 5) (.str 3) ∧ IsParent demo.t (.str 2) (.str 3) := by
  refine ⟨demo_good, by decide, by decide, ?_, Tree.allEnabled_accept (by decide) _ _, by decide⟩
  rw [demo_good.wf.ancestor_iff]
  intro hr
  have := Tree.isCircular_true demo_good.wf.acyclic (Or.inr hr)
  exact absurd this (by decide)

/-- C11 is false in a tree with a node called `root`: breaking the only relation of node 2 does not move it to the top
level but below that node. (The trees in `Good` have no such node; nothing prevents adding one.) -/
theorem C11_refuted_name : ∃ ops, NewNodes ops ∧ NoRaise St.init ops ∧
    (runOps St.init ops).t.getChildren (.str 1) = [.str 2] ∧ (runOps St.init ops).t.getParents (.str 2) = [.str 1] ∧
    ∃ s', step (runOps St.init ops) (.removeParent (.str 2) (.str 1)) = .ok s' ∧
      s'.t.getParents (.str 2) = [rootId] ∧ .str 2 ∉ s'.t.rootChildren := by
  refine ⟨[ .addNode (Node.new rootId .none) .none, .addNode (Node.new (.str 1) .none) .none,
    .addNode (Node.new (.str 2) .none) (.str 1) ], ?_, by decide, by decide, by decide, _, rfl, by decide, by decide⟩
  · intro nd p hm
    simp only [List.mem_cons, Op.addNode.injEq, List.not_mem_nil, or_false] at hm
    rcases hm with ⟨rfl, -⟩ | ⟨rfl, -⟩ | ⟨rfl, -⟩ <;> exact Made.new _ _

end Larch
