import Verif.Props.Relations

/-!
# C08, C09, C10: removing nodes
-/

namespace Larch

open Graph Spec

theorem WF.reachChildren {t : Tree} (h : WF t) {x y : Id} (hr : Reach t.rawChildren x y) (hy : t.has y = true) :
    Reach t.rawParents y x := by
  induction hr with
  | single hm => exact Reach.single (h.down _ _ hm hy)
  | tail _ hm ih => exact Reach.head (h.down _ _ hm hy) (ih (Tree.has_of_mem_rawChildren hm))

/-! ### C10 -/

/-- C10: on every consistent tree recursive removal ends without an exception and takes out exactly the node
and its descendants, also when they are reached along several paths. -/
theorem C10_recursive_removal (s : St) (h : Good s.t) (x : Id) (hx : s.t.has x = true) :
    ∃ s', step s (.delNode x true) = .ok s' ∧ TakenOutAll s.t s'.t x ∧ Good s'.t := by
  obtain ⟨s', e, ef, hh, -⟩ := removeNode_recursive h.wf x
  have hg := ef.good h
  have hnodes : ∀ y, s'.t.has y = true ↔ s.t.has y = true ∧ y ≠ x ∧ ¬ Descendant s.t y x := by
    intro y
    rw [hh]
    constructor
    · rintro ⟨h1, h2⟩
      refine ⟨h1, fun e => h2 (Or.inl e.symm), fun hd => h2 (Or.inr ?_)⟩
      exact ((h.wf.descendant_up y x).1 hd).reverse (fun a b hab => h.wf.up b a hab)
    · rintro ⟨h1, h2, h3⟩
      refine ⟨h1, ?_⟩
      rintro (e | hr)
      · exact h2 e.symm
      · exact h3 ((h.wf.descendant_up y x).2 (h.wf.reachChildren hr h1))
  refine ⟨s', e, ⟨hnodes, fun y hy => ?_, fun y c hy hc => ?_, fun z => ?_⟩, hg⟩
  · rw [hg.wf.getParents_eq, h.wf.getParents_eq, ef.parents y hy]
  · rw [hg.wf.isChild, h.wf.isChild, ef.parents c hc]
  · rw [rootChildren_eq hg, rootChildren_eq h, ef.root h.root.nodup]
    constructor
    · rintro ⟨h1, h2⟩
      refine ⟨h1, ?_⟩
      rintro rfl
      exact h2 ⟨hx, by have := (hnodes z).not; simp at this; exact this⟩
    · rintro ⟨h1, h2⟩
      refine ⟨h1, ?_⟩
      rintro ⟨h3, h4⟩
      have h5 : ¬ Descendant s.t z x := by
        rw [h.wf.descendant_up]
        intro hr
        obtain ⟨q, hq, -⟩ := (reach_iff _ _ _).1 hr
        rw [((h.root.mem z).1 h1).2.1] at hq; cases hq
      have := (hnodes z).2 ⟨h3, h2, h5⟩
      rw [h4] at this; cases this

example : Good demo.t ∧ demo.t.has (.str 2) = true ∧ Descendant demo.t (.str 3) (.str 2) :=
  ⟨demo_good, by decide, Relation.TransGen.single (by decide)⟩

/-! ### C09 -/

/-- C09: non-recursive removal keeps every other node; each child loses exactly that parent and is at the
top level exactly if it has no other. (`NoDangling` holds after every careful history.) -/
theorem C09_removal_keeps_children (s : St) (h : Good s.t) (hn : NoDangling s.t) (x : Id) (hx : s.t.has x = true) :
    ∃ s', step s (.delNode x false) = .ok s' ∧ TakenOut s.t s'.t x ∧ Good s'.t := by
  obtain ⟨s', e, ef, -⟩ := removeNode_orphan h hx (fun c hc => hn x c hc) s.t.nodes.entries.length
  have hg := ef.good
  refine ⟨s', e, ⟨ef.has, fun y hy => ?_, fun y c hy hc => ?_, fun z => ?_, ef.pending⟩, hg⟩
  · rw [hg.wf.getParents_eq, h.wf.getParents_eq, ef.parents y hy]
  · rw [hg.wf.isChild, h.wf.isChild, ef.parents c hc, List.mem_erase_of_ne hy]
  · rw [rootChildren_eq hg, rootChildren_eq h, ef.root, h.wf.isChild, h.wf.getParents_eq]
    have hnd : (s.t.root.children ++ (s.t.rawChildren x).filter (fun c => decide (s.t.rawParents c = [x]))).Nodup := by
      rw [List.nodup_append]
      refine ⟨h.root.nodup, (h.wf.ndC x).filter _, ?_⟩
      rintro a ha b hb rfl
      have h1 := ((h.root.mem a).1 ha).2.1
      have h2 := (List.mem_filter.1 hb).2
      simp [h1] at h2
    rw [hnd.mem_erase_iff, List.mem_append, List.mem_filter]
    simp only [decide_eq_true_eq]
    constructor
    · rintro ⟨h1, h2 | ⟨h2, h3⟩⟩
      · exact Or.inl ⟨h2, h1⟩
      · exact Or.inr ⟨by rw [h3]; simp, h3⟩
    · rintro (⟨h1, h2⟩ | ⟨h1, h2⟩)
      · exact ⟨h2, Or.inl h1⟩
      · refine ⟨?_, Or.inr ⟨h.wf.up x z h1, h2⟩⟩
        rintro rfl
        exact h.wf.acyclic z (Reach.single h1)

example : Good demo.t ∧ NoDangling demo.t ∧ demo.t.has (.str 2) = true ∧ demo.t.getParents (.str 3) = [.str 2] :=
  ⟨demo_good, careful_noDangling demoOps demo_careful, by decide, by decide⟩

/-- On a tree damaged by an earlier removal of a node with two parents, removal raises `KeyError` half-way:
the second parent still lists the removed child. -/
theorem C09_refuted_damaged : ∃ ops x, NewNodes ops ∧ NoRaise St.init ops ∧
    (runOps St.init ops).t.has x = true ∧
    ∃ s', step (runOps St.init ops) (.delNode x false) = .err .keyError s' := by
  refine ⟨twoParentsOps.take 5, .str 2, ?_, by decide, by decide, _, rfl⟩
  intro nd p hm
  simp only [twoParentsOps, List.take, List.mem_cons, Op.addNode.injEq, reduceCtorEq, List.not_mem_nil, or_false] at hm
  rcases hm with ⟨rfl, -⟩ | ⟨rfl, -⟩ | ⟨rfl, -⟩ <;> exact Made.new _ _

/-! ### C08 -/

/-- What a removal leaves, in every case: the only trace of the node is that its second, its fourth, ... parent keeps it in
its list of children. -/
theorem C08_left_behind (s s' : St) (h : Good s.t) (x : Id) (r : Bool) (hx : s.t.has x = true)
    (hs : step s (.delNode x r) = .ok s') :
    s'.t.has x = false ∧ (∀ y, x ∉ s'.t.rawParents y) ∧ x ∉ s'.t.root.children ∧ (∀ r ∈ s'.t.pending, r.1 ≠ x ∧ r.2 ≠ x) ∧
      ∀ y, x ∈ s'.t.rawChildren y ↔ y ∈ everySecond (s.t.getParents x) := by
  rw [h.wf.getParents_eq]
  have gone : ∀ t' : Tree, Good t' → t'.has x = false → (∀ y, x ∉ t'.rawParents y) ∧ x ∉ t'.root.children := by
    intro t' hg hh
    refine ⟨fun y hy => ?_, fun hm => ?_⟩
    · have := hg.wf.has_parent hy
      rw [hh] at this; cases this
    · have := ((hg.root.mem x).1 hm).1
      rw [hh] at this; cases this
  cases r with
  | true =>
    obtain ⟨s1, e, ef, hh, hlast⟩ := removeNode_recursive h.wf x
    have e' : step s (.delNode x true) = .ok s1 := e
    rw [e'] at hs; cases hs
    have hx' : s'.t.has x = false := by
      have := (hh x).not
      simp only [Bool.not_eq_true] at this
      rw [this]; intro hc; exact hc.2 (ReachEq.refl _ _)
    refine ⟨hx', (gone _ (ef.good h) hx').1, (gone _ (ef.good h) hx').2, ?_, hlast hx⟩
    intro r hr
    obtain ⟨-, h2, h3⟩ := (ef.pending r).1 hr
    constructor
    · intro e; exact h2 (by rw [e]; exact ⟨hx, hx'⟩)
    · intro e; exact h3 (by rw [e]; exact ⟨hx, hx'⟩)
  | false =>
    have hok : (removeNode (removeFuel s.t) s x false).isOk = true := by
      have e' : removeNode (removeFuel s.t) s x false = .ok s' := hs
      rw [e']; rfl
    obtain ⟨s1, e, ef, hlast⟩ := removeNode_orphan h hx (removeNode_ok_children h.wf hx _ hok) s.t.nodes.entries.length
    have e' : step s (.delNode x false) = .ok s1 := e
    rw [e'] at hs; cases hs
    have hx' : s'.t.has x = false := by
      have := (ef.has x).not
      simp only [Bool.not_eq_true] at this
      rw [this]; simp
    exact ⟨hx', (gone _ ef.good hx').1, (gone _ ef.good hx').2, fun r hr => ((ef.pending r).1 hr).2, hlast⟩

/-- C08, exactly as far as it is true: after a removal that does not raise, no trace of the node is left **if and only if**
it had at most one parent. -/
theorem C08_removed_is_gone_iff (s s' : St) (h : Good s.t) (x : Id) (r : Bool) (hx : s.t.has x = true)
    (hs : step s (.delNode x r) = .ok s') : Gone s'.t x ↔ (s.t.getParents x).length ≤ 1 := by
  obtain ⟨h1, h2, h3, h4, h5⟩ := C08_left_behind s s' h x r hx hs
  rw [← everySecond_eq_nil]
  constructor
  · intro hg
    rw [List.eq_nil_iff_forall_not_mem]
    exact fun y hy => hg.children y ((h5 y).2 hy)
  · intro e
    refine ⟨h1, h2, fun y hy => ?_, h3, h4⟩
    rw [h5, e] at hy
    cases hy

/-- C08 for a node with at most one parent: after a removal that does not raise, no trace of the node is left.
Missing for the literal claim: nodes with several parents, for which it is false (`C08_refuted`, `C08_removed_is_gone_iff`). -/
theorem C08_removed_is_gone_partial (s s' : St) (h : Good s.t) (x : Id) (r : Bool) (hx : s.t.has x = true)
    (h1 : (s.t.getParents x).length ≤ 1) (hs : step s (.delNode x r) = .ok s') : Gone s'.t x :=
  (C08_removed_is_gone_iff s s' h x r hx hs).2 h1

example : Good demo.t ∧ demo.t.has (.str 3) = true ∧ (demo.t.getParents (.str 3)).length = 1 :=
  ⟨demo_good, by decide, by decide⟩

/-- Whatever the number of parents, the public interface no longer shows the removed node. -/
theorem C08_removed_is_invisible (s s' : St) (h : Good s.t) (x : Id) (r : Bool) (hx : s.t.has x = true)
    (hs : step s (.delNode x r) = .ok s') :
    s'.t.has x = false ∧ (∀ y, ¬ IsParent s'.t x y) ∧ (∀ y, ¬ IsChild s'.t y x) ∧ x ∉ s'.t.rootChildren := by
  have hok : (removeNode (removeFuel s.t) s x r).isOk = true := by
    have e' : removeNode (removeFuel s.t) s x r = .ok s' := hs
    rw [e']; rfl
  have hg : Good s'.t := by
    have := removeNode_good h x r hok
    have e' : removeNode (removeFuel s.t) s x r = .ok s' := hs
    rwa [e'] at this
  have hh : s'.t.has x = false := by
    cases r with
    | true =>
      obtain ⟨s1, e, ef, hh, hlast⟩ := removeNode_recursive h.wf x
      have e' : step s (.delNode x true) = .ok s1 := e
      rw [e'] at hs; cases hs
      have := (hh x).not
      simp only [Bool.not_eq_true] at this
      rw [this]; intro hc; exact hc.2 (ReachEq.refl _ _)
    | false =>
      obtain ⟨s1, e, ef, -⟩ := removeNode_orphan h hx (removeNode_ok_children h.wf hx _ hok) s.t.nodes.entries.length
      have e' : step s (.delNode x false) = .ok s1 := e
      rw [e'] at hs; cases hs
      have := (ef.has x).not
      simp only [Bool.not_eq_true] at this
      rw [this]; simp
  refine ⟨hh, fun y hy => ?_, fun y hy => ?_, fun hm => ?_⟩
  · have := (hg.wf.agree.exists_both x y hy).1; rw [hh] at this; cases this
  · have := (hg.wf.agree.exists_both y x ((hg.wf.agree.mirror y x).1 hy)).2; rw [hh] at this; cases this
  · have := ((hg.topLevel.exact x).1 hm).1; rw [hh] at this; cases this

/-- With two parents the removed node stays in the children list of the second. -/
theorem C08_refuted : ∃ ops x, NewNodes ops ∧ NoRaise St.init ops ∧ Good (runOps St.init ops).t ∧
    (runOps St.init ops).t.has x = true ∧
    ∃ s', step (runOps St.init ops) (.delNode x false) = .ok s' ∧ ¬ Gone s'.t x := by
  have hcareful : Along Careful St.init (twoParentsOps.take 4) :=
    ⟨careful_add (Made.new _ _) (by decide), careful_add (Made.new _ _) (by decide),
      careful_add (Made.new _ _) (by decide), trivial, trivial⟩
  refine ⟨twoParentsOps.take 4, .str 3, ?_, by decide, careful_consistent _ hcareful, by decide, _, rfl, fun h => ?_⟩
  · intro nd p hm
    simp only [twoParentsOps, List.take, List.mem_cons, Op.addNode.injEq, reduceCtorEq, List.not_mem_nil, or_false] at hm
    rcases hm with ⟨rfl, -⟩ | ⟨rfl, -⟩ | ⟨rfl, -⟩ <;> exact Made.new _ _
  · exact h.children (.str 2) (by decide)

end Larch
