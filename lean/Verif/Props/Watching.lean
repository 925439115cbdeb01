import Verif.Proofs.Watching
import Verif.Props.Consistency

/-!
# C41, C42: following the tree through its notifications
-/

namespace Larch

open Graph Spec

/-! ### C41 -/

/-- C41 on the histories of a careful user: somebody starts listening at any time with a right table of the relations,
and from then on only reads the parents and children of the nodes named in the notifications, at the time of each
notification. The table is right after every further history. Missing for the literal claim: see
`C41_refuted_removal`. -/
theorem C41_relations_partial (before ops : List Op) (hb : Along Careful St.init before)
    (ho : Along Careful (runOps St.init before) ops) :
    ∃ notes, (runOps (runOps St.init before) ops).log = (runOps St.init before).log ++ notes ∧
      ∀ R, Knows R (runOps St.init before).t → Knows (heard R notes) (runOps (runOps St.init before) ops).t := by
  obtain ⟨hg, hn⟩ := runOps_careful before St.init init_good init_noDangling hb
  generalize runOps St.init before = s at hg hn ho ⊢
  have key : ∀ R, Knows R s.t → Following s.log R (fun _ => False) (runOps s ops) := by
    intro R hR
    refine runOps_following ops s hg hn ho ⟨[], by simp, by simp, ?_, ?_⟩
    · intro p c h
      have := (hg.wf.isParent p c).1 ((hR.parents p c).1 h)
      exact ⟨hg.wf.has_parent this, Tree.has_of_mem_rawParents this⟩
    · intro p c _ _
      exact (hR.parents p c).trans (hg.wf.isParent p c)
  have hwf := (runOps_careful ops s hg hn ho).1.wf
  have h0 : Knows (fun p c => IsParent s.t p c) s.t := ⟨fun _ _ => Iff.rfl, fun p c => (hg.wf.agree.mirror p c).symm⟩
  obtain ⟨l, e, -⟩ := key _ h0
  refine ⟨l, e, fun R hR => ?_⟩
  obtain ⟨l', e', -, -, h4⟩ := key R hR
  have : l' = l := List.append_cancel_left (e'.symm.trans e)
  subst this
  refine ⟨fun p c => ?_, fun p c => ?_⟩
  · rw [hwf.isParent]; exact h4 p c (fun h => h) (fun h => h)
  · rw [hwf.isChild]; exact h4 p c (fun h => h) (fun h => h)

theorem demo_split : Along Careful (runOps St.init (demoOps.take 3)) (demoOps.drop 3) :=
  ⟨trivial, careful_add (Made.new _ _) (by decide), careful_add (Made.new _ _) (by decide), trivial, trivial, trivial,
    (by show List.length _ ≤ 1; decide), trivial, trivial⟩

theorem demo_first : Along Careful St.init (demoOps.take 3) :=
  ⟨careful_add (Made.new _ _) (by decide), careful_add (Made.new _ _) (by decide), careful_add (Made.new _ _) (by decide),
    trivial⟩

/-- Starting to listen after three additions; the late relation 5–2, the second parent, the move, the break and the
removal all reach the table. -/
example : Along Careful St.init (demoOps.take 3) ∧ Along Careful (runOps St.init (demoOps.take 3)) (demoOps.drop 3) ∧
    IsParent (runOps St.init (demoOps.take 3)).t (.str 1) (.str 3) ∧
    ¬ IsParent (runOps (runOps St.init (demoOps.take 3)) (demoOps.drop 3)).t (.str 1) (.str 3) ∧
    IsParent (runOps (runOps St.init (demoOps.take 3)) (demoOps.drop 3)).t (.str 5) (.str 2) :=
  ⟨demo_first, demo_split, by decide, by decide, by decide⟩

/-- After the removal of a node with two parents and the reuse of its id, the second parent has a child that no
notification led to. No call raises. -/
theorem C41_refuted_removal : ∃ ops, NewNodes ops ∧ NoRaise St.init ops ∧
    ¬ Knows (heard (fun _ _ => False) (runOps St.init ops).log) (runOps St.init ops).t := by
  refine ⟨twoParentsOps, ?_, by decide, fun h => ?_⟩
  · intro nd p hm
    simp only [twoParentsOps, List.mem_cons, Op.addNode.injEq, reduceCtorEq, List.not_mem_nil, or_false, false_or] at hm
    rcases hm with ⟨rfl, -⟩ | ⟨rfl, -⟩ | ⟨rfl, -⟩ | ⟨rfl, -⟩ <;> exact Made.new _ _
  · have h1 := (h.children (.str 2) (.str 3)).2 (by decide)
    have h2 := (h.parents (.str 2) (.str 3)).1 h1
    exact absurd h2 (by decide)

/-! ### C42 -/

/-- C42 on the histories of a careful user: whenever somebody is notified, in the middle of an operation or at its end,
parents and children agree in the tree that the callback can read, and nobody is their own ancestor. Missing for the
literal claim: the top level, see `C42_refuted_top`. -/
theorem C42_notified_in_order_partial (ops : List Op) (h : Along Careful St.init ops) :
    ∀ n ∈ (runOps St.init ops).log, Agree n.snap ∧ NoCycle n.snap := by
  obtain ⟨l, e, h2, -⟩ := runOps_following (L := []) (R0 := fun _ _ => False) ops St.init init_good init_noDangling h
    ⟨[], rfl, by simp, fun _ _ h => h.elim, fun p c _ _ => ⟨fun h => h.elim, fun h => by cases h⟩⟩
  intro n hn
  rw [e, List.nil_append] at hn
  exact ⟨(h2 n hn).agree, (h2 n hn).upInv.noCycle⟩

example : Along Careful St.init demoOps ∧ (runOps St.init demoOps).log.length = 16 := ⟨demo_careful, by decide⟩

/-- When a removed node leaves a child behind, the child is notified while it is nowhere: it has lost its parent and is
not yet at the top level (`tree.py:247-252`). -/
def leaveChildOps : List Op :=
  [ .addNode (Node.new (.str 1) .none) .none,
    .addNode (Node.new (.str 2) .none) (.str 1),
    .delNode (.str 1) false ]

theorem leaveChild_careful : Along Careful St.init leaveChildOps :=
  ⟨careful_add (Made.new _ _) (by decide), careful_add (Made.new _ _) (by decide),
    (by show List.length _ ≤ 1; decide), trivial⟩

theorem C42_refuted_top : ∃ ops, Along Careful St.init ops ∧ ∃ n ∈ (runOps St.init ops).log, n.ev = .modified ∧
    n.snap.has n.nid = true ∧ (∀ p, ¬ IsParent n.snap p n.nid) ∧ n.nid ∉ n.snap.rootChildren := by
  refine ⟨leaveChildOps, leaveChild_careful, ?_⟩
  have hlog : ∃ n ∈ (runOps St.init leaveChildOps).log, n.ev = .modified ∧
    n.snap.has n.nid = true ∧ n.snap.getParents n.nid = [] ∧ n.nid ∉ n.snap.rootChildren := by decide
  obtain ⟨n, h1, h2, h3, h4, h5⟩ := hlog
  exact ⟨n, h1, h2, h3, (fun p hp => by unfold IsParent at hp; rw [h4] at hp; cases hp), h5⟩

end Larch
