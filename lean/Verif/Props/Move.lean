import Verif.Proofs.Move
import Verif.Props.Relations
import Verif.Proofs.Remove

/-!
# C12, C13: moving a node
-/

namespace Larch

open Graph Spec

theorem skipRemove_one_other (p : Id) (l : List Id) (hnd : l.Nodup) (h : (l.filter (· ≠ p)).length ≤ 1) :
    appendNew (skipRemove p l) p = [p] := by
  match l with
  | [] => simp [skipRemove, appendNew]
  | [a] => by_cases ha : a = p <;> simp [skipRemove, appendNew, ha]
  | [a, b] =>
    by_cases ha : a = p
    · subst ha
      have hb : b ≠ a := by simp at hnd; exact fun e => hnd e.symm
      simp [skipRemove, appendNew, hb]
    · by_cases hb : b = p
      · subst hb; simp [skipRemove, appendNew, ha]
      · simp [ha, hb] at h
  | a :: b :: c :: l =>
    exfalso
    simp only [List.nodup_cons, List.mem_cons, not_or] at hnd
    obtain ⟨⟨hab, hac, -⟩, ⟨hbc, -⟩, -⟩ := hnd
    by_cases ha : a = p
    · have hb : b ≠ p := fun e => hab (ha.trans e.symm)
      have hc : c ≠ p := fun e => hac (ha.trans e.symm)
      simp [ha, hb, hc] at h
    · by_cases hb : b = p
      · have hc : c ≠ p := fun e => hbc (hb.trans e.symm)
        simp [ha, hb, hc] at h
      · simp [ha, hb] at h

/-- What `move_node(x, p)` does in every case: of the old parents those survive that `skipRemove` leaves, and
`p` is the last. The nodes and the parents of all other nodes stay. -/
theorem C12_move_effect (s : St) (h : Good s.t) (x p : Id) (hx : s.t.has x = true) (hp : s.t.has p = true)
    (hne : p ≠ x) (hacc : Accept s.t p x) (hanc : ¬ Ancestor s.t x p) :
    ∃ s', step s (.moveNode x p) = .ok s' ∧ Good s'.t ∧
      s'.t.getParents x = appendNew (skipRemove p (s.t.getParents x)) p ∧
      (∀ y, s'.t.has y = s.t.has y) ∧ ∀ y, y ≠ x → s'.t.getParents y = s.t.getParents y := by
  obtain ⟨s', e, hg, fr, hps⟩ := (moveNode_spec h hx hp hne hacc).1 (fun hr => hanc ((h.wf.ancestor_iff _ _).2 hr))
  refine ⟨s', e, hg, ?_, fr.has, fun y hy => ?_⟩
  · rw [hg.wf.getParents_eq, h.wf.getParents_eq]; exact hps
  · rw [hg.wf.getParents_eq, h.wf.getParents_eq]; exact fr.parents y hy

/-- C12 for a node with at most one parent besides the target: the move leaves exactly the target.
Missing for the literal claim: nodes with two or more other parents, for which it is false (`C12_refuted`). -/
theorem C12_move_dismisses_partial (s : St) (h : Good s.t) (x p : Id) (hx : s.t.has x = true) (hp : s.t.has p = true)
    (hne : p ≠ x) (hacc : Accept s.t p x) (hanc : ¬ Ancestor s.t x p)
    (h1 : ((s.t.getParents x).filter (· ≠ p)).length ≤ 1) :
    ∃ s', step s (.moveNode x p) = .ok s' ∧ s'.t.getParents x = [p] := by
  obtain ⟨s', e, -, hps, -⟩ := C12_move_effect s h x p hx hp hne hacc hanc
  refine ⟨s', e, ?_⟩
  rw [hps]
  exact skipRemove_one_other p _ (by rw [h.wf.getParents_eq]; exact h.wf.ndP x) h1

/-- Of a list without the target every second element is left. -/
theorem skipRemove_absent (p : Id) : ∀ l : List Id, p ∉ l → skipRemove p l = everySecond l
  | [], _ => rfl
  | [a], h => by simp only [skipRemove, everySecond]; rw [if_neg (fun e => h (by simp [e]))]
  | a :: b :: l, h => by
    simp only [skipRemove, everySecond]
    rw [if_neg (fun e => h (by simp [e])), skipRemove_absent p l (fun hm => h (by simp [hm]))]

/-- C12, exactly as far as it is true, for a target that is not a parent yet: the second, the fourth, ... old parent stays,
and the target is the only parent **if and only if** there was at most one. -/
theorem C12_move_dismisses_iff (s : St) (h : Good s.t) (x p : Id) (hx : s.t.has x = true) (hp : s.t.has p = true)
    (hne : p ≠ x) (hacc : Accept s.t p x) (hanc : ¬ Ancestor s.t x p) (hnew : p ∉ s.t.getParents x) :
    ∃ s', step s (.moveNode x p) = .ok s' ∧ s'.t.getParents x = everySecond (s.t.getParents x) ++ [p] ∧
      (s'.t.getParents x = [p] ↔ (s.t.getParents x).length ≤ 1) := by
  obtain ⟨s', e, -, hps, -⟩ := C12_move_effect s h x p hx hp hne hacc hanc
  rw [skipRemove_absent p _ hnew] at hps
  have hsub : ∀ (l : List Id) (a : Id), a ∈ everySecond l → a ∈ l := by
    intro l
    induction l using everySecond.induct with
    | case1 a b l ih =>
      intro c hc
      rcases List.mem_cons.1 hc with rfl | hc
      · simp
      · simp [ih c hc]
    | case2 l hl =>
      intro c hc
      match l, hl with
      | [], _ => cases hc
      | [_], _ => cases hc
      | a :: b :: l, hl => exact (hl a b l rfl).elim
  have happ : appendNew (everySecond (s.t.getParents x)) p = everySecond (s.t.getParents x) ++ [p] := by
    unfold appendNew
    rw [if_neg fun hm => hnew (hsub _ _ hm)]
  rw [happ] at hps
  refine ⟨s', e, hps, ?_⟩
  rw [hps, ← everySecond_eq_nil]
  constructor
  · intro h; simpa using h
  · intro h; rw [h]; rfl

/-- C12 for a target that is `None` or does not exist: the node loses all its parents, however many, and is at the
top level. -/
theorem C12_move_to_top (s : St) (h : Good s.t) (x p : Id) (hx : s.t.has x = true) (hp : s.t.has p = false)
    (hen : ∀ nd, s.t.node? x = some nd → nd.parentsEnabled = true) :
    ∃ s', step s (.moveNode x p) = .ok s' ∧ s'.t.getParents x = [] ∧ x ∈ s'.t.rootChildren ∧
      (∀ y, s'.t.has y = s.t.has y) ∧ ∀ y, y ≠ x → s'.t.getParents y = s.t.getParents y := by
  obtain ⟨nx, hnx⟩ := (Tree.has_iff _ _).1 hx
  obtain ⟨s', e, hg, fr, hps⟩ := moveNode_absent h hnx hp (hen _ hnx)
  refine ⟨s', e, ?_, ?_, fr.has, fun y hy => ?_⟩
  · rw [hg.wf.getParents_eq, hps]
  · rw [rootChildren_eq hg, hg.root.mem]
    exact ⟨by rw [fr.has]; exact hx, hps, id⟩
  · rw [hg.wf.getParents_eq, h.wf.getParents_eq]; exact fr.parents y hy

/-- Node 3 with the parents 1 and 2, and a target 4. -/
def twoOthersOps : List Op :=
  [ .addNode (Node.new (.str 1) .none) .none,
    .addNode (Node.new (.str 2) .none) .none,
    .addNode (Node.new (.str 3) .none) (.str 1),
    .addParent (.str 3) (.str 2),
    .addNode (Node.new (.str 4) .none) .none ]

theorem twoOthers_careful : Along Careful St.init twoOthersOps :=
  ⟨careful_add (Made.new _ _) (by decide), careful_add (Made.new _ _) (by decide),
    careful_add (Made.new _ _) (by decide), trivial, careful_add (Made.new _ _) (by decide), trivial⟩

/-- With two other parents one of them survives the move. -/
theorem C12_refuted : ∃ ops x p, Along Careful St.init ops ∧ (runOps St.init ops).t.has p = true ∧
    ∃ s', step (runOps St.init ops) (.moveNode x p) = .ok s' ∧ s'.t.getParents x ≠ [p] :=
  ⟨twoOthersOps, .str 3, .str 4, twoOthers_careful, by decide, _, rfl, by decide⟩

/-- An older move comes back: node 1 is moved below 9, which does not exist, and then below 2, which is its only parent
now. When a node 9 is added, it becomes a parent of 1 as well. -/
theorem C12_refuted_later : ∃ ops, Along Careful St.init ops ∧ NoRaise St.init ops ∧
    ops.getLast? = some (.moveNode (.str 1) (.str 2)) ∧ (runOps St.init ops).t.getParents (.str 1) = [.str 2] ∧
    ∃ s', step (runOps St.init ops) (.addNode (Node.new (.str 9) .none) .none) = .ok s' ∧
      s'.t.getParents (.str 1) = [.str 2, .str 9] :=
  ⟨[ .addNode (Node.new (.str 1) .none) .none, .addNode (Node.new (.str 2) .none) .none,
     .moveNode (.str 1) (.str 9), .moveNode (.str 1) (.str 2) ],
    ⟨careful_add (Made.new _ _) (by decide), careful_add (Made.new _ _) (by decide), trivial, trivial, trivial⟩,
    by decide, rfl, by decide, _, rfl, by decide⟩

/-- The hypotheses of the theorems above are met by moving 4 below 3, and 3 to the top. -/
example : ∃ s : St, Good s.t ∧ s.t.has (.str 4) = true ∧ s.t.has (.str 3) = true ∧ Accept s.t (.str 3) (.str 4) ∧
    ¬ Ancestor s.t (.str 4) (.str 3) ∧ ((s.t.getParents (.str 4)).filter (· ≠ .str 3)).length ≤ 1 ∧
    s.t.has .none = false := by
  have hg := careful_consistent _ twoOthers_careful
  refine ⟨_, hg, by decide, by decide, Tree.allEnabled_accept (by decide) _ _, ?_, by decide, by decide⟩
  rw [hg.wf.ancestor_iff]
  intro hr
  have := Tree.isCircular_true hg.wf.acyclic (Or.inr hr)
  exact absurd this (by decide)

/-! ### C13 -/

/-- C13, as far as it is true: a move onto a descendant raises; all nodes stay, and so do the parents of every other
node. The node itself keeps only what `skipRemove` leaves, so it stays where it was exactly if that is everything. -/
theorem C13_failed_move_partial (s : St) (h : Good s.t) (x p : Id) (hx : s.t.has x = true) (hacc : Accept s.t p x)
    (hanc : Ancestor s.t x p) :
    ∃ s', step s (.moveNode x p) = .err .circular s' ∧ Good s'.t ∧
      s'.t.getParents x = skipRemove p (s.t.getParents x) ∧
      (s.t.getParents x = [] → s'.t.getParents x = []) ∧
      (∀ y, s'.t.has y = s.t.has y) ∧ ∀ y, y ≠ x → s'.t.getParents y = s.t.getParents y := by
  have hr := (h.wf.ancestor_iff _ _).1 hanc
  have hp : s.t.has p = true := by
    obtain ⟨z, hz, -⟩ := (reach_iff _ _ _).1 hr
    exact Tree.has_of_mem_rawParents hz
  have hne : p ≠ x := by rintro rfl; exact h.wf.acyclic p hr
  obtain ⟨s', e, hg, fr, hps⟩ := (moveNode_spec h hx hp hne hacc).2 hr
  have hps' : s'.t.getParents x = skipRemove p (s.t.getParents x) := by
    rw [hg.wf.getParents_eq, h.wf.getParents_eq]; exact hps
  refine ⟨s', e, hg, hps', fun h0 => ?_, fr.has, fun y hy => ?_⟩
  · rw [hps', h0]; rfl
  · rw [hg.wf.getParents_eq, h.wf.getParents_eq]; exact fr.parents y hy

/-- C13, exactly as far as it is true: a refused move leaves the node its second, its fourth, ... parent, so it leaves
everything as it was **if and only if** the node had no parent. -/
theorem C13_failed_move_iff (s : St) (h : Good s.t) (x p : Id) (hx : s.t.has x = true) (hacc : Accept s.t p x)
    (hanc : Ancestor s.t x p) :
    ∃ s', step s (.moveNode x p) = .err .circular s' ∧ s'.t.getParents x = everySecond (s.t.getParents x) ∧
      ((∀ y, s'.t.has y = s.t.has y ∧ s'.t.getParents y = s.t.getParents y) ↔ s.t.getParents x = []) := by
  obtain ⟨s', e, -, h1, -, h3, h4⟩ := C13_failed_move_partial s h x p hx hacc hanc
  have hp : p ∉ s.t.getParents x := by
    intro hm
    rw [h.wf.getParents_eq] at hm
    exact h.wf.acyclic x (((h.wf.ancestor_iff _ _).1 hanc).head hm)
  rw [skipRemove_absent p _ hp] at h1
  refine ⟨s', e, h1, ?_⟩
  constructor
  · intro hall
    have := (hall x).2
    rw [h1] at this
    have hlen : ∀ l : List Id, l ≠ [] → (everySecond l).length < l.length := by
      intro l
      induction l using everySecond.induct with
      | case1 a b l ih =>
        intro _
        by_cases hl : l = []
        · subst hl; simp [everySecond]
        · have := ih hl
          simp [everySecond]; omega
      | case2 l hl =>
        intro hne
        match l, hl with
        | [], _ => exact absurd rfl hne
        | [_], _ => simp [everySecond]
        | a :: b :: l, hl => exact (hl a b l rfl).elim
    by_contra hne
    have h5 := hlen _ hne
    rw [this] at h5
    omega
  · intro h0 y
    refine ⟨h3 y, ?_⟩
    by_cases hy : y = x
    · rw [hy, h1, h0]; rfl
    · exact h4 y hy

/-- A failed move loses the old parent. -/
theorem C13_refuted : ∃ ops x p s', Along Careful St.init ops ∧
    step (runOps St.init ops) (.moveNode x p) = .err .circular s' ∧
    s'.t.getParents x ≠ (runOps St.init ops).t.getParents x :=
  ⟨[ .addNode (Node.new (.str 1) .none) .none,
     .addNode (Node.new (.str 2) .none) (.str 1),
     .addNode (Node.new (.str 3) .none) (.str 2) ], .str 2, .str 3, _,
    ⟨careful_add (Made.new _ _) (by decide), careful_add (Made.new _ _) (by decide),
      careful_add (Made.new _ _) (by decide), trivial⟩, rfl, by decide⟩

example : Good demo.t ∧ demo.t.has (.str 1) = true ∧ Accept demo.t (.str 3) (.str 1) ∧
    Ancestor demo.t (.str 1) (.str 3) :=
  ⟨demo_good, by decide, Tree.allEnabled_accept (by decide) _ _,
    Relation.TransGen.head (b := .str 2) (by decide) (Relation.TransGen.single (by decide))⟩

end Larch
