import Verif.Proofs.SpecTree

/-!
# C01, C02, C05: the tree stays consistent

The literal claims C01 and C05 are false; the refutations give histories in which no call raises.
The positive theorems hold for the histories of a careful user (`Spec.Careful`).
-/

namespace Larch

open Graph Spec

/-! ### Helpers for the concrete cases -/

/-- All flags are on. -/
def Tree.allEnabled (t : Tree) : Bool := t.nodes.entries.all fun e => e.2.parentsEnabled && e.2.childrenEnabled

theorem Tree.allEnabled_accept {t : Tree} (h : t.allEnabled = true) (p c : Id) : Accept t p c := by
  have key : ∀ x nd, t.node? x = some nd → nd.parentsEnabled = true ∧ nd.childrenEnabled = true := by
    intro x nd hn
    have hm : (x, nd) ∈ t.nodes.entries := Dict.mem_of_get? hn
    have := List.all_eq_true.1 h _ hm
    simpa using this
  exact ⟨fun nd hn => (key p nd hn).2, fun nd hn => (key c nd hn).1⟩

theorem acceptNew_of_allEnabled {t : Tree} {nd : Node} {parent : Id}
    (h : (insertNode t nd).allEnabled = true) : AcceptNew t nd parent :=
  ⟨fun p c _ _ => Tree.allEnabled_accept h p c, fun _ => Tree.allEnabled_accept h _ _⟩

theorem careful_add {s : St} {nd : Node} {parent : Id} (hm : Made nd) (h : nd.id.falsy = false ∧ nd.id ≠ rootId ∧
    (insertNode s.t nd).allEnabled = true ∧ (addNode s nd parent).isOk = true) :
    Careful s (.addNode nd parent) :=
  ⟨hm, Or.inr ⟨h.1, h.2.1, acceptNew_of_allEnabled h.2.2.1, h.2.2.2⟩⟩

/-- A history with a late relation, a second parent, a move, a break and a removal. -/
def demoOps : List Op :=
  [ .addNode (Node.new (.str 1) .none) .none,
    .addNode (Node.new (.str 2) (.str 5)) (.str 1),
    .addNode (Node.new (.str 3) .none) (.str 1),
    .addParent (.str 3) (.str 2),
    .addNode (Node.new (.str 4) .none) (.str 3),
    .addNode (Node.new (.str 5) .none) .none,
    .addParent (.str 1) (.str 3),
    .moveNode (.str 4) (.str 2),
    .removeParent (.str 3) (.str 1),
    .delNode (.str 4) false,
    .refreshNode (.str 1) ]

/-- The state after `demoOps`. -/
def demo : St := runOps St.init demoOps

theorem demo_careful : Along Careful St.init demoOps := by
  refine ⟨careful_add (Made.new _ _) (by decide), careful_add (Made.new _ _) (by decide),
    careful_add (Made.new _ _) (by decide), trivial, careful_add (Made.new _ _) (by decide),
    careful_add (Made.new _ _) (by decide), trivial, trivial, trivial, ?_, trivial, trivial⟩
  show List.length _ ≤ 1
  decide

/-! ### C01 -/

/-- C01 on the histories of a careful user: parents and children lists mirror each other, mention only
existing nodes, and mention each once. Missing for the literal claim: see `C01_refuted_*`. -/
theorem C01_parents_children_agree_partial (ops : List Op) (h : Along Careful St.init ops) :
    Agree (runOps St.init ops).t :=
  (runOps_careful ops St.init init_good init_noDangling h).1.wf.agree

example : Agree demo.t ∧ demo.t.getParents (.str 3) = [.str 2] ∧ demo.t.getParents (.str 2) = [.str 1, .str 5] ∧
    demo.t.has (.str 4) = false :=
  ⟨C01_parents_children_agree_partial demoOps demo_careful, by decide, by decide, by decide⟩

/-- Removing a node with two parents leaves it in the children list of the second one
(`tree.py:238` iterates over the list that `_destroy_relationship` shrinks); when the id is used
again, the second parent has a child that does not know it. No call raises. -/
def twoParentsOps : List Op :=
  [ .addNode (Node.new (.str 1) .none) .none,
    .addNode (Node.new (.str 2) .none) .none,
    .addNode (Node.new (.str 3) .none) (.str 1),
    .addParent (.str 3) (.str 2),
    .delNode (.str 3) false,
    .addNode (Node.new (.str 3) .none) .none ]

theorem C01_refuted_removal : ∃ ops, NewNodes ops ∧ NoRaise St.init ops ∧ ¬ Agree (runOps St.init ops).t := by
  refine ⟨twoParentsOps, ?_, by decide, fun h => ?_⟩
  · intro nd p hm
    simp only [twoParentsOps, List.mem_cons, Op.addNode.injEq, reduceCtorEq, List.not_mem_nil, or_false, false_or] at hm
    rcases hm with ⟨rfl, -⟩ | ⟨rfl, -⟩ | ⟨rfl, -⟩ | ⟨rfl, -⟩ <;> exact Made.new _ _
  · have := (h.mirror (.str 2) (.str 3)).1 (by decide)
    exact absurd this (by decide)

/-- `add_node` links a node whose parents are disabled, although `get_parents` then hides the parent. -/
def disabledOps : List Op :=
  [ .addNode (Node.new (.str 1) .none) .none,
    .addNode { Node.new (.str 2) .none with parentsEnabled := false } (.str 1) ]

theorem disabledOps_new : NewNodes disabledOps := by
  intro nd p hm
  simp only [disabledOps, List.mem_cons, Op.addNode.injEq, List.not_mem_nil, or_false] at hm
  rcases hm with ⟨rfl, -⟩ | ⟨rfl, -⟩
  · exact Made.new _ _
  · exact Made.setParentsEnabled _ (Made.new _ _)

theorem C01_refuted_disabled : ∃ ops, NewNodes ops ∧ NoRaise St.init ops ∧ ¬ Agree (runOps St.init ops).t := by
  refine ⟨disabledOps, disabledOps_new, by decide, fun h => ?_⟩
  have := (h.mirror (.str 1) (.str 2)).1 (by decide)
  exact absurd this (by decide)

/-! ### C02 -/

/-- C02: whatever is done to the tree, with any ids, whether calls raise or not, no node becomes its own
ancestor, and every upward walk ends, provided the added nodes are newly made objects. -/
theorem C02_no_cycle (ops : List Op) (h : NewNodes ops) :
    NoCycle (runOps St.init ops).t ∧ WellFounded (fun p c => IsParent (runOps St.init ops).t p c) := by
  have hu : UpInv (runOps St.init ops).t := by
    refine runOps_upInv ops St.init ?_ init_upInv
    intro op ho
    cases op with
    | addNode nd p => exact (h nd p ho).fresh.parents
    | _ => trivial
  refine ⟨hu.noCycle, ?_⟩
  generalize (runOps St.init ops).t = t at hu
  obtain ⟨ht, -, hlt⟩ := exists_height t.rawParents t.nodes.keys t.rawParents_keys hu.acyclic
  exact Subrelation.wf (r := InvImage (· < ·) ht)
    (fun {p c} hp => hlt c p (t.getParents_sub c p hp)) (InvImage.wf ht Nat.lt_wfRel.wf)

/-- A history that tries to close a cycle of length 3 in two ways. -/
def cycleOps : List Op :=
  [ .addNode (Node.new (.str 1) (.str 3)) .none,
    .addNode (Node.new (.str 2) .none) (.str 1),
    .addNode (Node.new (.str 3) .none) (.str 2),
    .addParent (.str 1) (.str 3),
    .newRelationship (.str 3) (.str 1) ]

example : NewNodes cycleOps ∧ (runOps St.init cycleOps).t.getParents (.str 2) = [.str 1] := by
  refine ⟨?_, by decide⟩
  intro nd p hm
  simp only [cycleOps, List.mem_cons, Op.addNode.injEq, reduceCtorEq, List.not_mem_nil, or_false] at hm
  rcases hm with ⟨rfl, -⟩ | ⟨rfl, -⟩ | ⟨rfl, -⟩ <;> exact Made.new _ _

/-! ### C05 -/

/-- C05 on the histories of a careful user: the top level is exactly the parentless nodes, once each, and
every node hangs from the root. -/
theorem C05_top_level_partial (ops : List Op) (h : Along Careful St.init ops) :
    TopLevel (runOps St.init ops).t ∧
      ∀ x, (runOps St.init ops).t.has x = true → FromRoot (runOps St.init ops).t x := by
  have hg := (runOps_careful ops St.init init_good init_noDangling h).1
  exact ⟨hg.topLevel, hg.fromRoot⟩

example : TopLevel demo.t ∧ demo.t.rootChildren = [.str 1, .str 5] :=
  ⟨(C05_top_level_partial demoOps demo_careful).1, by decide⟩

/-- Without care about the flags a node can be neither below a parent nor at the top level. -/
theorem C05_refuted_disabled : ∃ ops, NewNodes ops ∧ NoRaise St.init ops ∧ ¬ TopLevel (runOps St.init ops).t := by
  refine ⟨disabledOps, disabledOps_new, by decide, fun h => ?_⟩
  have := (h.exact (.str 2)).2 ⟨by decide, fun p hp => ?_⟩
  · exact absurd this (by decide)
  · have e : (runOps St.init disabledOps).t.getParents (.str 2) = [] := by decide
    unfold IsParent at hp; rw [e] at hp; cases hp

/-- `add_node` with a circular parent raises after the node has entered the tree: it exists, has no
parent and is not at the top level. -/
def circularAddOps : List Op := [ .addNode (Node.new (.str 1) .none) (.str 1) ]

theorem C05_refuted_circular : ∃ ops, NewNodes ops ∧ ¬ TopLevel (runOps St.init ops).t := by
  refine ⟨circularAddOps, ?_, fun h => ?_⟩
  · intro nd p hm
    simp only [circularAddOps, List.mem_cons, Op.addNode.injEq, List.not_mem_nil, or_false] at hm
    obtain ⟨rfl, -⟩ := hm
    exact Made.new _ _
  · have := (h.exact (.str 1)).2 ⟨by decide, fun p hp => ?_⟩
    · exact absurd this (by decide)
    · have e : (runOps St.init circularAddOps).t.getParents (.str 1) = [] := by decide
      unfold IsParent at hp; rw [e] at hp; cases hp

/-! ### Consistent states are what careful histories reach -/

theorem careful_consistent (ops : List Op) (h : Along Careful St.init ops) : Good (runOps St.init ops).t :=
  (runOps_careful ops St.init init_good init_noDangling h).1

theorem demo_good : Good demo.t := careful_consistent demoOps demo_careful

theorem careful_noDangling (ops : List Op) (h : Along Careful St.init ops) : NoDangling (runOps St.init ops).t :=
  (runOps_careful ops St.init init_good init_noDangling h).2

end Larch
