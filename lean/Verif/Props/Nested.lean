import Verif.Proofs.NestedUp
import Verif.Props.Consistency

/-!
# C66: observers that edit the tree from their callbacks
-/

namespace Larch

open Spec Graph

variable {σ : Type} {obs : List (Watcher σ)} {more n : Nat}

/-! ### No cycle -/

/-- **C66** (no cycle): whatever observers do in their callbacks, in the middle of whatever edits, with whatever exceptions raised
and caught, no node becomes its own ancestor, and every upward walk ends, provided the added nodes are newly made objects. -/
theorem C66_no_cycle (hobs : ∀ ob ∈ obs, PoliteWatcher (fun _ => True) NewNode ob) (o : σ) (ops : List Op) (h : NewNodes ops) :
    NoCycle (Now.runNested obs more n ops ⟨St.init, o⟩).s.t ∧
      WellFounded (fun p c => IsParent (Now.runNested obs more n ops ⟨St.init, o⟩).s.t p c) := by
  have hu : ∀ (ops : List Op) (w : Now σ), NewNodes ops → UpNow w → UpNow (Now.runNested obs more n ops w) := by
    intro ops
    induction ops with
    | nil => exact fun w _ h => h
    | cons op ops ih =>
      intro w hn hw
      refine ih _ (fun nd p hm => hn nd p (by simp [hm])) (Now.step_up (told_up hobs n) w op more ?_ hw)
      cases op with
      | addNode nd p => exact hn nd p (by simp)
      | _ => trivial
  have hu : UpInv (Now.runNested obs more n ops ⟨St.init, o⟩).s.t := hu ops ⟨St.init, o⟩ h init_upInv
  refine ⟨UpInv.noCycle hu, ?_⟩
  generalize (Now.runNested obs more n ops ⟨St.init, o⟩).s.t = t at hu
  obtain ⟨ht, -, hlt⟩ := exists_height t.rawParents t.nodes.keys t.rawParents_keys hu.acyclic
  exact Subrelation.wf (r := InvImage (· < ·) ht)
    (fun {p c} hp => hlt c p (t.getParents_sub c p hp)) (InvImage.wf ht Nat.lt_wfRel.wf)

/-- An observer that answers every change of a parentless node by making its children its parents. -/
def turner : Watcher Unit := fun ev x w =>
  if ev = .modified ∧ w.s.t.getParents x = [] then
    (w.s.t.getChildren x).foldr (fun c p => .edit () (.removeParent c x) fun _ => .edit () (.addParent x c) fun _ => p) (.done ())
  else .done ()

theorem turner_polite : PoliteWatcher (fun _ => True) NewNode turner := by
  intro ev x w _
  unfold turner
  split
  · rename_i hc
    clear hc
    generalize w.s.t.getChildren x = l
    induction l generalizing w with
    | nil => trivial
    | cons c l ih => exact ⟨trivial, fun r _ => ⟨trivial, fun r' _ => ih _⟩⟩
  · trivial

def turnedOps : List Op :=
  [ .addNode (Node.new (.str 1) .none) .none, .addNode (Node.new (.str 2) .none) (.str 1), .addNode (Node.new (.str 3) .none) (.str 2),
    .refreshNode (.str 1), .addParent (.str 1) (.str 3), .delNode (.str 2) true ]

example : NoCycle (Now.runNested [turner] 5 5 turnedOps ⟨St.init, ()⟩).s.t ∧
    (Now.runNested [turner] 5 5 (turnedOps.take 4) ⟨St.init, ()⟩).s.t.getParents (.str 1) = [.str 2] ∧
    (Now.runNested [turner] 5 5 (turnedOps.take 4) ⟨St.init, ()⟩).s.t.getParents (.str 2) = [.str 3] ∧
    (Now.runNested [turner] 5 5 (turnedOps.take 5) ⟨St.init, ()⟩).s.t.getParents (.str 3) = [.str 1] ∧
    (Now.runNested [turner] 5 5 (turnedOps.take 5) ⟨St.init, ()⟩).s.t.getParents (.str 2) = [] :=
  ⟨(C66_no_cycle (by
    intro ob hob
    simp only [List.mem_cons, List.not_mem_nil, or_false] at hob
    subst hob
    exact turner_polite) () turnedOps (by
      intro nd p hm
      simp only [turnedOps, List.mem_cons, Op.addNode.injEq, reduceCtorEq, List.not_mem_nil, or_false, false_or] at hm
      rcases hm with ⟨rfl, -⟩ | ⟨rfl, -⟩ | ⟨rfl, -⟩ <;> exact Made.new _ _)).1, by decide +kernel, by decide +kernel, by decide +kernel, by decide +kernel⟩

/-! ### Consistency -/

theorem Spec.Sane.orderly {s : St} (h : Sane s) : Orderly s.t :=
  ⟨h.1.wf.agree, fun x hx => h.1.wf.acyclic x (ancestor_reach hx), h.1.topLevel, h.1.pend⟩

theorem runNested_sane (hobs : ∀ ob ∈ obs, PoliteWatcher Sane Gentle ob) (ops : List Op) (w : Now σ) (h : Sane w.s)
    (ho : AlongNested obs more n GentleOuter w ops) : Sane (Now.runNested obs more n ops w).s := by
  induction ops generalizing w with
  | nil => exact h
  | cons op ops ih => exact ih _ (nested_sane hobs h ho.1) ho.2

/-- **C66** (partial), for the tree: let any number of observers edit the tree in their callbacks, in the middle of edits and of
edits of other callbacks, to any depth, with exceptions raised, caught or not. If all these edits are gentle, and those of the
application are, too, or remove nodes without parents and children, then the tree is consistent after every edit, also after
edits that raise.

Missing: removals of other nodes, parents and children that are disabled, and moves to a parent that does not exist
(`C66_refuted_removal`, `C66_refuted_disable`, `C66_refuted_move`). -/
theorem C66_consistent_partial (hobs : ∀ ob ∈ obs, PoliteWatcher Sane Gentle ob) (o : σ) (ops : List Op)
    (ho : AlongNested obs more n GentleOuter ⟨St.init, o⟩ ops) : Orderly (Now.runNested obs more n ops ⟨St.init, o⟩).s.t :=
  (runNested_sane hobs ops ⟨St.init, o⟩ ⟨init_good, init_noDangling⟩ ho).orderly

/-- And from any tree that a careful user has made. -/
theorem C66_consistent_later_partial (hobs : ∀ ob ∈ obs, PoliteWatcher Sane Gentle ob) (o : σ) (before ops : List Op)
    (hb : Along Careful St.init before) (ho : AlongNested obs more n GentleOuter ⟨runOps St.init before, o⟩ ops) :
    Orderly (Now.runNested obs more n ops ⟨runOps St.init before, o⟩).s.t :=
  (runNested_sane hobs ops ⟨runOps St.init before, o⟩ (runOps_careful before St.init init_good init_noDangling hb) ho).orderly

/-- An observer that puts every new node under node 1. -/
def collector : Watcher Unit := fun ev x w =>
  if ev = .added ∧ x ≠ .str 1 ∧ w.s.t.has (.str 1) = true then
    .edit () (.addParent x (.str 1)) fun
      | .ok _ => .done ()
      | .err e _ => .raise e ()
  else .done ()

theorem collector_polite : PoliteWatcher Sane Gentle collector := by
  intro ev x w _
  unfold collector
  split
  · exact ⟨trivial, fun r _ => by cases r <;> trivial⟩
  · trivial

/-- An observer that raises when node 1 gets its third child, after it has cut it off. -/
def guard2 : Watcher Unit := fun ev x w =>
  if ev = .modified ∧ x = .str 1 ∧ (w.s.t.getChildren x).length = 3 then
    .edit () (.removeParent ((w.s.t.getChildren x).getLast?.getD .none) x) fun _ => .raise .valueError ()
  else .done ()

theorem guard2_polite : PoliteWatcher Sane Gentle guard2 := by
  intro ev x w _
  unfold guard2
  split
  · exact ⟨trivial, fun _ _ => trivial⟩
  · trivial

def nestedOps : List Op :=
  [ .addNode (Node.new (.str 1) .none) .none, .addNode (Node.new (.str 2) .none) .none, .addNode (Node.new (.str 3) .none) (.str 2),
    .addNode (Node.new (.str 4) .none) .none, .delNode (.str 4) false ]

theorem nestedOps_gentle : AlongNested [guard2, collector] 5 5 GentleOuter ⟨St.init, ()⟩ nestedOps := by
  refine ⟨careful_add (Made.new _ _) (by decide), careful_add (Made.new _ _) (by decide), careful_add (Made.new _ _) (by decide),
    careful_add (Made.new _ _) (by decide), ⟨by decide, by decide⟩, trivial⟩

example : Orderly (Now.runNested [guard2, collector] 5 5 nestedOps ⟨St.init, ()⟩).s.t ∧
    (Now.runNested [guard2, collector] 5 5 nestedOps ⟨St.init, ()⟩).s.t.getParents (.str 3) = [.str 2, .str 1] ∧
    (Now.nested [guard2, collector] 5 5 (Now.runNested [guard2, collector] 5 5 (nestedOps.take 3) ⟨St.init, ()⟩)
      (.addNode (Node.new (.str 4) .none) .none)).isOk = false :=
  ⟨C66_consistent_partial (by
    intro ob hob
    simp only [List.mem_cons, List.not_mem_nil, or_false] at hob
    rcases hob with rfl | rfl
    exacts [guard2_polite, collector_polite]) () nestedOps nestedOps_gentle, by decide +kernel, by decide +kernel⟩

example : Orderly (Now.runNested [guard2, collector] 5 5 [.setParent (.str 3) (.str 5), .breakRelationship (.str 5) (.str 2)] ⟨demo, ()⟩).s.t :=
  C66_consistent_later_partial (by
    intro ob hob
    simp only [List.mem_cons, List.not_mem_nil, or_false] at hob
    rcases hob with rfl | rfl
    exacts [guard2_polite, collector_polite]) () demoOps _ demo_careful ⟨.inl (by decide), trivial, trivial⟩

/-! ### What observers can spoil -/

/-- An observer that adds node 2 back under node 1 whenever node 1 changes. -/
def relinker : Watcher Unit := fun ev x w =>
  if ev = .modified ∧ x = .str 1 ∧ w.s.t.has (.str 2) = true ∧ .str 1 ∉ w.s.t.getParents (.str 2) then
    .edit () (.addParent (.str 2) (.str 1)) fun _ => .done ()
  else .done ()

theorem relinker_polite : PoliteWatcher Sane Gentle relinker := by
  intro ev x w _
  unfold relinker
  split
  · exact ⟨trivial, fun _ _ => trivial⟩
  · trivial

def relinkOps (op : Op) : List Op :=
  [ .addNode (Node.new (.str 1) .none) .none, .addNode (Node.new (.str 2) .none) (.str 1), op ]

/-- The claim for a removal: a node with one parent is removed. An observer that is told that the parent has changed
(`tree.py:240`) adds the relation again. The loop over the parents does not come back to it, so that the parent keeps a
child that is not there. When the name is used again, parent and child do not agree. No call raises. -/
theorem C66_refuted_removal : ∃ (obs : List (Watcher Unit)) (ops : List Op), (∀ ob ∈ obs, PoliteWatcher Sane Gentle ob) ∧
    AlongNested obs 5 5 Careful ⟨St.init, ()⟩ ops ∧ ¬ Orderly (Now.runNested obs 5 5 ops ⟨St.init, ()⟩).s.t := by
  refine ⟨[relinker], relinkOps (.delNode (.str 2) false) ++ [.addNode (Node.new (.str 2) .none) .none], ?_, ?_, fun h => ?_⟩
  · intro ob hob
    simp only [List.mem_cons, List.not_mem_nil, or_false] at hob
    subst hob
    exact relinker_polite
  · refine ⟨careful_add (Made.new _ _) (by decide), careful_add (Made.new _ _) (by decide), ?_, careful_add (Made.new _ _) (by decide +kernel), trivial⟩
    show List.length _ ≤ 1
    decide +kernel
  · have := (h.agree.mirror (.str 1) (.str 2)).1 (by unfold IsChild; decide +kernel)
    revert this
    unfold IsParent
    decide +kernel

/-- The same for `set_parents_enabled(False)`: the observer adds the relation that has been broken (`treenode.py:68-69`) again, then
the flag is cleared, and the node does not know its parent any more. -/
theorem C66_refuted_disable : ∃ (obs : List (Watcher Unit)) (ops : List Op), (∀ ob ∈ obs, PoliteWatcher Sane Gentle ob) ∧
    AlongNested obs 5 5 Careful ⟨St.init, ()⟩ ops ∧ ¬ Orderly (Now.runNested obs 5 5 ops ⟨St.init, ()⟩).s.t := by
  refine ⟨[relinker], relinkOps (.setParentsEnabled (.str 2) false), ?_, ?_, fun h => ?_⟩
  · intro ob hob
    simp only [List.mem_cons, List.not_mem_nil, or_false] at hob
    subst hob
    exact relinker_polite
  · exact ⟨careful_add (Made.new _ _) (by decide), careful_add (Made.new _ _) (by decide), trivial, trivial⟩
  · have := (h.agree.mirror (.str 1) (.str 2)).1 (by unfold IsChild; decide +kernel)
    revert this
    unfold IsParent
    decide +kernel

/-- An observer that adds node 5 when node 1 changes. -/
def helper5 : Watcher Unit := fun ev x w =>
  if ev = .modified ∧ x = .str 1 ∧ (insertNode w.s.t (Node.new (.str 5) .none)).allEnabled = true ∧
      (addNode w.s (Node.new (.str 5) .none) .none).isOk = true then
    .edit () (.addNode (Node.new (.str 5) .none) .none) fun _ => .done ()
  else .done ()

theorem helper5_polite : PoliteWatcher Sane Gentle helper5 := by
  intro ev x w _
  unfold helper5
  split
  · rename_i h
    exact ⟨careful_add (Made.new _ _) ⟨by decide, by decide, h.2.2⟩, fun _ _ => trivial⟩
  · trivial

/-- The same for `set_parent` with a parent that does not exist yet: `set_parent` finds the parent missing and breaks the other
relations (`treenode.py:96-100`). An observer that is told of this adds the parent. Then the new relation is left waiting, although
both nodes are there, and it is never made. -/
theorem C66_refuted_move : ∃ (obs : List (Watcher Unit)) (ops : List Op), (∀ ob ∈ obs, PoliteWatcher Sane Gentle ob) ∧
    AlongNested obs 5 5 Careful ⟨St.init, ()⟩ ops ∧ ¬ Orderly (Now.runNested obs 5 5 ops ⟨St.init, ()⟩).s.t := by
  refine ⟨[helper5], relinkOps (.setParent (.str 2) (.str 5)), ?_, ?_, fun h => ?_⟩
  · intro ob hob
    simp only [List.mem_cons, List.not_mem_nil, or_false] at hob
    subst hob
    exact helper5_polite
  · exact ⟨careful_add (Made.new _ _) (by decide), careful_add (Made.new _ _) (by decide), trivial, trivial⟩
  · exact h.waiting (.str 5) (.str 2) (by decide +kernel) (by decide +kernel)

end Larch
