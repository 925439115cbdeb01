import Verif.Spec.Deferred
import Verif.Props.Queue
import Verif.Props.Consistency

/-! # C21: requests from another thread -/

namespace Larch

open Spec Queue

theorem mem_firsts {E : Type} [DecidableEq E] (l : List E) (x : E) : x ∈ firsts l ↔ x ∈ l := by
  induction l with
  | nil => simp [firsts]
  | cons y l ih =>
    simp only [firsts, List.mem_cons, List.mem_filter, ih, ne_eq, decide_eq_true_eq]
    by_cases h : x = y <;> simp [h]

theorem firsts_append_singleton {E : Type} [DecidableEq E] (l : List E) (x : E) :
    firsts (l ++ [x]) = if x ∈ l then firsts l else firsts l ++ [x] := by
  induction l with
  | nil => simp [firsts]
  | cons y l ih =>
    simp only [List.cons_append, firsts, ih, List.mem_cons]
    by_cases h : x = y
    · subst h
      by_cases hx : x ∈ l
      · simp [hx]
      · simp [hx]
    · by_cases hx : x ∈ l
      · simp [hx]
      · simp [hx, h]

theorem firsts_of_nodup {E : Type} [DecidableEq E] {l : List E} (h : l.Nodup) : firsts l = l := by
  induction l with
  | nil => rfl
  | cons y l ih =>
    rw [List.nodup_cons] at h
    rw [firsts, ih h.2, List.filter_eq_self.2]
    intro a ha
    simp only [ne_eq, decide_eq_true_eq]
    rintro rfl; exact h.1 ha

theorem pushAll_append (q : Q Op) (l l' : List (Prio × Op)) : pushAll q (l ++ l') = pushAll (pushAll q l) l' := by
  induction l generalizing q with
  | nil => rfl
  | cons a l ih => exact ih _

theorem pushAll_spec (reqs : List (Prio × Op)) : Armed (pushAll {} reqs) ∧ (pushAll {} reqs).running = none ∧
    (pushAll {} reqs).log = [] ∧ ∀ p, (pushAll {} reqs).of p = firsts (ofPrio p reqs) := by
  induction reqs using List.reverseRecOn with
  | nil => exact ⟨⟨by simp [Q.waiting, pushAll], rfl⟩, rfl, rfl, fun p => by cases p <;> rfl⟩
  | append_singleton l a ih =>
    obtain ⟨p0, op⟩ := a
    rw [pushAll_append]
    obtain ⟨h1, h2, h3, h4⟩ := ih
    generalize pushAll {} l = q at *
    show Armed (push q p0 op) ∧ (push q p0 op).running = none ∧ (push q p0 op).log = [] ∧ _
    refine ⟨armed_step q h1 (.push p0 op) (by simp), ?_, ?_, fun p => ?_⟩
    · unfold push; split
      · exact h2
      · simp [h2]
    · unfold push; split
      · exact h3
      · simp [h3]
    · show (push q p0 op).of p = _
      rw [push_of, ofPrio_append, h4, h4]
      by_cases hp : p = p0
      · subst hp
        have : ofPrio p [(p, op)] = [op] := by simp [ofPrio]
        rw [this, firsts_append_singleton]
        by_cases hm : op ∈ ofPrio p l <;> simp [hm, mem_firsts]
      · have : ofPrio p [(p0, op)] = [] := by simp [ofPrio, Ne.symm hp]
        rw [this]; simp [hp]

theorem turnTree_spec (q : Q Op) (s : St) (h : Armed q) (hr : q.running = none) (op : Op) (ops : List Op)
    (hw : q.waiting = op :: ops) (hok : (step s op).isOk = true) :
    (turnTree q s).2 = (step s op).state ∧ Armed (turnTree q s).1 ∧ (turnTree q s).1.running = none ∧
      (turnTree q s).1.waiting = ops := by
  have hne : q.waiting ≠ [] := by rw [hw]; simp
  obtain ⟨p, e, h1, h2, h3, h4⟩ := turn_log q h hr hne
  obtain ⟨k, hk⟩ := Option.isSome_iff_exists.1 (h.armed.2 hne)
  have hs : q.sources = [k] := by rw [h.installed, hk]; rfl
  have ht : turn q = Queue.step (Queue.step q (.tick k)) (.done false) := by unfold turn; rw [hs]
  have hwl : q.waiting = e :: (turn q).waiting := by
    have := congrArg (List.map Prod.snd) h4
    simpa [Q.waiting, List.map_append, List.map_map, Function.comp_def] using this
  rw [hw] at hwl
  cases hwl
  have hrun : ∃ p', (Queue.step q (.tick k)).running = some (p', op) := by
    rw [ht] at h1
    cases hq : (Queue.step q (.tick k)).running with
    | none =>
      rw [step_done_none hq] at h1
      have : (Queue.step q (.tick k)).log = q.log := by
        rw [step_tick]; split
        · exact (process_spec ({ q with runningFrom := k } : Q Op)).2.1
        · rfl
      rw [this] at h1
      simp at h1
    | some x =>
      rw [step_done_some hq] at h1
      have : (Queue.step q (.tick k)).log = q.log := by
        rw [step_tick]; split
        · exact (process_spec ({ q with runningFrom := k } : Q Op)).2.1
        · rfl
      simp only [this, List.append_cancel_left_eq, List.cons.injEq, and_true] at h1
      rw [h1]; exact ⟨p, rfl⟩
  obtain ⟨p', hp'⟩ := hrun
  have hts : turnTree q s = (turn q, (step s op).state) := by
    unfold turnTree
    rw [hs]
    dsimp only
    rw [hp']
    dsimp only
    cases hst : step s op with
    | ok s' => rw [ht]; rfl
    | err e s' => rw [hst] at hok; cases hok
  rw [hts]
  exact ⟨rfl, h3, h2, rfl⟩

theorem turnsTree_spec : ∀ (ops : List Op) (q : Q Op) (s : St), Armed q → q.running = none → q.waiting = ops →
    NoRaise s ops → (turnsTree ops.length q s).2 = runOps s ops ∧ (turnsTree ops.length q s).1.waiting = [] := by
  intro ops
  induction ops with
  | nil => intro q s _ _ hw _; exact ⟨rfl, hw⟩
  | cons op ops ih =>
    intro q s h hr hw hn
    obtain ⟨h1, h2, h3, h4⟩ := turnTree_spec q s h hr op ops hw hn.1
    show (turnsTree ops.length (turnTree q s).1 (turnTree q s).2).2 = _ ∧ _
    have := ih (turnTree q s).1 (turnTree q s).2 h2 h3 h4 (by rw [h1]; exact hn.2)
    rw [h1] at this
    refine ⟨?_, ?_⟩
    · rw [h1]; exact this.1
    · show (turnsTree ops.length (turnTree q s).1 (turnTree q s).2).1.waiting = []
      rw [h1]; exact this.2

/-- C21, what really happens: requests pushed from another thread to an idle queue and then worked off are executed
in `executionOrder`, as long as none of them raises. -/
theorem C21_deferred_effect (s : St) (reqs : List (Prio × Op)) (h : NoRaise s (executionOrder reqs)) :
    (turnsTree (executionOrder reqs).length (pushAll {} reqs) s).2 = runOps s (executionOrder reqs) ∧
    (turnsTree (executionOrder reqs).length (pushAll {} reqs) s).1.waiting = [] := by
  obtain ⟨h1, h2, -, h4⟩ := pushAll_spec reqs
  refine turnsTree_spec _ _ s h1 h2 ?_ h
  show (pushAll {} reqs).of .high ++ (pushAll {} reqs).of .normal ++ (pushAll {} reqs).of .low = _
  rw [h4, h4, h4]; rfl

/-- C21 for requests of one priority, pairwise different, none of which raises when executed at once: waiting
makes no difference. Missing for the literal claim: see `C21_refuted_*`. -/
theorem C21_deferred_equals_immediate_partial (s : St) (p : Prio) (ops : List Op) (hd : ops.Nodup)
    (h : NoRaise s ops) :
    (turnsTree ops.length (pushAll {} (ops.map fun op => (p, op))) s).2 = runOps s ops := by
  have he : executionOrder (ops.map fun op => (p, op)) = ops := by
    have h1 : ofPrio p (ops.map fun op => (p, op)) = ops := by
      unfold ofPrio
      rw [List.filter_eq_self.2]
      · simp [Function.comp_def]
      · intro a ha; obtain ⟨o, -, rfl⟩ := List.mem_map.1 ha; simp
    have h2 : ∀ p', p' ≠ p → ofPrio p' (ops.map fun op => (p, op)) = [] := by
      intro p' hp
      unfold ofPrio
      rw [List.filter_eq_nil_iff.2]
      · rfl
      · intro a ha; obtain ⟨o, -, rfl⟩ := List.mem_map.1 ha; simp [Ne.symm hp]
    unfold executionOrder
    cases p with
    | high => rw [h1, h2 .normal (by simp), h2 .low (by simp), firsts_of_nodup hd]; simp [firsts]
    | normal => rw [h1, h2 .high (by simp), h2 .low (by simp), firsts_of_nodup hd]; simp [firsts]
    | low => rw [h1, h2 .high (by simp), h2 .normal (by simp), firsts_of_nodup hd]; simp [firsts]
  have := C21_deferred_effect s (ops.map fun op => (p, op)) (by rw [he]; exact h)
  rw [he] at this
  exact this.1

/-- A state with two unrelated nodes. -/
def pairState : St := runOps St.init
  [ .addNode (Node.new (.str 1) .none) .none, .addNode (Node.new (.str 2) .none) .none ]

example : ([.newRelationship (.str 1) (.str 2), .breakRelationship (.str 1) (.str 2), .delNode (.str 1) false] : List Op).Nodup ∧
    NoRaise pairState [.newRelationship (.str 1) (.str 2), .breakRelationship (.str 1) (.str 2), .delNode (.str 1) false] := by
  decide

/-- C21 is false across priorities: adding a node has low priority and removing it normal priority, so a node that
was added and then removed stays in the tree. No request raises. -/
theorem C21_refuted_priority : ∃ (s : St) (reqs : List (Prio × Op)), (∀ r ∈ reqs, prioOf r.2 = some r.1) ∧
    NoRaise s (reqs.map (·.2)) ∧ (∀ x, (runOps s (reqs.map (·.2))).t.has x = false) ∧
    (turnsTree reqs.length (pushAll {} reqs) s).1.waiting = [] ∧
    (turnsTree reqs.length (pushAll {} reqs) s).2.t.has (.str 1) = true := by
  refine ⟨St.init, [(.low, .addNode (Node.new (.str 1) .none) .none), (.normal, .delNode (.str 1) false)], by decide,
    by decide, fun x => ?_, by decide, by decide⟩
  rfl

/-- C21 is false when a request is repeated: the second `new_relationship` finds an equal one waiting and is dropped,
although the relation is broken in between. -/
theorem C21_refuted_coalescing : ∃ (s : St) (reqs : List (Prio × Op)), (∀ r ∈ reqs, prioOf r.2 = some r.1) ∧
    NoRaise s (reqs.map (·.2)) ∧ IsParent (runOps s (reqs.map (·.2))).t (.str 1) (.str 2) ∧
    (turnsTree reqs.length (pushAll {} reqs) s).1.waiting = [] ∧
    ¬ IsParent (turnsTree reqs.length (pushAll {} reqs) s).2.t (.str 1) (.str 2) := by
  refine ⟨pairState, [(.normal, .newRelationship (.str 1) (.str 2)), (.normal, .breakRelationship (.str 1) (.str 2)),
    (.normal, .newRelationship (.str 1) (.str 2))], by decide, by decide, by decide, by decide, by decide⟩

end Larch
