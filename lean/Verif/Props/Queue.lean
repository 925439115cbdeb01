import Verif.Spec.Queue
import Mathlib.Tactic.Tauto
import Mathlib.Data.List.Nodup

/-! # C18, C19, C20: the request queue -/

namespace Larch

open Spec Queue

variable {E : Type} [DecidableEq E]

/-! ### Helper facts -/

/-- Requests called or being called. -/
def Queue.Q.taken (q : Q E) : List (Prio × E) := q.log ++ q.running.toList

theorem ofPrio_append (p : Prio) (l l' : List (Prio × E)) : ofPrio p (l ++ l') = ofPrio p l ++ ofPrio p l' := by
  simp [ofPrio]

@[simp] theorem of_setOf (q : Q E) (p p' : Prio) (l : List E) : (q.setOf p l).of p' = if p' = p then l else q.of p' := by
  cases p <;> cases p' <;> rfl

@[simp] theorem setOf_running (q : Q E) (p : Prio) (l : List E) : (q.setOf p l).running = q.running := by cases p <;> rfl
@[simp] theorem setOf_log (q : Q E) (p : Prio) (l : List E) : (q.setOf p l).log = q.log := by cases p <;> rfl
@[simp] theorem setOf_handler (q : Q E) (p : Prio) (l : List E) : (q.setOf p l).handler = q.handler := by cases p <;> rfl
@[simp] theorem setOf_sources (q : Q E) (p : Prio) (l : List E) : (q.setOf p l).sources = q.sources := by cases p <;> rfl

@[simp] theorem arm_of (q : Q E) (p : Prio) : (arm q).of p = q.of p := by
  unfold arm; split
  · rfl
  · cases p <;> rfl

@[simp] theorem arm_running (q : Q E) : (arm q).running = q.running := by unfold arm; split <;> rfl
@[simp] theorem arm_log (q : Q E) : (arm q).log = q.log := by unfold arm; split <;> rfl

theorem waiting_nil (q : Q E) : q.waiting = [] ↔ ∀ p, q.of p = [] := by
  constructor
  · intro h p
    simp only [Q.waiting, List.append_eq_nil_iff] at h
    cases p
    · exact h.1.1
    · exact h.1.2
    · exact h.2
  · intro h
    simp only [Q.waiting, List.append_eq_nil_iff]
    exact ⟨⟨h .high, h .normal⟩, h .low⟩

theorem step_tick (q : Q E) (src : Nat) : step q (.tick src) =
    if src ∈ q.sources ∧ q.running = none then process { q with runningFrom := src } else q := rfl

theorem step_done_none {q : Q E} (h : q.running = none) (r : Bool) : step q (.done r) = q := by
  simp only [step, h]

theorem step_done_some {q : Q E} {x : Prio × E} (h : q.running = some x) (r : Bool) : step q (.done r) =
    { q with running := none, log := q.log ++ [x],
             sources := if r then q.sources.erase q.runningFrom else q.sources } := by
  simp only [step, h]

theorem push_of (q : Q E) (p : Prio) (e : E) (p' : Prio) :
    (push q p e).of p' = if p' = p ∧ e ∉ q.of p then q.of p ++ [e] else q.of p' := by
  unfold push
  by_cases h : e ∈ q.of p
  · simp [h]
  · rw [if_neg h, arm_of, of_setOf]
    simp [h]

theorem push_taken (q : Q E) (p : Prio) (e : E) : (push q p e).taken = q.taken := by
  unfold push Q.taken
  split
  · rfl
  · simp

/-- The choice made by `process`. -/
inductive Picks (q q' : Q E) : Option (Prio × E) → Prop
  | one (p : Prio) (e : E) (l : List E) : q.of p = e :: l → (∀ p', Before p' p → q.of p' = []) →
      q'.running = some (p, e) → (∀ p', q'.of p' = if p' = p then l else q.of p') → Picks q q' (some (p, e))
  | nothing : (∀ p, q.of p = []) → (∀ p, q'.of p = []) → q'.running = q.running → Picks q q' none

theorem take_spec (q : Q E) : (∃ r, Picks q (take q) r) ∧ (take q).log = q.log ∧ (take q).handler = q.handler ∧
    (take q).sources = q.sources := by
  unfold take
  split
  · rename_i e l hv
    refine ⟨⟨_, Picks.one .high e l hv ?_ rfl ?_⟩, rfl, rfl, rfl⟩
    · intro p' hp; cases p' <;> cases hp
    · intro p'; cases p' <;> rfl
  · rename_i e l hv hn
    refine ⟨⟨_, Picks.one .normal e l hn ?_ rfl ?_⟩, rfl, rfl, rfl⟩
    · intro p' hp; cases p' <;> first | assumption | cases hp
    · intro p'; cases p' <;> rfl
  · rename_i e l hv hn hl
    refine ⟨⟨_, Picks.one .low e l hl ?_ rfl ?_⟩, rfl, rfl, rfl⟩
    · intro p' hp; cases p' <;> first | assumption | cases hp
    · intro p'; cases p' <;> rfl
  · rename_i hv hn hl
    refine ⟨⟨none, Picks.nothing ?_ ?_ rfl⟩, rfl, rfl, rfl⟩ <;> intro p <;> cases p <;> assumption

theorem disarm_spec (q : Q E) : (∀ p, (disarm q).of p = q.of p) ∧ (disarm q).running = q.running ∧
    (disarm q).log = q.log ∧
    ((q.waiting = [] ∧ (disarm q).handler = none ∧
        (disarm q).sources = (match q.handler with | some h => q.sources.erase h | none => q.sources)) ∨
      (q.waiting ≠ [] ∧ (disarm q).handler = q.handler ∧ (disarm q).sources = q.sources)) := by
  unfold disarm
  by_cases hc : (q.normal.isEmpty && q.vip.isEmpty && q.low.isEmpty) = true
  · rw [if_pos hc]
    simp only [Bool.and_eq_true, List.isEmpty_iff] at hc
    obtain ⟨⟨h1, h2⟩, h3⟩ := hc
    have hw : q.waiting = [] := by simp [Q.waiting, h1, h2, h3]
    cases hh : q.handler with
    | some h => exact ⟨fun p => by cases p <;> rfl, rfl, rfl, Or.inl ⟨hw, rfl, rfl⟩⟩
    | none => exact ⟨fun p => rfl, rfl, rfl, Or.inl ⟨hw, hh, rfl⟩⟩
  · rw [if_neg hc]
    refine ⟨fun p => rfl, rfl, rfl, Or.inr ⟨?_, rfl, rfl⟩⟩
    intro hw
    apply hc
    simp only [Q.waiting, List.append_eq_nil_iff] at hw
    simp [hw.1.1, hw.1.2, hw.2]

theorem process_spec (q : Q E) : (∃ r, Picks q (process q) r) ∧ (process q).log = q.log ∧
    (((process q).waiting = [] ∧ (process q).handler = none ∧
        (process q).sources = (match q.handler with | some h => q.sources.erase h | none => q.sources)) ∨
      ((process q).waiting ≠ [] ∧ (process q).handler = q.handler ∧ (process q).sources = q.sources)) := by
  obtain ⟨⟨r, hp⟩, t2, t3, t4⟩ := take_spec q
  obtain ⟨d1, d2, d3, d4⟩ := disarm_spec (take q)
  have hw : (process q).waiting = [] ↔ (take q).waiting = [] := by
    rw [waiting_nil, waiting_nil]; exact forall_congr' fun p => by rw [process, d1]
  refine ⟨⟨r, ?_⟩, d3.trans t2, ?_⟩
  · cases hp with
    | one p e l h1 h2 h3 h4 => exact Picks.one p e l h1 h2 (d2.trans h3) (fun p' => (d1 p').trans (h4 p'))
    | nothing h1 h2 h3 => exact Picks.nothing h1 (fun p => (d1 p).trans (h2 p)) (d2.trans h3)
  · rw [t3, t4] at d4
    rcases d4 with ⟨h1, h2, h3⟩ | ⟨h1, h2, h3⟩
    · exact Or.inl ⟨hw.2 h1, h2, h3⟩
    · exact Or.inr ⟨fun h => h1 (hw.1 h), h2, h3⟩

/-- Taking a request moves it from its queue to the taken ones. -/
theorem process_ledger (q : Q E) (hr : q.running = none) (p : Prio) :
    ofPrio p (process q).taken ++ (process q).of p = ofPrio p q.taken ++ q.of p := by
  obtain ⟨⟨r, hp⟩, hlog, -⟩ := process_spec q
  unfold Q.taken
  rw [hlog, hr]
  cases hp with
  | one p0 e l h1 h2 h3 h4 =>
    rw [h3, h4, ofPrio_append]
    by_cases hpp : p = p0
    · subst hpp; simp [h1, ofPrio]
    · simp [ofPrio, hpp, Ne.symm hpp]
  | nothing h1 h2 h3 => rw [h3, hr, h2, h1]

theorem step_ledger (q : Q E) (ev : Ev E) (p : Prio) :
    ofPrio p (step q ev).taken ++ (step q ev).of p =
      ofPrio p q.taken ++ q.of p ++ (match ev with
        | .push p' e => if p' = p ∧ e ∉ q.of p' then [e] else []
        | _ => []) := by
  cases ev with
  | push p' e =>
    show ofPrio p (push q p' e).taken ++ (push q p' e).of p = _
    rw [push_taken, push_of]
    by_cases hp : p' = p
    · subst hp
      by_cases he : e ∈ q.of p'
      · simp [he]
      · simp [he]
    · simp [hp, Ne.symm hp]
  | tick src =>
    show ofPrio p (if src ∈ q.sources ∧ q.running = none then process { q with runningFrom := src } else q).taken ++
      (if src ∈ q.sources ∧ q.running = none then process { q with runningFrom := src } else q).of p = _
    by_cases h : src ∈ q.sources ∧ q.running = none
    · rw [if_pos h]
      have := process_ledger ({ q with runningFrom := src } : Q E) h.2 p
      rw [this]
      simp only [List.append_nil]
      cases p <;> rfl
    · rw [if_neg h]; simp
  | done r =>
    cases hr : q.running with
    | none => rw [step_done_none hr]; simp
    | some x =>
      rw [step_done_some hr]
      simp only [List.append_nil]
      unfold Q.taken
      rw [hr]
      cases p <;> simp [Q.of]

theorem run_ledger (evs : List (Ev E)) (q : Q E) (p : Prio) :
    ofPrio p (run q evs).taken ++ (run q evs).of p = ofPrio p q.taken ++ q.of p ++ ofPrio p (accepted q evs) := by
  induction evs generalizing q with
  | nil => simp [run, accepted, ofPrio]
  | cons ev evs ih =>
    rw [run, ih, step_ledger]
    cases ev with
    | push p' e =>
      rw [accepted, ofPrio_append]
      rw [List.append_assoc]
      congr 1
      by_cases he : e ∈ q.of p'
      · simp [he, ofPrio]
      · by_cases hp : p' = p
        · subst hp; simp [he, ofPrio]
        · simp [he, hp, ofPrio]
    | tick src => rw [accepted]; simp; intro p' e h; cases h
    | done r => rw [accepted]; simp; intro p' e h; cases h

/-! ### C18 -/

/-- C18 (and the order within one priority of C19): at every moment of every schedule, for each priority, the
requests called so far, followed by the one being called and the waiting ones, are exactly the pushed requests in push
order, leaving out those pushes that found an equal request waiting in the same queue. -/
theorem C18_no_loss_no_duplication (evs : List (Ev E)) (p : Prio) :
    ofPrio p ((run {} evs).log ++ (run {} evs).running.toList) ++ (run ({} : Q E) evs).of p =
      ofPrio p (accepted {} evs) := by
  have := run_ledger evs ({} : Q E) p
  rw [show (({} : Q E).taken) = [] from rfl, show ({} : Q E).of p = [] by cases p <;> rfl] at this
  simpa [ofPrio, Q.taken] using this

/-- C18: a queue never holds two equal requests. -/
theorem C18_waiting_distinct (evs : List (Ev E)) (p : Prio) : ((run ({} : Q E) evs).of p).Nodup := by
  have key : ∀ (evs : List (Ev E)) (q : Q E), (∀ p, (q.of p).Nodup) → ∀ p, ((run q evs).of p).Nodup := by
    intro evs
    induction evs with
    | nil => intro q h; exact h
    | cons ev evs ih =>
      intro q h
      refine ih _ (fun p => ?_)
      cases ev with
      | push p' e =>
        show ((push q p' e).of p).Nodup
        rw [push_of]
        split
        · rename_i hc
          rw [List.nodup_append]
          refine ⟨h _, by simp, ?_⟩
          intro a ha b hb hab
          simp at hb; subst hb; subst hab; exact hc.2 ha
        · exact h p
      | tick src =>
        show ((if src ∈ q.sources ∧ q.running = none then process { q with runningFrom := src } else q).of p).Nodup
        split
        · obtain ⟨⟨r, hp⟩, -⟩ := process_spec ({ q with runningFrom := src } : Q E)
          have hof : ∀ p, ({ q with runningFrom := src } : Q E).of p = q.of p := fun p => by cases p <;> rfl
          cases hp with
          | one p0 e l h1 h2 h3 h4 =>
            rw [h4]
            split
            · have := h p0; rw [← hof, h1] at this; exact (List.nodup_cons.1 this).2
            · rw [hof]; exact h p
          | nothing h1 h2 h3 => rw [h2]; simp
        · exact h p
      | done r =>
        cases hr : q.running with
        | none => rw [step_done_none hr]; exact h p
        | some x => rw [step_done_some hr]; have := h p; cases p <;> exact this
  exact key evs {} (fun p => by cases p <;> simp [Q.of]) p

/-! ### C19 -/

/-- C19: whenever a request is taken to be called, it is the oldest one of its queue and no request of a higher
priority is waiting. -/
theorem C19_order (q : Q E) (src : Nat) (p : Prio) (e : E) (h0 : q.running = none)
    (h : (step q (.tick src)).running = some (p, e)) :
    (q.of p).head? = some e ∧ ∀ p', Before p' p → q.of p' = [] := by
  have h' : (if src ∈ q.sources ∧ q.running = none then process { q with runningFrom := src } else q).running = some (p, e) := h
  split at h'
  · obtain ⟨⟨r, hp⟩, -⟩ := process_spec ({ q with runningFrom := src } : Q E)
    have hof : ∀ p, ({ q with runningFrom := src } : Q E).of p = q.of p := fun p => by cases p <;> rfl
    cases hp with
    | one p0 e0 l h1 h2 h3 h4 =>
      rw [h3] at h'
      cases h'
      refine ⟨by rw [← hof, h1]; rfl, fun p' hp' => by rw [← hof]; exact h2 p' hp'⟩
    | nothing h1 h2 h3 =>
      rw [h3] at h'
      change q.running = _ at h'
      rw [h0] at h'; cases h'
  · rw [h0] at h'; cases h'

/-- C19: at every moment of every schedule, the requests of one priority that were called are the first ones of those that
were pushed (leaving out pushes that found an equal request waiting), in push order, and the waiting ones are the others, in push
order. -/
theorem C19_push_order (evs : List (Ev E)) (p : Prio) :
    ofPrio p ((run {} evs).log ++ (run {} evs).running.toList) <+: ofPrio p (accepted {} evs) ∧
      (run ({} : Q E) evs).of p <:+ ofPrio p (accepted {} evs) :=
  ⟨⟨_, C18_no_loss_no_duplication evs p⟩, ⟨_, C18_no_loss_no_duplication evs p⟩⟩

/-! ### C20 -/

/-- The handler invariant. -/
structure Armed (q : Q E) : Prop where
  armed : q.handler.isSome = true ↔ q.waiting ≠ []
  installed : q.sources = q.handler.toList

theorem waiting_push (q : Q E) (p : Prio) (e : E) (h : e ∉ q.of p) : (push q p e).waiting ≠ [] := by
  intro hw
  have := (waiting_nil _).1 hw p
  rw [push_of, if_pos ⟨rfl, h⟩] at this
  simp at this

theorem armed_step (q : Q E) (h : Armed q) (ev : Ev E) (hr : ev ≠ .done true) : Armed (step q ev) := by
  cases ev with
  | push p e =>
    show Armed (push q p e)
    by_cases he : e ∈ q.of p
    · unfold push; rw [if_pos he]; exact h
    · have hw := waiting_push q p e he
      unfold push at hw ⊢
      rw [if_neg he] at hw ⊢
      have hx : ∀ q1 : Q E, q1.sources = q1.handler.toList → (arm q1).handler.isSome = true ∧
          (arm q1).sources = (arm q1).handler.toList := by
        intro q1 h1
        unfold arm
        cases hh : q1.handler with
        | some k => exact ⟨by rw [hh]; rfl, h1⟩
        | none => exact ⟨rfl, by show q1.sources ++ _ = _; rw [h1, hh]; rfl⟩
      obtain ⟨h1, h2⟩ := hx (q.setOf p (q.of p ++ [e])) (by simpa using h.installed)
      exact ⟨⟨fun _ => hw, fun _ => h1⟩, h2⟩
  | tick src =>
    show Armed (if src ∈ q.sources ∧ q.running = none then process { q with runningFrom := src } else q)
    split
    · rename_i hc
      obtain ⟨-, -, hx⟩ := process_spec ({ q with runningFrom := src } : Q E)
      rcases hx with ⟨h1, h2, h3⟩ | ⟨h1, h2, h3⟩
      · refine ⟨by simp [h1, h2], ?_⟩
        rw [h3, h2]
        have hi := h.installed
        change (match q.handler with | some h => q.sources.erase h | none => q.sources) = _
        cases hh : q.handler with
        | some k => simp [hi, hh]
        | none => simp [hi, hh]
      · change (process _).handler = q.handler at h2
        change (process _).sources = q.sources at h3
        refine ⟨?_, by rw [h3, h2]; exact h.installed⟩
        rw [h2]
        have : src ∈ q.handler.toList := h.installed ▸ hc.1
        refine ⟨fun _ => h1, fun _ => ?_⟩
        cases hh : q.handler with
        | none => rw [hh] at this; cases this
        | some k => rfl
    · exact h
  | done r =>
    cases r with
    | true => exact absurd rfl hr
    | false =>
      cases hr : q.running with
      | none => rw [step_done_none hr]; exact h
      | some x => rw [step_done_some hr]; exact ⟨h.armed, h.installed⟩

theorem run_armed : ∀ (evs : List (Ev E)) (q : Q E), Armed q → NoRaises evs → Armed (run q evs) := by
  intro evs
  induction evs with
  | nil => intro q h _; exact h
  | cons ev evs ih =>
    intro q h hn
    cases ev with
    | push p e => exact ih _ (armed_step q h _ (by simp)) hn
    | tick s => exact ih _ (armed_step q h _ (by simp)) hn
    | done r =>
      obtain ⟨rfl, hn⟩ := hn
      exact ih _ (armed_step q h _ (by simp)) hn

/-- C20 for schedules in which no called function raises: between the critical sections a handler is installed if
and only if some request is waiting, and there is at most one. Missing for the literal claim: see `C20_refuted`. -/
theorem C20_armed_partial (evs : List (Ev E)) (h : NoRaises evs) :
    ((run ({} : Q E) evs).sources ≠ [] ↔ (run ({} : Q E) evs).waiting ≠ []) ∧
    (run ({} : Q E) evs).sources.length ≤ 1 ∧
    (run ({} : Q E) evs).sources = (run ({} : Q E) evs).handler.toList := by
  have ha := run_armed evs ({} : Q E) ⟨by simp [Q.waiting], rfl⟩ h
  refine ⟨?_, ?_, ha.installed⟩
  · rw [← ha.armed, ha.installed]
    cases (run ({} : Q E) evs).handler <;> simp
  · rw [ha.installed]
    cases (run ({} : Q E) evs).handler <;> simp

/-- One turn of the idle loop calls one request. -/
theorem turn_spec (q : Q E) (h : Armed q) (hr : q.running = none) (hw : q.waiting ≠ []) :
    ∃ p e, (turn q).log = q.log ++ [(p, e)] ∧ (turn q).running = none ∧ Armed (turn q) ∧
      (q.of p).head? = some e ∧ (∀ p', Before p' p → q.of p' = []) ∧
      ∀ p', (turn q).of p' = if p' = p then (q.of p).tail else q.of p' := by
  obtain ⟨k, hk⟩ := Option.isSome_iff_exists.1 (h.armed.2 hw)
  have hs : q.sources = [k] := by rw [h.installed, hk]; rfl
  have ht : turn q = step (step q (.tick k)) (.done false) := by unfold turn; rw [hs]
  have hst : step q (.tick k) = process { q with runningFrom := k } := by
    show (if k ∈ q.sources ∧ q.running = none then _ else _) = _
    rw [if_pos ⟨by rw [hs]; simp, hr⟩]
  have ha : Armed (turn q) := by rw [ht]; exact armed_step _ (armed_step q h _ (by simp)) _ (by simp)
  obtain ⟨⟨r, hp⟩, hlog, -⟩ := process_spec ({ q with runningFrom := k } : Q E)
  have hof : ∀ p, ({ q with runningFrom := k } : Q E).of p = q.of p := fun p => by cases p <;> rfl
  cases hp with
  | one p e l h1 h2 h3 h4 =>
    have hd : turn q = { process { q with runningFrom := k } with running := none, log := q.log ++ [(p, e)] } := by
      rw [ht, hst]
      rw [step_done_some h3]
      simp only [hlog, Bool.false_eq_true, if_false]
    rw [hof] at h1
    refine ⟨p, e, by rw [hd], by rw [hd], ha, by rw [h1]; rfl, fun p' hp' => by rw [← hof]; exact h2 p' hp', fun p' => ?_⟩
    have : (turn q).of p' = (process { q with runningFrom := k }).of p' := by rw [hd]; cases p' <;> rfl
    rw [this, h4, h1, hof]; rfl
  | nothing h1 h2 h3 =>
    exfalso
    apply hw
    have := fun p => (hof p).symm.trans (h1 p)
    simp only [Q.waiting, List.append_eq_nil_iff]
    exact ⟨⟨this .high, this .normal⟩, this .low⟩

theorem turn_log (q : Q E) (h : Armed q) (hr : q.running = none) (hw : q.waiting ≠ []) :
    ∃ p e, (turn q).log = q.log ++ [(p, e)] ∧ (turn q).running = none ∧ Armed (turn q) ∧
      q.vip.map (fun e => (Prio.high, e)) ++ q.normal.map (fun e => (Prio.normal, e)) ++ q.low.map (fun e => (Prio.low, e)) =
      (p, e) :: ((turn q).vip.map (fun e => (Prio.high, e)) ++ (turn q).normal.map (fun e => (Prio.normal, e)) ++
        (turn q).low.map (fun e => (Prio.low, e))) := by
  obtain ⟨p, e, h1, h2, h3, h4, h5, h6⟩ := turn_spec q h hr hw
  refine ⟨p, e, h1, h2, h3, ?_⟩
  have a1 : (turn q).vip = _ := h6 .high
  have a2 : (turn q).normal = _ := h6 .normal
  have a3 : (turn q).low = _ := h6 .low
  cases p with
  | high =>
    change q.vip.head? = some e at h4
    simp only [reduceCtorEq, if_true, if_false, Q.of] at a1 a2 a3
    rw [a1, a2, a3]
    cases hv : q.vip with
    | nil => rw [hv] at h4; cases h4
    | cons x l => rw [hv] at h4; cases h4; simp
  | normal =>
    change q.normal.head? = some e at h4
    have b1 : q.vip = [] := h5 .high trivial
    simp only [reduceCtorEq, if_true, if_false, Q.of] at a1 a2 a3
    rw [a1, a2, a3, b1]
    cases hv : q.normal with
    | nil => rw [hv] at h4; cases h4
    | cons x l => rw [hv] at h4; cases h4; simp
  | low =>
    change q.low.head? = some e at h4
    have b1 : q.vip = [] := h5 .high trivial
    have b2 : q.normal = [] := h5 .normal trivial
    simp only [reduceCtorEq, if_true, if_false, Q.of] at a1 a2 a3
    rw [a1, a2, a3, b1, b2]
    cases hv : q.low with
    | nil => rw [hv] at h4; cases h4
    | cons x l => rw [hv] at h4; cases h4; simp

theorem turns_drain : ∀ (k : Nat) (q : Q E), Armed q → q.running = none → q.waiting.length = k →
    (turns k q).waiting = [] ∧ (turns k q).sources = [] ∧ (turns k q).running = none ∧ (turns k q).log = q.log ++
      (q.vip.map (fun e => (Prio.high, e)) ++ q.normal.map (fun e => (Prio.normal, e)) ++
        q.low.map (fun e => (Prio.low, e))) := by
  intro k
  induction k with
  | zero =>
    intro q h hr hk
    have hw : q.waiting = [] := List.length_eq_zero_iff.1 hk
    refine ⟨hw, ?_, hr, ?_⟩
    · show q.sources = []
      rw [h.installed]
      cases hh : q.handler with
      | none => rfl
      | some x => exact absurd hw (h.armed.1 (by rw [hh]; rfl))
    · simp only [Q.waiting, List.append_eq_nil_iff] at hw
      simp [turns, hw.1.1, hw.1.2, hw.2]
  | succ k ih =>
    intro q h hr hk
    have hw : q.waiting ≠ [] := by intro e; rw [e] at hk; cases hk
    obtain ⟨p, e, h1, h2, h3, h4⟩ := turn_log q h hr hw
    have hlen : (turn q).waiting.length = k := by
      have := congrArg List.length h4
      simp only [List.length_append, List.length_map, List.length_cons] at this
      simp only [Q.waiting, List.length_append] at hk ⊢
      omega
    obtain ⟨i1, i2, i3, i4⟩ := ih (turn q) h3 h2 hlen
    refine ⟨i1, i2, i3, ?_⟩
    show (turns k (turn q)).log = _
    rw [i4, h1, h4]; simp

/-- C20: from any state reached without exceptions, with no function running, as many turns of the idle loop as
requests are waiting call exactly the waiting requests, the higher priorities first, and leave no handler. -/
theorem C20_drained_partial (evs : List (Ev E)) (h : NoRaises evs) (q : Q E) (hq : q = run {} evs)
    (hr : q.running = none) :
    (turns q.waiting.length q).waiting = [] ∧ (turns q.waiting.length q).sources = [] ∧
    (turns q.waiting.length q).log = q.log ++ (q.vip.map (fun e => (Prio.high, e)) ++
      q.normal.map (fun e => (Prio.normal, e)) ++ q.low.map (fun e => (Prio.low, e))) := by
  have ha : Armed q := hq ▸ run_armed evs ({} : Q E) ⟨by simp [Q.waiting], rfl⟩ h
  obtain ⟨h1, h2, -, h4⟩ := turns_drain _ q ha hr rfl
  exact ⟨h1, h2, h4⟩

/-- Two threads push while the idle loop works; one push finds an equal request waiting. -/
def queueDemo : List (Ev Nat) :=
  [ .push .low 1, .push .normal 2, .push .low 1, .push .high 3, .tick 1, .push .high 3, .done false, .push .low 4 ]

example : NoRaises queueDemo ∧ (run {} queueDemo).running = none ∧
    (run {} queueDemo).log = [(.high, 3)] ∧ (run {} queueDemo).waiting = [3, 2, 1, 4] ∧
    accepted {} queueDemo = [(.low, 1), (.normal, 2), (.high, 3), (.high, 3), (.low, 4)] ∧
    (step (run {} queueDemo) (.tick 1)).running = some (.high, 3) ∧
    (turns 4 (run {} queueDemo)).log = [(.high, 3), (.high, 3), (.normal, 2), (.low, 1), (.low, 4)] := by
  refine ⟨by simp [NoRaises, queueDemo], by rfl, by rfl, by rfl, by rfl, by rfl, by rfl⟩

/-- A queue whose handler is recorded but no longer installed. -/
structure Stuck (q : Q E) : Prop where
  recorded : q.handler.isSome = true
  notInstalled : q.sources = []
  idle : q.running = none

theorem stuck_step (q : Q E) (h : Stuck q) (ev : Ev E) : Stuck (step q ev) ∧ (step q ev).log = q.log := by
  cases ev with
  | push p e =>
    show Stuck (push q p e) ∧ (push q p e).log = q.log
    unfold push
    split
    · exact ⟨h, rfl⟩
    · obtain ⟨k, hk⟩ := Option.isSome_iff_exists.1 h.recorded
      have : arm (q.setOf p (q.of p ++ [e])) = q.setOf p (q.of p ++ [e]) := by
        unfold arm; rw [setOf_handler, hk]
      rw [this]
      exact ⟨⟨by simp [hk], by simp [h.notInstalled], by simp [h.idle]⟩, by simp⟩
  | tick s =>
    rw [step_tick, if_neg (by rw [h.notInstalled]; simp)]
    exact ⟨h, rfl⟩
  | done r =>
    rw [step_done_none h.idle]
    exact ⟨h, rfl⟩

/-- C20 is false when a called function raises: PyGObject then drops the idle source, but `_handler` still
remembers it (`processqueue.py:81` never installs another one). From then on nothing is ever called, whatever is pushed,
although a request is waiting. -/
theorem C20_refuted : ∃ evs : List (Ev Nat), (run {} evs).waiting ≠ [] ∧ (run {} evs).sources = [] ∧
    ∀ evs', (run (run {} evs) evs').log = (run {} evs).log := by
  refine ⟨[.push .low 1, .push .low 2, .tick 1, .done true], by decide, by decide, ?_⟩
  have hs : Stuck (run ({} : Q Nat) [.push .low 1, .push .low 2, .tick 1, .done true]) := ⟨by rfl, by rfl, by rfl⟩
  generalize run ({} : Q Nat) [.push .low 1, .push .low 2, .tick 1, .done true] = q at hs
  intro evs'
  induction evs' generalizing q with
  | nil => rfl
  | cons ev evs' ih =>
    obtain ⟨h1, h2⟩ := stuck_step q hs ev
    rw [run, ih _ h1, h2]

end Larch
