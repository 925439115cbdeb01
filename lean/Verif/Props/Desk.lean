import Verif.Spec.Desk
import Verif.Props.Suite
import Verif.Props.Deferred

/-! # C55: views and counters while other threads make requests -/

namespace Larch

open Spec Queue

variable {V : Type} {diff : List Id → List Id → List Id}

/-- The invariant. -/
structure DState (diff : List Id → List Id → List Id) (fresh : Nat → Bool) (d : Desk V) : Prop where
  app : SState diff fresh d.app
  queue : Armed d.q

/-- The request of priority `p` that an event adds to the queue. -/
def newly (d : Desk V) (ev : DeskEv V) (p : Prio) : List Op :=
  match ev with
  | .push p' e => if p' = p ∧ e ∉ d.q.of p' then [e] else []
  | _ => []

theorem desk_done {d : Desk V} {p : Prio} {op : Op} {a' : Suite V} (hr : d.q.running = some (p, op))
    (h : (step d.app.s op).isOk = true) (e : d.app.edit diff op = .ok a') :
    d.step diff .done = ⟨a', Queue.step d.q (.done false)⟩ := by
  simp only [Desk.step, hr, h, e, Res.state]
  rfl

/-- What one event does to the application and to the ledger. -/
structure DStep (diff : List Id → List Id → List Id) (d d' : Desk V) (ev : DeskEv V) : Prop where
  deed : Suite.run diff ((Spec.deed d ev).map Deed.act) d.app = .ok d'.app
  log : d'.q.log = d.q.log ++ (Spec.deed d ev).filterMap Deed.request?
  ledger : ∀ p, ofPrio p d'.q.taken ++ d'.q.of p = ofPrio p d.q.taken ++ d.q.of p ++
    newly d ev p

theorem push_log (q : Q Op) (p : Prio) (op : Op) : (push q p op).log = q.log := by
  unfold push; split
  · rfl
  · simp

theorem tick_log (q : Q Op) (src : Nat) : (Queue.step q (.tick src)).log = q.log := by
  rw [step_tick]; split
  · exact (process_spec ({ q with runningFrom := src } : Q Op)).2.1
  · rfl

theorem DState.step (hdiff : SetDiff diff) {fresh : Nat → Bool} {d : Desk V} (h : DState diff fresh d) (ev : DeskEv V)
    (hf : DeskFair fresh d ev) : DState diff (deskFresh fresh d ev) (d.step diff ev) ∧ DStep diff d (d.step diff ev) ev := by
  cases ev with
  | push p op =>
    refine ⟨⟨h.app, armed_step d.q h.queue (.push p op) (by simp)⟩, rfl, ?_, fun p' => ?_⟩
    · show (push d.q p op).log = _
      rw [push_log]; simp [Spec.deed]
    · exact step_ledger d.q (.push p op) p'
  | tick src =>
    refine ⟨⟨h.app, armed_step d.q h.queue (.tick src) (by simp)⟩, rfl, ?_, fun p' => ?_⟩
    · show (Queue.step d.q (.tick src)).log = _
      rw [tick_log]; simp [Spec.deed]
    · exact step_ledger d.q (.tick src) p'
  | done =>
    cases hr : d.q.running with
    | none =>
      have hd : Spec.deed d .done = [] := by simp only [Spec.deed, hr]
      have hs : d.step diff .done = d := by simp only [Desk.step, hr]
      rw [hs]
      refine ⟨⟨by unfold deskFresh; rw [hd]; exact h.app, h.queue⟩, by rw [hd]; rfl, by rw [hd]; simp, fun p => by simp [newly]⟩
    | some r =>
      obtain ⟨p, op⟩ := r
      obtain ⟨h1, h2⟩ := hf p op hr
      obtain ⟨a', e, ha'⟩ := h.app.act hdiff (.edit op) h1
      have e' : d.app.edit diff op = .ok a' := e
      have hd : Spec.deed d .done = [.request p op] := by simp only [Spec.deed, hr]
      have hs : d.step diff .done = ⟨a', Queue.step d.q (.done false)⟩ := by
        exact desk_done hr h2 e'
      rw [hs]
      refine ⟨⟨by unfold deskFresh; rw [hd]; exact ha', armed_step d.q h.queue (.done false) (by simp)⟩, ?_, ?_, fun p' => ?_⟩
      · rw [hd]
        show (d.app.act diff (.edit op)).andThen _ = _
        rw [e]; rfl
      · show (Queue.step d.q (.done false)).log = _
        rw [step_done_some hr, hd]; rfl
      · exact step_ledger d.q (.done false) p'
  | main c =>
    cases hr : d.q.running with
    | none =>
      obtain ⟨a', e, ha'⟩ := h.app.act hdiff c (hf hr)
      have hd : Spec.deed d (.main c) = [.own c] := by simp only [Spec.deed, hr]
      have hs : d.step diff (.main c) = ⟨a', d.q⟩ := by simp only [Desk.step, hr, e, Res.state]
      rw [hs]
      refine ⟨⟨by unfold deskFresh; rw [hd]; exact ha', h.queue⟩, ?_, by rw [hd]; simp [Deed.request?], fun p => by simp [newly]⟩
      rw [hd]
      show (d.app.act diff c).andThen _ = _
      rw [e]; rfl
    | some r =>
      have hd : Spec.deed d (.main c) = [] := by simp only [Spec.deed, hr]
      have hs : d.step diff (.main c) = d := by simp only [Desk.step, hr]
      rw [hs]
      refine ⟨⟨by unfold deskFresh; rw [hd]; exact h.app, h.queue⟩, by rw [hd]; rfl, by rw [hd]; simp, fun p => by simp [newly]⟩

theorem suite_run_append (cs cs' : List (SuiteAct V)) {a b : Suite V} (h : Suite.run diff cs a = .ok b) :
    Suite.run diff (cs ++ cs') a = Suite.run diff cs' b := by
  induction cs generalizing a with
  | nil => cases h; rfl
  | cons c cs ih =>
    change (a.act diff c).andThen (Suite.run diff cs) = _ at h
    show (a.act diff c).andThen (Suite.run diff (cs ++ cs')) = _
    cases e : a.act diff c with
    | err x w => rw [e] at h; cases h
    | ok w => rw [e] at h; exact ih h

theorem requested_cons (ev : DeskEv V) (evs : List (DeskEv V)) (d : Desk V) (p : Prio) :
    ofPrio p (requested diff (ev :: evs) d) = newly d ev p ++ ofPrio p (requested diff evs (d.step diff ev)) := by
  cases ev with
  | push p' e =>
    rw [requested, ofPrio_append]
    congr 1
    by_cases he : e ∈ d.q.of p'
    · simp [he, ofPrio, newly]
    · by_cases hp : p' = p
      · subst hp; simp [he, ofPrio, newly]
      · simp [he, hp, ofPrio, newly]
  | tick src => rfl
  | done => rfl
  | main c => rfl

theorem DState.run (hdiff : SetDiff diff) : ∀ (evs : List (DeskEv V)) (fresh : Nat → Bool) (d : Desk V), DState diff fresh d →
    DeskFairRun diff fresh evs d → DState diff (deskFreshEnd diff fresh evs d) (Desk.run diff evs d) ∧
    Suite.run diff ((deeds diff evs d).map Deed.act) d.app = .ok (Desk.run diff evs d).app ∧
    (Desk.run diff evs d).q.log = d.q.log ++ (deeds diff evs d).filterMap Deed.request? ∧
    ∀ p, ofPrio p (Desk.run diff evs d).q.taken ++ (Desk.run diff evs d).q.of p =
      ofPrio p d.q.taken ++ d.q.of p ++ ofPrio p (requested diff evs d) := by
  intro evs
  induction evs with
  | nil =>
    intro fresh d h _
    exact ⟨h, rfl, by simp [deeds, Desk.run], fun p => by simp [Desk.run, requested, ofPrio]⟩
  | cons ev evs ih =>
    intro fresh d h hf
    obtain ⟨h1, h2⟩ := h.step hdiff ev hf.1
    obtain ⟨i1, i2, i3, i4⟩ := ih _ _ h1 hf.2
    refine ⟨i1, ?_, ?_, fun p => ?_⟩
    · show Suite.run diff ((deed d ev ++ deeds diff evs (d.step diff ev)).map Deed.act) d.app = _
      rw [List.map_append, suite_run_append _ _ h2.deed]
      exact i2
    · show (Desk.run diff evs (d.step diff ev)).q.log = _
      rw [i3, h2.log, deeds, List.filterMap_append, List.append_assoc]
    · show ofPrio p (Desk.run diff evs (d.step diff ev)).q.taken ++ (Desk.run diff evs (d.step diff ev)).q.of p = _
      rw [i4, h2.ledger, requested_cons, List.append_assoc]

theorem DState.init (diff : List Id → List Id → List Id) (d : Id → V) : DState diff (fun _ => true) (Desk.init d) :=
  ⟨SState.init diff _ d, ⟨by simp [Desk.init, Q.waiting], rfl⟩⟩

theorem armed_takes (q : Q Op) (h : Armed q) (hr : q.running = none) (hw : q.waiting ≠ []) :
    ∃ src, q.sources = [src] ∧ ∃ p op, (Queue.step q (.tick src)).running = some (p, op) ∧
    (q.of p).head? = some op ∧ ∀ p', Before p' p → q.of p' = [] := by
  obtain ⟨k, hk⟩ := Option.isSome_iff_exists.1 (h.armed.2 hw)
  have hs : q.sources = [k] := by rw [h.installed, hk]; rfl
  refine ⟨k, hs, ?_⟩
  have hst : Queue.step q (.tick k) = process { q with runningFrom := k } := by
    rw [step_tick, if_pos ⟨by rw [hs]; simp, hr⟩]
  have hof : ∀ p, ({ q with runningFrom := k } : Q Op).of p = q.of p := fun p => by cases p <;> rfl
  obtain ⟨⟨r, hp⟩, -, -⟩ := process_spec ({ q with runningFrom := k } : Q Op)
  cases hp with
  | one p e l h1 h2 h3 h4 =>
    have hrun : (Queue.step q (.tick k)).running = some (p, e) := by rw [hst]; exact h3
    exact ⟨p, e, hrun, C19_order q k p e hr hrun⟩
  | nothing h1 h2 h3 =>
    exfalso
    apply hw
    rw [waiting_nil]
    exact fun p => (hof p).symm.trans (h1 p)

theorem armed_sources (q : Q Op) (h : Armed q) : q.sources ≠ [] ↔ q.waiting ≠ [] := by
  rw [← h.armed, h.installed]
  cases q.handler <;> simp

/-- C55: whatever the threads do, in every moment the application is where it would be without threads; no request is lost, and
everything that is shown is right. -/
theorem C55_threads_partial (hdiff : SetDiff diff) (d : Id → V) (evs : List (DeskEv V))
    (hf : DeskFairRun diff (fun _ => true) evs (Desk.init d)) :
    DeskRight diff (deskFreshEnd diff (fun _ => true) evs (Desk.init d)) (Desk.init d) (Desk.run diff evs (Desk.init d)) evs := by
  obtain ⟨h1, h2, h3, h4⟩ := (DState.init diff d).run hdiff evs _ _ hf
  refine ⟨h2, h1.app.suiteRight hdiff, ?_, fun p => ?_, armed_sources _ h1.queue, fun hr hw => ?_⟩
  · rw [h3]; rfl
  · have := h4 p
    rw [show (Desk.init d).q.taken = [] from rfl, show (Desk.init d).q.of p = [] by cases p <;> rfl] at this
    unfold Q.taken at this
    rw [ofPrio_append] at this
    simpa [ofPrio] using this
  · obtain ⟨src, hs, p, op, h⟩ := armed_takes _ h1.queue hr hw
    exact ⟨src, by rw [hs]; simp, p, op, h⟩

theorem deskFairRun_append (evs evs' : List (DeskEv V)) (fresh : Nat → Bool) (d : Desk V) :
    DeskFairRun diff fresh (evs ++ evs') d ↔
      DeskFairRun diff fresh evs d ∧ DeskFairRun diff (deskFreshEnd diff fresh evs d) evs' (Desk.run diff evs d) := by
  induction evs generalizing fresh d with
  | nil => simp [DeskFairRun, deskFreshEnd, Desk.run]
  | cons ev evs ih => simp only [List.cons_append, DeskFairRun, ih, deskFreshEnd, Desk.run, and_assoc]

theorem desk_run_append (evs evs' : List (DeskEv V)) (d : Desk V) :
    Desk.run diff (evs ++ evs') d = Desk.run diff evs' (Desk.run diff evs d) := by
  induction evs generalizing d with
  | nil => rfl
  | cons ev evs ih => exact ih _

theorem deskFreshEnd_append (evs evs' : List (DeskEv V)) (fresh : Nat → Bool) (d : Desk V) :
    deskFreshEnd diff fresh (evs ++ evs') d = deskFreshEnd diff (deskFreshEnd diff fresh evs d) evs' (Desk.run diff evs d) := by
  induction evs generalizing fresh d with
  | nil => rfl
  | cons ev evs ih => exact ih _ _

theorem rounds_drain (hdiff : SetDiff diff) : ∀ (k : Nat) (fresh : Nat → Bool) (d : Desk V), DState diff fresh d →
    d.q.running = none → d.q.waiting.length = k → DeskFairRun diff fresh (rounds diff k d) d →
    (Desk.run diff (rounds diff k d) d).q.waiting = [] ∧ (Desk.run diff (rounds diff k d) d).q.running = none ∧
    (Desk.run diff (rounds diff k d) d).q.sources = [] ∧ (Desk.run diff (rounds diff k d) d).q.log = d.q.log ++ inLine d.q := by
  intro k
  induction k with
  | zero =>
    intro fresh d h hr hk hf
    have hw : d.q.waiting = [] := List.length_eq_zero_iff.1 hk
    have hs : d.q.sources = [] := by
      by_contra hc
      exact (armed_sources _ h.queue).1 hc hw
    refine ⟨hw, hr, hs, ?_⟩
    show d.q.log = _
    simp only [Q.waiting, List.append_eq_nil_iff] at hw
    simp [inLine, hw.1.1, hw.1.2, hw.2]
  | succ k ih =>
    intro fresh d h hr hk hf
    have hw : d.q.waiting ≠ [] := by intro e; rw [e] at hk; cases hk
    obtain ⟨src, hs, p, op, hrun, -, -⟩ := armed_takes d.q h.queue hr hw
    have hro : rounds diff (k + 1) d = .tick src :: .done :: rounds diff k ((d.step diff (.tick src)).step diff .done) := by
      rw [rounds, hs]
    rw [hro] at hf ⊢
    obtain ⟨f1, f2, f3⟩ := hf
    obtain ⟨h1, -⟩ := h.step hdiff _ f1
    obtain ⟨h2, -⟩ := h1.step hdiff _ f2
    have hq : ((d.step diff (.tick src)).step diff .done).q = turn d.q := by
      have hr' : (d.step diff (.tick src)).q.running = some (p, op) := hrun
      obtain ⟨g1, g2⟩ := f2 p op hr'
      obtain ⟨a', e, -⟩ := h1.app.act hdiff (.edit op) g1
      have e' : (d.step diff (.tick src)).app.edit diff op = .ok a' := e
      have : (d.step diff (.tick src)).step diff .done = ⟨a', Queue.step (d.step diff (.tick src)).q (.done false)⟩ := desk_done hr' g2 e'
      rw [this]
      show Queue.step (Queue.step d.q (.tick src)) (.done false) = _
      unfold turn; rw [hs]
    obtain ⟨p', e', t1, t2, -, t4⟩ := turn_log d.q h.queue hr hw
    obtain ⟨i1, i2, i3, i4⟩ := ih _ _ h2 (by rw [hq]; exact t2) (by
      rw [hq]
      have := congrArg List.length t4
      simp only [List.length_append, List.length_map, List.length_cons] at this
      simp only [Q.waiting, List.length_append] at hk ⊢
      omega) f3
    refine ⟨i1, i2, i3, ?_⟩
    show (Desk.run diff (rounds diff k ((d.step diff (.tick src)).step diff .done)) ((d.step diff (.tick src)).step diff .done)).q.log = _
    rw [i4, hq, t1]
    unfold inLine
    rw [t4]; simp

/-- C55: when the other threads pause, as many rounds of the idle loop as requests are waiting carry out exactly these, the higher
priorities first, and then nothing is left to do. -/
theorem C55_drained_partial (hdiff : SetDiff diff) (d : Id → V) (evs : List (DeskEv V)) (e : Desk V)
    (he : e = Desk.run diff evs (Desk.init d)) (hr : e.q.running = none)
    (hf : DeskFairRun diff (fun _ => true) (evs ++ rounds diff e.q.waiting.length e) (Desk.init d)) :
    ∃ e', e' = Desk.run diff (rounds diff e.q.waiting.length e) e ∧ e'.q.waiting = [] ∧ e'.q.running = none ∧ e'.q.sources = [] ∧
      e'.q.log = e.q.log ++ inLine e.q ∧
      Suite.run diff ((inLine e.q).map fun r => .edit r.2) e.app = .ok e'.app ∧
      SuiteRight diff (deskFreshEnd diff (fun _ => true) (evs ++ rounds diff e.q.waiting.length e) (Desk.init d)) e'.app := by
  have hfa := (deskFairRun_append _ _ _ _).1 hf
  obtain ⟨h1, -⟩ := (DState.init diff d).run hdiff evs _ _ hfa.1
  have hfa2 := hfa.2
  rw [← he] at h1 hfa2
  obtain ⟨g1, g2, g3, g4⟩ := rounds_drain hdiff _ _ e h1 hr rfl hfa2
  obtain ⟨i1, i2, i3, -⟩ := h1.run hdiff _ _ _ hfa2
  refine ⟨_, rfl, g1, g2, g3, g4, ?_, ?_⟩
  · rw [g4] at i3
    have i3 := List.append_cancel_left i3
    have own : ∀ (k : Nat) (w : Desk V), ∀ x ∈ deeds diff (rounds diff k w) w, ∃ p op, x = Deed.request p op := by
      intro k
      induction k with
      | zero => intro w x hx; cases hx
      | succ k ih =>
        intro w x hx
        rw [rounds] at hx
        cases hs : w.q.sources with
        | nil => rw [hs] at hx; cases hx
        | cons src l =>
          rw [hs] at hx
          simp only [deeds, List.mem_append] at hx
          rcases hx with hx | hx | hx
          · cases hx
          · unfold deed at hx
            dsimp only at hx
            split at hx
            · cases hx
            · rename_i p op _
              simp only [List.mem_singleton] at hx
              exact ⟨p, op, hx⟩
          · exact ih _ x hx
    have conv : ∀ l : List (Deed V), (∀ x ∈ l, ∃ p op, x = Deed.request p op) →
        l.map Deed.act = (l.filterMap Deed.request?).map fun r => SuiteAct.edit r.2 := by
      intro l hl
      induction l with
      | nil => rfl
      | cons x l ih =>
        obtain ⟨p, op, rfl⟩ := hl x (by simp)
        simp only [List.map_cons, List.filterMap_cons, Deed.act, Deed.request?]
        rw [ih fun y hy => hl y (by simp [hy])]
    rw [i3, ← conv _ (own _ _)]
    exact i2
  · rw [deskFreshEnd_append, ← he]
    exact i1.app.suiteRight hdiff

/-! ### Filters on a node's own data -/

/-- The conditions with filters that look only at a node's own data (`SuiteOwnFair`). -/
def DeskOwnFair (fresh : Nat → Bool) (d : Desk V) : DeskEv V → Prop
  | .push _ _ => True
  | .tick _ => True
  | .done => ∀ p op, d.q.running = some (p, op) → SuiteOwnFair fresh d.app (.edit op) ∧ (step d.app.s op).isOk = true
  | .main c => d.q.running = none → SuiteOwnFair fresh d.app c

def DeskOwnFairRun (diff : List Id → List Id → List Id) : (Nat → Bool) → List (DeskEv V) → Desk V → Prop
  | _, [], _ => True
  | fresh, ev :: evs, d => DeskOwnFair fresh d ev ∧ DeskOwnFairRun diff (deskFresh fresh d ev) evs (d.step diff ev)

theorem DeskOwnFair.fair {fresh : Nat → Bool} {d : Desk V} (own : OwnBank d.app.bank) {ev : DeskEv V} (hf : DeskOwnFair fresh d ev) :
    DeskFair fresh d ev := by
  cases ev with
  | push p op => trivial
  | tick src => trivial
  | done => exact fun p op hr => ⟨SuiteOwnFair.fair own (hf p op hr).1, (hf p op hr).2⟩
  | main c => exact fun hr => SuiteOwnFair.fair own (hf hr)

theorem desk_ownBank (hdiff : SetDiff diff) {fresh : Nat → Bool} {d : Desk V} (h : DState diff fresh d) (own : OwnBank d.app.bank)
    {ev : DeskEv V} (hf : DeskOwnFair fresh d ev) : OwnBank (d.step diff ev).app.bank := by
  cases ev with
  | push p op => exact own
  | tick src => exact own
  | done =>
    cases hr : d.q.running with
    | none =>
      have hs : d.step diff .done = d := by simp only [Desk.step, hr]
      rw [hs]; exact own
    | some r =>
      obtain ⟨p, op⟩ := r
      obtain ⟨h1, h2⟩ := hf p op hr
      obtain ⟨a', e, -⟩ := h.app.act hdiff (.edit op) (SuiteOwnFair.fair own h1)
      have e' : d.app.edit diff op = .ok a' := e
      rw [desk_done hr h2 e']
      exact act_ownBank h.app.bank own (by rintro _ _ _ ⟨⟩) e
  | main c =>
    cases hr : d.q.running with
    | none =>
      obtain ⟨a', e, -⟩ := h.app.act hdiff c (SuiteOwnFair.fair own (hf hr))
      have hs : d.step diff (.main c) = ⟨a', d.q⟩ := by simp only [Desk.step, hr, e, Res.state]
      rw [hs]
      refine act_ownBank h.app.bank own ?_ e
      rintro n f p rfl
      exact hf hr
    | some r =>
      have hs : d.step diff (.main c) = d := by simp only [Desk.step, hr]
      rw [hs]; exact own

theorem DeskOwnFairRun.fair (hdiff : SetDiff diff) (evs : List (DeskEv V)) {fresh : Nat → Bool} {d : Desk V} (h : DState diff fresh d)
    (own : OwnBank d.app.bank) (hf : DeskOwnFairRun diff fresh evs d) : DeskFairRun diff fresh evs d := by
  induction evs generalizing d fresh with
  | nil => trivial
  | cons ev evs ih =>
    have hf1 := DeskOwnFair.fair own hf.1
    exact ⟨hf1, ih (h.step hdiff ev hf1).1 (desk_ownBank hdiff h own hf.1) hf.2⟩

theorem deskOwnFair_init (hdiff : SetDiff diff) {evs : List (DeskEv V)} {d : Id → V}
    (hf : DeskOwnFairRun diff (fun _ => true) evs (Desk.init d)) : DeskFairRun diff (fun _ => true) evs (Desk.init d) :=
  DeskOwnFairRun.fair hdiff evs (DState.init diff d) emptyBank_own hf

/-! ### Concrete schedules -/

/-- A view with a filter; two threads add nodes, one request is repeated, one comes in while another is carried out; in between the
main thread asks for a counter and adds a node itself. -/
def deskSchedule : List (DeskEv Nat) :=
  [ .main (.bank (.add (.plain 1) isEven none)), .main (.getView (some 5) true), .main (.onView 1 (.apply (.plain 1) none false true)),
    .push .low (.addNode (.new (.str 1) .none) .none), .push .low (.addNode (.new (.str 2) .none) (.str 1)),
    .push .low (.addNode (.new (.str 1) .none) .none), .tick 1, .push .normal (.newRelationship (.str 4) (.str 2)), .done,
    .main (.edit (.addNode (.new (.str 4) .none) .none)), .main (.getCount none true), .push .high (.refreshNode (.str 4)) ]

theorem desk_nm {i : Nat} {p' : Id} (hi : i < 1000) : ∀ nd q, (Op.addNode (.new (.str i) .none) p') = .addNode nd q →
    ∀ name, nd.id ≠ rootOf name := by
  rintro nd q e name he
  have he : Id.str i = rootOf name := by injection e with e1 e2; rw [← he, ← e1]; rfl
  cases name with
  | none =>
    have : Id.str i = .str 1000 := he
    cases this
    omega
  | some n =>
    have : Id.str i = .str (2 * n + 1001) := he
    injection this
    omega

theorem desk_running {q : Q Op} {r : Prio × Op} (h : q.running = some r) {P : Prio → Op → Prop} (hP : P r.1 r.2) :
    ∀ p op, q.running = some (p, op) → P p op := by
  intro p op h'
  rw [h] at h'
  cases h'
  exact hP

theorem deskSchedule_fair : DeskFairRun someDiff (fun _ => true)
    (deskSchedule ++ rounds someDiff 3 (Desk.run someDiff deskSchedule (Desk.init fun _ => 0))) (Desk.init fun _ => 0) := by
  have hr : rounds someDiff 3 (Desk.run someDiff deskSchedule (Desk.init fun _ => 0)) =
    [.tick 1, .done, .tick 1, .done, .tick 1, .done] := by rfl
  rw [hr]
  refine deskOwnFair_init someDiff_ok ⟨fun _ => isEven_own, fun _ => trivial, fun _ => ⟨by decide, fun h => (by cases h)⟩, trivial, trivial, trivial, trivial, trivial,
    desk_running (r := (.low, .addNode (.new (.str 1) .none) .none)) (by rfl)
      ⟨⟨noneToGo_of (by decide), careful_add (Made.new _ _) (by decide), desk_nm (by decide), fun _ e => by cases e⟩, by decide⟩,
    fun _ => ⟨noneToGo_of (by decide), careful_add (Made.new _ _) (by decide), desk_nm (by decide), fun _ e => by cases e⟩,
    fun _ => rfl, trivial, trivial,
    desk_running (r := (.high, .refreshNode (.str 4))) (by rfl)
      ⟨⟨noneToGo_of (by decide), trivial, (fun _ _ e => (by cases e)), fun _ e => by cases e⟩, by decide⟩, trivial,
    desk_running (r := (.normal, .newRelationship (.str 4) (.str 2))) (by rfl)
      ⟨⟨noneToGo_of (by decide), ?_, (fun _ _ e => (by cases e)), fun _ e => by cases e⟩, by decide⟩, trivial,
    desk_running (r := (.low, .addNode (.new (.str 2) .none) (.str 1))) (by rfl)
      ⟨⟨noneToGo_of (by decide), careful_add (Made.new _ _) (by decide), desk_nm (by decide), fun _ e => by cases e⟩, by decide⟩,
    trivial⟩
  exact Tree.allEnabled_accept (by decide) _ _

/-- The concrete case: the requests were carried out in the order `4` refreshed, `2` below `4`, `2` added (below `1`, and below `4`
as asked before); the view has `2` in both places; the counter counts 3 nodes. -/
example : ∃ e e', e = Desk.run someDiff deskSchedule (Desk.init fun _ => 0) ∧ e.q.running = none ∧ e.q.waiting.length = 3 ∧
    e' = Desk.run someDiff (rounds someDiff 3 e) e ∧ e'.q.waiting = [] ∧
    e'.q.log.map (·.1) = [.low, .high, .normal, .low] ∧
    ((viewAt e'.app 1).map fun ft => (ft.view.kids (rootOf (some 5)), ft.view.kids (.str 1), ft.view.kids (.str 4))) =
      some ([.str 1, .str 4], [.str 2], [.str 2]) ∧
    ((countAt e'.app 2).map (·.nodes.length)) = some 3 ∧
    SuiteRight someDiff (deskFreshEnd someDiff (fun _ => true) (deskSchedule ++ rounds someDiff 3 e) (Desk.init fun _ => 0)) e'.app := by
  have hw : (Desk.run someDiff deskSchedule (Desk.init fun _ => 0)).q.waiting.length = 3 := by decide
  obtain ⟨e', he, h1, h2, h3, h4, h5, h6⟩ := C55_drained_partial someDiff_ok (fun _ => 0) deskSchedule
    (Desk.run someDiff deskSchedule (Desk.init fun _ => 0)) rfl (by rfl) (by rw [hw]; exact deskSchedule_fair)
  rw [hw] at he h6
  refine ⟨_, e', rfl, by rfl, hw, he, h1, ?_, ?_, ?_, h6⟩
  · rw [he]; decide
  · rw [he]; decide
  · rw [he]; decide

/-- The concrete case in the middle of the work: a request is being carried out, two are waiting. -/
example : (Desk.run someDiff (deskSchedule.take 8) (Desk.init fun _ => 0)).q.running.isSome = true ∧
    (Desk.run someDiff (deskSchedule.take 8) (Desk.init fun _ => 0)).q.waiting.length = 2 ∧
    DeskRight someDiff (deskFreshEnd someDiff (fun _ => true) (deskSchedule.take 8) (Desk.init fun _ => 0)) (Desk.init fun _ => 0)
      (Desk.run someDiff (deskSchedule.take 8) (Desk.init fun _ => 0)) (deskSchedule.take 8) := by
  refine ⟨by decide, by decide, C55_threads_partial someDiff_ok (fun _ => 0) _ ?_⟩
  have := (deskFairRun_append _ _ _ _).1 deskSchedule_fair
  rw [← List.take_append_drop 8 deskSchedule] at this
  exact ((deskFairRun_append _ _ _ _).1 this.1).1

/-- Another thread asks for a circular relation, then for a new node. -/
def stuckSchedule : List (DeskEv Nat) :=
  [ .main (.edit (.addNode (.new (.str 1) .none) .none)), .main (.edit (.addNode (.new (.str 2) .none) (.str 1))),
    .push .normal (.newRelationship (.str 2) (.str 1)), .push .low (.addNode (.new (.str 3) .none) .none), .tick 1, .done ]

theorem stuck_desk {d : Desk V} (h : Stuck d.q) (evs : List (DeskEv V)) :
    (Desk.run diff evs d).q.log = d.q.log ∧ ∀ p, d.q.of p <+: (Desk.run diff evs d).q.of p := by
  induction evs generalizing d with
  | nil => exact ⟨rfl, fun p => List.prefix_refl _⟩
  | cons ev evs ih =>
    have key : Stuck (d.step diff ev).q ∧ (d.step diff ev).q.log = d.q.log ∧ ∀ p, d.q.of p <+: (d.step diff ev).q.of p := by
      cases ev with
      | push p op =>
        obtain ⟨h1, h2⟩ := stuck_step d.q h (.push p op)
        refine ⟨h1, h2, fun p' => ?_⟩
        show d.q.of p' <+: (push d.q p op).of p'
        rw [push_of]
        split
        · rename_i hc
          rw [hc.1]; exact List.prefix_append _ _
        · exact List.prefix_refl _
      | tick src =>
        have e : Queue.step d.q (.tick src) = d.q := by
          rw [step_tick, if_neg]
          rintro ⟨hc, -⟩
          rw [h.notInstalled] at hc; cases hc
        have e' : (d.step diff (.tick src)).q = d.q := e
        rw [e']
        exact ⟨h, rfl, fun p => List.prefix_refl _⟩
      | done =>
        have e : d.step diff .done = d := by simp only [Desk.step, h.idle]
        rw [e]
        exact ⟨h, rfl, fun p => List.prefix_refl _⟩
      | main c =>
        have e : (d.step diff (.main c)).q = d.q := by simp only [Desk.step, h.idle]
        rw [e]
        exact ⟨h, rfl, fun p => List.prefix_refl _⟩
    obtain ⟨k1, k2, k3⟩ := key
    obtain ⟨i1, i2⟩ := ih k1
    exact ⟨i1.trans k2, fun p => (k3 p).trans (i2 p)⟩

/-- C55 is not literally true: a circular relation asked for by another thread raises an exception in the idle loop (`tree.py:278-282`),
which GLib answers by dropping the source. The request to add node 3 waits forever, whatever happens later. -/
theorem C55_refuted_stuck (evs : List (DeskEv Nat)) :
    .addNode (.new (.str 3) .none) .none ∈ (Desk.run someDiff (stuckSchedule ++ evs) (Desk.init fun _ => 0)).q.low ∧
    (Desk.run someDiff (stuckSchedule ++ evs) (Desk.init fun _ => 0)).q.log = [(.normal, .newRelationship (.str 2) (.str 1))] := by
  rw [desk_run_append]
  have hs : Stuck (Desk.run someDiff stuckSchedule (Desk.init fun _ => 0)).q := ⟨by rfl, by rfl, by rfl⟩
  obtain ⟨h1, h2⟩ := stuck_desk (diff := someDiff) hs evs
  refine ⟨(h2 .low).subset ?_, h1.trans (by rfl)⟩
  have : (Desk.run someDiff stuckSchedule (Desk.init fun _ => 0)).q.of .low = [.addNode (.new (.str 3) .none) .none] := by rfl
  rw [this]; simp

end Larch
