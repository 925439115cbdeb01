import Verif.Model.Desk
import Verif.Spec.Queue
import Verif.Spec.Suite

/-!
# What is claimed about an application with threads
-/

namespace Larch
namespace Spec

variable {V : Type}

open Queue

/-- Something done to the application: a request of another thread, or an action of the main thread. -/
inductive Deed (V : Type) where
  | request (p : Prio) (op : Op)
  | own (c : SuiteAct V)

/-- The deed as an action of an application without threads. -/
def Deed.act : Deed V → SuiteAct V
  | .request _ op => .edit op
  | .own c => c

/-- The request, if the deed is one. -/
def Deed.request? : Deed V → Option (Prio × Op)
  | .request p op => some (p, op)
  | .own _ => none

/-- What an event does to the application. -/
def deed (d : Desk V) : DeskEv V → List (Deed V)
  | .push _ _ => []
  | .tick _ => []
  | .done =>
    match d.q.running with
    | none => []
    | some (p, op) => [.request p op]
  | .main c =>
    match d.q.running with
    | none => [.own c]
    | some _ => []

/-- What a schedule does to the application, in order. -/
def deeds (diff : List Id → List Id → List Id) : List (DeskEv V) → Desk V → List (Deed V)
  | [], _ => []
  | ev :: evs, d => deed d ev ++ deeds diff evs (d.step diff ev)

/-- The requests made during a schedule, in order, without those that found an equal one waiting in the same queue. -/
def requested (diff : List Id → List Id → List Id) : List (DeskEv V) → Desk V → List (Prio × Op)
  | [], _ => []
  | .push p op :: evs, d => (if op ∈ d.q.of p then [] else [(p, op)]) ++ requested diff evs (d.step diff (.push p op))
  | ev :: evs, d => requested diff evs (d.step diff ev)

/-- Which views are up to date after the event. -/
def deskFresh (fresh : Nat → Bool) (d : Desk V) (ev : DeskEv V) : Nat → Bool :=
  match deed d ev with
  | e :: _ => freshNext fresh d.app e.act
  | [] => fresh

/-- Which views are up to date after the schedule. -/
def deskFreshEnd (diff : List Id → List Id → List Id) : (Nat → Bool) → List (DeskEv V) → Desk V → Nat → Bool
  | fresh, [], _ => fresh
  | fresh, ev :: evs, d => deskFreshEnd diff (deskFresh fresh d ev) evs (d.step diff ev)

/-- What the threads keep to. Other threads may make requests at any time, with any priority. When something is done to
the application, it meets the conditions of C54 (`SuiteFair`); requests do not raise an exception by themselves. -/
def DeskFair (fresh : Nat → Bool) (d : Desk V) : DeskEv V → Prop
  | .push _ _ => True
  | .tick _ => True
  | .done => ∀ p op, d.q.running = some (p, op) → SuiteFair fresh d.app (.edit op) ∧ (step d.app.s op).isOk = true
  | .main c => d.q.running = none → SuiteFair fresh d.app c

/-- Every event of the schedule meets the condition. -/
def DeskFairRun (diff : List Id → List Id → List Id) : (Nat → Bool) → List (DeskEv V) → Desk V → Prop
  | _, [], _ => True
  | fresh, ev :: evs, d => DeskFair fresh d ev ∧ DeskFairRun diff (deskFresh fresh d ev) evs (d.step diff ev)

/-- The state after a schedule is right. -/
structure DeskRight (diff : List Id → List Id → List Id) (fresh : Nat → Bool) (start d : Desk V) (evs : List (DeskEv V)) : Prop where
  /-- The application is where it would be without threads, after the deeds one after the other. -/
  serial : Suite.run diff ((deeds diff evs start).map Deed.act) start.app = .ok d.app
  /-- All views and counters are right. -/
  app : SuiteRight diff fresh d.app
  /-- The requests carried out are the ones the queue has called. -/
  called : (deeds diff evs start).filterMap Deed.request? = d.q.log
  /-- No request is lost or carried out twice; requests of one priority keep their order. -/
  ledger : ∀ p, ofPrio p d.q.log ++ ofPrio p d.q.running.toList ++ d.q.of p = ofPrio p (requested diff evs start)
  /-- The idle loop works if and only if something is waiting. -/
  armed : d.q.sources ≠ [] ↔ d.q.waiting ≠ []
  /-- If nothing runs and something is waiting, the next round of the idle loop takes the oldest request of the highest
  priority. -/
  next : d.q.running = none → d.q.waiting ≠ [] → ∃ src ∈ d.q.sources, ∃ p op, (d.step diff (.tick src)).q.running = some (p, op) ∧
    (d.q.of p).head? = some op ∧ ∀ p', Before p' p → d.q.of p' = []

/-- `k` rounds of the idle loop. -/
def rounds (diff : List Id → List Id → List Id) : Nat → Desk V → List (DeskEv V)
  | 0, _ => []
  | k + 1, d =>
    match d.q.sources with
    | [] => []
    | src :: _ => .tick src :: .done :: rounds diff k ((d.step diff (.tick src)).step diff .done)

/-- The waiting requests, higher priorities first. -/
def inLine (q : Q Op) : List (Prio × Op) :=
  q.vip.map (fun e => (Prio.high, e)) ++ q.normal.map (fun e => (Prio.normal, e)) ++ q.low.map (fun e => (Prio.low, e))

end Spec
end Larch
