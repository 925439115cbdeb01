/-!
# The request queue

`SyncQueue` (`processqueue.py`). The bodies guarded by `self._lock` (`processqueue.py:78-84, 94-110`) are atomic
steps; everything else interleaves freely. `E` stands for the queued tuples `(func, arg, ...)`, compared with `==`.

The idle loop of GLib is modelled by the list `sources` of installed idle sources whose function is
`process_queue`: a source is run again and again while it is installed; it is taken out by
`GObject.source_remove` or when its function does not return `True` (here: raises).
-/

namespace Larch
namespace Queue

/-- `priority='high'`, none, `priority='low'`. -/
inductive Prio where
  | high | normal | low
deriving DecidableEq, Repr

/-- `SyncQueue` (`processqueue.py:28-39`) and the idle loop. `running` is the request taken by `process` whose
function is being called by the source `runningFrom`; `log` lists the requests called so far, with their queue. -/
structure Q (E : Type) where
  vip : List E := []
  normal : List E := []
  low : List E := []
  handler : Option Nat := none
  sources : List Nat := []
  nextSource : Nat := 1
  running : Option (Prio × E) := none
  runningFrom : Nat := 0
  log : List (Prio × E) := []

variable {E : Type} [DecidableEq E]

/-- The queue of a priority (`processqueue.py:70-76`). -/
def Q.of (q : Q E) : Prio → List E
  | .high => q.vip
  | .normal => q.normal
  | .low => q.low

/-- Replace the queue of a priority. -/
def Q.setOf (q : Q E) (p : Prio) (l : List E) : Q E :=
  match p with
  | .high => { q with vip := l }
  | .normal => { q with normal := l }
  | .low => { q with low := l }

/-- `if self._handler is None: self._handler = GObject.idle_add(...)` (`processqueue.py:81-82`). -/
def arm (q : Q E) : Q E :=
  match q.handler with
  | some _ => q
  | none =>
    { q with handler := some q.nextSource, sources := q.sources ++ [q.nextSource], nextSource := q.nextSource + 1 }

/-- `push` from a thread that is not the origin thread (`processqueue.py:49-84`). -/
def push (q : Q E) (p : Prio) (e : E) : Q E :=
  if e ∈ q.of p then q else arm (q.setOf p (q.of p ++ [e]))

/-- Take the next request (`processqueue.py:95-102`). -/
def take (q : Q E) : Q E :=
  match q.vip, q.normal, q.low with
  | e :: l, _, _ => { q with vip := l, running := some (.high, e) }
  | [], e :: l, _ => { q with normal := l, running := some (.normal, e) }
  | [], [], e :: l => { q with low := l, running := some (.low, e) }
  | [], [], [] => q

/-- Take the handler out if nothing is left (`processqueue.py:104-109`). -/
def disarm (q : Q E) : Q E :=
  if q.normal.isEmpty && q.vip.isEmpty && q.low.isEmpty then
    match q.handler with
    | some h => { q with sources := q.sources.erase h, handler := none }
    | none => q
  else q

/-- `process` (`processqueue.py:86-111`). -/
def process (q : Q E) : Q E := disarm (take q)

/-- What happens next. `push` is a request of any other thread; `tick` is the idle loop starting `process_queue`
of the source `src` (`processqueue.py:41-47`) up to the call of the function; `done` is the end of that
function, which may raise. -/
inductive Ev (E : Type) where
  | push (p : Prio) (e : E)
  | tick (src : Nat)
  | done (raises : Bool)

/-- One step. Events that cannot happen (a source that is not installed, a second dispatch while a function is
running in the main thread) change nothing. -/
def step (q : Q E) : Ev E → Q E
  | .push p e => push q p e
  | .tick src => if src ∈ q.sources ∧ q.running = none then process { q with runningFrom := src } else q
  | .done raises =>
    match q.running with
    | none => q
    | some r =>
      { q with running := none, log := q.log ++ [r],
               sources := if raises then q.sources.erase q.runningFrom else q.sources }

/-- A schedule. -/
def run (q : Q E) : List (Ev E) → Q E
  | [] => q
  | ev :: evs => run (step q ev) evs

/-- All waiting requests. -/
def Q.waiting (q : Q E) : List E := q.vip ++ q.normal ++ q.low

end Queue
end Larch
