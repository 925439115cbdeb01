import Verif.Model.Suite
import Verif.Model.Deferred

/-!
# An application whose other threads make requests

The thread that made the tree runs the main loop and uses the views (`processqueue.py:52-63`); other threads call `add_node`,
`del_node`, `refresh_node` and the like, which put requests into the queue (`tree.py:80-95`). The idle loop takes them out one by
one and carries them out on the tree, and all views and counters react.

Simplification: other threads do nothing but make requests; in particular they neither read the tree nor change data of nodes. A
request has its effect at the moment when its function ends; the other threads can not see the difference.
-/

namespace Larch

/-- The application and the request queue of its tree (`tree.py:42`). -/
structure Desk (V : Type) where
  app : Suite V
  q : Queue.Q Op

/-- What happens next: another thread makes a request; the idle loop starts `process_queue` of the source `src`; the function of
the request that was taken runs to its end; the main thread does something on its own. -/
inductive DeskEv (V : Type) where
  | push (p : Queue.Prio) (op : Op)
  | tick (src : Nat)
  | done
  | main (c : SuiteAct V)

namespace Desk

variable {V : Type}

/-- A new application (`tree.py:28-42`, `__init__.py:56-63`). -/
def init (d : Id → V) : Desk V := ⟨Suite.init d, {}⟩

/-- One event. A request raises (`processqueue.py:41-47`) if the edit does or if an observer does. The main thread does nothing
else while a request runs: such an event can not happen and changes nothing. -/
def step (diff : List Id → List Id → List Id) (d : Desk V) : DeskEv V → Desk V
  | .push p op => { d with q := Queue.step d.q (.push p op) }
  | .tick src => { d with q := Queue.step d.q (.tick src) }
  | .done =>
    match d.q.running with
    | none => d
    | some (_, op) =>
      ⟨(d.app.edit diff op).state,
        Queue.step d.q (.done (!((Larch.step d.app.s op).isOk && (d.app.edit diff op).isOk)))⟩
  | .main c =>
    match d.q.running with
    | none => { d with app := (d.app.act diff c).state }
    | some _ => d

/-- A schedule. -/
def run (diff : List Id → List Id → List Id) : List (DeskEv V) → Desk V → Desk V
  | [], d => d
  | ev :: evs, d => run diff evs (d.step diff ev)

end Desk
end Larch
