import Verif.Model.Queue
import Verif.Model.Tree

/-!
# Tree requests made from another thread

The public methods of `MainTree` push their work to the queue (`tree.py:81-100`); from the thread that made the
tree the work is done at once (`processqueue.py:65-68`), from another thread it waits for the idle loop.

Requests are compared by their content. Two node objects with the same content would be different requests for
Python; no theorem below adds two such nodes.
-/

namespace Larch
namespace Queue

/-- The priority used by the methods of `MainTree` (`tree.py:81-95`, default arguments). The other edits are
methods of nodes, which decide what to request by looking at the tree. -/
def prioOf : Op → Option Prio
  | .addNode _ _ => some .low
  | .delNode _ _ => some .normal
  | .refreshNode _ => some .low
  | .newRelationship _ _ => some .normal
  | .breakRelationship _ _ => some .normal
  | _ => none

/-- Push a list of requests. -/
def pushAll (q : Q Op) : List (Prio × Op) → Q Op
  | [] => q
  | (p, op) :: l => pushAll (push q p op) l

/-- One turn of the idle loop with the tree: the request taken is executed by `process_queue`
(`processqueue.py:41-47`); if it raises, the idle loop drops the source. -/
def turnTree (q : Q Op) (s : St) : Q Op × St :=
  match q.sources with
  | [] => (q, s)
  | src :: _ =>
    let q1 := Queue.step q (.tick src)
    match q1.running with
    | none => (q1, s)
    | some (_, op) =>
      match Larch.step s op with
      | .ok s' => (Queue.step q1 (.done false), s')
      | .err _ s' => (Queue.step q1 (.done true), s')

/-- `k` turns. -/
def turnsTree : Nat → Q Op → St → Q Op × St
  | 0, q, s => (q, s)
  | k + 1, q, s => turnsTree k (turnTree q s).1 (turnTree q s).2

end Queue
end Larch
