import Verif.Spec.Queue
import Verif.Model.Deferred

/-! # What is claimed about deferred requests -/

namespace Larch
namespace Spec

open Queue

/-- The order in which requests pushed to an idle queue are executed: high, normal, low; within a priority in push
order, without the pushes for which an equal one is waiting. -/
def executionOrder (reqs : List (Prio × Op)) : List Op :=
  firsts (ofPrio .high reqs) ++ firsts (ofPrio .normal reqs) ++ firsts (ofPrio .low reqs)

end Spec
end Larch
