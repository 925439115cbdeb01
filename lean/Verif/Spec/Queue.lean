import Verif.Model.Queue

/-! # What is claimed about the request queue -/

namespace Larch
namespace Spec

open Queue

variable {E : Type} [DecidableEq E]

/-- The pushes of a schedule that found no equal request waiting in their queue, with their priority, in order. -/
def accepted : Q E → List (Ev E) → List (Prio × E)
  | _, [] => []
  | q, .push p e :: evs => (if e ∈ q.of p then [] else [(p, e)]) ++ accepted (step q (.push p e)) evs
  | q, ev :: evs => accepted (step q ev) evs

/-- The requests of priority `p` in a list of requests with priorities, in order. -/
def ofPrio (p : Prio) (l : List (Prio × E)) : List E := (l.filter (fun r => decide (r.1 = p))).map (·.2)

/-- No called function raises. -/
def NoRaises : List (Ev E) → Prop
  | [] => True
  | .done r :: evs => r = false ∧ NoRaises evs
  | _ :: evs => NoRaises evs

/-- One full turn of the idle loop: start the first installed source, and let the function it calls end. -/
def turn (q : Q E) : Q E :=
  match q.sources with
  | [] => q
  | s :: _ => step (step q (.tick s)) (.done false)

/-- `k` turns. -/
def turns : Nat → Q E → Q E
  | 0, q => q
  | k + 1, q => turns k (turn q)

/-- The priority `p` is handled before the priority `p'`. -/
def Before : Prio → Prio → Prop
  | .high, .normal => True
  | .high, .low => True
  | .normal, .low => True
  | _, _ => False

end Spec
end Larch

namespace Larch
namespace Spec

/-- Keep the first of equal elements. -/
def firsts {E : Type} [DecidableEq E] : List E → List E
  | [] => []
  | x :: l => x :: (firsts l).filter (fun y => decide (y ≠ x))

end Spec
end Larch
