import Verif.Model.RunOnce

/-!
# What is claimed about actions that run once
-/

namespace Larch
namespace Spec

open RunOnce

/-- The node appears (again) in the history. -/
def appears (x : Id) (h : List Act) : Bool :=
  h.any fun
    | .signal _ ev y => ev = .added && y = x
    | _ => false

/-- How often `f` has to be executed by the end of the history: once for every time it was queued for a node that was not
displayed, if that node appeared afterwards. -/
def due (f : Nat) : List Act → Nat
  | [] => 0
  | .queue shown x g :: h =>
    (if g = f ∧ shown x = false ∧ appears x h then 1 else 0) + due f h
  | _ :: h => due f h

/-- The actions to be scheduled at once: those queued for a displayed node. -/
def atOnce : List Act → List Nat
  | [] => []
  | .queue shown x g :: h => if shown x then g :: atOnce h else atOnce h
  | _ :: h => atOnce h

/-- The signals of the history, each with the number of the callback registered for it by `RunOnce.start`. -/
def announced : List Act → List (Nat × Id)
  | [] => []
  | .signal _ ev x :: h => ((match ev with | .added => 0 | .deleted => 1 | .modified => 2), x) :: announced h
  | _ :: h => announced h

/-- The actions of the history fit a view: ids are proper and are not names of events, a node is displayed when it is
announced. -/
def Proper : Act → Prop
  | .queue _ x _ => x.falsy = false ∧ (∀ ev : SigEv, x ≠ ev.key) ∧ x ≠ reorderedKey
  | .signal shown ev x => x.falsy = false ∧ (∀ ev : SigEv, x ≠ ev.key) ∧ x ≠ reorderedKey ∧ (ev = .added → shown x = true)

end Spec
end Larch
