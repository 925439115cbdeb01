import Verif.Model.Callbacks

/-! # What is claimed about callbacks -/

namespace Larch
namespace Spec

variable {F : Type}

/-- The registrations of an event that are in force, with their keys, oldest first: a registration is appended
with the key that was returned, a deregistration strikes out the registration with that key. The registry `r` is
only used to know the returned keys. -/
def inForce (ev : Nat) : Registry F → List (Nat × F) → List (Registry.Call F) → List (Nat × F)
  | _, live, [] => live
  | r, live, .register ev' func :: cs =>
    inForce ev (r.step (.register ev' func)) (if ev' = ev then live ++ [((r.register ev' func).2, func)] else live) cs
  | r, live, .deregister ev' key :: cs =>
    inForce ev (r.step (.deregister ev' key)) (if ev' = ev then live.filter (fun e => decide (e.1 ≠ key)) else live) cs

end Spec
end Larch
