import Verif.Model.Filters

/-! # What is claimed about filters -/

namespace Larch
namespace Spec

variable {D : Type}

/-- The parameters a new filter starts with: an empty or missing dictionary is no parameters. -/
def initialParams : Option Params → Params
  | none => {}
  | some d => d

/-- The filter bank as a map: adding fills an unused name, removing empties it. -/
def bankMap : List (Bank.Call D) → (FName → Option (Filter D)) → (FName → Option (Filter D))
  | [], m => m
  | .add n f p :: cs, m =>
    bankMap cs (fun x => if x = n ∧ m n = none then some ⟨f, initialParams p⟩ else m x)
  | .remove n :: cs, m => bankMap cs (fun x => if x = n then none else m x)

/-- No filter is added under a name with a `'!'` in front. -/
def PlainNames (cs : List (Bank.Call D)) : Prop :=
  ∀ n f p, Bank.Call.add n f p ∈ cs → ∃ k, n = .plain k

end Spec
end Larch
