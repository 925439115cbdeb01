import Verif.Model.Dicts
import Verif.Spec.Suite

/-!
# What is claimed about parameter dictionaries that the application keeps
-/

namespace Larch
namespace Spec

variable {V : Type}

/-- The filter called `n` holds dictionary `i`. -/
def Holds (a : HSuite V) (n : FName) (i : Nat) : Prop := ∃ f, a.bank.getFilter n = some f ∧ f.dic = some i

instance (a : HSuite V) (n : FName) (i : Nat) : Decidable (Holds a n i) :=
  match h : a.bank.getFilter n with
  | none => isFalse (by rintro ⟨f, hf, -⟩; rw [h] at hf; cases hf)
  | some f => if hd : f.dic = some i then isTrue ⟨f, h, hd⟩
    else isFalse (by rintro ⟨g, hg, hg'⟩; rw [h] at hg; cases hg; exact hd hg')

/-- The parameters of the filter called `n`, as the filter function gets them and as `'negate'` and `'flat'` are looked up. -/
def paramsOf (a : HSuite V) (n : FName) : Option Params := (a.now.bank.getFilter n).map (·.dic)

/-- The action concerns the filter `n` itself: it is added, removed, or given parameters. -/
def Concerns (n : FName) : HAct V → Prop
  | .add n' _ _ => n' = n
  | .remove n' => n' = n
  | .apply _ n' r _ _ => n' = n ∧ r ≠ none
  | _ => False

/-- Dictionaries are changed only while no filter holds them. -/
def Untouched (diff : List Id → List Id → List Id) : List (HAct V) → HSuite V → Prop
  | [], _ => True
  | c :: cs, a => (∀ i p, c = .write i p → ∀ n, ¬ Holds a n i) ∧ Untouched diff cs (a.act diff c).state

/-- The same history with dictionaries that are copied when they are handed over. -/
def copied (diff : List Id → List Id → List Id) : List (HAct V) → HSuite V → List (SuiteAct V)
  | [], _ => []
  | c :: cs, a => (c.now a.dicts).toList ++ copied diff cs (a.act diff c).state

/-- Which views are up to date after the action: a view that uses a filter holding the dictionary is not, once this is
changed. -/
def freshDict (fresh : Nat → Bool) (a : HSuite V) (c : HAct V) (k : Nat) : Bool :=
  match c with
  | .write i _ =>
    match viewAt a.now k with
    | some ft => fresh k && ft.applied.all fun n => decide (¬ Holds a n i)
    | none => fresh k
  | c =>
    match c.now a.dicts with
    | none => fresh k
    | some c' => freshNext fresh a.now c' k

/-- What the application keeps to: as in `SuiteFair`; and no dictionary held by the filter of a counter is changed. -/
def DictFair (fresh : Nat → Bool) (a : HSuite V) (c : HAct V) : Prop :=
  match c with
  | .write i _ => ∀ n, Holds a n i → NoCounterUses a.now n
  | c => ∀ c', c.now a.dicts = some c' → SuiteFair fresh a.now c'

/-- Every action of the history meets the condition. -/
def DictFairRun (diff : List Id → List Id → List Id) : (Nat → Bool) → List (HAct V) → HSuite V → Prop
  | _, [], _ => True
  | fresh, c :: cs, a => DictFair fresh a c ∧ DictFairRun diff (freshDict fresh a c) cs (a.act diff c).state

/-- Which views are up to date after the history? -/
def freshDictEnd (diff : List Id → List Id → List Id) : (Nat → Bool) → List (HAct V) → HSuite V → Nat → Bool
  | fresh, [], _ => fresh
  | fresh, c :: cs, a => freshDictEnd diff (freshDict fresh a c) cs (a.act diff c).state

end Spec
end Larch
