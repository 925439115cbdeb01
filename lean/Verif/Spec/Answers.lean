import Verif.Model.Answers
import Verif.Spec.Suite

/-!
# What is claimed about filter functions that return any Python value
-/

namespace Larch
namespace Spec

variable {V : Type} {D : Type}

/-- The function followed by `bool`. -/
def asBool (f : Tree → D → Id → Option Params → PyVal) : Tree → D → Id → Option Params → Bool :=
  fun t d x p => (f t d x p).truth

/-- The same action by an application whose filter functions end with `return bool(...)`. -/
def withBools : RAct V → SuiteAct V
  | .edit op => .edit op
  | .change x v => .change x v
  | .bank (.add n f p) => .bank (.add n (asBool f) p)
  | .bank (.remove n) => .bank (.remove n)
  | .getView n r => .getView n r
  | .getCount n r => .getCount n r
  | .onView k c => .onView k c
  | .onCount k c => .onCount k c

/-- `True`, `False`, 0 or an odd number. -/
def Plain : PyVal → Prop
  | .bool _ => True
  | .int n => n = 0 ∨ n % 2 = 1
  | _ => False

/-- A `bool` or an `int`. -/
def IsNumber : PyVal → Prop
  | .bool _ => True
  | .int _ => True
  | _ => False

/-- `True` or an odd number. -/
def IsOdd : PyVal → Prop
  | .bool b => b = true
  | .int n => n % 2 = 1
  | _ => False

/-- There are no counters, or all filter functions give plain answers. -/
def PlainWhereCounted (cs : List (RAct V)) : Prop :=
  (∀ n r, RAct.getCount n r ∉ cs) ∨ ∀ n f p, RAct.bank (.add n f p) ∈ cs → ∀ t d x q, Plain (f t d x q)

/-- `x` is a node of the tree, and every filter of the list is in the bank and gives a true answer for it. -/
def TrueOf (a : RSuite V) (applied : List FName) (x : Id) : Prop :=
  a.s.t.has x = true ∧ ∀ n ∈ applied, ∃ f, a.bank.getFilter n = some f ∧ (f.isDisplayed a.s.t a.data x).truth = true

/-- C73: every view up to date shows the nodes for which all answers are true, and every counter counts them. -/
structure GoesByTruth (fresh : Nat → Bool) (a : RSuite V) : Prop where
  views : ∀ (k : Nat) v, k ≠ 0 → a.objs[k]? = some (Obj.view v) → fresh k = true → ∃ ft, v.ft = some ft ∧
    ∃ l, ft.allNodes = .ok l ∧ l.Nodup ∧ ∀ x, x ∈ l ↔ TrueOf a ft.applied x
  counts : ∀ (k : Nat) c, a.objs[k]? = some (Obj.count c) →
    ∃ l : List Id, l.Nodup ∧ (∀ x, x ∈ l ↔ TrueOf a c.applied x) ∧ c.nNodes = l.length

end Spec
end Larch
