import Verif.Model.KV
import Verif.Model.Tree

/-!
# Filters and the filter bank

`filters_bank.py`. A filter function reads the node object it is given, and through it possibly the whole tree and
any other data `D` of the application; the model hands all of that to it.
-/

namespace Larch

/-- Names of filters: `bang n` is the name `n` with a `'!'` put in front; `plain k` are the other strings. -/
inductive FName where
  | plain (k : Nat)
  | bang (n : FName)
deriving DecidableEq, Repr

/-- A parameter dictionary: the entries `'negate'` and `'flat'` (the truth value of what is stored there), and
whatever else is stored. -/
structure Params where
  negate : Option Bool := none
  flat : Option Bool := none
  other : List (Nat × Nat) := []
deriving DecidableEq, Repr

/-- `bool(dic)` is false exactly for the empty dict. -/
def Params.truthy (d : Params) : Bool := d.negate.isSome || d.flat.isSome || !d.other.isEmpty

/-- `Filter` (`filters_bank.py:25-56`). -/
structure Filter (D : Type) where
  func : Tree → D → Id → Option Params → Bool
  dic : Params := {}

namespace Filter

variable {D : Type}

/-- `set_parameters` (`filters_bank.py:31-33`); `none` is Python's `None`. -/
def setParameters (f : Filter D) (p : Option Params) : Filter D :=
  match p with
  | some d => if d.truthy then { f with dic := d } else f
  | none => f

/-- `is_displayed` (`filters_bank.py:35-49`). -/
def isDisplayed (f : Filter D) (t : Tree) (d : D) (x : Id) : Bool :=
  if t.has x then
    let value := f.func t d x (if f.dic.truthy then some f.dic else none)
    if f.dic.negate = some true then !value else value
  else false

/-- `is_flat` (`filters_bank.py:54-56`), as a truth value. -/
def isFlat (f : Filter D) : Bool := f.dic.flat = some true

end Filter

/-- `FiltersBank` (`filters_bank.py:59-75`). -/
structure Bank (D : Type) where
  available : KV FName (Filter D) := []
  custom : KV FName (Filter D) := []

namespace Bank

variable {D : Type}

/-- `get_filter` (`filters_bank.py:79-86`). -/
def getFilter (b : Bank D) (n : FName) : Option (Filter D) :=
  if KV.has b.available n then KV.get? b.available n
  else if KV.has b.custom n then KV.get? b.custom n
  else none

/-- `has_filter` (`filters_bank.py:88-90`). -/
def hasFilter (b : Bank D) (n : FName) : Bool := KV.has b.available n || KV.has b.custom n

/-- `list_filters` (`filters_bank.py:92-96`). -/
def listFilters (b : Bank D) : List FName := KV.keys b.available ++ KV.keys b.custom

/-- `add_filter` (`filters_bank.py:98-113`): the result of the call and the bank. For a name with a `'!'` in front
the variable `filter_obj` is never assigned. -/
def addFilter (b : Bank D) (n : FName) (func : Tree → D → Id → Option Params → Bool) (p : Option Params) :
    Except Err Bool × Bank D :=
  if n ∉ b.listFilters then
    match n with
    | .bang _ => (.error .unboundLocal, b)
    | .plain k => (.ok true, { b with custom := KV.set b.custom (.plain k) (({ func := func } : Filter D).setParameters p) })
  else (.ok false, b)

/-- `remove_filter` (`filters_bank.py:115-128`). -/
def removeFilter (b : Bank D) (n : FName) : Bool × Bank D :=
  if ¬ KV.has b.available n then
    if KV.has b.custom n then (true, { b with custom := KV.del b.custom n })
    else (false, b)
  else (false, b)

/-- `set_parameters` on a filter object found in the bank. -/
def setParameters (b : Bank D) (n : FName) (p : Option Params) : Bank D :=
  if KV.has b.available n then
    match KV.get? b.available n with
    | some f => { b with available := KV.set b.available n (f.setParameters p) }
    | none => b
  else
    match KV.get? b.custom n with
    | some f => { b with custom := KV.set b.custom n (f.setParameters p) }
    | none => b

/-- Calls of the bank by the application. -/
inductive Call (D : Type) where
  | add (n : FName) (func : Tree → D → Id → Option Params → Bool) (p : Option Params)
  | remove (n : FName)

/-- What a call returns, and the bank after it. -/
def call (b : Bank D) : Call D → Except Err Bool × Bank D
  | .add n f p => b.addFilter n f p
  | .remove n => (.ok (b.removeFilter n).1, (b.removeFilter n).2)

/-- A history of calls. -/
def run (b : Bank D) : List (Call D) → Bank D
  | [] => b
  | c :: cs => run (b.call c).2 cs

end Bank
end Larch
