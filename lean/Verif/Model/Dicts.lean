import Verif.Model.Suite

/-!
# Parameter dictionaries that the application keeps

`add_filter` and `apply_filter` do not copy the dictionary they are given: `Filter.set_parameters` stores the object itself
(`filters_bank.py:31-33`). The application, or another filter, may hold the same object, and what is in it may change later.
Here filters hold references to dictionaries; in `Model/Filters.lean` they hold the contents.

Simplification: filter functions do not change the dictionary they are handed.
-/

namespace Larch

/-- The dictionaries the application has made, by number; those not made yet count as empty. -/
abbrev Dicts := Nat → Params

namespace Dicts

/-- Dictionary `i` is changed in any way, or made. -/
def write (m : Dicts) (i : Nat) (p : Params) : Dicts := fun j => if j = i then p else m j

/-- An argument `parameters`: a dictionary or `None`. -/
def arg (m : Dicts) (r : Option Nat) : Option Params := r.map m

end Dicts

/-- `Filter` (`filters_bank.py:25-29`). `dic` is the dictionary stored; `none` is the one made in `__init__`, which nobody else
has and which stays empty. -/
structure HFilter (D : Type) where
  func : Tree → D → Id → Option Params → Bool
  dic : Option Nat := none

namespace HFilter

variable {D : Type}

/-- `set_parameters` (`filters_bank.py:31-33`). -/
def setParameters (m : Dicts) (f : HFilter D) (r : Option Nat) : HFilter D :=
  match r with
  | some i => if (m i).truthy then { f with dic := some i } else f
  | none => f

/-- The filter with the contents its dictionary has now. -/
def now (m : Dicts) (f : HFilter D) : Filter D :=
  ⟨f.func, match f.dic with
    | some i => m i
    | none => {}⟩

end HFilter

/-- `FiltersBank` (`filters_bank.py:59-75`). -/
structure HBank (D : Type) where
  available : KV FName (HFilter D) := []
  custom : KV FName (HFilter D) := []

namespace HBank

variable {D : Type}

/-- `get_filter` (`filters_bank.py:79-86`). -/
def getFilter (b : HBank D) (n : FName) : Option (HFilter D) :=
  if KV.has b.available n then KV.get? b.available n
  else if KV.has b.custom n then KV.get? b.custom n
  else none

/-- `list_filters` (`filters_bank.py:92-96`). -/
def listFilters (b : HBank D) : List FName := KV.keys b.available ++ KV.keys b.custom

/-- `add_filter` (`filters_bank.py:98-113`), the bank after it. -/
def addFilter (m : Dicts) (b : HBank D) (n : FName) (func : Tree → D → Id → Option Params → Bool) (r : Option Nat) : HBank D :=
  if n ∉ b.listFilters then
    match n with
    | .bang _ => b
    | .plain k => { b with custom := KV.set b.custom (.plain k) (({ func := func } : HFilter D).setParameters m r) }
  else b

/-- `remove_filter` (`filters_bank.py:115-128`), the bank after it. -/
def removeFilter (b : HBank D) (n : FName) : HBank D :=
  if ¬ KV.has b.available n then
    if KV.has b.custom n then { b with custom := KV.del b.custom n } else b
  else b

/-- `set_parameters` on a filter object found in the bank (`filteredtree.py:612-616`). -/
def setParameters (m : Dicts) (b : HBank D) (n : FName) (r : Option Nat) : HBank D :=
  if KV.has b.available n then
    match KV.get? b.available n with
    | some f => { b with available := KV.set b.available n (f.setParameters m r) }
    | none => b
  else
    match KV.get? b.custom n with
    | some f => { b with custom := KV.set b.custom n (f.setParameters m r) }
    | none => b

/-- The bank with the contents the dictionaries have now. -/
def now (m : Dicts) (b : HBank D) : Bank D :=
  ⟨b.available.map fun e => (e.1, e.2.now m), b.custom.map fun e => (e.1, e.2.now m)⟩

end HBank

/-- What the application can do: as `SuiteAct`, but `parameters` are dictionaries it keeps, and it can write into these. -/
inductive HAct (V : Type) where
  | write (i : Nat) (p : Params)
  | add (n : FName) (func : Tree → (Id → V) → Id → Option Params → Bool) (r : Option Nat)
  | apply (k : Nat) (n : FName) (r : Option Nat) (reset refresh : Bool)
  | remove (n : FName)
  | edit (op : Op)
  | change (x : Id) (v : V)
  | getView (name : Option Nat) (refresh : Bool)
  | getCount (name : Option Nat) (refresh : Bool)
  | unapply (k : Nat) (n : FName) (refresh : Bool)
  | reset (k : Nat) (refresh : Bool)
  | currentState (k : Nat)
  | nNodes (k : Nat) (fs : List FName)
  | getNodes (k : Nat) (fs : List FName)
  | nChildren (k : Nat) (x : Id) (recursive : Bool)
  | onCount (k : Nat) (c : CountCall)

variable {V : Type}

/-- The action with the contents the dictionaries have now; nothing for a change of a dictionary. -/
def HAct.now (m : Dicts) : HAct V → Option (SuiteAct V)
  | .write _ _ => none
  | .add n f r => some (.bank (.add n f (m.arg r)))
  | .apply k n r rs rf => some (.onView k (.apply n (m.arg r) rs rf))
  | .remove n => some (.bank (.remove n))
  | .edit op => some (.edit op)
  | .change x v => some (.change x v)
  | .getView name rf => some (.getView name rf)
  | .getCount name rf => some (.getCount name rf)
  | .unapply k n rf => some (.onView k (.unapply n rf))
  | .reset k rf => some (.onView k (.reset rf))
  | .currentState k => some (.onView k .currentState)
  | .nNodes k fs => some (.onView k (.nNodes fs))
  | .getNodes k fs => some (.onView k (.getNodes fs))
  | .nChildren k x r => some (.onView k (.nChildren x r))
  | .onCount k c => some (.onCount k c)

/-- `Tree` (`__init__.py:56-63`) as `Suite`, with the dictionaries. -/
structure HSuite (V : Type) where
  dicts : Dicts
  bank : HBank (Id → V)
  s : St
  data : Id → V
  names : Views
  objs : List Obj

namespace HSuite

/-- A new application; it has made no dictionaries. -/
def init (d : Id → V) : HSuite V := ⟨fun _ => {}, {}, St.init, d, Views.init, [.view VT.newStatic]⟩

/-- The application with the contents the dictionaries have now: what its filters, views and counters read. -/
def now (a : HSuite V) : Suite V := ⟨a.s, a.data, a.bank.now a.dicts, a.names, a.objs⟩

/-- Which dictionaries the filters hold after the action. `apply_filter` comes to the bank only for a view that takes filters
(`viewtree.py:216-223`). -/
def bankAfter (a : HSuite V) : HAct V → HBank (Id → V)
  | .add n f r => a.bank.addFilter a.dicts n f r
  | .remove n => a.bank.removeFilter n
  | .apply k n r _ _ =>
    match a.objs[k]? with
    | some (.view v) =>
      match v.filtersRefused, v.ft with
      | none, some _ => a.bank.setParameters a.dicts n r
      | _, _ => a.bank
    | _ => a.bank
  | _ => a.bank

/-- Take over what an action did to the tree, the data, the views and the counters. -/
def take (a : HSuite V) (c : HAct V) (b : Suite V) : HSuite V := ⟨a.dicts, a.bankAfter c, b.s, b.data, b.names, b.objs⟩

/-- One action. Changing a dictionary does nothing else. Everything else is done with what is in the dictionaries at that
moment. -/
def act (diff : List Id → List Id → List Id) (a : HSuite V) (c : HAct V) : Res (HSuite V) :=
  match c with
  | .write i p => .ok { a with dicts := a.dicts.write i p }
  | c =>
    match c.now a.dicts with
    | none => .ok a
    | some c' =>
      match a.now.act diff c' with
      | .ok b => .ok (a.take c b)
      | .err e b => .err e (a.take c b)

/-- A history of actions, ended by the first exception. -/
def run (diff : List Id → List Id → List Id) : List (HAct V) → HSuite V → Res (HSuite V)
  | [], a => .ok a
  | c :: cs, a => (a.act diff c).andThen (run diff cs)

end HSuite
end Larch
