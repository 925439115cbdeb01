import Verif.Model.KV

/-!
# Named views and counters

`liblarch/__init__.py:56-63, 115-149`. Only the identity of the created objects is modelled here: object number `k` is
the `k`-th object created. `FilteredTree` and `ViewCount` have their own models.
-/

namespace Larch

/-- The dictionaries `__views` and `__viewscount` of `Tree`, and the number of objects created so far. Names are
numbered; 0 is `'main'`. -/
structure Views where
  views : KV Nat Nat
  viewscount : KV Nat Nat
  next : Nat
deriving DecidableEq, Repr

namespace Views

/-- `Tree.__init__` (`__init__.py:56-63`): the main view is object 0. -/
def init : Views := { views := KV.set [] 0 0, viewscount := [], next := 1 }

/-- `get_main_view` (`__init__.py:116-119`). -/
def getMainView (v : Views) : Option Nat := KV.get? v.views 0

/-- `get_viewtree` (`__init__.py:121-139`). -/
def getViewtree (v : Views) (name : Option Nat) : Nat × Views :=
  match name with
  | some n =>
    match KV.get? v.views n with
    | some o => (o, v)
    | none => (v.next, { v with views := KV.set v.views n v.next, next := v.next + 1 })
  | none => (v.next, { v with next := v.next + 1 })

/-- `get_viewcount` (`__init__.py:141-149`). -/
def getViewcount (v : Views) (name : Option Nat) : Nat × Views :=
  match name with
  | some n =>
    match KV.get? v.viewscount n with
    | some o => (o, v)
    | none => (v.next, { v with viewscount := KV.set v.viewscount n v.next, next := v.next + 1 })
  | none => (v.next, { v with next := v.next + 1 })

/-- Requests for views and counters. -/
inductive Call where
  | viewtree (name : Option Nat)
  | viewcount (name : Option Nat)
deriving DecidableEq, Repr

/-- One request: the object returned. -/
def call (v : Views) : Call → Nat × Views
  | .viewtree n => v.getViewtree n
  | .viewcount n => v.getViewcount n

/-- A history of requests: the objects returned. -/
def run (v : Views) : List Call → List Nat
  | [] => []
  | c :: cs => (v.call c).1 :: run (v.call c).2 cs

/-- The state after a history. -/
def after (v : Views) : List Call → Views
  | [] => v
  | c :: cs => after (v.call c).2 cs

end Views
end Larch
