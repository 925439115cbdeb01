import Mathlib.Data.Int.Bitwise
import Verif.Model.Suite

/-!
# Filter functions that return any Python value

A filter function may return any object; nothing in the library turns its answer into a `bool`. In the rest of the model
the answers are `Bool`. Here they are Python values, and the places where an answer is read are modelled again: the filter
(`filters_bank.py:35-49`), the view (`filteredtree.py:335-348, 503-514`) and the counter (`viewcount.py:82-90`). The
definitions of the bank, the view, the counter and the whole application are repeated with these answers.

Simplification: classes that define `__rand__` are left out; for every object that is neither a `bool` nor an `int`,
`True & answer` raises `TypeError`. (`bool(answer)` does not raise.)
-/

namespace Larch

/-- What a filter function returns. `other` is any other object, with its truth value. -/
inductive PyVal where
  | none
  | bool (b : Bool)
  | int (n : Int)
  | other (truthy : Bool)
deriving DecidableEq, Repr

namespace PyVal

/-- `bool(a)`. -/
def truth : PyVal → Bool
  | none => false
  | bool b => b
  | int n => decide (n ≠ 0)
  | other t => t

/-- The number a `bool` or an `int` is. -/
def num : PyVal → Option Int
  | bool b => some (if b then 1 else 0)
  | int n => some n
  | _ => Option.none

/-- `a & b`, for `a` a `bool` or an `int`. -/
def meet (a b : PyVal) : Except Err PyVal :=
  match a, b with
  | bool p, bool q => .ok (bool (p && q))
  | a, b =>
    match a.num, b.num with
    | some m, some n => .ok (int (Int.land m n))
    | _, _ => .error .typeError

end PyVal

/-- `Filter` (`filters_bank.py:25-56`). -/
structure RFilter (D : Type) where
  func : Tree → D → Id → Option Params → PyVal
  dic : Params := {}

namespace RFilter

variable {D : Type}

/-- `set_parameters` (`filters_bank.py:31-33`). -/
def setParameters (f : RFilter D) (p : Option Params) : RFilter D :=
  match p with
  | some d => if d.truthy then { f with dic := d } else f
  | none => f

/-- `is_displayed` (`filters_bank.py:35-49`): the answer of the function as it is, or its negation. -/
def isDisplayed (f : RFilter D) (t : Tree) (d : D) (x : Id) : PyVal :=
  if t.has x then
    let value := f.func t d x (if f.dic.truthy then some f.dic else none)
    if f.dic.negate = some true then .bool (!value.truth) else value
  else .bool false

/-- `is_flat` (`filters_bank.py:54-56`), as a truth value. -/
def isFlat (f : RFilter D) : Bool := f.dic.flat = some true

end RFilter

/-- `FiltersBank` (`filters_bank.py:59-75`). -/
structure RBank (D : Type) where
  available : KV FName (RFilter D) := []
  custom : KV FName (RFilter D) := []

namespace RBank

variable {D : Type}

/-- `get_filter` (`filters_bank.py:79-86`). -/
def getFilter (b : RBank D) (n : FName) : Option (RFilter D) :=
  if KV.has b.available n then KV.get? b.available n
  else if KV.has b.custom n then KV.get? b.custom n
  else none

/-- `has_filter` (`filters_bank.py:88-90`). -/
def hasFilter (b : RBank D) (n : FName) : Bool := KV.has b.available n || KV.has b.custom n

/-- `list_filters` (`filters_bank.py:92-96`). -/
def listFilters (b : RBank D) : List FName := KV.keys b.available ++ KV.keys b.custom

/-- `add_filter` (`filters_bank.py:98-113`). -/
def addFilter (b : RBank D) (n : FName) (func : Tree → D → Id → Option Params → PyVal) (p : Option Params) :
    Except Err Bool × RBank D :=
  if n ∉ b.listFilters then
    match n with
    | .bang _ => (.error .unboundLocal, b)
    | .plain k => (.ok true, { b with custom := KV.set b.custom (.plain k) (({ func := func } : RFilter D).setParameters p) })
  else (.ok false, b)

/-- `remove_filter` (`filters_bank.py:115-128`). -/
def removeFilter (b : RBank D) (n : FName) : Bool × RBank D :=
  if ¬ KV.has b.available n then
    if KV.has b.custom n then (true, { b with custom := KV.del b.custom n })
    else (false, b)
  else (false, b)

/-- `set_parameters` on a filter object found in the bank. -/
def setParameters (b : RBank D) (n : FName) (p : Option Params) : RBank D :=
  if KV.has b.available n then
    match KV.get? b.available n with
    | some f => { b with available := KV.set b.available n (f.setParameters p) }
    | none => b
  else
    match KV.get? b.custom n with
    | some f => { b with custom := KV.set b.custom n (f.setParameters p) }
    | none => b

/-- Calls of the bank by the application. -/
inductive Call (D : Type) where
  | add (n : FName) (func : Tree → D → Id → Option Params → PyVal) (p : Option Params)
  | remove (n : FName)

/-- What a call returns, and the bank after it. -/
def call (b : RBank D) : Call D → Except Err Bool × RBank D
  | .add n f p => b.addFilter n f p
  | .remove n => (.ok (b.removeFilter n).1, (b.removeFilter n).2)

end RBank

/-! ### The view -/

namespace FT

variable {D : Type}

/-- `__is_displayed` (`filteredtree.py:335-348`): the loop over the applied filters. -/
def rLoop (b : RBank D) (t : Tree) (d : D) (x : Id) : List FName → Bool
  | [] => true
  | n :: l =>
    match b.getFilter n with
    | some f => if !(f.isDisplayed t d x).truth then false else rLoop b t d x l
    | none => false

/-- `__is_displayed` (`filteredtree.py:335-348`). -/
def rAccepts (b : RBank D) (t : Tree) (d : D) (applied : List FName) (x : Id) : Bool :=
  if !x.falsy && t.has x then rLoop b t d x applied else false

/-- What the view reads. -/
def rEnv (diff : List Id → List Id → List Id) (b : RBank D) (t : Tree) (d : D) (ft : FT) : VEnv where
  root := ft.root
  has := t.has
  par := t.getParents
  chi := t.getChildren
  top := t.rootChildren
  disp := rAccepts b t d ft.applied
  flat := ft.flat
  diff := diff

/-- The loop at `filteredtree.py:313-317`. -/
def rAnyFlat (b : RBank D) (applied : List FName) : Bool := applied.any fun n =>
  match b.getFilter n with
  | some f => f.isFlat
  | none => false

/-- `refilter` (`filteredtree.py:309-333`). -/
def rRefilter (diff : List Id → List Id → List Id) (b : RBank D) (t : Tree) (d : D) (ft : FT) : Res FT :=
  let ft1 : FT := { ft with flat := rAnyFlat b ft.applied }
  ft1.withView ((rEnv diff b t d ft1).refilter (depth t ft.view) (rounds t) ft1.view)

/-- `__init__` (`filteredtree.py:39-77`). -/
def rNew (diff : List Id → List Id → List Id) (b : RBank D) (t : Tree) (d : D) (root : Id) (refresh : Bool) : Res FT :=
  let ft : FT := { root := root, view := ⟨View.rootOnly root, []⟩ }
  if refresh then ft.rRefilter diff b t d else .ok ft

/-- `__external_modify` (`filteredtree.py:129-130`). -/
def rReact (diff : List Id → List Id → List Id) (b : RBank D) (d : D) (n : Note) (ft : FT) : Res FT :=
  ft.withView ((rEnv diff b n.snap d ft).update (depth n.snap ft.view) n.nid .both ft.view)

/-- `apply_filter` (`filteredtree.py:598-630`). -/
def rApplyFilter (diff : List Id → List Id → List Id) (b : RBank D) (t : Tree) (d : D) (ft : FT) (n : FName)
    (params : Option Params) (reset refresh : Bool) : Bool × RBank D × Res FT :=
  let ft1 : FT := if reset then { ft with applied := [] } else ft
  if givesParams params && (b.getFilter n).isNone then (false, b, .err .valueError ft1)
  else
    let b1 := if givesParams params then b.setParameters n params else b
    let isNew := decide (n ∉ ft1.applied)
    let ft2 : FT := if isNew then { ft1 with applied := ft1.applied ++ [n] } else ft1
    if refresh && (givesParams params || isNew) then (isNew, b1, ft2.rRefilter diff b1 t d)
    else (isNew, b1, .ok ft2)

/-- `unapply_filter` (`filteredtree.py:632-645`). -/
def rUnapplyFilter (diff : List Id → List Id → List Id) (b : RBank D) (t : Tree) (d : D) (ft : FT) (n : FName)
    (refresh : Bool) : Bool × Res FT :=
  if n ∈ ft.applied then
    let ft1 : FT := { ft with applied := ft.applied.erase n }
    (true, if refresh then ft1.rRefilter diff b t d else .ok ft1)
  else (false, .ok ft)

/-- `reset_filters` (`filteredtree.py:647-654`). -/
def rResetFilters (diff : List Id → List Id → List Id) (b : RBank D) (t : Tree) (d : D) (ft : FT) (refresh : Bool) :
    Res FT :=
  let ft1 : FT := { ft with applied := [] }
  if refresh then ft1.rRefilter diff b t d else .ok ft1

/-- The loop at `filteredtree.py:507-511`: the answer the variable `displayed` ends with. -/
def rAsk (t : Tree) (d : D) (x : Id) : List (RFilter D) → PyVal → PyVal
  | [], displayed => displayed
  | f :: l, _ => if !(f.isDisplayed t d x).truth then f.isDisplayed t d x else rAsk t d x l (f.isDisplayed t d x)

/-- `get_nodes` (`filteredtree.py:481-516`). -/
def rGetNodes (b : RBank D) (t : Tree) (d : D) (ft : FT) (withfilters : List FName) : Except Err (List Id) :=
  if withfilters = [] then ft.allNodes
  else
    let filters := withfilters.filterMap b.getFilter
    .ok (ft.view.nodes.keys.filter fun x => decide (x ≠ ft.root) && (rAsk t d x filters (.bool true)).truth)

/-- `get_n_nodes` (`filteredtree.py:471-479`). -/
def rNNodes (b : RBank D) (t : Tree) (d : D) (ft : FT) (withfilters : List FName) : Except Err Nat :=
  match ft.rGetNodes b t d withfilters with
  | .ok l => .ok l.length
  | .error e => .error e

end FT

namespace VT

variable {D : Type}

/-- Ask the `FilteredTree`, after making it if necessary (`viewtree.py:159-161, 171-173, 220-222`). -/
def rAskFT {α : Type} (diff : List Id → List Id → List Id) (b : RBank D) (t : Tree) (d : D) (v : VT)
    (q : FT → Except Err α) : Answer α :=
  match (match v.ft with
    | some ft => Res.ok ft
    | none => FT.rNew diff b t d anonRoot true) with
  | .ok ft => (q ft, { v with ft := some ft })
  | .err e _ => (.error e, v)

end VT

/-! ### The counter -/

namespace VC

variable {D : Type}

/-- The loop at `viewcount.py:84-86`: the value of the variable `displayed` at the end. -/
def rLoop (b : RBank D) (t : Tree) (d : D) (x : Id) : List FName → PyVal → Except Err PyVal
  | [], displayed => .ok displayed
  | n :: l, displayed =>
    match b.getFilter n with
    | none => .error .attributeError
    | some f =>
      match displayed.meet (f.isDisplayed t d x) with
      | .error e => .error e
      | .ok displayed' => rLoop b t d x l displayed'

/-- `__modify` (`viewcount.py:82-90`). -/
def rModify (b : RBank D) (t : Tree) (d : D) (x : Id) (v : VC) : Res VC :=
  match rLoop b t d x v.applied (.bool true) with
  | .error e => .err e v
  | .ok displayed => if displayed.truth then .ok (v.add x) else .ok (v.delete x)

/-- `__refresh` (`viewcount.py:40-43`). -/
def rRefresh (b : RBank D) (t : Tree) (d : D) (v : VC) : Res VC :=
  (Res.forEach (rModify b t d) t.nodes.keys v).andThen fun v => .ok { v with initialized := true }

/-- `__init__` (`viewcount.py:22-38`). -/
def rNew (b : RBank D) (t : Tree) (d : D) (doRefresh : Bool) : Res VC :=
  if doRefresh then rRefresh b t d {} else .ok {}

/-- `apply_filter` (`viewcount.py:45-58`). -/
def rApplyFilter (b : RBank D) (t : Tree) (d : D) (n : FName) (doRefresh : Bool) (v : VC) : Res VC :=
  if b.hasFilter n then
    if n ∉ v.applied then
      let v1 : VC := { v with applied := v.applied ++ [n] }
      if doRefresh then
        if v1.initialized then Res.forEach (rModify b t d) v1.nodes v1
        else rRefresh b t d v1
      else .ok v1
    else .ok v
  else .ok v

/-- `unapply_filter` (`viewcount.py:60-64`). -/
def rUnapplyFilter (b : RBank D) (t : Tree) (d : D) (n : FName) (v : VC) : Res VC :=
  if n ∈ v.applied then
    Res.forEach (rModify b t d) t.nodes.keys { v with applied := v.applied.erase n }
  else .ok v

/-- The reaction to one notification of the tree (`viewcount.py:26-28`). -/
def rReact (b : RBank D) (d : D) (n : Note) (v : VC) : Res VC :=
  match n.ev with
  | .added => rModify b n.snap d n.nid v
  | .modified => rModify b n.snap d n.nid v
  | .deleted => .ok (v.delete n.nid)

end VC

/-! ### The application -/

namespace Obj

variable {V : Type}

/-- The reaction of one object to one notification. -/
def rReact (diff : List Id → List Id → List Id) (b : RBank (Id → V)) (d : Id → V) (n : Note) : Obj → Res Obj
  | .view v =>
    match v.ft with
    | none => .ok (.view v)
    | some ft =>
      match ft.rReact diff b d n with
      | .ok ft' => .ok (.view { v with ft := some ft' })
      | .err e ft' => .err e (.view { v with ft := some ft' })
  | .count c =>
    match c.rReact b d n with
    | .ok c' => .ok (.count c')
    | .err e c' => .err e (.count c')

/-- A notification is handed to one object after the other (`tree.py:75-77`). -/
def rReactAll (diff : List Id → List Id → List Id) (b : RBank (Id → V)) (d : Id → V) (n : Note) : List Obj → Res (List Obj)
  | [] => .ok []
  | o :: l =>
    match o.rReact diff b d n with
    | .err e o' => .err e (o' :: l)
    | .ok o' =>
      match rReactAll diff b d n l with
      | .ok l' => .ok (o' :: l')
      | .err e l' => .err e (o' :: l')

end Obj

/-- `Tree` (`__init__.py:56-63`), as `Suite`. -/
structure RSuite (V : Type) where
  s : St
  data : Id → V
  bank : RBank (Id → V)
  names : Views
  objs : List Obj

/-- What the application can do, as `SuiteAct`. -/
inductive RAct (V : Type) where
  | edit (op : Op)
  | change (x : Id) (v : V)
  | bank (c : RBank.Call (Id → V))
  | getView (name : Option Nat) (refresh : Bool)
  | getCount (name : Option Nat) (refresh : Bool)
  | onView (k : Nat) (c : ViewCall)
  | onCount (k : Nat) (c : CountCall)

namespace RSuite

variable {V : Type}

/-- A new application (`__init__.py:56-63`). -/
def init (d : Id → V) : RSuite V := ⟨St.init, d, {}, Views.init, [.view VT.newStatic]⟩

/-- An edit; all objects handle the notifications. -/
def edit (diff : List Id → List Id → List Id) (a : RSuite V) (op : Op) : Res (RSuite V) :=
  let s' := (step a.s op).state
  match Res.forEach (Obj.rReactAll diff a.bank a.data) (s'.log.drop a.s.log.length) a.objs with
  | .ok l => .ok { a with s := s', objs := l }
  | .err e l => .err e { a with s := s', objs := l }

/-- `get_viewtree` (`__init__.py:121-139`). -/
def getView (diff : List Id → List Id → List Id) (a : RSuite V) (name : Option Nat) (refresh : Bool) : Res (RSuite V) :=
  if (a.names.getViewtree name).1 = a.names.next then
    match FT.rNew diff a.bank a.s.t a.data (rootOf name) refresh with
    | .ok ft => .ok { a with names := (a.names.getViewtree name).2, objs := a.objs ++ [.view (VT.ofFT ft)] }
    | .err e _ => .err e a
  else .ok a

/-- `get_viewcount` (`__init__.py:141-149`). -/
def getCount (a : RSuite V) (name : Option Nat) (refresh : Bool) : Res (RSuite V) :=
  if (a.names.getViewcount name).1 = a.names.next then
    match VC.rNew a.bank a.s.t a.data refresh with
    | .ok c => .ok { a with names := (a.names.getViewcount name).2, objs := a.objs ++ [.count c] }
    | .err e _ => .err e a
  else .ok a

/-- Put a view back. -/
def putFT (a : RSuite V) (k : Nat) (v : VT) : Res FT → Res (RSuite V)
  | .ok ft => .ok { a with objs := a.objs.set k (.view { v with ft := some ft }) }
  | .err e ft => .err e { a with objs := a.objs.set k (.view { v with ft := some ft }) }

/-- Put a view back after a question, which may raise. -/
def asked {α : Type} (a : RSuite V) (k : Nat) : VT.Answer α → Res (RSuite V)
  | (.ok _, v) => .ok { a with objs := a.objs.set k (.view v) }
  | (.error e, v) => .err e { a with objs := a.objs.set k (.view v) }

/-- A method of view number `k` (`viewtree.py:133-143, 152-174, 216-223, 268-303`). -/
def callView (diff : List Id → List Id → List Id) (a : RSuite V) (k : Nat) (v : VT) : ViewCall → Res (RSuite V)
  | .apply n p rs rf =>
    match v.filtersRefused, v.ft with
    | some e, _ => .err e a
    | none, none => .err .attributeError a
    | none, some ft =>
      let (_, b, r) := ft.rApplyFilter diff a.bank a.s.t a.data n p rs rf
      ({ a with bank := b } : RSuite V).putFT k v r
  | .unapply n rf =>
    match v.filtersRefused, v.ft with
    | some e, _ => .err e a
    | none, none => .err .attributeError a
    | none, some ft => a.putFT k v (ft.rUnapplyFilter diff a.bank a.s.t a.data n rf).2
  | .reset rf =>
    match v.filtersRefused, v.ft with
    | some e, _ => .err e a
    | none, none => .err .attributeError a
    | none, some ft => a.putFT k v (ft.rResetFilters diff a.bank a.s.t a.data rf)
  | .currentState =>
    if v.static then
      Res.forEach (fun x (w : RSuite V) => w.edit diff (.refreshNode x)) a.s.t.nodes.keys a
    else match v.ft with
      | none => .err .attributeError a
      | some ft => a.putFT k v ft.currentState
  | .nNodes fs => a.asked k (v.rAskFT diff a.bank a.s.t a.data fun ft => ft.rNNodes a.bank a.s.t a.data fs)
  | .getNodes fs => a.asked k (v.rAskFT diff a.bank a.s.t a.data fun ft => ft.rGetNodes a.bank a.s.t a.data fs)
  | .nChildren x r => a.asked k (v.rAskFT diff a.bank a.s.t a.data fun ft => ft.nChildren x r)

/-- Put a counter back. -/
def putVC (a : RSuite V) (k : Nat) : Res VC → Res (RSuite V)
  | .ok c => .ok { a with objs := a.objs.set k (.count c) }
  | .err e c => .err e { a with objs := a.objs.set k (.count c) }

/-- A method of counter number `k` (`viewcount.py:45-80`). -/
def callCount (a : RSuite V) (k : Nat) (c : VC) : CountCall → Res (RSuite V)
  | .apply n r => a.putVC k (c.rApplyFilter a.bank a.s.t a.data n r)
  | .unapply n => a.putVC k (c.rUnapplyFilter a.bank a.s.t a.data n)
  | .touch x => a.putVC k (VC.rModify a.bank a.s.t a.data x c)
  | .register f => a.putVC k (.ok (c.register f))
  | .unregister f => a.putVC k (c.unregister f)

/-- One action. -/
def act (diff : List Id → List Id → List Id) (a : RSuite V) : RAct V → Res (RSuite V)
  | .edit op => a.edit diff op
  | .change x v => ({ a with data := fun y => if y = x then v else a.data y } : RSuite V).edit diff (.refreshNode x)
  | .bank c => .ok { a with bank := (a.bank.call c).2 }
  | .getView name rf => a.getView diff name rf
  | .getCount name rf => a.getCount name rf
  | .onView k c =>
    match a.objs[k]? with
    | some (.view v) => a.callView diff k v c
    | _ => .ok a
  | .onCount k c =>
    match a.objs[k]? with
    | some (.count v) => a.callCount k v c
    | _ => .ok a

/-- A history of actions, ended by the first exception. -/
def run (diff : List Id → List Id → List Id) : List (RAct V) → RSuite V → Res (RSuite V)
  | [], a => .ok a
  | c :: cs, a => (a.act diff c).andThen (run diff cs)

end RSuite
end Larch
