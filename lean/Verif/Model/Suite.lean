import Verif.Model.ViewTree
import Verif.Model.ViewCount
import Verif.Model.Views

/-!
# An application with any number of views and counters

`liblarch/__init__.py`, class `Tree`: one tree, one filter bank, the main view, and the views and counters the application asks
for by name or without name. Every `FilteredTree` and every `ViewCount` registers itself with the tree when it is made
(`filteredtree.py:66-68`, `viewcount.py:26-28`), so a notification reaches all of them one after the other
(`tree.py:63-77`). They share the filter objects in the bank.

Simplification: an object is told in the order in which the objects were made; the `FilteredTree` of the main view, which is
made at the first question that needs it, takes the place of the main view.
-/

namespace Larch

/-- What `get_main_view`, `get_viewtree` and `get_viewcount` return. -/
inductive Obj where
  | view (v : VT)
  | count (c : VC)

/-- `Tree` (`__init__.py:56-63`). Object number `k` is the `k`-th one made, as in `Views`; number 0 is the main view. -/
structure Suite (V : Type) where
  s : St
  data : Id → V
  bank : Bank (Id → V)
  names : Views
  objs : List Obj

/-- `root_id` of the `FilteredTree` of a view with this name (`filteredtree.py:55-59`). The strings `'root_' + name` are among
the odd numbers from 1001. -/
def rootOf : Option Nat → Id
  | none => anonRoot
  | some n => .str (2 * n + 1001)

/-- The methods of a view that are followed here. -/
inductive ViewCall where
  | apply (n : FName) (params : Option Params) (reset refresh : Bool)
  | unapply (n : FName) (refresh : Bool)
  | reset (refresh : Bool)
  | currentState
  | nNodes (fs : List FName)
  | getNodes (fs : List FName)
  | nChildren (x : Id) (recursive : Bool)

/-- The methods of a counter. -/
inductive CountCall where
  | apply (n : FName) (refresh : Bool)
  | unapply (n : FName)
  | touch (x : Id)
  | register (c : Nat)
  | unregister (c : Nat)

/-- What the application can do. -/
inductive SuiteAct (V : Type) where
  | edit (op : Op)
  | change (x : Id) (v : V)               -- change a node's data, then node.modified() (treenode.py:49-52)
  | bank (c : Bank.Call (Id → V))         -- Tree.add_filter, Tree.remove_filter
  | getView (name : Option Nat) (refresh : Bool)
  | getCount (name : Option Nat) (refresh : Bool)
  | onView (k : Nat) (c : ViewCall)
  | onCount (k : Nat) (c : CountCall)

namespace Obj

variable {V : Type}

/-- The reaction of one object to one notification. -/
def react (diff : List Id → List Id → List Id) (b : Bank (Id → V)) (d : Id → V) (n : Note) : Obj → Res Obj
  | .view v =>
    match v.ft with
    | none => .ok (.view v)
    | some ft =>
      match ft.react diff b d n with
      | .ok ft' => .ok (.view { v with ft := some ft' })
      | .err e ft' => .err e (.view { v with ft := some ft' })
  | .count c =>
    match c.react b d n with
    | .ok c' => .ok (.count c')
    | .err e c' => .err e (.count c')

/-- A notification is handed to one object after the other (`tree.py:75-77`); an exception leaves the rest untold. -/
def reactAll (diff : List Id → List Id → List Id) (b : Bank (Id → V)) (d : Id → V) (n : Note) : List Obj → Res (List Obj)
  | [] => .ok []
  | o :: l =>
    match o.react diff b d n with
    | .err e o' => .err e (o' :: l)
    | .ok o' =>
      match reactAll diff b d n l with
      | .ok l' => .ok (o' :: l')
      | .err e l' => .err e (o' :: l')

end Obj

namespace Suite

variable {V : Type}

/-- A new application (`__init__.py:56-63`). -/
def init (d : Id → V) : Suite V := ⟨St.init, d, {}, Views.init, [.view VT.newStatic]⟩

/-- An edit; all objects handle the notifications, as in `FApp.edit` after the edit. -/
def edit (diff : List Id → List Id → List Id) (a : Suite V) (op : Op) : Res (Suite V) :=
  let s' := (step a.s op).state
  match Res.forEach (Obj.reactAll diff a.bank a.data) (s'.log.drop a.s.log.length) a.objs with
  | .ok l => .ok { a with s := s', objs := l }
  | .err e l => .err e { a with s := s', objs := l }

/-- `get_viewtree` (`__init__.py:121-139`): the object returned is number `(a.names.getViewtree name).1`; it is made if that is
the next number. If `refilter` raises nothing is returned or remembered, but the `FilteredTree` stays registered; here it is
gone. -/
def getView (diff : List Id → List Id → List Id) (a : Suite V) (name : Option Nat) (refresh : Bool) : Res (Suite V) :=
  if (a.names.getViewtree name).1 = a.names.next then
    match FT.new diff a.bank a.s.t a.data (rootOf name) refresh with
    | .ok ft => .ok { a with names := (a.names.getViewtree name).2, objs := a.objs ++ [.view (VT.ofFT ft)] }
    | .err e _ => .err e a
  else .ok a

/-- `get_viewcount` (`__init__.py:141-149`). -/
def getCount (a : Suite V) (name : Option Nat) (refresh : Bool) : Res (Suite V) :=
  if (a.names.getViewcount name).1 = a.names.next then
    match VC.new a.bank a.s.t a.data refresh with
    | .ok c => .ok { a with names := (a.names.getViewcount name).2, objs := a.objs ++ [.count c] }
    | .err e _ => .err e a
  else .ok a

/-- Put a view back. -/
def putFT (a : Suite V) (k : Nat) (v : VT) : Res FT → Res (Suite V)
  | .ok ft => .ok { a with objs := a.objs.set k (.view { v with ft := some ft }) }
  | .err e ft => .err e { a with objs := a.objs.set k (.view { v with ft := some ft }) }

/-- Put a view back after a question, which may raise. -/
def asked {α : Type} (a : Suite V) (k : Nat) : VT.Answer α → Res (Suite V)
  | (.ok _, v) => .ok { a with objs := a.objs.set k (.view v) }
  | (.error e, v) => .err e { a with objs := a.objs.set k (.view v) }

/-- A method of view number `k` (`viewtree.py:133-143, 152-174, 216-223, 268-303`). -/
def callView (diff : List Id → List Id → List Id) (a : Suite V) (k : Nat) (v : VT) : ViewCall → Res (Suite V)
  | .apply n p rs rf =>
    match v.filtersRefused, v.ft with
    | some e, _ => .err e a
    | none, none => .err .attributeError a
    | none, some ft =>
      let (_, b, r) := ft.applyFilter diff a.bank a.s.t a.data n p rs rf
      ({ a with bank := b } : Suite V).putFT k v r
  | .unapply n rf =>
    match v.filtersRefused, v.ft with
    | some e, _ => .err e a
    | none, none => .err .attributeError a
    | none, some ft => a.putFT k v (ft.unapplyFilter diff a.bank a.s.t a.data n rf).2
  | .reset rf =>
    match v.filtersRefused, v.ft with
    | some e, _ => .err e a
    | none, none => .err .attributeError a
    | none, some ft => a.putFT k v (ft.resetFilters diff a.bank a.s.t a.data rf)
  | .currentState =>
    if v.static then
      -- `refresh_all` of the tree: every node is notified
      Res.forEach (fun x (w : Suite V) => w.edit diff (.refreshNode x)) a.s.t.nodes.keys a
    else match v.ft with
      | none => .err .attributeError a
      | some ft => a.putFT k v ft.currentState
  | .nNodes fs => a.asked k (v.nNodes diff a.bank a.s.t a.data fs)
  | .getNodes fs => a.asked k (v.getNodes diff a.bank a.s.t a.data fs)
  | .nChildren x r => a.asked k (v.nChildren diff a.bank a.s.t a.data x r)

/-- Put a counter back. -/
def putVC (a : Suite V) (k : Nat) : Res VC → Res (Suite V)
  | .ok c => .ok { a with objs := a.objs.set k (.count c) }
  | .err e c => .err e { a with objs := a.objs.set k (.count c) }

/-- A method of counter number `k` (`viewcount.py:45-80`). -/
def callCount (a : Suite V) (k : Nat) (c : VC) : CountCall → Res (Suite V)
  | .apply n r => a.putVC k (c.applyFilter a.bank a.s.t a.data n r)
  | .unapply n => a.putVC k (c.unapplyFilter a.bank a.s.t a.data n)
  | .touch x => a.putVC k (VC.modify a.bank a.s.t a.data x c)
  | .register f => a.putVC k (.ok (c.register f))
  | .unregister f => a.putVC k (c.unregister f)

/-- One action. An action for an object that does not exist cannot happen and changes nothing. -/
def act (diff : List Id → List Id → List Id) (a : Suite V) : SuiteAct V → Res (Suite V)
  | .edit op => a.edit diff op
  | .change x v => ({ a with data := fun y => if y = x then v else a.data y } : Suite V).edit diff (.refreshNode x)
  | .bank c => .ok { a with bank := (a.bank.call c).2 }
  | .getView name rf => a.getView diff name rf
  | .getCount name rf => a.getCount name rf
  | .onView k c =>
    match a.objs[k]? with
    | some (.view v) => a.callView diff k v c
    | _ => .ok a
  | .onCount k c =>
    match a.objs[k]? with
    | some (.count v) => a.callCount k v c
    | _ => .ok a

/-- A history of actions, ended by the first exception. -/
def run (diff : List Id → List Id → List Id) : List (SuiteAct V) → Suite V → Res (Suite V)
  | [], a => .ok a
  | c :: cs, a => (a.act diff c).andThen (run diff cs)

end Suite
end Larch
