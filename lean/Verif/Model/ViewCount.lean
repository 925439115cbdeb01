import Verif.Model.Filters

/-!
# `ViewCount`

`liblarch/viewcount.py`. The observers of the counter are numbered; `heard` records, for every call of an observer, the
number of nodes (`get_n_nodes`) the observer would read at that moment.
-/

namespace Larch

/-- `ViewCount` (`viewcount.py:21-38`). `ncount` and `name` are never used. -/
structure VC where
  initialized : Bool := false
  applied : List FName := []
  nodes : List Id := []
  cllbcks : List Nat := []
  heard : List (Nat × Nat) := []
deriving DecidableEq, Repr

namespace VC

variable {D : Type}

/-- `get_n_nodes` (`viewcount.py:75-76`). -/
def nNodes (v : VC) : Nat := v.nodes.length

/-- `__callback` (`viewcount.py:102-104`). -/
def callback (v : VC) : VC := { v with heard := v.heard ++ v.cllbcks.map (fun c => (c, v.nNodes)) }

/-- `__delete` (`viewcount.py:92-95`). -/
def delete (v : VC) (x : Id) : VC :=
  if x ∈ v.nodes then ({ v with nodes := v.nodes.erase x } : VC).callback else v

/-- `__add` (`viewcount.py:97-100`). -/
def add (v : VC) (x : Id) : VC :=
  if x ∉ v.nodes then ({ v with nodes := v.nodes ++ [x] } : VC).callback else v

/-- The loop at `viewcount.py:83-86`; `none` is the `AttributeError` of `None.is_displayed`. -/
def displayed (b : Bank D) (t : Tree) (d : D) (x : Id) : List FName → Option Bool
  | [] => some true
  | n :: l =>
    match b.getFilter n with
    | none => none
    | some f => (displayed b t d x l).map fun r => f.isDisplayed t d x && r

/-- `__modify` (`viewcount.py:82-90`). -/
def modify (b : Bank D) (t : Tree) (d : D) (x : Id) (v : VC) : Res VC :=
  match displayed b t d x v.applied with
  | none => .err .attributeError v
  | some true => .ok (v.add x)
  | some false => .ok (v.delete x)

/-- `__refresh` (`viewcount.py:40-43`). -/
def refresh (b : Bank D) (t : Tree) (d : D) (v : VC) : Res VC :=
  (Res.forEach (modify b t d) t.nodes.keys v).andThen fun v => .ok { v with initialized := true }

/-- `__init__` (`viewcount.py:22-38`). -/
def new (b : Bank D) (t : Tree) (d : D) (doRefresh : Bool) : Res VC :=
  if doRefresh then refresh b t d {} else .ok {}

/-- `apply_filter` (`viewcount.py:45-58`). -/
def applyFilter (b : Bank D) (t : Tree) (d : D) (n : FName) (doRefresh : Bool) (v : VC) : Res VC :=
  if b.hasFilter n then
    if n ∉ v.applied then
      let v1 : VC := { v with applied := v.applied ++ [n] }
      if doRefresh then
        if v1.initialized then Res.forEach (modify b t d) v1.nodes v1
        else refresh b t d v1
      else .ok v1
    else .ok v
  else .ok v

/-- `unapply_filter` (`viewcount.py:60-64`). -/
def unapplyFilter (b : Bank D) (t : Tree) (d : D) (n : FName) (v : VC) : Res VC :=
  if n ∈ v.applied then
    Res.forEach (modify b t d) t.nodes.keys { v with applied := v.applied.erase n }
  else .ok v

/-- `register_cllbck` (`viewcount.py:67-69`). -/
def register (v : VC) (c : Nat) : VC := if c ∉ v.cllbcks then { v with cllbcks := v.cllbcks ++ [c] } else v

/-- `unregister_cllbck` (`viewcount.py:71-73`) reads the attribute `cllbacks`, which no instance has. -/
def unregister (v : VC) (_c : Nat) : Res VC := .err .attributeError v

/-- The reaction to one notification of the tree (`viewcount.py:26-28`). -/
def react (b : Bank D) (d : D) (n : Note) (v : VC) : Res VC :=
  match n.ev with
  | .added => modify b n.snap d n.nid v
  | .modified => modify b n.snap d n.nid v
  | .deleted => .ok (v.delete n.nid)

end VC

/-- An application with one counter: the tree, each node's own data, the filter bank and the counter. -/
structure CApp (V : Type) where
  s : St
  data : Id → V
  bank : Bank (Id → V)
  vc : VC

/-- What the application can do. -/
inductive CAct (V : Type) where
  | edit (op : Op)
  | change (x : Id) (v : V)               -- change a node's data, then node.modified() (treenode.py:49-52)
  | bank (c : Bank.Call (Id → V))         -- Tree.add_filter, Tree.remove_filter
  | setParams (n : FName) (p : Params)    -- a view applies the filter with parameters (filteredtree.py:612-616)
  | apply (n : FName) (refresh : Bool)
  | unapply (n : FName)
  | touch (x : Id)                        -- ViewCount.modify
  | register (c : Nat)
  | unregister (c : Nat)

namespace CApp

variable {V : Type}

/-- The counter handles the notifications an edit sends. The model runs the edit first and the counter afterwards on the
recorded notifications; the two agree as long as the counter does not raise, and `act` reports if it does. -/
def edit (a : CApp V) (op : Op) : Res (CApp V) :=
  let s' := (step a.s op).state
  match Res.forEach (VC.react a.bank a.data) (s'.log.drop a.s.log.length) a.vc with
  | .ok vc => .ok { a with s := s', vc := vc }
  | .err e vc => .err e { a with s := s', vc := vc }

/-- Lift a result of the counter. -/
def withVC (a : CApp V) : Res VC → Res (CApp V)
  | .ok vc => .ok { a with vc := vc }
  | .err e vc => .err e { a with vc := vc }

/-- One action. -/
def act (a : CApp V) : CAct V → Res (CApp V)
  | .edit op => a.edit op
  | .change x v => ({ a with data := fun y => if y = x then v else a.data y } : CApp V).edit (.refreshNode x)
  | .bank c => .ok { a with bank := (a.bank.call c).2 }
  | .setParams n p => .ok { a with bank := a.bank.setParameters n (some p) }
  | .apply n r => a.withVC (a.vc.applyFilter a.bank a.s.t a.data n r)
  | .unapply n => a.withVC (a.vc.unapplyFilter a.bank a.s.t a.data n)
  | .touch x => a.withVC (VC.modify a.bank a.s.t a.data x a.vc)
  | .register c => .ok { a with vc := a.vc.register c }
  | .unregister c => a.withVC (a.vc.unregister c)

/-- A history of actions, ended by the first exception of the counter. -/
def run : List (CAct V) → CApp V → Res (CApp V)
  | [], a => .ok a
  | c :: cs, a => (a.act c).andThen (run cs)

end CApp
end Larch
