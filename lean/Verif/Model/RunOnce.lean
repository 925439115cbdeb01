import Verif.Model.View

/-!
# Callbacks of a view, and actions that run once

`FilteredTree.set_callback` and `FilteredTree.callback` (`filteredtree.py:79-126`), used by `ViewTree.queue_action`
(`viewtree.py:82-83`).

One dict, `cllbcks`, holds the callbacks of the view under the names of the events and the waiting actions under the ids
of their nodes. The names of the events are strings like any others, so in the model they are ids.

Simplifications: the actions and the callbacks do not call back into the view; their parameters are left out. The set of
displayed nodes is handed to every call.
-/

namespace Larch

/-- The strings `'added'`, `'modified'`, `'deleted'` and `'reordered'`. -/
def SigEv.key : SigEv → Id
  | .added => .str 1
  | .modified => .str 2
  | .deleted => .str 3

def reorderedKey : Id := .str 4

/-- What can be found in the lists stored in `cllbcks`: a function, `None`, or `[func, node_id, param]`. -/
inductive CItem where
  | func (f : Nat)
  | nothing
  | entry (f : Nat) (nid : Id)
deriving DecidableEq, Repr

/-- `cllbcks`, the actions executed, those given to the main loop, and the calls of the callbacks for events. -/
structure RunOnce where
  cllbcks : Dict (List CItem) := Dict.empty
  ran : List Nat := []
  idle : List Nat := []
  told : List (Nat × Id) := []

namespace RunOnce

/-- `set_callback(event, func)` for the events of a view (`filteredtree.py:96-97`). -/
def setEvent (r : RunOnce) (key : Id) (f : Nat) : RunOnce :=
  { r with cllbcks := r.cllbcks.set key [.func f, .nothing, .nothing] }

/-- `set_callback('runonce', func, node_id=x)` (`filteredtree.py:86-95`). -/
def queue (r : RunOnce) (shown : Id → Bool) (x : Id) (f : Nat) : Res RunOnce :=
  if x.falsy then .err .inconsistent r
  else if shown x then .ok { r with idle := r.idle ++ [f] }
  else
    .ok { r with cllbcks := r.cllbcks.set x ((r.cllbcks.get? x).getD [] ++ [.entry f x]) }

/-- The body of the loop at `filteredtree.py:112-120`; `bad f` says that the function raises. -/
def runItem (bad : Nat → Bool) (shown : Id → Bool) (x : Id) (i : CItem) (r : RunOnce) : Res RunOnce :=
  match i with
  | .func _ => .err .typeError r
  | .nothing => .err .typeError r
  | .entry f n =>
    if !n.falsy && shown n then
      let r1 := { r with ran := r.ran ++ [f] }
      if bad f then .err .inconsistent r1
      else .ok { r1 with cllbcks := r1.cllbcks.del x }
    else .err .inconsistent r

/-- `callback` (`filteredtree.py:99-126`). -/
def signal (bad : Nat → Bool) (shown : Id → Bool) (ev : SigEv) (x : Id) (r : RunOnce) : Res RunOnce :=
  (if ev = .added then Res.forEach (runItem bad shown x) ((r.cllbcks.get? x).getD []) r else .ok r).andThen fun r =>
  -- 121-126
  match r.cllbcks.get? ev.key with
  | none => .ok r
  | some [i, _, _] =>
    match i with
    | .func f => .ok { r with told := r.told ++ [(f, x)] }
    | .nothing => .ok r
    | .entry _ _ => .err .typeError r
  | some _ => .err .valueError r

/-- What happens to a view, as far as these two functions are concerned. -/
inductive Act where
  | queue (shown : Id → Bool) (x : Id) (f : Nat)
  | signal (shown : Id → Bool) (ev : SigEv) (x : Id)

def act (bad : Nat → Bool) (r : RunOnce) : Act → Res RunOnce
  | .queue shown x f => r.queue shown x f
  | .signal shown ev x => r.signal bad shown ev x

/-- A history, ended by the first exception. -/
def run (bad : Nat → Bool) : List Act → RunOnce → Res RunOnce
  | [], r => .ok r
  | c :: cs, r => (r.act bad c).andThen (run bad cs)

/-- A view in use: `ViewTree` has registered its four callbacks (`viewtree.py:69-80`). -/
def start : RunOnce :=
  ((((({} : RunOnce).setEvent SigEv.added.key 0).setEvent SigEv.deleted.key 1).setEvent SigEv.modified.key 2).setEvent
    reorderedKey 3)

end RunOnce
end Larch
