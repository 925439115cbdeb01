import Verif.Model.KV

/-!
# The callback registries

`MainTree.register_callback` and its companions (`tree.py:51-79`), repeated in `ViewTree`
(`viewtree.py:89-119`). `F` stands for the registered functions; events are numbered strings.
-/

namespace Larch

/-- `self.__cllbcks`: event name to (key to function). -/
abbrev Registry (F : Type) := KV Nat (KV Nat F)

namespace Registry

variable {F : Type}

/-- `self.__cllbcks.get(event, {})`. -/
def of (r : Registry F) (ev : Nat) : KV Nat F := (KV.get? r ev).getD []

/-- `while key in callbacks: key += 1` (`tree.py:60-62`); the fuel is the number of callbacks, and running out
of it leaves the last key tried. -/
def freeKey (c : KV Nat F) : Nat → Nat → Nat
  | 0, k => k
  | f + 1, k => if KV.has c k then freeKey c f (k + 1) else k

/-- `register_callback` (`tree.py:52-65`, `viewtree.py:89-102`): the new registry and the returned key. -/
def register (r : Registry F) (ev : Nat) (func : F) : Registry F × Nat :=
  let key := freeKey (r.of ev) (r.of ev).length 0
  (KV.set r ev (KV.set (r.of ev) key func), key)

/-- `deregister_callback` (`tree.py:67-72`, `viewtree.py:104-109`); a `KeyError` is swallowed. -/
def deregister (r : Registry F) (ev key : Nat) : Registry F :=
  match KV.get? r ev with
  | none => r
  | some c => if KV.has c key then KV.set r ev (KV.del c key) else r

/-- The functions called by `_callback` (`tree.py:74-79`) and `__emit` (`viewtree.py:111-119`), in order. Both
loop over a copy, so calls made by the functions themselves do not change the list. -/
def called (r : Registry F) (ev : Nat) : List F := KV.values (r.of ev)

/-- Calls made by users. -/
inductive Call (F : Type) where
  | register (ev : Nat) (func : F)
  | deregister (ev key : Nat)

/-- One call. -/
def step (r : Registry F) : Call F → Registry F
  | .register ev func => (r.register ev func).1
  | .deregister ev key => r.deregister ev key

/-- A history of calls. -/
def run (r : Registry F) : List (Call F) → Registry F
  | [] => r
  | c :: cs => run (r.step c) cs

end Registry
end Larch
