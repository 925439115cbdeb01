/-!
# Python values used by the model

Node identifiers, insertion-ordered dictionaries and the outcome of a call.
-/

namespace Larch

/-- Node identifiers (`liblarch/treenode.py:26` "unique identifier of node (str)").
`none` is Python's `None`, `empty` is `''`, `str n` is the `n`-th non-empty string.
The code only ever compares ids for equality and tests their truth value, so an
injective numbering of the non-empty strings loses nothing. -/
inductive Id where
  | none
  | empty
  | str (n : Nat)
deriving DecidableEq, Repr, Inhabited

/-- Python's `not node_id` (`tree.py:271`, `tree.py:346`, ...). -/
def Id.falsy : Id → Bool
  | .none => true
  | .empty => true
  | .str _ => false

/-- `self.root_id = 'root'` (`liblarch/tree.py:38`). -/
def rootId : Id := .str 0

/-- A Python dict with node ids as keys: insertion ordered, overwriting keeps the position. -/
structure Dict (α : Type) where
  entries : List (Id × α)
deriving DecidableEq, Repr

namespace Dict

variable {α : Type}

/-- Lookup in the underlying association list. -/
def lookup : List (Id × α) → Id → Option α
  | [], _ => none
  | (k, v) :: l, x => if k = x then some v else lookup l x

/-- `d.get(k)`; `none` stands for a missing key. -/
def get? (d : Dict α) (x : Id) : Option α := lookup d.entries x

/-- `k in d`. -/
def has (d : Dict α) (x : Id) : Bool := (d.get? x).isSome

/-- The list underlying `d[k] = v`. -/
def insert : List (Id × α) → Id → α → List (Id × α)
  | [], x, w => [(x, w)]
  | (k, v) :: l, x, w => if k = x then (x, w) :: l else (k, v) :: insert l x w

/-- `d[k] = v`. -/
def set (d : Dict α) (x : Id) (w : α) : Dict α := ⟨insert d.entries x w⟩

/-- Apply `f` to the value stored under `x` (an in-place mutation of a stored object);
nothing happens if the key is missing. -/
def modify (d : Dict α) (x : Id) (f : α → α) : Dict α :=
  match d.get? x with
  | some v => d.set x (f v)
  | none => d

/-- `d.pop(k)` / `del d[k]` for an existing key. -/
def del (d : Dict α) (x : Id) : Dict α := ⟨d.entries.filter (fun e => decide (e.1 ≠ x))⟩

/-- `list(d.keys())`. -/
def keys (d : Dict α) : List Id := d.entries.map (·.1)

/-- The empty dict. -/
def empty : Dict α := ⟨[]⟩

end Dict

/-- Exceptions raised by the modelled code, plus `diverge` for a loop or recursion that
does not end within the fuel computed from the state. -/
inductive Err where
  | circular       -- Exception('... circular relationship ...')
  | keyError
  | valueError
  | indexError
  | typeError
  | attributeError
  | unboundLocal   -- UnboundLocalError
  | inconsistent   -- the `raise Exception(...)` consistency checks of FilteredTree
  | recursion      -- RecursionError
  | diverge
deriving DecidableEq, Repr

/-- Outcome of a state-changing call: normal end, or an exception together with the
state at the moment it was raised. -/
inductive Res (σ : Type) where
  | ok (s : σ)
  | err (e : Err) (s : σ)
deriving DecidableEq, Repr

namespace Res

variable {σ τ : Type}

/-- The state after the call, however it ended. -/
def state : Res σ → σ
  | ok s => s
  | err _ s => s

/-- Sequencing: an exception skips the rest. -/
def andThen (r : Res σ) (f : σ → Res σ) : Res σ :=
  match r with
  | ok s => f s
  | err e s => err e s

/-- Did the call end normally? -/
def isOk : Res σ → Bool
  | ok _ => true
  | err _ _ => false

/-- `for x in l: body(x)` over a list that the body does not mutate (a copy). -/
def forEach {α : Type} (body : α → σ → Res σ) : List α → σ → Res σ
  | [], s => ok s
  | x :: l, s => (body x s).andThen (forEach body l)

@[simp] theorem andThen_ok (s : σ) (f : σ → Res σ) : (ok s).andThen f = f s := rfl
@[simp] theorem andThen_err (e : Err) (s : σ) (f : σ → Res σ) : (err e s).andThen f = err e s := rfl
@[simp] theorem state_ok (s : σ) : (ok s).state = s := rfl
@[simp] theorem state_err (e : Err) (s : σ) : (err e s).state = s := rfl

end Res

/-- `if x not in l: l.append(x)`. -/
def appendNew {α : Type} [DecidableEq α] (l : List α) (x : α) : List α :=
  if x ∈ l then l else l ++ [x]

end Larch
