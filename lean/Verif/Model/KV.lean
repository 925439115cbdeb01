/-!
# Python dicts with any keys

Insertion-ordered association lists (like `Dict` of `Model/Base.lean`, for keys other than node ids).
-/

namespace Larch

/-- A Python `dict`. -/
abbrev KV (κ α : Type) := List (κ × α)

namespace KV

variable {κ α : Type} [DecidableEq κ]

/-- `d.get(k)`. -/
def get? : KV κ α → κ → Option α
  | [], _ => none
  | (k, v) :: l, x => if k = x then some v else get? l x

/-- `d[k] = v`: overwrite in place or append. -/
def set : KV κ α → κ → α → KV κ α
  | [], x, w => [(x, w)]
  | (k, v) :: l, x, w => if k = x then (k, w) :: l else (k, v) :: set l x w

/-- `del d[k]` for a key in use, nothing otherwise. -/
def del (d : KV κ α) (x : κ) : KV κ α := d.filter (fun e => decide (e.1 ≠ x))

/-- `list(d.keys())`. -/
def keys (d : KV κ α) : List κ := d.map (·.1)

/-- `list(d.values())`. -/
def values (d : KV κ α) : List α := d.map (·.2)

/-- `k in d`. -/
def has (d : KV κ α) (x : κ) : Bool := (get? d x).isSome

end KV
end Larch
