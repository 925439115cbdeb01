import Verif.Model.Tree

/-! # What is claimed about the notifications of the main tree -/

namespace Larch
namespace Spec

/-- The last thing the observers were told about the existence of `x`: `some true` after
node-added, `some false` after node-deleted, `none` if they never heard of it. -/
def lastWord (x : Id) : List Note → Option Bool
  | [] => none
  | n :: log =>
    match lastWord x log with
    | some b => some b
    | none =>
      if n.nid = x then
        match n.ev with
        | .added => some true
        | .deleted => some false
        | .modified => none
      else none

/-- C16: the notifications determine the node set, and speak about the right nodes. -/
structure Reconstructs (t : Tree) (log : List Note) : Prop where
  nodes : ∀ x, t.has x = true ↔ lastWord x log = some true
  modified_exists : ∀ n ∈ log, n.ev = .modified → n.snap.has n.nid = true
  added_exists : ∀ n ∈ log, n.ev = .added → n.snap.has n.nid = true
  deleted_gone : ∀ n ∈ log, n.ev = .deleted → n.snap.has n.nid = false

end Spec
end Larch
