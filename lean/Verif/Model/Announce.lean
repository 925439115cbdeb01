import Verif.Model.FilteredTree
import Verif.Model.ViewTree

/-!
# Changes that are announced later

An application may change what the filters look at, or their parameters, without telling anybody, and announce the nodes
afterwards: one after the other with `refresh_node` (`tree.py:93-95`), or all at once with `refresh_all`
(`tree.py:97-100`).
-/

namespace Larch

/-- What the application can do. -/
inductive LAct (V : Type) where
  | act (c : FAct V)                                                         -- announced at once
  | late (d : Id → V) (ps : List (FName × Params)) (told : List Id)           -- `refresh_node` for the nodes in `told`
  | lateAll (d : Id → V) (ps : List (FName × Params))                         -- `refresh_all`

namespace FApp

variable {V : Type}

/-- The data of the nodes are replaced and filters in the bank are given parameters (`Filter.set_parameters`,
`filters_bank.py:31-33`), and the view hears nothing of it. -/
def silently (a : FApp V) (d : Id → V) (ps : List (FName × Params)) : FApp V :=
  { a with data := d, bank := ps.foldl (fun b p => b.setParameters p.1 (some p.2)) a.bank }

/-- The view hears of a `refresh_all` (`tree.py:97-100`). As in `edit`, the notifications are recorded and then handled. -/
def refreshAll (diff : List Id → List Id → List Id) (a : FApp V) : Res (FApp V) :=
  let s' := (Larch.refreshAll a.s).state
  ({ a with s := s' } : FApp V).withFT
    (Res.forEach (FT.react diff a.bank a.data) (s'.log.drop a.s.log.length) a.ft)

/-- One action. -/
def actLate (diff : List Id → List Id → List Id) (a : FApp V) : LAct V → Res (FApp V)
  | .act c => a.act diff c
  | .late d ps told => run diff (told.map fun x => .edit (.refreshNode x)) (a.silently d ps)
  | .lateAll d ps => (a.silently d ps).refreshAll diff

/-- A history of actions, ended by the first exception of the view. -/
def runLate (diff : List Id → List Id → List Id) : List (LAct V) → FApp V → Res (FApp V)
  | [], a => .ok a
  | c :: cs, a => (a.actLate diff c).andThen (runLate diff cs)

end FApp
end Larch
