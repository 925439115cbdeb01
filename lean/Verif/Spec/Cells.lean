import Verif.Model.Cells
import Verif.Spec.TreeModel
import Verif.Spec.FilteredTree

/-!
# What is claimed about the columns of the GTK tree model
-/

namespace Larch
namespace Spec

variable {V W : Type}

/-- Every row shows, in every column, the value computed from its node's data now, unless that value is `None`. -/
def CellsCurrent (types : List (V → Option W)) (d : Id → V) (m : CModel W) : Prop :=
  ∀ r ∈ m.tm.rows, ∀ (k : Nat) (f : V → Option W) (w : W), types[k]? = some f → f (d r.nid) = some w → (m.cells r.addr)[k]? = some (some w)

/-- The signals of a history, each with the data of the nodes at that moment. -/
def told : List (TM.Act × (Id → V)) → List (Sig × (Id → V))
  | [] => []
  | (.sig s _ _, d) :: h => (s, d) :: told h
  | (.lookup _, _) :: h => told h

/-- `is_displayed` answers yes whenever a row is updated. (The view sends `node-modified-inview` at
`filteredtree.py:221-223`, just after it made sure that the node is displayed.) -/
def ShownWhenSent (h : List (TM.Act × (Id → V))) : Prop := ∀ c ∈ h, ∀ s a b, c.1 = .sig s a b → b = true

/-- The signals the view sends during a history, each with the data of the nodes at that moment: within one action the
data change first (if they do) and the signals follow. -/
def sentDuring (diff : List Id → List Id → List Id) : List (FAct V) → FApp V → List (Sig × (Id → V))
  | [], _ => []
  | c :: cs, a =>
    let a' := (a.act diff c).state
    (a'.ft.view.out.drop a.ft.view.out.length).map (fun s => (s, a'.data)) ++ sentDuring diff cs a'

/-- The signals since the view was made, with the data. -/
def sentInAll (diff : List Id → List Id → List Id) (cs : List (FAct V)) (a : FApp V) : List (Sig × (Id → V)) :=
  a.ft.view.out.map (fun s => (s, a.data)) ++ sentDuring diff cs a

/-- A history in which, besides, `get_current_state` may be called at any time: other observers connect. -/
def FairOrAsks (diff : List Id → List Id → List Id) : List (FAct V) → FApp V → Prop
  | [], _ => True
  | c :: cs, a => (ViewFair a c ∨ c = .currentState) ∧ FairOrAsks diff cs (a.act diff c).state

end Spec
end Larch
