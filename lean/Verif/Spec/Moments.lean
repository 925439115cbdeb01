import Verif.Spec.FilteredTree
import Verif.Spec.View

/-!
# The tree at the moment of a signal

The signals of a view, each with the main tree as it is when the signal is sent. Whoever hears a signal and asks the main tree
for a node finds that tree.
-/

namespace Larch
namespace Spec

variable {V : Type}

/-- The view reacts to notifications; what it sends meanwhile is sent while the tree is the one of the notification. -/
def reactMoments (diff : List Id → List Id → List Id) (b : Bank (Id → V)) (d : Id → V) : List Note → FT → List (Tree × Sig)
  | [], _ => []
  | n :: l, ft =>
    let r := FT.react diff b d n ft
    (r.state.view.out.drop ft.view.out.length).map (fun s => (n.snap, s)) ++
      if r.isOk then reactMoments diff b d l r.state else []

/-- The signals of one action. -/
def actMoments (diff : List Id → List Id → List Id) (a : FApp V) : FAct V → List (Tree × Sig)
  | .edit op => reactMoments diff a.bank a.data ((step a.s op).state.log.drop a.s.log.length) a.ft
  | .change x v =>
    reactMoments diff a.bank (fun y => if y = x then v else a.data y) ((step a.s (.refreshNode x)).state.log.drop a.s.log.length) a.ft
  | c => ((a.act diff c).state.ft.view.out.drop a.ft.view.out.length).map fun s => (a.s.t, s)

def runMoments (diff : List Id → List Id → List Id) : List (FAct V) → FApp V → List (Tree × Sig)
  | [], _ => []
  | c :: cs, a => actMoments diff a c ++ runMoments diff cs (a.act diff c).state

/-- All signals since the view was made. -/
def allMoments (diff : List Id → List Id → List Id) (cs : List (FAct V)) (a : FApp V) : List (Tree × Sig) :=
  a.ft.view.out.map (fun s => (a.s.t, s)) ++ runMoments diff cs a

/-- Every row stands for a node of the tree. -/
def RowsReal (t : Tree) (rows : List (List Id)) : Prop := ∀ l ∈ rows, ∃ x, l.getLast? = some x ∧ t.has x = true

end Spec
end Larch
