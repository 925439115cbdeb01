import Verif.Spec.Nested
import Verif.Spec.FilteredTree

/-!
# What is claimed about views beside observers that edit the tree
-/

namespace Larch
namespace Spec

variable {σ : Type}

/-- The states of the views are the same in `o` and `o'`. -/
def SameViews (cs : List (Seat σ)) (o o' : σ) : Prop := ∀ c ∈ cs, c.get o' = c.get o

/-- Every view has a state of its own. -/
def SeatsApart (cs : List (Seat σ)) : Prop :=
  cs.Pairwise fun c c' => (∀ ft o, c'.get (c.put ft o) = c'.get o) ∧ ∀ ft o, c.get (c'.put ft o) = c.get o

/-- Every edit that the callback makes meets `ok` in the state where it is made, and in between the callback leaves the views alone.
It raises nothing but the exception about the recursion, and it does not catch that one. -/
def Modest (cs : List (Seat σ)) (ok : St → Op → Prop) : Prog σ → Now σ → Prop
  | .done o, w => SameViews cs w.o o
  | .raise e _, _ => e = .recursion
  | .edit o op next, w => SameViews cs w.o o ∧ ok w.s op ∧ ∀ r, Sane r.state.s →
      (∀ w', r = .err .recursion w' → ∃ o', next r = .raise .recursion o') ∧
      ((∀ w', r ≠ .err .recursion w') → Modest cs ok (next r) r.state)

/-- The observer is modest, whatever it is told of, in every state. -/
def ModestWatcher (cs : List (Seat σ)) (ok : St → Op → Prop) (ob : Watcher σ) : Prop :=
  ∀ ev x w, Sane w.s → Modest cs ok (ob ev x w) w

/-- The observer does nothing when a node is removed. -/
def IgnoresRemovals (cs : List (Seat σ)) (ob : Watcher σ) : Prop :=
  ∀ x w, ∃ o, ob .deleted x w = .done o ∧ SameViews cs w.o o

/-- The functions that are registered before a view do nothing when a node is removed. -/
def EarlyIgnoreRemovals (cs : List (Seat σ)) : List (Member σ) → Prop
  | [] => True
  | .view _ :: ms => EarlyIgnoreRemovals cs ms
  | .editor ob :: ms => (IgnoresRemovals cs ob ∨ seats ms = []) ∧ EarlyIgnoreRemovals cs ms

/-- Edits that take relations away, or add nodes without children. -/
def Loosening (roots : List Id) (s : St) : Op → Prop
  | .refreshNode _ | .removeParent _ _ | .breakRelationship _ _ => True
  | .addNode nd p => Careful s (.addNode nd p) ∧ nd.id ∉ roots ∧ ∀ y, ¬ IsParent (addNode s nd p).state.t nd.id y
  | .setParentsEnabled x b => b = true ∨ s.t.getParents x = []
  | .setChildrenEnabled x b => b = true ∨ s.t.getChildren x = []
  | .delNode _ _ | .moveNode _ _ | .addParent _ _ | .setParent _ _ | .addChild _ _ | .newRelationship _ _ => False

/-- Edits that add relations or nodes, and take nothing away. -/
def Tightening (roots : List Id) (s : St) : Op → Prop
  | .refreshNode _ | .addParent _ _ | .addChild _ _ => True
  | .newRelationship p c => Careful s (.newRelationship p c)
  | .addNode nd p => Careful s (.addNode nd p) ∧ nd.id ∉ roots
  | .setParentsEnabled x b => b = true ∨ s.t.getParents x = []
  | .setChildrenEnabled x b => b = true ∨ s.t.getChildren x = []
  | .delNode _ _ | .moveNode _ _ | .setParent _ _ | .removeParent _ _ | .breakRelationship _ _ => False

/-- Nodes do not get the names of the virtual roots of views. -/
def Unnamed (roots : List Id) : Op → Prop
  | .addNode nd _ => nd.id ∉ roots
  | _ => True

/-- The application may also remove nodes that have neither parents nor children. -/
def TighteningOuter (roots : List Id) (s : St) : Op → Prop
  | .delNode x _ => s.t.getParents x = [] ∧ s.t.getChildren x = []
  | op => Tightening roots s op

/-- A history of edits in which every edit meets `ok` where it is made, and the depth of the recursion suffices. -/
def AlongCalm (obs : List (Watcher σ)) (more n : Nat) (ok : St → Op → Prop) : Now σ → List Op → Prop
  | _, [] => True
  | w, op :: ops => (ok w.s op ∧ ∀ w', Now.nested obs more n w op ≠ .err .recursion w') ∧
      AlongCalm obs more n ok (Now.nested obs more n w op).state ops

/-- The view shows what it should, where it should, and whoever follows its signals knows it. -/
structure ViewRight {V : Type} (a : FApp V) : Prop where
  shows : ShowsExactly a
  shape : RightShape a
  observer : ObserverAgrees a

end Spec
end Larch
