import Verif.Spec.Tree
import Verif.Spec.View
import Verif.Spec.ViewCount

/-!
# What is claimed about the view of an application
-/

namespace Larch
namespace Spec

variable {V : Type}

/-- `x` is a node of the tree and every filter applied to the view is in the bank and accepts it. -/
def Wanted (a : FApp V) (x : Id) : Prop :=
  a.s.t.has x = true ∧ ∀ n ∈ a.ft.applied, ∃ f, a.bank.getFilter n = some f ∧ f.isDisplayed a.s.t a.data x = true

/-- C24: the view displays the wanted nodes, and `get_all_nodes` lists them once each. -/
structure ShowsExactly (a : FApp V) : Prop where
  shown : ∀ x, x ≠ a.ft.root → (a.ft.view.has x = true ↔ Wanted a x)
  listed : ∃ l, a.ft.allNodes = .ok l ∧ l.Nodup ∧ ∀ x, x ∈ l ↔ Wanted a x

/-- One of the applied filters is flat. -/
def FlatView (a : FApp V) : Prop := ∃ n ∈ a.ft.applied, ∃ f, a.bank.getFilter n = some f ∧ f.isFlat = true

/-- `p` should be a parent of `x` in the view, apart from the virtual root. -/
def WantedParent (a : FApp V) (p x : Id) : Prop := ¬ FlatView a ∧ IsParent a.s.t p x ∧ Wanted a p

/-- C25: every displayed node is below its displayed parents, or below the virtual root if there is none. -/
structure RightShape (a : FApp V) : Prop where
  parents : ∀ x, Wanted a x → ∀ p, p ∈ a.ft.view.pars x ↔
    WantedParent a p x ∨ (p = a.ft.root ∧ ∀ q, ¬ WantedParent a q x)
  answered : ∀ x, Wanted a x → ∃ l, a.ft.nodeParents x = .ok l ∧ l.Nodup ∧ ∀ p, p ∈ l ↔ WantedParent a p x
  flat : FlatView a → ∀ x, Wanted a x → a.ft.view.pars x = [a.ft.root]
  top : a.ft.view.pars a.ft.root = []
  mirror : ∀ p x, x ∈ a.ft.view.kids p ↔ p ∈ a.ft.view.pars x
  parents_once : ∀ x, (a.ft.view.pars x).Nodup
  children_once : ∀ x, (a.ft.view.kids x).Nodup

/-- C26: an observer connected from the start has exactly the rows of the view, and every signal made sense to it. -/
def ObserverAgrees (a : FApp V) : Prop :=
  ∃ rows, replay a.ft.view.out [] = some rows ∧ rows.Nodup ∧ ∀ l, l ∈ rows ↔ IsRow a.ft l

/-! ### Kinds of filters

A view is told which node changed. It looks at this node and its surroundings again, so that whether a filter can be used while the
tree is edited depends on what the filter looks at. -/

/-- The filters applied to the view look only at a node's own data. -/
def OwnApplied (a : FApp V) : Prop :=
  ∀ n ∈ a.ft.applied, ∀ f, a.bank.getFilter n = some f → OwnData f.func

/-- Whether the filter accepts a node is decided by the data of the node and by its children, and a node that is accepted is
still accepted when it has fewer children. (The lists of children are without repetitions.) -/
def FewerIsMore (f : Filter (Id → V)) : Prop :=
  ∀ (t t' : Tree) (d d' : Id → V) (x : Id), t.has x = true → t'.has x = true → d x = d' x →
    (t.getChildren x).Nodup → (t'.getChildren x).Nodup →
    (∀ c, IsChild t x c → IsChild t' x c) → f.isDisplayed t' d' x = true → f.isDisplayed t d x = true

/-- All filters applied to the view are of this kind. -/
def FewerApplied (a : FApp V) : Prop :=
  ∀ n ∈ a.ft.applied, ∀ f, a.bank.getFilter n = some f → FewerIsMore f

/-- If `op` adds a node, then the node comes without parents, or with one parent and without children, or with one parent and not
accepted itself. (Pending relations count: a node may get parents and children that were recorded before it came.) -/
def PlainArrival (a : FApp V) (op : Op) : Prop :=
  ∀ nd p, op = .addNode nd p → a.s.t.has nd.id = false →
    (∀ q, ¬ IsParent (addNode a.s nd p).state.t q nd.id) ∨
    ((Wanted { a with s := (addNode a.s nd p).state } nd.id → ∀ c, ¬ IsParent (addNode a.s nd p).state.t nd.id c) ∧
      ((addNode a.s nd p).state.t.getParents nd.id).length ≤ 1)

/-- If `op` removes a node recursively, then its descendants have at most one parent. -/
def PlainRemoval (a : FApp V) (op : Op) : Prop :=
  ∀ x, op = .delNode x true → ∀ y, Descendant a.s.t y x → (a.s.t.getParents y).length ≤ 1

/-- Whether the filter accepts a node is decided by the data of the node and of its descendants, and by the relations between
them. (The trees are as consistent as all trees made by careful edits, C01 and C02.) -/
def LooksBelow (f : Filter (Id → V)) : Prop :=
  ∀ (t t' : Tree) (d d' : Id → V) (x : Id), Agree t → NoCycle t → Agree t' → NoCycle t' → t.has x = true → t'.has x = true →
    (∀ y, y = x ∨ Descendant t y x → d y = d' y ∧ ∀ c, IsChild t y c ↔ IsChild t' y c) →
    f.isDisplayed t' d' x = f.isDisplayed t d x

/-- The parents of an accepted node are accepted. -/
def BubblesUp (f : Filter (Id → V)) : Prop :=
  ∀ (t : Tree) (d : Id → V) (p c : Id), Agree t → NoCycle t → IsParent t p c → f.isDisplayed t d c = true →
    f.isDisplayed t d p = true

/-- All filters applied to the view are of this kind. -/
def BelowApplied (a : FApp V) : Prop :=
  ∀ n ∈ a.ft.applied, ∀ f, a.bank.getFilter n = some f → LooksBelow f ∧ BubblesUp f

/-- No node has two parents. -/
def SingleParent (t : Tree) : Prop := ∀ x, (t.getParents x).length ≤ 1

/-- With the applied filters the view can follow the edit: they look only at a node's own data; or at its children as well, if
nodes arrive and leave plainly; or at everything below a node, if no node has two parents, before and after the edit. -/
def FollowsEdit (a : FApp V) (op : Op) : Prop :=
  OwnApplied a ∨ (FewerApplied a ∧ PlainArrival a op ∧ PlainRemoval a op) ∨
  (BelowApplied a ∧ ¬ FlatView a ∧ SingleParent a.s.t ∧ SingleParent (step a.s op).state.t)

/-- With the applied filters the view can follow changes of the nodes' data. -/
def FollowsData (a : FApp V) : Prop :=
  OwnApplied a ∨ FewerApplied a ∨ (BelowApplied a ∧ ¬ FlatView a ∧ SingleParent a.s.t)

/-! ### Fair applications -/

/-- The edit is careful (`Careful`), no node gets the id of the view's virtual root, and a node is removed recursively only if it
has at most one parent and its descendants have at most three. -/
def EditFair (a : FApp V) (op : Op) : Prop :=
  Careful a.s op ∧ (∀ nd p, op = .addNode nd p → nd.id ≠ a.ft.root) ∧
    ∀ x, op = .delNode x true → ∀ y, Descendant a.s.t y x → (a.s.t.getParents y).length ≤ 3

/-- What the application keeps to:
* edits are fair (`EditFair`), and with the applied filters the view can follow them (`FollowsEdit`) and changes of the data
  (`FollowsData`); other filters in the bank may be of any kind;
* a name in use is not added to the bank after it was applied;
* a filter in use is neither removed from the bank nor given new parameters by somebody else;
* filters are applied and unapplied with refresh; parameters are given only to known filters;
* `get_current_state` is not called (it repeats signals to observers that have already heard them). -/
def ViewFair (a : FApp V) : FAct V → Prop
  | .edit op => EditFair a op ∧ FollowsEdit a op
  | .change _ _ => FollowsData a
  | .bank (.add n _ _) => n ∈ a.ft.applied → (a.bank.getFilter n).isSome = true
  | .bank (.remove n) => n ∉ a.ft.applied
  | .setParams n _ => n ∉ a.ft.applied
  | .apply n p _ rf => rf = true ∧ (FT.givesParams p = true → (a.bank.getFilter n).isSome = true)
  | .unapply _ rf => rf = true
  | .reset rf => rf = true
  | .currentState => False

/-- Every action of the history meets the condition in the state where it is made. -/
def ViewFairRun (diff : List Id → List Id → List Id) : List (FAct V) → FApp V → Prop
  | [], _ => True
  | c :: cs, a => ViewFair a c ∧ ViewFairRun diff cs (a.act diff c).state

/-- A special case that is easy to check: `ViewFair` where all filters in the bank, applied or not, look only at a node's own data. -/
def OwnFair (a : FApp V) : FAct V → Prop
  | .edit op => EditFair a op
  | .change _ _ => True
  | .bank (.add n f _) => OwnData f ∧ (n ∈ a.ft.applied → (a.bank.getFilter n).isSome = true)
  | c => ViewFair a c

/-- Every action of the history meets this condition in the state where it is made. -/
def OwnFairRun (diff : List Id → List Id → List Id) : List (FAct V) → FApp V → Prop
  | [], _ => True
  | c :: cs, a => OwnFair a c ∧ OwnFairRun diff cs (a.act diff c).state

/-- C29: the list of applied filters after `n` was applied. -/
structure AppliedNow (before after : List FName) (n : FName) (reset : Bool) : Prop where
  mem : ∀ m, m ∈ after ↔ m = n ∨ (reset = false ∧ m ∈ before)
  once : after.Nodup
  /-- The names that were there keep their places, and a new one comes last. -/
  order : if reset then after = [n] else before <+: after

/-- C33: the displayed nodes that all known filters of the list accept. -/
def Accepted (a : FApp V) (names : List FName) (x : Id) : Prop :=
  x ≠ a.ft.root ∧ a.ft.view.has x = true ∧
    ∀ n ∈ names, ∀ f, a.bank.getFilter n = some f → f.isDisplayed a.s.t a.data x = true

end Spec
end Larch
