import Verif.Model.ViewCount
import Verif.Spec.Tree

/-! # What is claimed about counters -/

namespace Larch
namespace Spec

variable {V : Type}

/-- A filter function that looks only at the node's own data (and its id and parameters). -/
def OwnData (f : Tree → (Id → V) → Id → Option Params → Bool) : Prop :=
  ∀ t t' d d' x p, d x = d' x → f t d x p = f t' d' x p

/-- `x` is a node of the tree and every filter applied to the counter accepts it. -/
def Counted (a : CApp V) (x : Id) : Prop :=
  a.s.t.has x = true ∧ ∀ n ∈ a.vc.applied, ∃ f, a.bank.getFilter n = some f ∧ f.isDisplayed a.s.t a.data x = true

/-- C34: the counter reports the number of the nodes it should count. -/
def Exact (a : CApp V) : Prop :=
  ∃ l : List Id, l.Nodup ∧ (∀ x, x ∈ l ↔ Counted a x) ∧ a.vc.nNodes = l.length

/-- Whether the filter accepts a node is decided by the data of the node and by its children. (The lists of children are without
repetitions.) -/
def LooksAtChildren (f : Filter (Id → V)) : Prop :=
  ∀ (t t' : Tree) (d d' : Id → V) (x : Id), t.has x = true → t'.has x = true → d x = d' x →
    (t.getChildren x).Nodup → (t'.getChildren x).Nodup → (∀ c, IsChild t x c ↔ IsChild t' x c) →
    f.isDisplayed t d x = f.isDisplayed t' d' x

/-- The filters applied to the counter look only at a node's own data. -/
def OwnUsed (a : CApp V) : Prop := ∀ n ∈ a.vc.applied, ∀ f, a.bank.getFilter n = some f → OwnData f.func

/-- The filters applied to the counter look at most at a node's own data and its children. -/
def ChildrenUsed (a : CApp V) : Prop := ∀ n ∈ a.vc.applied, ∀ f, a.bank.getFilter n = some f → LooksAtChildren f

/-- If `op` adds a node, then the node comes without parents. (Pending relations count.) -/
def ComesAlone (s : St) (op : Op) : Prop :=
  ∀ nd p, op = .addNode nd p → s.t.has nd.id = false → ∀ q, ¬ IsParent (addNode s nd p).state.t q nd.id

/-- With the applied filters the counter can follow the edit: they look only at a node's own data; or at its children as well, if
nodes come without parents (a counter is not told that the parent of a new node has a new child). -/
def CountFollows (a : CApp V) (op : Op) : Prop := OwnUsed a ∨ (ChildrenUsed a ∧ ComesAlone a.s op)

/-- The tree was made by careful edits. -/
def MadeCarefully (s : St) : Prop := ∃ ops, Along Careful St.init ops ∧ s = runOps St.init ops

/-- What the application keeps to:
* if the filters in use look only at a node's own data, edits are of any kind, as long as no `add_node` raises; if they look at the
  children too, all edits are careful, and nodes come without parents; other filters in the bank may be of any kind;
* a filter in use by the counter is neither removed from the bank nor given new parameters;
* filters are applied with refresh; `modify` is called for existing nodes;
* changed data are announced for nodes not called `'root'` (`tree.py:258-261` drops that);
* `unregister_cllbck` is not used. -/
def Fair (a : CApp V) : CAct V → Prop
  | .edit op => (OwnUsed a ∧ ∀ nd p, op = .addNode nd p → (step a.s op).isOk = true) ∨
      (MadeCarefully a.s ∧ Careful a.s op ∧ CountFollows a op)
  | .change x _ => x ≠ rootId ∧ (OwnUsed a ∨ (MadeCarefully a.s ∧ ChildrenUsed a))
  | .bank (.add _ _ _) => True
  | .bank (.remove n) => n ∉ a.vc.applied
  | .setParams n _ => n ∉ a.vc.applied
  | .apply _ r => r = true
  | .unapply _ => True
  | .touch x => a.s.t.has x = true
  | .register _ => True
  | .unregister _ => False

/-- Every action of the history meets the condition in the state where it is made. -/
def FairRun : List (CAct V) → CApp V → Prop
  | [], _ => True
  | c :: cs, a => Fair a c ∧ FairRun cs (a.act c).state

/-- C74: careful edits in which nodes come without parents, and announced changes of data. -/
def ChildEdit (a : CApp V) : CAct V → Prop
  | .edit op => Careful a.s op ∧ ComesAlone a.s op
  | .change x _ => x ≠ rootId
  | _ => False

/-- C74: a history of such actions. -/
def ChildRun : List (CAct V) → CApp V → Prop
  | [], _ => True
  | c :: cs, a => ChildEdit a c ∧ ChildRun cs (a.act c).state

/-- The number the observer `c` read when it was called last. -/
def lastRead (c : Nat) (heard : List (Nat × Nat)) : Option Nat :=
  ((heard.filter (fun h => decide (h.1 = c))).getLast?).map (·.2)

end Spec
end Larch
