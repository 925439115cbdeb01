import Verif.Model.Suite
import Verif.Model.Callbacks
import Verif.Spec.View

/-!
# The tests of liblarch, played in the model

`tests/test_liblarch.py` describes what the authors expect of the code. The files in this directory play these tests in the model
and check every expectation that the model can express. They prove nothing about all executions; they are evidence that the model
is a model of this code.

The ids: `'root'` is `str 0`, `'0'` to `'14'` are `str 1` to `str 15`, and the others are named where they are used.
-/

namespace Larch.Tests

/-- The colours of a `DummyNode` (`tests/test_liblarch.py:42-59`). -/
inductive Colour where
  | red | blue | green | purple | pink | tag (k : Nat)
deriving DecidableEq, Repr

/-- What the filter functions of the tests read: the colours of the nodes. -/
abbrev Paint := List Colour

abbrev World := Suite Paint

/-- A filter function that reads the tree and the colours. -/
abbrev Func := Tree → (Id → Paint) → Id → Option Params → Bool

/-- `is_blue`, `is_green`, `is_red` (`tests/test_liblarch.py:237-244`). -/
def has (c : Colour) : Func := fun _ d x _ => decide (c ∈ d x)

/-- `is_leaf` (`tests/test_liblarch.py:246-247`): `not node.has_child()`. -/
def leaf : Func := fun t _ x _ =>
  match t.node? x with
  | some nd => !(Tree.nodeHasChild nd)
  | none => true

/-- An order in which Python might list a difference of sets. -/
def order (a b : List Id) : List Id := a.filter (· ∉ b)

/-- The node `'k'` of the tests. -/
def n (k : Nat) : Id := .str (k + 1)

/-- The names of the filters. -/
def blue : FName := .plain 1
def green : FName := .plain 2
def red : FName := .plain 3
def leaves : FName := .plain 4
def flatgreen : FName := .plain 5
def flatleaves : FName := .plain 6
def transblue : FName := .plain 7
def transgreen : FName := .plain 8

/-- One line of a test. -/
inductive Line where
  | act (c : SuiteAct Paint)                               -- a call that does not raise
  | fails (c : SuiteAct Paint)                             -- a call that makes a view raise
  | ok (q : World → Bool)                                  -- an assertion
  | sends (k : Nat) (ev : SigEv) (path : List Id) (c : SuiteAct Paint)  -- a call that makes view `k` send this signal
  | sendsMany (k : Nat) (ev : SigEv) (m : Nat) (c : SuiteAct Paint)     -- a call that makes view `k` send at least `m` of these
  | each (k : Nat) (q : FT → Sig → Bool) (c : SuiteAct Paint)           -- a call; `q` holds of each signal of view `k`, asked afterwards

/-- The `FilteredTree` of object number `k`. -/
def ft? (w : World) (k : Nat) : Option FT :=
  match w.objs[k]? with
  | some (.view v) => v.ft
  | _ => none

/-- Play a test; `false` as soon as something is not as expected. -/
def play (w : World) : List Line → Bool
  | [] => true
  | .act c :: l =>
    match w.act order c with
    | .ok w' => play w' l
    | .err _ _ => false
  | .fails c :: l =>
    match w.act order c with
    | .ok _ => false
    | .err _ w' => play w' l
  | .ok q :: l => q w && play w l
  | .sends k ev path c :: l =>
    match w.act order c with
    | .ok w' =>
      match ft? w k, ft? w' k with
      | some a, some b => (b.view.out.drop a.view.out.length).any (fun s => decide (s.ev = ev) && decide (s.path = path)) && play w' l
      | _, _ => false
    | .err _ _ => false
  | .sendsMany k ev m c :: l =>
    match w.act order c with
    | .ok w' =>
      match ft? w k, ft? w' k with
      | some a, some b => decide (m ≤ ((b.view.out.drop a.view.out.length).filter fun s => decide (s.ev = ev)).length) && play w' l
      | _, _ => false
    | .err _ _ => false
  | .each k q c :: l =>
    match w.act order c with
    | .ok w' =>
      match ft? w k, ft? w' k with
      | some a, some b => (b.view.out.drop a.view.out.length).all (q b) && play w' l
      | _, _ => false
    | .err _ _ => false

/-! ### Calls -/

/-- `self.tree.add_node(DummyNode(x), parent_id=p)` -/
def add (x : Id) (p : Id := .none) : Line := .act (.edit (.addNode (.new x .none) p))

/-- `self.tree.add_node(node, parent_id=p)` for a node that was prepared before. -/
def addNode (nd : Node) (p : Id := .none) : Line := .act (.edit (.addNode nd p))

/-- A node of which children or parents were named before it is in the tree. -/
def withChildren (x : Id) (cs : List Id) : Node := cs.foldl Node.detachedAddChild (.new x .none)
def withParents (x : Id) (ps : List Id) : Node := ps.foldl Node.detachedAddParent (.new x .none)

/-- Give colours to a node; before it is in the tree nobody hears of it (`tests/test_liblarch.py:48-51`). -/
def paint (x : Id) (cs : Paint) : Line := .act (.change x cs)

/-- `self.tree.add_filter(name, f, params)` -/
def filter (nm : FName) (f : Func) (p : Option Params := none) : Line := .act (.bank (.add nm f p))

def del (x : Id) (recursive : Bool := false) : Line := .act (.edit (.delNode x recursive))
def move (x : Id) (p : Id := .none) : Line := .act (.edit (.moveNode x p))
def addParent (x p : Id) : Line := .act (.edit (.addParent x p))
def setParent (x p : Id) : Line := .act (.edit (.setParent x p))
def addChild (x c : Id) : Line := .act (.edit (.addChild x c))
def refresh (x : Id) : Line := .act (.edit (.refreshNode x))

/-- `self.tree.get_viewtree(refresh=…)` without a name. -/
def newView (rf : Bool := true) : Line := .act (.getView none rf)

def apply (k : Nat) (f : FName) (rf : Bool := true) : Line := .act (.onView k (.apply f none false rf))
def unapply (k : Nat) (f : FName) : Line := .act (.onView k (.unapply f true))
def reset (k : Nat) : Line := .act (.onView k (.reset true))

/-! ### Assertions. Object 0 is the main view, 1 is `self.view`, the next is `view` of the test. -/

/-- Ask view number `k`. -/
def ask {α : Type} [DecidableEq α] (k : Nat) (q : World → VT → Except Err α) (is : α → Bool) (w : World) : Bool :=
  match w.objs[k]? with
  | some (.view v) =>
    match q w v with
    | .ok r => is r
    | .error _ => false
  | _ => false

/-- Asking view number `k` raises. -/
def askFails {α : Type} (k : Nat) (q : World → VT → Except Err α) (e : Err) (w : World) : Bool :=
  match w.objs[k]? with
  | some (.view v) =>
    match q w v with
    | .ok _ => false
    | .error e' => decide (e' = e)
  | _ => false

/-- `get_n_nodes(withfilters=fs)` -/
def count (k : Nat) (m : Nat) (fs : List FName := []) : Line :=
  .ok (ask k (fun w v => (v.nNodes order w.bank w.s.t w.data fs).1) fun r => r == m)

/-- `is_displayed(x)` -/
def shown (k : Nat) (x : Id) (b : Bool := true) : Line := .ok (ask k (fun w v => v.isDisplayed w.s.t x) fun r => r == b)

/-- `x in get_all_nodes()` -/
def inAll (k : Nat) (x : Id) (b : Bool := true) : Line :=
  .ok (ask k (fun w v => v.allNodes w.s.t) fun r => decide (x ∈ r) == b)

/-- `len(get_all_nodes())` -/
def nAll (k : Nat) (m : Nat) : Line := .ok (ask k (fun w v => v.allNodes w.s.t) fun r => r.length == m)

/-- `node_parents(x) == ps` -/
def parents (k : Nat) (x : Id) (ps : List Id) : Line := .ok (ask k (fun w v => v.nodeParents w.s.t x) fun r => decide (r = ps))

/-- `node_all_children(x) == cs` -/
def children (k : Nat) (x : Id) (cs : List Id) : Line := .ok (ask k (fun w v => v.allChildren w.s.t x) fun r => decide (r = cs))

/-- `c in node_all_children(x)` -/
def child (k : Nat) (x c : Id) (b : Bool := true) : Line :=
  .ok (ask k (fun w v => v.allChildren w.s.t x) fun r => decide (c ∈ r) == b)

/-- `p in node_parents(x)` -/
def parent (k : Nat) (x p : Id) (b : Bool := true) : Line :=
  .ok (ask k (fun w v => v.nodeParents w.s.t x) fun r => decide (p ∈ r) == b)

/-- `node_n_children(x, recursive)` -/
def nKids (k : Nat) (x : Id) (m : Nat) (recursive : Bool := false) : Line :=
  .ok (ask k (fun w v => (v.nChildren order w.bank w.s.t w.data x recursive).1) fun r => r == m)

/-- `node_has_child(x)` -/
def hasKid (k : Nat) (x : Id) (b : Bool := true) : Line := .ok (ask k (fun w v => v.hasChild w.s.t x) fun r => r == b)

/-- `get_paths_for_node(x) == ps` -/
def paths (k : Nat) (x : Id) (ps : List (List Id)) : Line :=
  .ok (ask k (fun w v => v.pathsFor w.s.t x) fun r => decide (r = ps))

/-- `len(get_paths_for_node(x))` -/
def nPaths (k : Nat) (x : Id) (m : Nat) : Line := .ok (ask k (fun w v => v.pathsFor w.s.t x) fun r => r.length == m)

/-- `get_node_for_path(p) == x`; `none` is `None`. -/
def atPath (k : Nat) (p : List Id) (x : Option Id) : Line :=
  .ok (ask k (fun w v => v.nodeForPath w.s.t p) fun r => decide (r = x))

/-- `next_node(x, pid)` -/
def next (k : Nat) (x : Id) (r : Option Id) (p : Id := .none) : Line :=
  .ok (ask k (fun w v => v.nextNode w.s.t x p) fun s => decide (s = r))

/-- `node_nth_child(x, i)` -/
def nth (k : Nat) (x : Id) (i : Nat) (c : Id) : Line := .ok (ask k (fun w v => v.nthChild w.s.t x i) fun r => decide (r = c))

/-- `node_nth_child(x, i)` raises `ValueError` -/
def nthFails (k : Nat) (x : Id) (i : Nat) : Line := .ok (askFails k (fun w v => v.nthChild w.s.t x i) .valueError)

/-- The edit raises. -/
def raises (op : Op) : Line := .ok fun w => match step w.s op with | .ok _ => false | .err _ _ => true

/-- `tree.get_node(x).get_parents()` and `get_children()` -/
def treeParents (x : Id) (ps : List Id) : Line := .ok fun w => decide (w.s.t.getParents x = ps)
def treeChildren (x : Id) (cs : List Id) : Line := .ok fun w => decide (w.s.t.getChildren x = cs)

/-- The tester (`tests/tree_testing.py:181-214`) is content with view number `k`: its record of the signals from the start makes
sense, and it has exactly the paths that the view reports for its nodes. -/
def valid (k : Nat) : Line := .ok fun w =>
  match ft? w k with
  | none => false
  | some ft =>
    match Spec.replay ft.view.out [], ft.allNodes with
    | some rows, .ok xs =>
      xs.all (fun x => match ft.pathsFor x with
        | .ok ps => ps.all (· ∈ rows) && decide ((rows.filter fun r => decide (r.getLast? = some x)).length = ps.length)
        | .error _ => false) &&
      rows.all fun r => match ft.nodeForPath r with
        | .ok y => decide (r.getLast? = y)
        | .error _ => false
    | _, _ => false

/-! ### `setUp` (`tests/test_liblarch.py:152-227`) -/

/-- The filters, the view `self.view` and the nodes: `'0'` to `'4'` are red, `'5'` to `'9'` are blue, `'10'` to `'14'` are green, each below
the one before. -/
def setUp : List Line :=
  [newView, filter blue (has .blue), filter green (has .green), filter red (has .red), filter leaves leaf,
    filter flatgreen (has .green) (some { flat := some true }), filter flatleaves leaf (some { flat := some true }),
    filter transblue (has .blue) (some {}), filter transgreen (has .green) (some {})] ++
  (List.range 5).flatMap (fun k => [paint (n k) [.red], add (n k)]) ++
  (List.range 5).flatMap (fun k => [paint (n (k + 5)) [.blue], add (n (k + 5))]) ++
  (List.range 5).flatMap (fun k => [paint (n (k + 10)) [.green], add (n (k + 10)) (n (k + 9))])

/-- A test: `setUp`, the lines of the test, and `tearDown` (`tests/test_liblarch.py:229-234`). -/
def passes (l : List Line) : Bool := play (Suite.init fun _ => []) (setUp ++ l ++ [valid 1])

end Larch.Tests
