import Verif.Model.FilteredTree
import Verif.Model.TreeModel

/-!
# Aids for finding errors

`print_tree` of the main tree, of a view and of the GTK model, and the checks `test_validity` and `is_path_valid` of a view.

A printed line is modelled by the number of steps it is indented (one space each; `=>` for the GTK model) and the id that is
printed. The ornaments before the first and after the last line are left out. Whether the text is printed or returned makes no
difference. The head of a list is the top of a stack.
-/

namespace Larch

/-- A line: how far it is indented, and the id. -/
abbrev Line := Nat × Id

namespace Tree

/-- `for child_id in reversed(...): stack.append((prefix, child_id))` (`tree.py:410-411`, `filteredtree.py:457-458`). -/
def pushAll (k : Nat) (children : List Id) (stack : List Line) : List Line :=
  children.reverse.foldl (fun st c => (k, c) :: st) stack

/-- The loop of `print_tree` (`tree.py:406-411`). `prefix + node_id` needs a string, `self.nodes[node_id]` a node. -/
def printLoop (t : Tree) : Nat → List Line → List Line → Except Err (List Line)
  | _, [], out => .ok out
  | 0, _ :: _, _ => .error .diverge
  | f + 1, (k, x) :: stack, out =>
    if x = .none then .error .typeError
    else
      match t.node? x with
      | none => .error .keyError
      | some nd => printLoop t f (pushAll (k + 1) (t.childrenOf nd) stack) (out ++ [(k, x)])

/-- `print_tree` (`tree.py:402-416`). The stack starts with the attribute `self.root.children`. -/
def printTree (t : Tree) : Except Err (List Line) :=
  t.printLoop (FT.rounds t) (t.root.children.reverse.reverse.map fun c => (1, c)) [(0, rootId)]

end Tree

namespace FT

/-- The loop of `print_tree` (`filteredtree.py:452-458`). -/
def printLoop (v : View) : Nat → List Line → List Line → Except Err (List Line)
  | _, [], out => .ok out
  | 0, _ :: _, _ => .error .diverge
  | f + 1, (k, x) :: stack, out =>
    match v.nodes.get? x with
    | none => .error .keyError
    | some n => printLoop v f (Tree.pushAll (k + 1) n.children stack) (out ++ [(k, x)])

/-- `print_tree` (`filteredtree.py:441-465`). -/
def printTree (ft : FT) : Except Err (List Line) := printLoop ft.view (ft.view.walksBelow ft.root) [(0, ft.root)] []

/-- `assert` for every element of a list; the test may fail with a `KeyError`. -/
def assertAll (test : Id → Except Err Bool) : List Id → Except Err Unit
  | [] => .ok ()
  | x :: l =>
    match test x with
    | .error e => .error e
    | .ok false => .error .inconsistent
    | .ok true => assertAll test l

/-- `x in self.nodes[p]['children']`. -/
def inChildren (v : View) (x p : Id) : Except Err Bool :=
  match v.nodes.get? p with
  | none => .error .keyError
  | some n => .ok (decide (x ∈ n.children))

/-- `x in self.nodes[c]['parents']`. -/
def inParents (v : View) (x c : Id) : Except Err Bool :=
  match v.nodes.get? c with
  | none => .error .keyError
  | some n => .ok (decide (x ∈ n.parents))

/-- The body of the loop of `test_validity` (`filteredtree.py:294-306`). -/
def testNode (ft : FT) (x : Id) : Except Err Unit :=
  match assertAll (inChildren ft.view x) (ft.view.pars x) with
  | .error e => .error e
  | .ok _ =>
    if ft.view.pars x = [] ∧ x ≠ ft.root then .error .inconsistent
    else assertAll (inParents ft.view x) (ft.view.kids x)

/-- The loop of `test_validity`. -/
def testAll (ft : FT) : List Id → Except Err Unit
  | [] => .ok ()
  | x :: l =>
    match ft.testNode x with
    | .error e => .error e
    | .ok _ => testAll ft l

/-- `test_validity` (`filteredtree.py:292-306`); a failed assertion is `inconsistent`. -/
def testValidity (ft : FT) : Except Err Unit := ft.testAll ft.view.nodes.keys

/-- The loop of `is_path_valid` (`filteredtree.py:405-412`). -/
def pathLoop (v : View) : List Id → Bool
  | par :: child :: l =>
    match v.nodes.get? par with
    | some n => if child ∈ n.children then pathLoop v (child :: l) else false
    | none => false
  | _ => true

/-- `is_path_valid` (`filteredtree.py:399-413`). -/
def isPathValid (ft : FT) (p : List Id) : Bool := if p.length = 1 then false else pathLoop ft.view p

end FT

namespace TM

/-- `push_to_stack` (`treemodel.py:107-110`). -/
def pushIter (k : Nat) (it : Option Nat) (stack : List (Nat × Nat)) : List (Nat × Nat) :=
  match it with
  | none => stack
  | some a => (k, a) :: stack

/-- The loop of `print_tree` (`treemodel.py:117-123`); `iter_children` is the first child. -/
def printLoop (O : GtkOrder) (m : TM) : Nat → List (Nat × Nat) → List (Nat × Option Id) → Except Err (List (Nat × Option Id))
  | _, [], out => .ok out
  | 0, _ :: _, _ => .error .diverge
  | f + 1, (k, a) :: stack, out =>
    printLoop O m f (pushIter (k + 1) (O.nth m.rows (some a) 0) (pushIter k (O.next m.rows a) stack)) (out ++ [(k, m.value a)])

/-- `print_tree` (`treemodel.py:104-124`). -/
def printTree (O : GtkOrder) (m : TM) : Except Err (List (Nat × Option Id)) :=
  m.printLoop O m.rows.length (pushIter 0 (O.nth m.rows none 0) []) []

end TM
end Larch
