import Verif.Model.ViewTree

/-!
# Children by number, for every integer

Elsewhere `node_nth_child` and `get_nth_child` are modelled for numbers that are not negative (`Tree.nthChild`, `FT.nthChild`,
`VT.nthChild`). Here they are modelled for all integers. A Python list counts from the end if the index is negative.
-/

namespace Larch

/-- `l[i]` of a Python list; `none` stands for `IndexError`. -/
def pyGet {α : Type} (l : List α) (i : Int) : Option α :=
  if 0 ≤ i then l[i.toNat]?
  else if 0 ≤ i + l.length then l[(i + l.length).toNat]?
  else none

/-- `_Node.get_nth_child` (`treenode.py:205-210`). -/
def Tree.nthChildInt (nd : Node) (i : Int) : Except Err Id :=
  match pyGet nd.children i with
  | some c => .ok c
  | none => .error .valueError

/-- `node_nth_child` (`filteredtree.py:573-574`). -/
def FT.nthChildInt (ft : FT) (x : Id) (i : Int) : Except Err Id :=
  match ft.view.nodes.get? x with
  | none => .error .keyError
  | some m => match pyGet m.children i with
    | none => .error .indexError
    | some c => .ok c

/-- `node_nth_child` (`viewtree.py:225-243`). -/
def VT.nthChildInt (t : Tree) (v : VT) (x : Id) (i : Int) : Except Err Id :=
  if v.static then
    match (if x.falsy || x = rootId then .ok t.root else t.getNode x) with
    | .error e => .error e
    | .ok nd => if ((t.childrenOf nd).length : Int) > i then Tree.nthChildInt nd i else .error .valueError
  else v.direct fun ft =>
    match ft.nChildren x false with
    | .error e => .error e
    | .ok realn => if (realn : Int) ≤ i then .error .valueError else ft.nthChildInt x i

end Larch
