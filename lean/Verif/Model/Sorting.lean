import Verif.Model.DragDrop

/-!
# Comparing two rows

`TreeView._sort_func` (`liblarch_gtk/__init__.py:350-364`). GTK calls it while the store is sorted: when a row has been
inserted, when a value of a row has been set, and when the user or `set_sort_column` chooses how to sort. Which rows it compares
is left to GTK.

The comparing functions of the application get the two nodes; a node is the `Node` of the tree, whose id tells the application
which data belong to it. The order, the third argument, is a constant for one round of sorting and is left out.
-/

namespace Larch
namespace TM

/-- `_sort_func(model, iter1, iter2, func)` (`__init__.py:350-364`) while the main tree is `t`; `get_value` answers `None` for an
iterator that is not valid. -/
def sortFunc (t : Tree) (m : TM) (func : Option (Node → Node → Int)) (a b : Nat) : Except Err Int :=
  -- 355-357
  match (m.value a).getD .none, (m.value b).getD .none, func with
  | x, y, some f =>
    if x.falsy || y.falsy then .ok (-1)
    else
      -- 359-361
      match t.getNode x with
      | .error e => .error e
      | .ok nx =>
        match t.getNode y with
        | .error e => .error e
        | .ok ny => .ok (f nx ny)
  | _, _, none => .ok (-1)

end TM
end Larch
