import Verif.Model.Columns

/-!
# What is claimed about the columns of the GTK tree view
-/

namespace Larch
namespace Spec

variable {N F : Type} [LinearOrder N]

/-- Column `c`, the `i`-th of the description, comes before column `c'`, the `j`-th: by their orders, where a column
without order has `9999 + i`; columns of the same order by their names. -/
def ColBefore (c : ColDesc N F) (i : Nat) (c' : ColDesc N F) (j : Nat) : Prop :=
  c.order.getD (9999 + i) < c'.order.getD (9999 + j) ∨
    c.order.getD (9999 + i) = c'.order.getD (9999 + j) ∧ c.name < c'.name

/-- Every column that is named for sorting is described, and does not come after the column that names it. -/
def SortingKnown (descs : List (ColDesc N F)) : Prop :=
  ∀ i c, descs[i]? = some c → ∀ t, c.sorting = some t →
    ∃ j c', descs[j]? = some c' ∧ c'.name = t ∧ (j = i ∨ ColBefore c' j c i)

/-- The columns are numbered from 1 on in their order, and the model computes the value of a column with the function
described for it. -/
structure Numbered (descs : List (ColDesc N F)) (w : Columns N F) : Prop where
  names : ∀ n, w.columns.has n = true ↔ ∃ c ∈ descs, c.name = n
  types : w.types.length = descs.length
  value : ∀ c ∈ descs, ∃ k g, w.columns.get? c.name = some (k + 1, g) ∧ w.types[k]? = some c.value
  order : ∀ (i j : Nat) c c' p q, descs[i]? = some c → descs[j]? = some c' → w.columns.get? c.name = some p →
    w.columns.get? c'.name = some q → (p.1 < q.1 ↔ ColBefore c i c' j)

/-- What a click on the head of the column `g` on the screen sorts by: `set_sort_column_id` was called for it, and the last call
counts. -/
def sortsBy (w : Columns N F) (g : Nat) : Option Nat := ((w.sortIds.filter fun p => decide (p.1 = g)).getLast?).map (·.2)

/-- Column `c` is in the column `g` on the screen. -/
def OnScreen (w : Columns N F) (c : ColDesc N F) (g : Nat) : Prop := ∃ k, w.columns.get? c.name = some (k, g)

/-- A click on the head of a column sorts as described, if only one of the columns of the model in it says how: by the column named,
or by the column itself if it has a comparing function. If none says how, the column can not be used for sorting. -/
structure SortsRight (descs : List (ColDesc N F)) (w : Columns N F) : Prop where
  byFunction : ∀ c ∈ descs, ∀ k g, w.columns.get? c.name = some (k, g) → c.sortingFunc = true →
    (∀ c' ∈ descs, OnScreen w c' g → c'.sortingFunc = true → c'.name = c.name) → sortsBy w g = some k
  byColumn : ∀ c ∈ descs, ∀ g t m h, OnScreen w c g → c.sorting = some t → w.columns.get? t = some (m, h) →
    (∀ c' ∈ descs, OnScreen w c' g → c'.sortingFunc = false ∧ (c'.sorting ≠ none → c'.name = c.name)) → sortsBy w g = some m
  not : ∀ g, (∀ c ∈ descs, OnScreen w c g → c.sorting = none ∧ c.sortingFunc = false) → sortsBy w g = none

end Spec
end Larch
