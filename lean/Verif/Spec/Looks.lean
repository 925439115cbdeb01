import Verif.Model.Looks
import Verif.Spec.Columns

/-!
# What is claimed about the looks of the columns
-/

namespace Larch
namespace Spec

variable {N F T : Type} [LinearOrder N]

/-- The column `c` of the description has number `k` in the model and is in the column `g` on the screen. -/
def PlacedAt (w : Face N F T) (c : LookDesc N F T) (k g : Nat) : Prop := w.cols.columns.get? c.col.name = some (k, g)

/-- A column on the screen looks as the last of its columns of the model says. Its title is the last one given. -/
structure LooksLast (descs : List (LookDesc N F T)) (w : Face N F T) : Prop where
  look : ∀ c ∈ descs, ∀ k g, PlacedAt w c k g → (∀ c' ∈ descs, ∀ k', PlacedAt w c' k' g → k' ≤ k) →
    (w.looks g).visible = c.visible ∧ (w.looks g).resizable = c.resizable ∧ (w.looks g).expand = c.expand
  title : ∀ c ∈ descs, ∀ k g t, PlacedAt w c k g → c.title = some t →
    (∀ c' ∈ descs, ∀ k', PlacedAt w c' k' g → c'.title ≠ none → k' ≤ k) → (w.looks g).title = some t
  noTitle : ∀ g, (∀ c ∈ descs, ∀ k, PlacedAt w c k g → c.title = none) → (w.looks g).title = none

/-- A column that is alone in its column on the screen looks as described. -/
def LooksAlone (descs : List (LookDesc N F T)) (w : Face N F T) : Prop :=
  ∀ c ∈ descs, ∀ k g, PlacedAt w c k g → (∀ c' ∈ descs, ∀ k', PlacedAt w c' k' g → c'.col.name = c.col.name) →
    w.looks g = ⟨c.visible, c.resizable, c.expand, c.title⟩

/-- The names in the column `g` on the screen. -/
def InCol (w : Face N F T) (g : Nat) (n : N) : Prop := ∃ k, w.cols.columns.get? n = some (k, g)

/-- The name that a call is for; a click is for none. -/
def aboutName : Face.Call N → Option N
  | .visible n _ => some n
  | .resizable n _ => some n
  | .search n => some n
  | .expander n => some n
  | .sort n _ => some n
  | .click _ _ => none

/-- The last call among those for which `f` gives something; otherwise `d`. -/
def lastOr {α β : Type} (f : α → Option β) (d : β) (cs : List α) : β := ((cs.filterMap f).getLast?).getD d

end Spec
end Larch
