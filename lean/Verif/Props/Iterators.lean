import Verif.Props.DragDrop

/-!
# C51 for the GTK model: rows that stay keep their iterators
-/

namespace Larch

open Spec TM Screen

variable {V : Type} {diff : List Id → List Id → List Id} {O : GtkOrder} {alloc : Nat → Nat}

/-- **C51** (partial): an edit, or a change of data that is announced: every row of the store whose path is still a row of the
view afterwards is the same row at the same address, with the same path; so selections, expanded rows and iterators held
by the application survive.

Missing: filters being applied or unapplied (`C51_refuted_filter`), and GTK using the memory of removed rows again (C36). -/
theorem C51_iterators_partial (hdiff : SetDiff diff) (hO : GtkSound O) (ha : Function.Injective alloc) {w : Screen V}
    (h : Reached diff O alloc w) (c : FAct V) (hc : IsEdit c) (hf : ViewFair w.app c)
    (own : ∀ op, c = .edit op → OwnApplied w.app) {r : GRow} (hr : r ∈ w.tm.rows)
    {l : List Id} (hl : RowPath w.tm.rows r.addr l) (hs : IsRow (w.act diff O alloc c).app.ft l) :
    r ∈ (w.act diff O alloc c).tm.rows ∧ RowPath (w.act diff O alloc c).tm.rows r.addr l :=
  ((reached_inv hdiff hO ha h).act (O := O) hdiff hO ha c hf).2.2.2.2 hc own r hr l hl hs

/-- 3 is moved from 1 to 4; the row of 5, below 1 and 2, stays where it is. -/
example : (⟨2, some 1, .str 5⟩ : GRow) ∈ ((dropScreen id).act someDiff byInsertion id (.edit (.moveNode (.str 3) (.str 4)))).tm.rows := by
  have p1 : RowPath (dropScreen id).tm.rows 0 [.str 1] := RowPath.top (r := ⟨0, none, .str 1⟩) (by decide) rfl
  have p2 : RowPath (dropScreen id).tm.rows 1 [.str 1, .str 2] := RowPath.under (r := ⟨1, some 0, .str 2⟩) (by decide) rfl p1
  have p5 : RowPath (dropScreen id).tm.rows 2 [.str 1, .str 2, .str 5] := RowPath.under (r := ⟨2, some 1, .str 5⟩) (by decide) rfl p2
  exact (C51_iterators_partial someDiff_ok byInsertion_sound Function.injective_id (dropScreen_reached id [] trivial)
    (.edit (.moveNode (.str 3) (.str 4))) trivial (moveNode_fair (OwnApplied.fewer dropApp_own) _ _) (fun _ _ => dropApp_own) (r := ⟨2, some 1, .str 5⟩) (by decide) p5
    ⟨by decide, by decide⟩).1

end Larch
