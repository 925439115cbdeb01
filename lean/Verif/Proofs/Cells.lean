import Verif.Proofs.Late
import Verif.Props.TreeModel
import Verif.Spec.Cells

/-!
# The columns of the GTK tree model, path by path
-/

namespace Larch

open Spec Graph

variable {V W : Type}

/-! ### The values of one row -/

namespace CModel

theorem setValues_length (d : V) (types : List (V → Option W)) : ∀ (k : Nat) (row : List (Option W)),
    (setValues d k types row).length = row.length := by
  induction types with
  | nil => intro k row; rfl
  | cons f types ih =>
    intro k row
    rw [setValues, ih]
    split
    · rfl
    · simp

theorem setValues_below (d : V) (types : List (V → Option W)) : ∀ (k : Nat) (row : List (Option W)) (j : Nat), j < k →
    (setValues d k types row)[j]? = row[j]? := by
  induction types with
  | nil => intro k row j _; rfl
  | cons f types ih =>
    intro k row j hj
    rw [setValues, ih _ _ _ (by omega)]
    split
    · rfl
    · rw [List.getElem?_set_ne (by omega)]

theorem setValues_at (d : V) (types : List (V → Option W)) : ∀ (k : Nat) (row : List (Option W)) (j : Nat)
    (f : V → Option W) (w : W), types[j]? = some f → f d = some w → k + j < row.length →
    (setValues d k types row)[k + j]? = some (some w) := by
  induction types with
  | nil => intro k row j f w h; cases h
  | cons g types ih =>
    intro k row j f w hf hw hl
    rw [setValues]
    cases j with
    | zero =>
      have : g = f := by simpa using hf
      subst this
      rw [setValues_below d types _ _ _ (by omega), hw]
      simp only [Nat.add_zero] at hl ⊢
      rw [List.getElem?_set_self hl]
    | succ j =>
      have := ih (k + 1) (match g d with | none => row | some w => row.set k (some w)) j f w (by simpa using hf) hw
        (by
          have : (match g d with | none => row | some w => row.set k (some w)).length = row.length := by
            split <;> simp
          omega)
      rw [show k + (j + 1) = k + 1 + j by omega]
      exact this

theorem build_at (types : List (V → Option W)) (d : V) (j : Nat) (f : V → Option W) (hf : types[j]? = some f) :
    (build types d)[j]? = some (f d) := by
  unfold build
  rw [List.getElem?_map, hf]; rfl

end CModel

/-! ### The values of all paths -/

/-- What a signal does to the values kept for the paths. -/
def paint (types : List (V → Option W)) (d : Id → V) (C : List Id → List (Option W)) (s : Sig) :
    List Id → List (Option W) := fun l =>
  if l = s.path then
    match s.ev with
    | .added => CModel.build types (d s.nid)
    | .modified => CModel.setValues (d s.nid) 0 types (C l)
    | .deleted => C l
  else C l

/-- The same for a list of signals. -/
def paintAll (types : List (V → Option W)) : List (Sig × (Id → V)) → (List Id → List (Option W)) →
    List Id → List (Option W)
  | [], C => C
  | (s, d) :: l, C => paintAll types l (paint types d C s)

theorem paintAll_append (types : List (V → Option W)) (l l' : List (Sig × (Id → V))) (C : List Id → List (Option W)) :
    paintAll types (l ++ l') C = paintAll types l' (paintAll types l C) := by
  induction l generalizing C with
  | nil => rfl
  | cons x l ih => obtain ⟨s, d⟩ := x; exact ih _

/-- A row of values that is up to date. -/
structure RowCurrent (types : List (V → Option W)) (d : V) (row : List (Option W)) : Prop where
  len : row.length = types.length
  val : ∀ (k : Nat) (f : V → Option W) (w : W), types[k]? = some f → f d = some w → row[k]? = some (some w)

/-- All rows are up to date. -/
def AllCurrent (types : List (V → Option W)) (d : Id → V) (rows : List (List Id)) (C : List Id → List (Option W)) : Prop :=
  ∀ l ∈ rows, ∀ x, l.getLast? = some x → RowCurrent types (d x) (C l)

theorem RowCurrent.build (types : List (V → Option W)) (d : V) : RowCurrent types d (CModel.build types d) :=
  ⟨by simp [CModel.build], fun k f w hf hw => by rw [CModel.build_at types d k f hf, hw]⟩

theorem RowCurrent.setValues {types : List (V → Option W)} {d : V} {row : List (Option W)}
    (h : row.length = types.length) : RowCurrent types d (CModel.setValues d 0 types row) := by
  refine ⟨by rw [CModel.setValues_length, h], fun k f w hf hw => ?_⟩
  have hk : k < types.length := (List.getElem?_eq_some_iff.1 hf).1
  have := CModel.setValues_at d types 0 row k f w hf hw (by omega)
  simpa using this

theorem applySig_last {rows rows' : List (List Id)} {s : Sig} (h : applySig rows s = some rows') :
    s.path.getLast? = some s.nid := by
  unfold applySig at h
  split at h
  · assumption
  · cases h

/-- A row that is there after a signal was there before, unless the signal added it. -/
theorem applySig_mem {rows rows' : List (List Id)} {s : Sig} (h : applySig rows s = some rows') {l : List Id} (hl : l ∈ rows') :
    l ∈ rows ∨ (s.ev = .added ∧ s.path = l) := by
  unfold applySig at h
  split at h
  · split at h
    · next e =>
      split at h
      · cases h
        rcases List.mem_cons.1 hl with rfl | hl
        · exact Or.inr ⟨e, rfl⟩
        · exact Or.inl hl
      · cases h
    · split at h
      · cases h; exact Or.inl hl
      · cases h
    · split at h
      · cases h; exact Or.inl (List.mem_of_mem_erase hl)
      · cases h
  · cases h

theorem replay_mem : ∀ (sigs : List Sig) {rows rows' : List (List Id)}, replay sigs rows = some rows' → ∀ l ∈ rows',
    l ∈ rows ∨ ∃ s ∈ sigs, s.ev = .added ∧ s.path = l := by
  intro sigs
  induction sigs with
  | nil => intro rows rows' h l hl; cases h; exact Or.inl hl
  | cons s sigs ih =>
    intro rows rows' h l hl
    obtain ⟨rows1, h1, h2⟩ := Option.bind_eq_some_iff.1 h
    rcases ih h2 l hl with e | ⟨s', hs', e⟩
    · rcases applySig_mem h1 e with e | e
      · exact Or.inl e
      · exact Or.inr ⟨s, by simp, e⟩
    · exact Or.inr ⟨s', by simp [hs'], e⟩

/-- After a batch of signals: the rows touched are up to date with the data of the batch, the others are as before. -/
theorem paint_batch (types : List (V → Option W)) (d : Id → V) : ∀ (sigs : List Sig) {rows rows' : List (List Id)}
    {C : List Id → List (Option W)}, replay sigs rows = some rows' → (∀ l ∈ rows, (C l).length = types.length) →
    ∀ l ∈ rows', (paintAll types (sigs.map fun s => (s, d)) C l).length = types.length ∧
      ((∃ s ∈ sigs, s.path = l ∧ s.ev ≠ .deleted) →
        ∀ x, l.getLast? = some x → RowCurrent types (d x) (paintAll types (sigs.map fun s => (s, d)) C l)) ∧
      ((∀ s ∈ sigs, s.path = l → s.ev = .deleted) → l ∈ rows ∧ paintAll types (sigs.map fun s => (s, d)) C l = C l) := by
  intro sigs
  induction sigs with
  | nil =>
    intro rows rows' C h hC l hl
    cases h
    exact ⟨hC l hl, (by rintro ⟨s, hs, _⟩; cases hs), fun _ => ⟨hl, rfl⟩⟩
  | cons s sigs ih =>
    intro rows rows' C h hC l hl
    obtain ⟨rows1, h1, h2⟩ := Option.bind_eq_some_iff.1 h
    have hC1 : ∀ l ∈ rows1, (paint types d C s l).length = types.length := by
      intro l hl
      unfold paint
      rcases applySig_mem h1 hl with e | ⟨e, rfl⟩
      · split
        · split
          · simp [CModel.build]
          · rw [CModel.setValues_length]; exact hC l e
          · exact hC l e
        · exact hC l e
      · rw [if_pos rfl, e]; simp [CModel.build]
    obtain ⟨i1, i2, i3⟩ := ih h2 hC1 l hl
    refine ⟨i1, ?_, ?_⟩
    · rintro ⟨s', hs', hp, hev⟩ x hx
      by_cases hc : ∃ s ∈ sigs, s.path = l ∧ s.ev ≠ .deleted
      · exact i2 hc x hx
      · have hnone : ∀ s ∈ sigs, s.path = l → s.ev = .deleted := by
          intro q hq e
          by_contra hne
          exact hc ⟨q, hq, e, hne⟩
        rcases List.mem_cons.1 hs' with rfl | hs'
        · obtain ⟨j1, j2⟩ := i3 hnone
          show RowCurrent types (d x) (paintAll types (sigs.map fun s => (s, d)) (paint types d C s') l)
          rw [j2]
          have hxn : x = s'.nid := by
            have := applySig_last h1
            rw [hp, hx] at this
            exact Option.some.inj this
          unfold paint
          rw [if_pos hp.symm, ← hxn]
          cases hk : s'.ev with
          | added => exact RowCurrent.build _ _
          | modified =>
            refine RowCurrent.setValues ?_
            have hin : l ∈ rows := by
              rcases applySig_mem h1 j1 with e | ⟨e, -⟩
              · exact e
              · rw [hk] at e; cases e
            exact hC l hin
          | deleted => exact absurd hk hev
        · exact absurd (hnone s' hs' hp) hev
    · intro hno
      obtain ⟨j1, j2⟩ := i3 fun q hq e => hno q (by simp [hq]) e
      have hs : s.path = l → s.ev = .deleted := hno s (by simp)
      refine ⟨?_, ?_⟩
      · rcases applySig_mem h1 j1 with e | ⟨e, e'⟩
        · exact e
        · rw [hs e'] at e; cases e
      · show paintAll types (sigs.map fun s => (s, d)) (paint types d C s) l = C l
        rw [j2]
        unfold paint
        split
        · next e => rw [hs e.symm]
        · rfl

end Larch
