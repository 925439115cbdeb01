import Verif.Props.Cells
import Verif.Spec.Colours

/-!
# Cells and colours along a history
-/

namespace Larch

open Spec TM

variable {N V W : Type} [LinearOrder N] [DecidableEq W]

/-! ### The values of the cells -/

theorem CModel.setValues_none (d : V) (types : List (V → Option W)) : ∀ (k : Nat) (row : List (Option W)) (j : Nat)
    (f : V → Option W), types[j]? = some f → f d = none → (setValues d k types row)[k + j]? = row[k + j]? := by
  induction types with
  | nil => intro k row j f h; cases h
  | cons g types ih =>
    intro k row j f hf hw
    rw [setValues]
    cases j with
    | zero =>
      have : g = f := by simpa using hf
      subst this
      rw [setValues_below d types _ _ _ (by omega), hw]
    | succ j =>
      rw [show k + (j + 1) = k + 1 + j by omega, ih (k + 1) _ j f (by simpa using hf) hw]
      split
      · rfl
      · rw [List.getElem?_set_ne (by omega)]

/-- The last value that is not `None`. -/
def lastSome (vs : List (Option W)) : Option W := (vs.filterMap id).getLast?

theorem lastSome_snoc (vs : List (Option W)) (v : Option W) : lastSome (vs ++ [v]) = match v with
    | none => lastSome vs
    | some w => some w := by
  unfold lastSome
  cases v <;> simp

theorem lastSome_one (v : Option W) : lastSome [v] = v := by
  have := lastSome_snoc [] v
  rw [List.nil_append] at this
  rw [this]
  cases v <;> rfl

/-- The row of values made of what was computed. -/
def rowOf (n : Nat) (vs : Nat → List Id → List (Option W)) (l : List Id) : List (Option W) :=
  (List.range n).map fun k => lastSome (vs k l)

theorem rowOf_at {n k : Nat} (vs : Nat → List Id → List (Option W)) (l : List Id) (hk : k < n) :
    (rowOf n vs l)[k]? = some (lastSome (vs k l)) := by
  unfold rowOf
  rw [List.getElem?_map, List.getElem?_range hk]; rfl

/-- What a signal adds to the values computed. -/
def addComputed (types : List (V → Option W)) (d : Id → V) (s : Sig) (vs : Nat → List Id → List (Option W)) : Nat → List Id → List (Option W) :=
  fun k l => match types[k]? with
    | none => vs k l
    | some f => if s.path = l then
        match s.ev with
        | .added => [f (d s.nid)]
        | .modified => vs k l ++ [f (d s.nid)]
        | .deleted => vs k l
      else vs k l

theorem paint_rowOf (types : List (V → Option W)) (d : Id → V) (s : Sig) (vs : Nat → List Id → List (Option W)) :
    paint types d (rowOf types.length vs) s = rowOf types.length (addComputed types d s vs) := by
  funext l
  have hext : ∀ {row : List (Option W)}, row.length = types.length →
      (∀ k f, types[k]? = some f → row[k]? = some (lastSome (addComputed types d s vs k l))) → row = rowOf types.length (addComputed types d s vs) l := by
    intro row hlen h
    apply List.ext_getElem?
    intro k
    by_cases hk : k < types.length
    · rw [rowOf_at _ _ hk]; exact h k types[k] (List.getElem?_eq_getElem hk)
    · rw [List.getElem?_eq_none (by omega), List.getElem?_eq_none (by simp [rowOf]; omega)]
  have hlen : (rowOf types.length vs l).length = types.length := by simp [rowOf]
  apply hext
  · unfold paint
    split
    · split
      · simp [CModel.build]
      · rw [CModel.setValues_length, hlen]
      · exact hlen
    · exact hlen
  · intro k f hf
    have hk : k < types.length := (List.getElem?_eq_some_iff.1 hf).1
    unfold paint addComputed
    rw [hf]
    by_cases hl : l = s.path
    · rw [if_pos hl]
      dsimp only
      rw [if_pos hl.symm]
      cases s.ev with
      | added =>
        dsimp only
        rw [CModel.build_at _ _ _ _ hf, lastSome_one]
      | modified =>
        dsimp only
        rw [lastSome_snoc]
        cases hv : f (d s.nid) with
        | none =>
          have := CModel.setValues_none (d s.nid) types 0 (rowOf types.length vs l) k f hf hv
          rw [Nat.zero_add] at this
          rw [this, rowOf_at _ _ hk]
        | some w =>
          have := CModel.setValues_at (d s.nid) types 0 (rowOf types.length vs l) k f w hf hv (by rw [hlen]; omega)
          rw [Nat.zero_add] at this
          exact this
      | deleted => exact rowOf_at _ _ hk
    · rw [if_neg hl]
      dsimp only
      rw [if_neg (Ne.symm hl)]
      exact rowOf_at _ _ hk

/-! ### A history -/

namespace Canvas

theorem cellData_keeps {parse : W → Option Rgb} {white : W} {i : Nat} {row : Option Nat} {c : Canvas N V W} :
    (c.cellData parse white i row).state.model = c.model ∧ (c.cellData parse white i row).state.cols = c.cols ∧
    (c.cellData parse white i row).state.bg = c.bg := by
  unfold cellData
  split
  · exact ⟨rfl, rfl, rfl⟩
  · next num _ =>
    dsimp only
    generalize c.lookedUp num row = color
    split
    · split
      · exact ⟨rfl, rfl, rfl⟩
      · split <;> exact ⟨rfl, rfl, rfl⟩
    · exact ⟨rfl, rfl, rfl⟩

/-- The columns of `c` are those of `w`, with other functions perhaps. -/
structure Like (w : Columns N (V → Option W)) (c : Canvas N V W) : Prop where
  columns : c.cols.columns = w.columns
  shown : c.cols.shown = w.shown
  length : c.cols.types.length = w.types.length

theorem setBgColor_ok {w : Columns N (V → Option W)} {c : Canvas N V W} (hl : Like w c) {n : N} {f : V → Option W} {k g : Nat}
    (h1 : w.columns.get? n = some (k + 1, g)) (h2 : k < w.types.length) (h3 : g ∈ w.shown) :
    ∃ c', c.setBgColor n f = .ok c' ∧ Like w c' ∧ c'.model = c.model ∧ c'.bg = some (k + 1) ∧ c'.cols.types = c.cols.types.set k f := by
  unfold setBgColor
  rw [hl.columns, h1]
  dsimp only
  rw [if_pos (by rw [hl.shown]; exact h3)]
  unfold Columns.setFunction
  rw [if_pos (by rw [hl.length]; omega)]
  exact ⟨_, rfl, ⟨hl.columns, hl.shown, by simp [hl.length]⟩, rfl, rfl, rfl⟩

theorem run_values {O : GtkOrder} (hO : GtkSound O) {parse : W → Option Rgb} {white : W} {w : Columns N (V → Option W)}
    (h : List (Act N V W)) : ∀ {c : Canvas N V W} {rows rows' : List (List Id)} {P : Nat → List Id} {vs : Nat → List Id → List (Option W)},
    Like w c → ColoursKnown w h → TInv c.model.tm rows P → CellsAre c.model P (rowOf w.types.length vs) → ShownWhenSent (toModel h) →
    replay (signals ((toModel h).map Prod.fst)) rows = some rows' →
    Throughout O FreshNow ((toModel h).map Prod.fst) c.model.tm → Throughout O NotCached ((toModel h).map Prod.fst) c.model.tm →
    Throughout O ParentThere ((toModel h).map Prod.fst) c.model.tm →
    ∃ c' P', run O parse white h c = .ok c' ∧ Like w c' ∧ TInv c'.model.tm rows' P' ∧
      ∀ r ∈ c'.model.tm.rows, ∀ k f, c.cols.types[k]? = some f →
        (c'.model.cells r.addr)[k]? = some (lastSome (computed w k (P' r.addr).reverse h f (vs k (P' r.addr).reverse))) := by
  induction h with
  | nil =>
    intro c rows rows' P vs hl _ hi hc _ hw _ _ _
    cases hw
    refine ⟨c, P, rfl, hl, hi, fun r hr k f hf => ?_⟩
    rw [hc r hr, rowOf_at _ _ (by rw [← hl.length]; exact (List.getElem?_eq_some_iff.1 hf).1)]
    rfl
  | cons x h ih =>
    intro c rows rows' P vs hl hk hi hc hsh hw hf hn hp
    cases x with
    | tell s d =>
      rw [show toModel (Act.tell s d :: h) = (s, d) :: toModel h from rfl] at hsh hw hf hn hp
      rw [List.map_cons] at hf hn hp
      rw [List.map_cons, replay_signals_cons] at hw
      obtain ⟨rows1, hw1, hw2⟩ := Option.bind_eq_some_iff.1 hw
      have hc0 : CellsAre c.model P (rowOf c.cols.types.length vs) := by rw [hl.length]; exact hc
      obtain ⟨m1, P1, e1, i1, c1⟩ := hc0.act hO (types := c.cols.types) hi (d := d) (fun s' a b e => hsh (s, d) (by simp) s' a b e) hw1 hf.1 hn.1 hp.1
      have est : (c.model.tm.act O s).state = m1.tm := by rw [CModel.act_tm e1]; rfl
      have step : c.act O parse white (.tell s d) = .ok { c with model := m1 } := by
        show (match c.model.act O c.cols.types d s with
          | .ok m => Res.ok { c with model := m }
          | .err e m => .err e { c with model := m }) = _
        rw [e1]
      have hk' : ColoursKnown w h := fun n f hm => hk n f (by simp [hm])
      have hsh' : ShownWhenSent (toModel h) := fun q hq => hsh q (by simp [hq])
      cases s with
      | lookup path =>
        obtain ⟨c2, P2, e2, l2, i2, v2⟩ := ih (c := { c with model := m1 }) (vs := vs) ⟨hl.columns, hl.shown, hl.length⟩ hk' i1
          (by rw [← hl.length]; exact c1) hsh' hw2 (est ▸ hf.2) (est ▸ hn.2) (est ▸ hp.2)
        exact ⟨c2, P2, by rw [run, step]; exact e2, l2, i2, v2⟩
      | sig s a b =>
        have c1' : CellsAre m1 P1 (rowOf w.types.length (addComputed c.cols.types d s vs)) := by
          rw [← hl.length, ← paint_rowOf]; exact c1
        obtain ⟨c2, P2, e2, l2, i2, v2⟩ := ih (c := { c with model := m1 }) ⟨hl.columns, hl.shown, hl.length⟩ hk' i1
          c1' hsh' hw2 (est ▸ hf.2) (est ▸ hn.2) (est ▸ hp.2)
        refine ⟨c2, P2, by rw [run, step]; exact e2, l2, i2, fun r hr k f hf => ?_⟩
        have := v2 r hr k f hf
        unfold addComputed at this
        rw [hf] at this
        exact this
    | colour n f =>
      obtain ⟨k0, g0, h1, h2, h3⟩ := hk n f (by simp)
      obtain ⟨c1, e1, l1, m1, -, t1⟩ := setBgColor_ok (c := c) (f := f) hl h1 h2 h3
      obtain ⟨c2, P2, e2, l2, i2, v2⟩ := ih (c := c1) (vs := vs) l1 (fun n f hm => hk n f (by simp [hm])) (m1 ▸ hi) (m1 ▸ hc) hsh hw (m1 ▸ hf) (m1 ▸ hn) (m1 ▸ hp)
      refine ⟨c2, P2, by rw [run, show c.act O parse white (.colour n f) = .ok c1 from e1]; exact e2, l2, i2, fun r hr k f' hf' => ?_⟩
      have hkl : k < c.cols.types.length := (List.getElem?_eq_some_iff.1 hf').1
      have hget : c1.cols.types[k]? = some (if (w.columns.get? n).map Prod.fst = some (k + 1) then f else f') := by
        rw [t1, h1]
        by_cases e : k0 = k
        · subst e
          rw [List.getElem?_set_self hkl]; simp
        · rw [List.getElem?_set_ne e, hf']; simp [e]
      exact v2 r hr k _ hget
    | draw i row =>
      obtain ⟨q1, q2, q3⟩ := cellData_keeps (parse := parse) (white := white) (i := i) (row := row) (c := c)
      obtain ⟨c2, P2, e2, l2, i2, v2⟩ := ih (c := (c.cellData parse white i row).state) (vs := vs) ⟨by rw [q2]; exact hl.columns, by rw [q2]; exact hl.shown, by rw [q2]; exact hl.length⟩
        (fun n f hm => hk n f (by simp [hm])) (q1 ▸ hi) (q1 ▸ hc) hsh hw (q1 ▸ hf) (q1 ▸ hn) (q1 ▸ hp)
      exact ⟨c2, P2, by rw [run]; exact e2, l2, i2, fun r hr k f hf => v2 r hr k f (by rw [q2]; exact hf)⟩

end Canvas
end Larch
