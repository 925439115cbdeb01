import Verif.Spec.Looks
import Verif.Props.Columns

/-!
# C69 and C70: the looks of the columns, and what the rows are sorted by
-/

namespace Larch

open Spec

variable {N F T : Type} [LinearOrder N]

namespace Face

theorem find_col (descs : List (LookDesc N F T)) (n : N) : Columns.find (descs.map (·.col)) n = (find descs n).map (·.col) := by
  unfold Columns.find find
  rw [List.find?_map]
  rfl

theorem addColumn_cols (k : Nat) (c : LookDesc N F T) (w : Face N F T) :
    match w.addColumn k c with
    | .ok w' => w.cols.addColumn k c.col = .ok w'.cols
    | .err e w' => w.cols.addColumn k c.col = .err e w'.cols := by
  unfold addColumn
  dsimp only [onCol]
  cases w.cols.addColumn k c.col <;> rfl

theorem loop_cols (descs : List (LookDesc N F T)) : ∀ (l : List (Int × N)) (k : Nat) (w : Face N F T),
    match loop descs k l w with
    | .ok w' => Columns.loop (descs.map (·.col)) k l w.cols = .ok w'.cols
    | .err e w' => Columns.loop (descs.map (·.col)) k l w.cols = .err e w'.cols := by
  intro l
  induction l with
  | nil => intro k w; rfl
  | cons p l ih =>
    intro k w
    unfold loop Columns.loop
    rw [find_col]
    cases find descs p.2 with
    | none => rfl
    | some c =>
      dsimp only [Option.map_some]
      have h := addColumn_cols k c w
      cases hw : w.addColumn k c with
      | ok w' => rw [hw] at h; dsimp only at h; rw [h]; exact ih (k + 1) w'
      | err e w' => rw [hw] at h; dsimp only at h; rw [h]; rfl

/-- The columns are those of `Model/Columns.lean`. -/
theorem make_cols (descs : List (LookDesc N F T)) :
    match make descs with
    | .ok w' => Columns.make (descs.map (·.col)) = .ok w'.cols
    | .err e w' => Columns.make (descs.map (·.col)) = .err e w'.cols := by
  unfold make Columns.make
  have h := loop_cols descs ((Columns.orders 9999 (descs.map (·.col))).insertionSort fun a b => Columns.pairLE a b = true) 1 {}
  cases hw : loop descs 1 ((Columns.orders 9999 (descs.map (·.col))).insertionSort fun a b => Columns.pairLE a b = true) {} with
  | ok w' => rw [hw] at h; dsimp only at h; rw [h]; rfl
  | err e w' => rw [hw] at h; dsimp only at h; rw [h]; rfl

theorem addColumn_looks {descs : List (LookDesc N F T)} (hnd : (descs.map (·.col.name)).Nodup) {k : Nat} {c : LookDesc N F T}
    {w w' : Face N F T} (hc : c ∈ descs) (hn : w.cols.columns.get? c.col.name = none) (hk : ∀ n p, w.cols.columns.get? n = some p → p.1 < k)
    (h : LooksLast descs w) (e : w.addColumn k c = .ok w') :
    LooksLast descs w' ∧ (∀ n p, w'.cols.columns.get? n = some p → p.1 < k + 1) ∧
      (∀ n, n ≠ c.col.name → w'.cols.columns.get? n = w.cols.columns.get? n) := by
  generalize hcol : (if c.col.newColumn then w.cols.made + 1 else w.cols.made) - 1 = col
  have hlooks : w'.looks = fun g => if g = col then
      { visible := c.visible, title := c.title.or (w.looks g).title, resizable := c.resizable, expand := c.expand } else w.looks g := by
    unfold addColumn at e
    rw [hcol] at e
    dsimp only [onCol] at e
    cases ha : w.cols.addColumn k c.col with
    | ok cols => rw [ha] at e; cases e; rfl
    | err x cols => rw [ha] at e; cases e
  have hcols := addColumn_cols k c w
  rw [e] at hcols
  have hget : ∀ n, w'.cols.columns.get? n = if n = c.col.name then some (k, col) else w.cols.columns.get? n := by
    intro n
    dsimp only at hcols
    unfold Columns.addColumn at hcols
    dsimp only at hcols
    rw [hcol] at hcols
    cases hs : c.col.sorting with
    | none =>
      rw [hs] at hcols
      dsimp only at hcols
      rw [Res.andThen_ok] at hcols
      injection hcols with hcols
      rw [← hcols]
      split <;> exact KV.get?_set _ _ _ _
    | some t =>
      rw [hs] at hcols
      dsimp only at hcols
      cases hg : (w.cols.columns.set c.col.name (k, col)).get? t with
      | none => rw [hg] at hcols; cases hcols
      | some mh =>
        rw [hg] at hcols
        dsimp only at hcols
        rw [Res.andThen_ok] at hcols
        injection hcols with hcols
        rw [← hcols]
        split <;> exact KV.get?_set _ _ _ _
  have hsame : ∀ c1 ∈ descs, c1.col.name = c.col.name → c1 = c := by
    intro c1 h1 h2
    exact List.inj_on_of_nodup_map hnd h1 hc h2
  have hplace : ∀ c1 ∈ descs, ∀ k1 g1, PlacedAt w' c1 k1 g1 → (c1 = c ∧ k1 = k ∧ g1 = col) ∨ PlacedAt w c1 k1 g1 := by
    intro c1 h1 k1 g1 hp
    unfold PlacedAt at hp
    rw [hget] at hp
    by_cases hh : c1.col.name = c.col.name
    · rw [if_pos hh] at hp; cases hp; exact Or.inl ⟨hsame c1 h1 hh, rfl, rfl⟩
    · rw [if_neg hh] at hp; exact Or.inr hp
  have hold : ∀ c1 k1 g1, PlacedAt w c1 k1 g1 → PlacedAt w' c1 k1 g1 := by
    intro c1 k1 g1 hp
    unfold PlacedAt at hp ⊢
    rw [hget, if_neg]
    · exact hp
    · intro hh; rw [hh, hn] at hp; cases hp
  have hnew : PlacedAt w' c k col := by unfold PlacedAt; rw [hget, if_pos rfl]
  refine ⟨⟨?_, ?_, ?_⟩, ?_, fun n hne => by rw [hget, if_neg hne]⟩
  · intro c1 h1 k1 g1 hp hl
    rcases hplace c1 h1 k1 g1 hp with ⟨rfl, rfl, rfl⟩ | hp'
    · rw [hlooks]; dsimp only; rw [if_pos rfl]; exact ⟨rfl, rfl, rfl⟩
    · by_cases hg : g1 = col
      · subst hg
        have := hl c hc k hnew
        have := hk _ _ hp'
        dsimp only at this; omega
      · rw [hlooks]; dsimp only; rw [if_neg hg]
        exact h.look c1 h1 k1 g1 hp' fun c' hc' k' hp'' => hl c' hc' k' (hold _ _ _ hp'')
  · intro c1 h1 k1 g1 t hp ht hl
    rcases hplace c1 h1 k1 g1 hp with ⟨rfl, rfl, rfl⟩ | hp'
    · rw [hlooks]; dsimp only; rw [if_pos rfl, ht]; rfl
    · have hold' := h.title c1 h1 k1 g1 t hp' ht fun c' hc' k' hp'' hne => hl c' hc' k' (hold _ _ _ hp'') hne
      by_cases hg : g1 = col
      · subst hg
        have hct : c.title = none := by
          by_contra hne
          have := hl c hc k hnew hne
          have := hk _ _ hp'
          dsimp only at this; omega
        rw [hlooks]; dsimp only; rw [if_pos rfl, hct]; exact hold'
      · rw [hlooks]; dsimp only; rw [if_neg hg]; exact hold'
  · intro g hl
    have hold' := h.noTitle g fun c' hc' k' hp => hl c' hc' k' (hold _ _ _ hp)
    by_cases hg : g = col
    · subst hg
      rw [hlooks]; dsimp only; rw [if_pos rfl, hl c hc k hnew]; exact hold'
    · rw [hlooks]; dsimp only; rw [if_neg hg]; exact hold'
  · intro n p hp
    rw [hget] at hp
    split at hp
    · cases hp; simp
    · have := hk n p hp; omega

theorem loop_looks {descs : List (LookDesc N F T)} (hnd : (descs.map (·.col.name)).Nodup) : ∀ (l : List (Int × N)) (k : Nat) (w w' : Face N F T),
    (l.map Prod.snd).Nodup → (∀ p ∈ l, w.cols.columns.get? p.2 = none) → (∀ n p, w.cols.columns.get? n = some p → p.1 < k) →
    LooksLast descs w → loop descs k l w = .ok w' → LooksLast descs w' := by
  intro l
  induction l with
  | nil => intro k w w' _ _ _ h e; cases e; exact h
  | cons p l ih =>
    obtain ⟨o, n⟩ := p
    intro k w w' hl hnew hk h e
    unfold loop at e
    cases hc : find descs n with
    | none => rw [hc] at e; cases e
    | some c =>
      have hname : c.col.name = n := by
        have := List.find?_some hc
        simpa using this
      subst hname
      rw [hc] at e
      dsimp only at e
      cases e1 : w.addColumn k c with
      | err x w1 => rw [e1] at e; cases e
      | ok w1 =>
        rw [e1, Res.andThen_ok] at e
        rw [List.map_cons, List.nodup_cons] at hl
        obtain ⟨a1, a2, a3⟩ := addColumn_looks hnd (List.mem_of_find?_eq_some hc) (hnew (o, c.col.name) (by simp)) hk h e1
        refine ih (k + 1) w1 w' hl.2 (fun q hq => ?_) a2 a1 e
        rw [a3]
        · exact hnew q (by simp [hq])
        · intro e3
          exact hl.1 (List.mem_map.2 ⟨q, hq, e3⟩)

theorem make_looks {descs : List (LookDesc N F T)} (hnd : (descs.map (·.col.name)).Nodup) {w : Face N F T} (e : make descs = .ok w) :
    LooksLast descs w := by
  unfold make at e
  have hnd' : ((descs.map (·.col)).map ColDesc.name).Nodup := by rw [List.map_map]; exact hnd
  cases e1 : loop descs 1 ((Columns.orders 9999 (descs.map (·.col))).insertionSort fun a b => Columns.pairLE a b = true) {} with
  | err x w1 => rw [e1] at e; cases e
  | ok w1 =>
    rw [e1, Res.andThen_ok] at e
    injection e with e
    have h := loop_looks hnd _ 1 {} w1 (Columns.sorted_ok hnd').1 (fun _ _ => rfl) (fun n p hp => by cases hp)
      ⟨fun c _ k g hp => (by cases hp), fun c _ k g t hp => (by cases hp), fun g _ => rfl⟩ e1
    rw [← e]
    exact ⟨h.look, h.title, h.noTitle⟩

theorem make_ok {descs : List (LookDesc N F T)} (hnd : (descs.map (·.col.name)).Nodup) (hs : SortingKnown (descs.map (·.col))) :
    ∃ w, make descs = .ok w ∧ Numbered (descs.map (·.col)) w.cols := by
  have hnd' : ((descs.map (·.col)).map ColDesc.name).Nodup := by rw [List.map_map]; exact hnd
  obtain ⟨cols, e, hn, -⟩ := Columns.make_ok hnd' hs
  have h := make_cols descs
  cases hw : make descs with
  | ok w => rw [hw] at h; dsimp only at h; rw [e] at h; cases h; exact ⟨w, rfl, hn⟩
  | err x w => rw [hw] at h; dsimp only at h; rw [e] at h; cases h

theorem call_columns (w : Face N F T) (c : Call N) : (w.call c).state.cols.columns = w.cols.columns ∧
    (w.call c).state.cols.sortIds = w.cols.sortIds := by
  unfold call
  cases c with
  | visible n b => dsimp only; split <;> exact ⟨rfl, rfl⟩
  | resizable n b => dsimp only; split <;> exact ⟨rfl, rfl⟩
  | search n => dsimp only; split <;> exact ⟨rfl, rfl⟩
  | expander n => dsimp only; split <;> exact ⟨rfl, rfl⟩
  | sort n o => dsimp only; split <;> exact ⟨rfl, rfl⟩
  | click g o => dsimp only; split <;> exact ⟨rfl, rfl⟩

theorem mem_names (w : Face N F T) (n : N) : n ∈ w.names ↔ (w.cols.columns.get? n).isSome = true := by
  unfold names
  induction w.cols.columns with
  | nil => simp [KV.keys, KV.get?]
  | cons p l ih =>
    obtain ⟨k, v⟩ := p
    unfold KV.get?
    rw [show KV.keys ((k, v) :: l) = k :: KV.keys l from rfl, List.mem_cons]
    by_cases h : k = n
    · simp [h]
    · rw [if_neg h, ← ih]
      simp [Ne.symm h]

theorem lastOr_cons {α β : Type} (f : α → Option β) (d : β) (c : α) (cs : List α) :
    lastOr f d (c :: cs) = lastOr f ((f c).getD d) cs := by
  unfold lastOr
  rw [List.filterMap_cons]
  cases f c with
  | none => rfl
  | some b =>
    dsimp only
    rw [List.getLast?_cons]
    rfl

end Face

open Face

/-! ### C69 -/

/-- **C69**, columns of their own: a column that shares its column on the screen with no other looks as described: visible, resizable and
expanding if it says so, and with its title. -/
theorem C69_alone (descs : List (LookDesc N F T)) (hnd : (descs.map (·.col.name)).Nodup) (hs : SortingKnown (descs.map (·.col))) :
    ∃ w, Face.make descs = .ok w ∧ LooksAlone descs w := by
  obtain ⟨w, e, -⟩ := Face.make_ok hnd hs
  have h := make_looks hnd e
  refine ⟨w, e, fun c hc k g hp hu => ?_⟩
  have heq : ∀ c' ∈ descs, ∀ k', PlacedAt w c' k' g → c' = c := fun c' hc' k' hp' =>
    List.inj_on_of_nodup_map hnd hc' hc (hu c' hc' k' hp')
  obtain ⟨h1, h2, h3⟩ := h.look c hc k g hp fun c' hc' k' hp' => by
    rw [heq c' hc' k' hp'] at hp'
    have : some (k', g) = some (k, g) := hp'.symm.trans hp
    cases this; exact le_refl _
  have h4 : (w.looks g).title = c.title := by
    cases ht : c.title with
    | none => exact h.noTitle g fun c' hc' k' hp' => by rw [heq c' hc' k' hp']; exact ht
    | some t =>
      refine h.title c hc k g t hp ht fun c' hc' k' hp' _ => ?_
      rw [heq c' hc' k' hp'] at hp'
      have : some (k', g) = some (k, g) := hp'.symm.trans hp
      cases this; exact le_refl _
  rw [← h1, ← h2, ← h3, ← h4]

/-- **C69**, the exact effect: in a column on the screen that is shared by several columns of the model, the last one decides. -/
theorem C69_last (descs : List (LookDesc N F T)) (hnd : (descs.map (·.col.name)).Nodup) (hs : SortingKnown (descs.map (·.col))) :
    ∃ w, Face.make descs = .ok w ∧ LooksLast descs w := by
  obtain ⟨w, e, -⟩ := Face.make_ok hnd hs
  exact ⟨w, e, make_looks hnd e⟩

/-- **C69**, later calls: whatever is called, a column on the screen is visible as the last call of `set_col_visible` for one of
its names says, or as it was; the same for `set_col_resizable`; whether it expands and its title do not change. -/
theorem C69_calls (w : Face N F T) (cs : List (Call N)) (g : Nat) [DecidablePred (InCol w g)] :
    ((w.run cs).looks g).visible = lastOr (fun c => match c with
        | .visible n b => if InCol w g n then some b else none
        | _ => none) (w.looks g).visible cs ∧
    ((w.run cs).looks g).resizable = lastOr (fun c => match c with
        | .resizable n b => if InCol w g n then some b else none
        | _ => none) (w.looks g).resizable cs ∧
    ((w.run cs).looks g).expand = (w.looks g).expand ∧ ((w.run cs).looks g).title = (w.looks g).title ∧
    (w.run cs).names = w.names := by
  suffices H : ∀ w0 : Face N F T, w0.cols.columns = w.cols.columns →
      ((w0.run cs).looks g).visible = lastOr (fun c => match c with
          | .visible n b => if InCol w g n then some b else none
          | _ => none) (w0.looks g).visible cs ∧
      ((w0.run cs).looks g).resizable = lastOr (fun c => match c with
          | .resizable n b => if InCol w g n then some b else none
          | _ => none) (w0.looks g).resizable cs ∧
      ((w0.run cs).looks g).expand = (w0.looks g).expand ∧ ((w0.run cs).looks g).title = (w0.looks g).title ∧
      (w0.run cs).names = w0.names from H w rfl
  induction cs with
  | nil => intro w0 _; exact ⟨rfl, rfl, rfl, rfl, rfl⟩
  | cons c cs ih =>
    intro w0 hw
    obtain ⟨i1, i2, i3, i4, i5⟩ := ih (w0.call c).state ((call_columns w0 c).1.trans hw)
    have e : w0.run (c :: cs) = (w0.call c).state.run cs := rfl
    rw [e, i1, i2, i3, i4, i5, lastOr_cons, lastOr_cons]
    have hin : ∀ n, InCol w g n ↔ ∃ k, w0.cols.columns.get? n = some (k, g) := by
      intro n; unfold InCol; rw [hw]
    have hnames : (w0.call c).state.names = w0.names := by unfold names; rw [(call_columns w0 c).1]
    cases c with
    | visible n b =>
      unfold call
      dsimp only
      by_cases hi : InCol w g n
      · obtain ⟨k, hk⟩ := (hin n).1 hi
        rw [hk, if_pos hi]
        dsimp only [Res.state, onCol]
        rw [if_pos rfl]
        exact ⟨rfl, rfl, rfl, rfl, rfl⟩
      · rw [if_neg hi]
        cases hg : w0.cols.columns.get? n with
        | none => exact ⟨rfl, rfl, rfl, rfl, rfl⟩
        | some p =>
          have hne : ¬ g = p.2 := by rintro rfl; exact hi ((hin n).2 ⟨p.1, hg⟩)
          dsimp only [Res.state, onCol]
          rw [if_neg hne]
          exact ⟨rfl, rfl, rfl, rfl, rfl⟩
    | resizable n b =>
      unfold call
      dsimp only
      by_cases hi : InCol w g n
      · obtain ⟨k, hk⟩ := (hin n).1 hi
        rw [hk, if_pos hi]
        dsimp only [Res.state, onCol]
        rw [if_pos rfl]
        exact ⟨rfl, rfl, rfl, rfl, rfl⟩
      · rw [if_neg hi]
        cases hg : w0.cols.columns.get? n with
        | none => exact ⟨rfl, rfl, rfl, rfl, rfl⟩
        | some p =>
          have hne : ¬ g = p.2 := by rintro rfl; exact hi ((hin n).2 ⟨p.1, hg⟩)
          dsimp only [Res.state, onCol]
          rw [if_neg hne]
          exact ⟨rfl, rfl, rfl, rfl, rfl⟩
    | search n => rw [hnames]; unfold call; dsimp only; split <;> exact ⟨rfl, rfl, rfl, rfl, rfl⟩
    | expander n => rw [hnames]; unfold call; dsimp only; split <;> exact ⟨rfl, rfl, rfl, rfl, rfl⟩
    | sort n o => rw [hnames]; unfold call; dsimp only; split <;> exact ⟨rfl, rfl, rfl, rfl, rfl⟩
    | click g' o => rw [hnames]; unfold call; dsimp only; split <;> exact ⟨rfl, rfl, rfl, rfl, rfl⟩

/-- **C69**, names: the search column and the column with the expanders are those of the last call with a known name. A call for a name raises, and then
it is a `KeyError`, if and only if no column has this name. -/
theorem C69_names (w : Face N F T) (cs : List (Call N)) :
    (w.run cs).search = lastOr (fun c => match c with
        | .search n => (w.cols.columns.get? n).map fun p => some p.1
        | _ => none) w.search cs ∧
    (w.run cs).expander = lastOr (fun c => match c with
        | .expander n => (w.cols.columns.get? n).map fun p => some p.2
        | _ => none) w.expander cs ∧
    ∀ n c, aboutName c = some n → (((w.run cs).call c).isOk = true ↔ n ∈ w.names) ∧
      (n ∉ w.names → ∃ w', (w.run cs).call c = .err .keyError w') := by
  refine ⟨?_, ?_, ?_⟩
  · suffices H : ∀ w0 : Face N F T, w0.cols.columns = w.cols.columns → (w0.run cs).search = lastOr (fun c => match c with
        | .search n => (w.cols.columns.get? n).map fun p => some p.1
        | _ => none) w0.search cs from H w rfl
    induction cs with
    | nil => intro w0 _; rfl
    | cons c cs ih =>
      intro w0 hw
      have e : w0.run (c :: cs) = (w0.call c).state.run cs := rfl
      rw [e, ih _ ((call_columns w0 c).1.trans hw), lastOr_cons, ← hw]
      congr 1
      cases c with
      | click g o => unfold call; dsimp only; cases w0.headSorts g <;> rfl
      | _ => unfold call; dsimp only; cases w0.cols.columns.get? _ <;> rfl
  · suffices H : ∀ w0 : Face N F T, w0.cols.columns = w.cols.columns → (w0.run cs).expander = lastOr (fun c => match c with
        | .expander n => (w.cols.columns.get? n).map fun p => some p.2
        | _ => none) w0.expander cs from H w rfl
    induction cs with
    | nil => intro w0 _; rfl
    | cons c cs ih =>
      intro w0 hw
      have e : w0.run (c :: cs) = (w0.call c).state.run cs := rfl
      rw [e, ih _ ((call_columns w0 c).1.trans hw), lastOr_cons, ← hw]
      congr 1
      cases c with
      | click g o => unfold call; dsimp only; cases w0.headSorts g <;> rfl
      | _ => unfold call; dsimp only; cases w0.cols.columns.get? _ <;> rfl
  · intro n c hc
    have hrun : (w.run cs).cols.columns = w.cols.columns := by
      clear hc
      induction cs generalizing w with
      | nil => rfl
      | cons c cs ih => exact (ih (w.call c).state).trans (call_columns w c).1
    have hmem : n ∈ w.names ↔ ((w.run cs).cols.columns.get? n).isSome = true := by
      rw [hrun]; exact (mem_names w n)
    rw [hmem]
    cases c with
    | click g o => cases hc
    | _ =>
      cases hc
      unfold call
      dsimp only
      cases (w.run cs).cols.columns.get? n with
      | none => exact ⟨by simp [Res.isOk], fun _ => ⟨_, rfl⟩⟩
      | some p => exact ⟨by simp [Res.isOk], fun h => absurd rfl h⟩

/-- Three columns: 1 is hidden, and 2 joins it without saying anything about its looks. -/
def joinedColumns : List (LookDesc Nat Nat Nat) :=
  [ { col := { name := 1, value := 10 }, visible := false, title := some 7 }, { col := { name := 2, value := 20, newColumn := false } },
    { col := { name := 3, value := 30 }, expand := true, resizable := false } ]

theorem joinedColumns_known : SortingKnown (joinedColumns.map (·.col)) := by
  intro i c hi t ht
  match i with
  | 0 => cases hi; cases ht
  | 1 => cases hi; cases ht
  | 2 => cases hi; cases ht
  | n + 3 => simp [joinedColumns] at hi

example : (∃ w, Face.make joinedColumns = .ok w ∧ LooksAlone joinedColumns w ∧ LooksLast joinedColumns w) ∧
    (Face.make joinedColumns).state.looks 2 = ⟨true, false, true, none⟩ ∧ (Face.make joinedColumns).state.looks 1 = ⟨true, true, false, some 7⟩ := by
  obtain ⟨w, e, h⟩ := C69_alone joinedColumns (by decide) joinedColumns_known
  obtain ⟨w', e', h'⟩ := C69_last joinedColumns (by decide) joinedColumns_known
  rw [e] at e'
  cases e'
  exact ⟨⟨w, e, h, h'⟩, by decide, by decide⟩

example : ((Face.make joinedColumns).state.run [.visible 2 true, .visible 1 false, .resizable 3 true, .visible 9 true, .search 2]).looks 1 =
    ⟨false, true, false, some 7⟩ := by decide

example : ((Face.make joinedColumns).state.run [.search 2, .expander 3, .search 9]).search = some 2 ∧
    ((Face.make joinedColumns).state.run [.search 2, .expander 3, .search 9]).expander = some 2 ∧
    (9 ∉ (Face.make joinedColumns).state.names ∧ (Face.make joinedColumns).state.names = [1, 2, 3]) ∧
    ∃ w', ((Face.make joinedColumns).state.run [.search 2]).call (.visible 9 true) = .err .keyError w' :=
  let h := C69_names (Face.make joinedColumns).state [.search 2]
  ⟨by decide, by decide, by decide, (h.2.2 9 (.visible 9 true) rfl).2 (by decide)⟩

/-- C69 is false for columns that share a column on the screen: the first is described as hidden, and is shown. -/
theorem C69_refuted_shared : ∃ descs : List (LookDesc Nat Nat Nat), (descs.map (·.col.name)).Nodup ∧ SortingKnown (descs.map (·.col)) ∧
    ∃ w, Face.make descs = .ok w ∧ ∃ c ∈ descs, c.visible = false ∧ ∃ k g, PlacedAt w c k g ∧ g ∈ w.cols.shown ∧ (w.looks g).visible = true := by
  refine ⟨joinedColumns, by decide, joinedColumns_known, _, rfl, _, List.mem_cons_self, rfl, 1, 1, rfl, by decide, rfl⟩

/-! ### C70 -/

/-- **C70** (partial): after `set_sort_column` for a column that is there, the rows are sorted by it, and `get_sort_column` says so,
until `set_sort_column` is called again or the user clicks on the head of a column.

Missing: the other moments, see the refutations. -/
theorem C70_told_partial (w : Face N F T) (n : N) (o : SortDir) (k g : Nat) (hn : w.cols.columns.get? n = some (k, g)) (cs : List (Call N))
    (hcs : ∀ c ∈ cs, (∀ n o, c ≠ .sort n o) ∧ ∀ g o, c ≠ .click g o) :
    (w.run (.sort n o :: cs)).sortColumn = (some n, o) ∧ (w.run (.sort n o :: cs)).sorted = some (k, o) ∧
      (w.run (.sort n o :: cs)).cols.columns.get? n = some (k, g) := by
  suffices H : ∀ w0 : Face N F T, w0.sortColumn = (some n, o) → w0.sorted = some (k, o) → w0.cols.columns.get? n = some (k, g) →
      (w0.run cs).sortColumn = (some n, o) ∧ (w0.run cs).sorted = some (k, o) ∧ (w0.run cs).cols.columns.get? n = some (k, g) by
    refine H (w.call (.sort n o)).state ?_ ?_ ?_
    · unfold call; dsimp only; rw [hn]; rfl
    · unfold call; dsimp only; rw [hn]; rfl
    · rw [(call_columns w _).1]; exact hn
  induction cs with
  | nil => intro w0 h1 h2 h3; exact ⟨h1, h2, h3⟩
  | cons c cs ih =>
    intro w0 h1 h2 h3
    refine ih (fun c' hc' => hcs c' (by simp [hc'])) (w0.call c).state ?_ ?_ (by rw [(call_columns w0 c).1]; exact h3)
    · cases c with
      | visible n b => unfold call; dsimp only; split <;> exact h1
      | resizable n b => unfold call; dsimp only; split <;> exact h1
      | search n => unfold call; dsimp only; split <;> exact h1
      | expander n => unfold call; dsimp only; split <;> exact h1
      | sort n o => exact absurd rfl ((hcs _ (by simp)).1 n o)
      | click g o => exact absurd rfl ((hcs _ (by simp)).2 g o)
    · cases c with
      | visible n b => unfold call; dsimp only; split <;> exact h2
      | resizable n b => unfold call; dsimp only; split <;> exact h2
      | search n => unfold call; dsimp only; split <;> exact h2
      | expander n => unfold call; dsimp only; split <;> exact h2
      | sort n o => exact absurd rfl ((hcs _ (by simp)).1 n o)
      | click g o => exact absurd rfl ((hcs _ (by simp)).2 g o)

/-- Two columns, each sorted by itself. -/
def selfSorted : List (LookDesc Nat Nat Nat) :=
  [ { col := { name := 1, value := 10, sorting := some 1 } }, { col := { name := 2, value := 20, sorting := some 2 } } ]

example : ((Face.make selfSorted).state.run [.sort 1 .descending, .visible 2 false]).sortColumn = (some 1, .descending) ∧
    ((Face.make selfSorted).state.run [.sort 1 .descending, .visible 2 false]).sorted = some (1, .descending) :=
  let h := C70_told_partial (Face.make selfSorted).state 1 .descending 1 1 (by decide) [.visible 2 false] (by simp)
  ⟨h.1, h.2.1⟩

/-- C70 is false before `set_sort_column` is called: the widget names a column because it *can* be used for sorting, but nothing is sorted. -/
theorem C70_refuted_start : ∃ w, Face.make selfSorted = .ok w ∧ w.sortColumn = (some 2, .ascending) ∧ w.sorted = none := ⟨_, rfl, rfl, rfl⟩

/-- C70 is false after a click: the rows are sorted by column 2, and the widget still says column 1. -/
theorem C70_refuted_click : ((Face.make selfSorted).state.run [.sort 1 .ascending, .click 2 .descending]).sorted = some (2, .descending) ∧
    ((Face.make selfSorted).state.run [.sort 1 .ascending, .click 2 .descending]).sortColumn = (some 1, .ascending) := by decide

/-- C70 is false after a refused call: `set_sort_column` with an unknown name raises `KeyError`, and `get_sort_column` gives that name. -/
theorem C70_refuted_unknown : ∃ w, ((Face.make selfSorted).state.run [.sort 1 .ascending]).call (.sort 9 .descending) = .err .keyError w ∧
    w.sortColumn = (some 9, .descending) ∧ w.sorted = some (1, .ascending) := ⟨_, rfl, rfl, rfl⟩

end Larch
