import Verif.Proofs.Colours

/-!
# C61: the colours of the rows
-/

namespace Larch

open Spec TM

variable {N V W : Type} [LinearOrder N] [DecidableEq W]

namespace Canvas

/-- What is remembered about colours is right. -/
def CacheRight (parse : W → Option Rgb) (cache : KV W Nat) : Prop :=
  ∀ w b, cache.get? w = some b → ∃ c, parse w = some c ∧ b = 2126 * c.red + 7152 * c.green + 722 * c.blue

theorem brightness_right {parse : W → Option Rgb} {cache : KV W Nat} (h : CacheRight parse cache) (w : W) :
    match brightness parse cache w with
    | .error _ => parse w = none
    | .ok (b, cache') => CacheRight parse cache' ∧ ∃ c, parse w = some c ∧ b = 2126 * c.red + 7152 * c.green + 722 * c.blue := by
  unfold brightness
  cases hc : cache.get? w with
  | some b => exact ⟨h, h w b hc⟩
  | none =>
    cases hp : parse w with
    | none => rfl
    | some c =>
      refine ⟨fun w' b' hb => ?_, c, rfl, rfl⟩
      rw [KV.get?_set] at hb
      split at hb
      · next e => cases hb; exact ⟨c, e ▸ hp, rfl⟩
      · exact h w' b' hb

theorem cellData_cache {parse : W → Option Rgb} {white : W} {i : Nat} {row : Option Nat} {c : Canvas N V W}
    (h : CacheRight parse c.cache) : CacheRight parse (c.cellData parse white i row).state.cache := by
  unfold cellData
  split
  · exact h
  · next num _ =>
    dsimp only
    generalize c.lookedUp num row = color
    split
    · split
      · exact h
      · next w =>
        have := brightness_right h w
        split
        · exact h
        · next hb => rw [hb] at this; exact this.1
    · exact h

/-- Drawing one cell. -/
theorem cellData_shows {parse : W → Option Rgb} {white : W} {i : Nat} {row : Option Nat} {c : Canvas N V W} {num : Nat}
    (h : CacheRight parse c.cache) (hb : c.bg = some num) (hp : ∀ w, c.lookedUp num row = some w → (parse w).isSome = true) :
    ∃ c', c.cellData parse white i row = .ok c' ∧ Shows parse white (c'.cells i) (c.lookedUp num row) ∧
      (∀ j, j ≠ i → c'.cells j = c.cells j) ∧ (c'.cells i).text = (c.cells i).text := by
  unfold cellData
  rw [hb]
  dsimp only
  generalize c.lookedUp num row = color at hp ⊢
  by_cases ht : (c.cells i).text = true
  · rw [if_pos ht]
    cases color with
    | none =>
      refine ⟨_, rfl, ⟨by simp, fun _ _ => by simp, fun _ w rgb e => by cases e⟩, fun j hj => by simp [hj], by simp⟩
    | some w =>
      have hw := brightness_right h w
      dsimp only
      cases hbr : brightness parse c.cache w with
      | error e =>
        rw [hbr] at hw
        have := hp w rfl
        rw [hw] at this; cases this
      | ok q =>
        obtain ⟨b, cache'⟩ := q
        rw [hbr] at hw
        obtain ⟨-, rgb, hrgb, rfl⟩ := hw
        refine ⟨_, rfl, ⟨by simp, fun _ hl => ?_, fun _ w' rgb' e1 e2 hd => ?_⟩, fun j hj => by simp [hj], by simp⟩
        · have := hl w rgb rfl hrgb
          unfold Dark at this
          simp only [if_true]
          rw [if_neg this]
        · cases e1
          rw [hrgb] at e2
          cases e2
          unfold Dark at hd
          simp only [if_true]
          rw [if_pos hd]
  · rw [if_neg ht]
    refine ⟨_, rfl, ⟨by simp, fun h' => absurd (by simpa using h') ht, fun h' => absurd (by simpa using h') ht⟩, fun j hj => by simp [hj], by simp⟩

theorem act_cache {O : GtkOrder} {parse : W → Option Rgb} {white : W} {c : Canvas N V W} (h : CacheRight parse c.cache) (x : Act N V W) :
    CacheRight parse (c.act O parse white x).state.cache := by
  cases x with
  | tell s d =>
    show CacheRight parse (Res.state (match c.model.act O c.cols.types d s with
          | .ok m => Res.ok { c with model := m }
          | .err e m => .err e { c with model := m })).cache
    split <;> exact h
  | colour n f =>
    show CacheRight parse (c.setBgColor n f).state.cache
    unfold setBgColor
    split
    · exact h
    · dsimp only
      split <;> exact h
  | draw i row => exact cellData_cache h

theorem run_cache {O : GtkOrder} {parse : W → Option Rgb} {white : W} (h : List (Act N V W)) : ∀ {c c' : Canvas N V W},
    CacheRight parse c.cache → run O parse white h c = .ok c' → CacheRight parse c'.cache := by
  induction h with
  | nil => intro c c' hc e; cases e; exact hc
  | cons x h ih =>
    intro c c' hc e
    rw [run] at e
    have := act_cache (O := O) (white := white) hc x
    cases hx : c.act O parse white x with
    | err e' s => rw [hx] at e; cases e
    | ok c1 => rw [hx] at e this; exact ih this e

/-- Nobody calls `set_bg_color`. -/
def Quiet (h : List (Act N V W)) : Prop := ∀ n f, Act.colour n f ∉ h

theorem act_quiet {O : GtkOrder} {parse : W → Option Rgb} {white : W} {c : Canvas N V W} {x : Act N V W} (hx : ∀ n f, x ≠ .colour n f) :
    (c.act O parse white x).state.bg = c.bg := by
  cases x with
  | tell s d =>
    show (Res.state (match c.model.act O c.cols.types d s with
          | .ok m => Res.ok { c with model := m }
          | .err e m => .err e { c with model := m })).bg = _
    split <;> rfl
  | colour n f => exact absurd rfl (hx n f)
  | draw i row => exact cellData_keeps.2.2

theorem run_quiet {O : GtkOrder} {parse : W → Option Rgb} {white : W} (h : List (Act N V W)) : ∀ {c c' : Canvas N V W}, Quiet h →
    run O parse white h c = .ok c' → c'.bg = c.bg := by
  induction h with
  | nil => intro c c' _ e; cases e; rfl
  | cons x h ih =>
    intro c c' hq e
    rw [run] at e
    have := act_quiet (O := O) (parse := parse) (white := white) (c := c) (x := x) (fun n f e => hq n f (by simp [e]))
    cases hx : c.act O parse white x with
    | err e' s => rw [hx] at e; cases e
    | ok c1 =>
      rw [hx] at e this
      exact (ih (fun n f hm => hq n f (by simp [hm])) e).trans this

theorem run_append {O : GtkOrder} {parse : W → Option Rgb} {white : W} (h1 h2 : List (Act N V W)) : ∀ {c c' : Canvas N V W},
    run O parse white (h1 ++ h2) c = .ok c' → ∃ c1, run O parse white h1 c = .ok c1 ∧ run O parse white h2 c1 = .ok c' := by
  induction h1 with
  | nil => intro c c' e; exact ⟨c, rfl, e⟩
  | cons x h ih =>
    intro c c' e
    rw [List.cons_append, run] at e
    cases hx : c.act O parse white x with
    | err e' s => rw [hx] at e; cases e
    | ok c1 =>
      rw [hx] at e
      obtain ⟨c2, e1, e2⟩ := ih e
      exact ⟨c2, by rw [run, hx]; exact e1, e2⟩

theorem act_columns {O : GtkOrder} {parse : W → Option Rgb} {white : W} {c : Canvas N V W} {x : Act N V W} :
    (c.act O parse white x).state.cols.columns = c.cols.columns := by
  cases x with
  | tell s d =>
    show (Res.state (match c.model.act O c.cols.types d s with
          | .ok m => Res.ok { c with model := m }
          | .err e m => .err e { c with model := m })).cols.columns = _
    split <;> rfl
  | colour n f =>
    show (c.setBgColor n f).state.cols.columns = _
    unfold setBgColor Columns.setFunction
    split
    · rfl
    · dsimp only
      split
      · split <;> rfl
      · rfl
  | draw i row => rw [show (c.act O parse white (.draw i row)).state = (c.cellData parse white i row).state from rfl, cellData_keeps.2.1]

theorem run_columns {O : GtkOrder} {parse : W → Option Rgb} {white : W} (h : List (Act N V W)) : ∀ {c c' : Canvas N V W},
    run O parse white h c = .ok c' → c'.cols.columns = c.cols.columns := by
  induction h with
  | nil => intro c c' e; cases e; rfl
  | cons x h ih =>
    intro c c' e
    rw [run] at e
    have := act_columns (O := O) (parse := parse) (white := white) (c := c) (x := x)
    cases hx : c.act O parse white x with
    | err e' s => rw [hx] at e; cases e
    | ok c1 => rw [hx] at e this; exact (ih e).trans this

end Canvas

theorem rowPath_last {rows : List GRow} (hnd : (rows.map GRow.addr).Nodup) {r : GRow} (hr : r ∈ rows) {l : List Id} (h : RowPath rows r.addr l) :
    l.getLast? = some r.nid := by
  have : ∀ {a : Nat} {l : List Id}, RowPath rows a l → a = r.addr → l.getLast? = some r.nid := by
    intro a l h e
    cases h with
    | top h1 _ => rw [List.inj_on_of_nodup_map hnd h1 hr e]; rfl
    | under h1 _ _ => rw [List.inj_on_of_nodup_map hnd h1 hr e]; simp
  exact this h rfl

/-! ### The last announcement -/

theorem computed_append (w : Columns N (V → Option W)) (k : Nat) (l : List Id) (h1 h2 : List (Canvas.Act N V W)) :
    ∀ (f : V → Option W) (vs : List (Option W)), ∃ f' vs', computed w k l (h1 ++ h2) f vs = computed w k l h2 f' vs' := by
  induction h1 with
  | nil => intro f vs; exact ⟨f, vs, rfl⟩
  | cons x h ih =>
    intro f vs
    cases x with
    | tell s d => cases s <;> exact ih _ _
    | colour n g => exact ih _ _
    | draw i r => exact ih _ _

/-- A row of the path is announced. -/
def Announced (l : List Id) (h : List (Canvas.Act N V W)) : Prop :=
  ∃ s a b d, Canvas.Act.tell (.sig s a b) d ∈ h ∧ s.path = l ∧ s.ev ≠ .deleted

theorem toModel_append (h1 h2 : List (Canvas.Act N V W)) : toModel (h1 ++ h2) = toModel h1 ++ toModel h2 := by
  induction h1 with
  | nil => rfl
  | cons x h ih => cases x <;> simp [toModel, ih]

theorem told_append (h1 h2 : List (TM.Act × (Id → V))) : told (h1 ++ h2) = told h1 ++ told h2 := by
  induction h1 with
  | nil => rfl
  | cons x h ih =>
    rw [List.cons_append, told_cons, ih, ← List.append_assoc, ← told_cons]

/-- With a column that keeps the data themselves, the row shows the data of the last announcement. -/
theorem last_announced (w : Columns N (V → Option W)) (k : Nat) (l : List Id) (h : List (Canvas.Act N V W)) :
    ∀ (f : V → Option W) (vs : List (Option W)) (C : List Id → List (Option V)), Canvas.Quiet h → (C l).length = 1 →
      (paintAll [fun v => some v] (told (toModel h)) C l).length = 1 ∧
      (Announced l h → ∃ v vs', paintAll [fun v => some v] (told (toModel h)) C l = [some v] ∧ computed w k l h f vs = vs' ++ [f v]) ∧
      (¬ Announced l h → paintAll [fun v => some v] (told (toModel h)) C l = C l ∧ computed w k l h f vs = vs) := by
  induction h with
  | nil =>
    intro f vs C _ hC
    exact ⟨hC, (fun ⟨s, a, b, d, hm, _⟩ => by cases hm), fun _ => ⟨rfl, rfl⟩⟩
  | cons x h ih =>
    intro f vs C hq hC
    have hq' : Canvas.Quiet h := fun n f hm => hq n f (by simp [hm])
    have skip : (∀ s a b d, x = .tell (.sig s a b) d → s.path = l → s.ev = .deleted) → (Announced l (x :: h) ↔ Announced l h) := by
      intro hx
      constructor
      · rintro ⟨s, a, b, d, hm, h1, h2⟩
        rcases List.mem_cons.1 hm with e | hm
        · exact absurd (hx s a b d e.symm h1) h2
        · exact ⟨s, a, b, d, hm, h1, h2⟩
      · rintro ⟨s, a, b, d, hm, h1, h2⟩
        exact ⟨s, a, b, d, by simp [hm], h1, h2⟩
    cases x with
    | draw i r => rw [skip (fun s a b d e => by cases e)]; exact ih f vs C hq' hC
    | colour n g => exact absurd (by simp) (hq n g)
    | tell s d =>
      cases s with
      | lookup p => rw [skip (fun s a b d e => by cases e)]; exact ih f vs C hq' hC
      | sig s a b =>
        show (paintAll [fun v => some v] (told (toModel h)) (paint [fun v => some v] d C s) l).length = 1 ∧ _
        by_cases hp : s.path = l
        · cases hev : s.ev with
          | deleted =>
            rw [skip (fun s' a' b' d' e _ => by cases e; exact hev)]
            have e1 : paint [fun v => some v] d C s l = C l := by unfold paint; rw [if_pos hp.symm, hev]
            have e2 : ∀ vs', computed w k l (.tell (.sig s a b) d :: h) f vs' = computed w k l h f vs' := by
              intro vs'
              show computed w k l h f _ = _
              rw [if_pos hp, hev]
            obtain ⟨i1, i2, i3⟩ := ih f vs (paint [fun v => some v] d C s) hq' (by rw [e1]; exact hC)
            rw [e2]
            exact ⟨i1, i2, fun hn => ⟨(i3 hn).1.trans e1, (i3 hn).2⟩⟩
          | added =>
            have e1 : paint [fun v => some v] d C s l = [some (d s.nid)] := by unfold paint; rw [if_pos hp.symm, hev]; rfl
            have e2 : computed w k l (.tell (.sig s a b) d :: h) f vs = computed w k l h f [f (d s.nid)] := by
              show computed w k l h f _ = _
              rw [if_pos hp, hev]
            obtain ⟨i1, i2, i3⟩ := ih f [f (d s.nid)] (paint [fun v => some v] d C s) hq' (by rw [e1]; rfl)
            rw [e2]
            refine ⟨i1, fun _ => ?_, fun hn => absurd ⟨s, a, b, d, by simp, hp, by rw [hev]; exact fun e => by cases e⟩ hn⟩
            by_cases ha : Announced l h
            · exact i2 ha
            · exact ⟨d s.nid, [], (i3 ha).1.trans e1, (i3 ha).2⟩
          | modified =>
            have e1 : paint [fun v => some v] d C s l = [some (d s.nid)] := by
              unfold paint
              rw [if_pos hp.symm, hev]
              obtain ⟨y, hy⟩ := List.length_eq_one_iff.1 hC
              rw [hy]; rfl
            have e2 : computed w k l (.tell (.sig s a b) d :: h) f vs = computed w k l h f (vs ++ [f (d s.nid)]) := by
              show computed w k l h f _ = _
              rw [if_pos hp, hev]
            obtain ⟨i1, i2, i3⟩ := ih f (vs ++ [f (d s.nid)]) (paint [fun v => some v] d C s) hq' (by rw [e1]; rfl)
            rw [e2]
            refine ⟨i1, fun _ => ?_, fun hn => absurd ⟨s, a, b, d, by simp, hp, by rw [hev]; exact fun e => by cases e⟩ hn⟩
            by_cases ha : Announced l h
            · exact i2 ha
            · exact ⟨d s.nid, vs, (i3 ha).1.trans e1, (i3 ha).2⟩
        · rw [skip (fun s' a' b' d' e he => by cases e; exact absurd he hp)]
          have e1 : paint [fun v => some v] d C s l = C l := by unfold paint; rw [if_neg (Ne.symm hp)]
          have e2 : ∀ vs', computed w k l (.tell (.sig s a b) d :: h) f vs' = computed w k l h f vs' := by
            intro vs'
            show computed w k l h f _ = _
            rw [if_neg hp]
          obtain ⟨i1, i2, i3⟩ := ih f vs (paint [fun v => some v] d C s) hq' (by rw [e1]; exact hC)
          rw [e2]
          exact ⟨i1, i2, fun hn => ⟨(i3 hn).1.trans e1, (i3 hn).2⟩⟩

theorem paintAll_one (l : List Id) (h : List (Sig × (Id → V))) : ∀ (C : List Id → List (Option V)), (C l).length = 1 →
    (paintAll [fun v => some v] h C l).length = 1 := by
  induction h with
  | nil => intro C hC; exact hC
  | cons x h ih =>
    intro C hC
    obtain ⟨s, d⟩ := x
    refine ih _ ?_
    unfold paint
    split
    · split
      · rfl
      · rw [CModel.setValues_length]; exact hC
      · exact hC
    · exact hC

/-! ### C61 -/

/-- **C61** (partial), for the values of all cells. The signals of a view, after any fair history of an application, are fed to
the widget, mixed with lookups, calls of `set_bg_color` for columns on the screen, and drawing. Nothing raises, and every row
has in every column the last value that is not `None` among those computed since the row appeared, each with the function that
the column had at the time. -/
theorem C61_cells_partial {diff : List Id → List Id → List Id} {ops : List Op}
    {bcs : List (Bank.Call (Id → V))} {root : Id} (hs : ViewStart ops root)
    (hdiff : SetDiff diff) (d : Id → V) {O : GtkOrder} (hO : GtkSound O) (parse : W → Option Rgb) (white : W)
    (w : Columns N (V → Option W)) (cells : Nat → Renderer W) :
    ∃ ft, FT.new diff (Bank.run {} bcs) (runOps St.init ops).t d root true = .ok ft ∧
      ∀ cs, ViewFairRun diff cs ⟨runOps St.init ops, d, Bank.run {} bcs, ft⟩ →
        ∃ a, FApp.run diff cs ⟨runOps St.init ops, d, Bank.run {} bcs, ft⟩ = .ok a ∧
          ∀ h : List (Canvas.Act N V W), told (toModel h) = sentInAll diff cs ⟨runOps St.init ops, d, Bank.run {} bcs, ft⟩ →
            ShownWhenSent (toModel h) → (addresses ((toModel h).map Prod.fst)).Nodup →
            Throughout O ParentThere ((toModel h).map Prod.fst) {} → ColoursKnown w h →
            ∃ c, Canvas.run O parse white h { cols := w, cells := cells } = .ok c ∧
              (∀ l, IsRow a.ft l ↔ ∃ r ∈ c.model.tm.rows, RowPath c.model.tm.rows r.addr l) ∧
              (c.model.tm.rows.map GRow.addr).Nodup ∧
              ∀ r ∈ c.model.tm.rows, ∀ l, RowPath c.model.tm.rows r.addr l → ∀ k f, w.types[k]? = some f →
                (c.model.cells r.addr)[k]? = some ((computed w k l h f []).filterMap id).getLast? := by
  obtain ⟨ft, e, hr⟩ := C26_observer_partial hs hdiff d
  refine ⟨ft, e, fun cs hf => ?_⟩
  obtain ⟨a0, e0, v0⟩ := (hs.run hdiff d)
  rw [e] at e0
  cases e0
  obtain ⟨_, e1, v0⟩ := v0 [] trivial
  cases e1
  obtain ⟨rows0, r1, -, -⟩ := v0.observerAgrees
  obtain ⟨a, rows, ea, ha, hr, hout, -⟩ := run_current hdiff ([] : List (V → Option W)) cs v0 hf r1 (new_current [] r1 fun _ => [])
  refine ⟨a, ea, fun h ht hsh hadd hl hk => ?_⟩
  have hsig : signals ((toModel h).map Prod.fst) = a.ft.view.out := by
    rw [← told_signals, ht, sentInAll, hout, List.map_append]
    simp [Function.comp_def]
  have hrep : replay (signals ((toModel h).map Prod.fst)) [] = some rows := by rw [hsig]; exact hr
  obtain ⟨hf', hc'⟩ := no_reuse hO ((toModel h).map Prod.fst) (m := {}) (U := []) (TInv.init (P := fun _ => [])) hrep hadd
    (fun r hr => by cases hr) (fun k b hk => by cases hk) hl
  obtain ⟨c, P, ec, -, hi, hv⟩ := Canvas.run_values hO (parse := parse) (white := white) (w := w) h (c := { cols := w, cells := cells })
    (P := fun _ => []) (vs := fun _ _ => []) ⟨rfl, rfl, rfl⟩ hk TInv.init (fun r hr => by cases hr) hsh hrep hf' hc' hl
  obtain ⟨rows', r1', -, r3⟩ := ha.observerAgrees
  rw [hr] at r1'
  cases r1'
  refine ⟨c, ec, fun l => ?_, hi.addrs, fun r hr l hp k f hf => ?_⟩
  · rw [← r3, hi.img]
    constructor
    · rintro ⟨r, hr, e⟩
      exact ⟨r, hr, by simpa using hi.rowPath _ r hr e⟩
    · rintro ⟨r, hr, hl⟩
      exact ⟨r, hr, (hi.of_rowPath hl).2⟩
  · have := hv r hr k f hf
    rw [(hi.of_rowPath hp).2, List.reverse_reverse] at this
    exact this

/-- **C61** (partial). In the same situation, let `set_bg_color` be called for the last time with the function `f`, and let a row be
announced after that. If the colour that `f` computes from the present data of the node is not `None` and is a colour for GDK, then
any cell of the row is drawn with that background, and its text is white if the colour is dark and has its normal colour if not;
whatever was drawn before with the same renderer.

Missing: rows that were not announced since `set_bg_color` (`C61_refuted_stale`); a colour that becomes `None`
(`C61_refuted_none`); texts that are no colours (`C61_refuted_unknown`); and what is missing in C47. -/
theorem C61_colours_partial {diff : List Id → List Id → List Id} {ops : List Op}
    {bcs : List (Bank.Call (Id → V))} {root : Id} (hs : ViewStart ops root)
    (hdiff : SetDiff diff) (d : Id → V) {O : GtkOrder} (hO : GtkSound O) (parse : W → Option Rgb) (white : W)
    (w : Columns N (V → Option W)) (cells : Nat → Renderer W) :
    ∃ ft, FT.new diff (Bank.run {} bcs) (runOps St.init ops).t d root true = .ok ft ∧
      ∀ cs, ViewFairRun diff cs ⟨runOps St.init ops, d, Bank.run {} bcs, ft⟩ →
        ∃ a, FApp.run diff cs ⟨runOps St.init ops, d, Bank.run {} bcs, ft⟩ = .ok a ∧
          ∀ h1 n f (h2 : List (Canvas.Act N V W)), Canvas.Quiet h2 →
            told (toModel (h1 ++ .colour n f :: h2)) = sentInAll diff cs ⟨runOps St.init ops, d, Bank.run {} bcs, ft⟩ →
            ShownWhenSent (toModel (h1 ++ .colour n f :: h2)) → (addresses ((toModel (h1 ++ .colour n f :: h2)).map Prod.fst)).Nodup →
            Throughout O ParentThere ((toModel (h1 ++ .colour n f :: h2)).map Prod.fst) {} → ColoursKnown w (h1 ++ .colour n f :: h2) →
            ∃ c, Canvas.run O parse white (h1 ++ .colour n f :: h2) { cols := w, cells := cells } = .ok c ∧
              ∀ r ∈ c.model.tm.rows, ∀ l, RowPath c.model.tm.rows r.addr l → Announced l h2 →
                ∀ v rgb, f (a.data r.nid) = some v → parse v = some rgb →
                  ∀ i, ∃ c', c.act O parse white (.draw i (some r.addr)) = .ok c' ∧ Shows parse white (c'.cells i) (some v) ∧
                    (∀ j, j ≠ i → c'.cells j = c.cells j) ∧ (c'.cells i).text = (c.cells i).text := by
  obtain ⟨ft, e, hr⟩ := C61_cells_partial hs hdiff d hO parse white w cells
  refine ⟨ft, e, fun cs hf => ?_⟩
  obtain ⟨a, ea, hr⟩ := hr cs hf
  refine ⟨a, ea, fun h1 n f h2 hq ht hsh hadd hl hk => ?_⟩
  obtain ⟨c, ec, hrows, hnd, hcells⟩ := hr _ ht hsh hadd hl hk
  refine ⟨c, ec, fun r hr l hp hann v rgb hfv hrgb i => ?_⟩
  obtain ⟨k, g, q1, q2, q3⟩ := hk n f (by simp)
  -- the data of the last announcement are the present ones
  obtain ⟨a0, e0, v0⟩ := (hs.run hdiff d)
  rw [e] at e0
  cases e0
  obtain ⟨_, e1, v0⟩ := v0 [] trivial
  cases e1
  obtain ⟨rows0, r1, -, -⟩ := v0.observerAgrees
  obtain ⟨a', rows, ea', ha, hrep, hout, hcur⟩ := run_current hdiff [fun v : V => some v] cs v0 hf r1 (new_current _ r1 fun _ => [none])
  rw [ea] at ea'
  cases ea'
  rw [← paintAll_append] at hcur
  obtain ⟨rows', r1', -, r3⟩ := ha.observerAgrees
  rw [hrep] at r1'
  cases r1'
  have hlast := rowPath_last hnd hr hp
  have hin : l ∈ rows := (r3 l).2 ((hrows l).2 ⟨r, hr, hp⟩)
  have hval := (hcur l hin r.nid hlast).val 0 _ (a.data r.nid) rfl rfl
  change (paintAll _ (sentInAll diff cs _) (fun _ => [none]) l)[0]? = _ at hval
  rw [← ht, toModel_append, told_append, paintAll_append] at hval
  obtain ⟨f0, hf0⟩ : ∃ f0, w.types[k]? = some f0 := ⟨_, List.getElem?_eq_getElem q2⟩
  have hcell := hcells r hr l hp k f0 hf0
  obtain ⟨f', vs', happ⟩ := computed_append w k l h1 (.colour n f :: h2) f0 []
  have hcol : computed w k l (.colour n f :: h2) f' vs' = computed w k l h2 f vs' := by
    show computed w k l h2 _ vs' = _
    rw [q1]; simp
  rw [happ, hcol] at hcell
  obtain ⟨-, i2, -⟩ := last_announced w k l h2 f vs' (paintAll [fun v => some v] (told (toModel h1)) fun _ => [none]) hq (paintAll_one l _ _ rfl)
  obtain ⟨v0, vs0, p1, p2⟩ := i2 hann
  rw [show toModel (Canvas.Act.colour n f :: h2) = toModel h2 from rfl, p1] at hval
  have hv0 : v0 = a.data r.nid := by simpa using hval
  rw [p2, hv0, hfv] at hcell
  have hcell' : (c.model.cells r.addr)[k]? = some (some v) := by
    rw [hcell]; simp
  -- drawing
  obtain ⟨c1, ec1, ec2⟩ := Canvas.run_append _ _ ec
  have hbg : c.bg = some (k + 1) := by
    rw [Canvas.run] at ec2
    cases hx : c1.act O parse white (.colour n f) with
    | err e' s => rw [hx] at ec2; cases ec2
    | ok c2 =>
      rw [hx] at ec2
      rw [Canvas.run_quiet h2 hq ec2]
      change c1.setBgColor n f = .ok c2 at hx
      unfold Canvas.setBgColor at hx
      rw [Canvas.run_columns h1 ec1] at hx
      rw [show w.columns.get? n = some (k + 1, g) from q1] at hx
      dsimp only at hx
      split at hx
      · cases hx; rfl
      · cases hx
  have hlook : c.lookedUp (k + 1) (some r.addr) = some v := by
    unfold Canvas.lookedUp Canvas.colourAt
    dsimp only
    rw [if_pos (List.any_eq_true.2 ⟨r, hr, by simp⟩), Nat.add_sub_cancel, hcell']
    rfl
  obtain ⟨c', e', s1, s2, s3⟩ := Canvas.cellData_shows (white := white) (i := i) (row := some r.addr)
    (Canvas.run_cache _ (fun w b hb => by cases hb) ec) hbg (fun w' hw' => by
      rw [hlook] at hw'; cases hw'; rw [hrgb]; rfl)
  rw [hlook] at s1
  exact ⟨c', by show Res.ok _ = _; rw [e']; rfl, s1, s2, s3⟩

/-- **C61**: drawing a cell. After any history, with whatever has been drawn, a cell of a row shows the colour of that row, if it is
none or a colour for GDK; the other renderers are left alone. -/
theorem C61_draw {O : GtkOrder} {parse : W → Option Rgb} {white : W} (h : List (Canvas.Act N V W)) {c0 c : Canvas N V W} (h0 : c0.cache = [])
    (e : Canvas.run O parse white h c0 = .ok c) {num : Nat} (hb : c.bg = some num) {r : GRow} (hr : r ∈ c.model.tm.rows) {v : Option W}
    (hv : (c.model.cells r.addr)[num - 1]? = some v) (hp : ∀ w, v = some w → (parse w).isSome = true) (i : Nat) :
    ∃ c', c.act O parse white (.draw i (some r.addr)) = .ok c' ∧ Shows parse white (c'.cells i) v ∧
      (∀ j, j ≠ i → c'.cells j = c.cells j) ∧ (c'.cells i).text = (c.cells i).text := by
  have hlook : c.lookedUp num (some r.addr) = v := by
    unfold Canvas.lookedUp Canvas.colourAt
    dsimp only
    rw [if_pos (List.any_eq_true.2 ⟨r, hr, by simp⟩), hv]
    rfl
  obtain ⟨c', e', s1, s2, s3⟩ := Canvas.cellData_shows (white := white) (i := i) (row := some r.addr)
    (Canvas.run_cache _ (fun w b hb => by rw [h0] at hb; cases hb) e) hb (fun w' hw' => hp w' (hlook ▸ hw'))
  rw [hlook] at s1
  exact ⟨c', by show Res.ok _ = _; rw [e']; rfl, s1, s2, s3⟩

/-! ### A concrete case and the limits -/

/-- Signals handed to the widget. -/
def tells (l : List (Sig × (Id → Nat))) : List (Canvas.Act Nat Nat Nat) := (feed l 0).map fun c => .tell c.1 c.2

/-- A column for the number of a node and one for its colour. -/
def colourColumns : Columns Nat (Nat → Option Nat) :=
  (Columns.make [{ name := 1, value := fun v => some v }, { name := 2, value := fun _ => none }]).state

/-- Colours are grey, the darker the smaller; from 100 on they are no colours. -/
def grey (w : Nat) : Option Rgb := if w < 100 then some ⟨w * 600, w * 600, w * 600⟩ else none

/-- Two renderers: the first one draws text. -/
def twoCells : Nat → Renderer Nat := fun i => { text := i = 0 }

def paleOrNot (v : Nat) : Option Nat := if v = 7 then none else if v = 8 then some 90 else if v = 9 then some 200 else some v

def painted (h : List (Canvas.Act Nat Nat Nat)) : Res (Canvas Nat Nat Nat) :=
  Canvas.run byInsertion grey 99 h { cols := colourColumns, cells := twoCells }

theorem toModel_tells (l : List (Sig × (Id → Nat))) : toModel (tells l) = feed l 0 := by
  unfold tells
  generalize feed l 0 = k
  induction k with
  | nil => rfl
  | cons x k ih => exact congrArg (_ :: ·) ih

/-- C61 for a concrete history: the colour function is set at the start, both rows are drawn in turn, and the dark row has white text
both times. -/
example : ∃ a c, FApp.run someDiff viewHistory viewApp = .ok a ∧
    painted ([] ++ .colour 2 paleOrNot :: tells (sentInAll someDiff viewHistory viewApp)) = .ok c ∧
    ∀ r ∈ c.model.tm.rows, ∀ l, RowPath c.model.tm.rows r.addr l → Announced l (tells (sentInAll someDiff viewHistory viewApp)) →
      ∀ v rgb, paleOrNot (a.data r.nid) = some v → grey v = some rgb → ∀ i, ∃ c', c.act byInsertion grey 99 (.draw i (some r.addr)) = .ok c' ∧
        Shows grey 99 (c'.cells i) (some v) := by
  obtain ⟨ft, e, h⟩ := C61_colours_partial viewStart someDiff_ok (fun _ => 0) byInsertion_sound grey 99 colourColumns twoCells
  rw [viewApp_new] at e
  cases e
  obtain ⟨a, ea, h⟩ := h viewHistory viewHistory_fair
  obtain ⟨h1, h2, ⟨h3, -⟩, h4⟩ := feed_ok byInsertion (sentInAll someDiff viewHistory viewApp) 0 {}
  obtain ⟨c, ec, h⟩ := h [] 2 paleOrNot (tells (sentInAll someDiff viewHistory viewApp)) (fun n f hm => by
      obtain ⟨x, -, e⟩ := List.mem_map.1 hm; cases e)
    (by show told (toModel (tells _)) = _; rw [toModel_tells]; exact h1)
    (by show ShownWhenSent (toModel (tells _)); rw [toModel_tells]; exact h2)
    (by show (addresses ((toModel (tells _)).map Prod.fst)).Nodup; rw [toModel_tells]; exact h3)
    (by show Throughout _ _ ((toModel (tells _)).map Prod.fst) _; rw [toModel_tells]; exact h4)
    (fun n f hm => by
      rcases List.mem_cons.1 hm with e | hm
      · cases e; exact ⟨1, 2, by decide, by decide, by decide⟩
      · obtain ⟨x, -, e⟩ := List.mem_map.1 hm; cases e)
  refine ⟨a, c, ea, ec, fun r hr l hp ha v rgb hv hg i => ?_⟩
  obtain ⟨c', e', s, -⟩ := h r hr l hp ha v rgb hv hg i
  exact ⟨c', e', s⟩

/-- The rows drawn one after the other with the same renderer. -/
def drawn (h : List (Canvas.Act Nat Nat Nat)) (i a : Nat) : Option Nat × Option Nat :=
  let r := ((painted h).state.cellData grey 99 i (some a)).state.cells i
  (r.foreground, r.background)

/-- Row 0 is node 1 with the number 3, which is dark; row 1 is node 2 with the number 8, which is pale. -/
example : let h := Canvas.Act.colour 2 paleOrNot :: tells (sentInAll someDiff [.change (.str 1) 3, .change (.str 2) 8] viewApp)
    (painted h).state.model.tm.rows.map (fun r => (r.addr, r.nid)) = [(0, .str 1), (1, .str 2)] ∧
    drawn h 0 0 = (some 99, some 3) ∧ drawn (h ++ [.draw 0 (some 0)]) 0 1 = (none, some 90) ∧
    drawn (h ++ [.draw 0 (some 1)]) 0 0 = (some 99, some 3) ∧ drawn h 1 0 = (none, some 3) := by decide

/-- **A row that was there before `set_bg_color` keeps the colour it had** until it is announced again. -/
theorem C61_refuted_stale : let h := tells (sentInAll someDiff [] viewApp) ++ [.colour 2 paleOrNot]
    (painted h).isOk = true ∧ paleOrNot (viewApp.data (.str 1)) = some 0 ∧
    (∃ r ∈ (painted h).state.model.tm.rows, r.nid = .str 1 ∧ drawn h 0 r.addr = (none, none)) := by
  decide

/-- **A row keeps its colour when its node has none any more**: the number of node 1 becomes 7. -/
theorem C61_refuted_none : ViewFairRun someDiff [.change (.str 1) 7] viewApp ∧
    let h := .colour 2 paleOrNot :: tells (sentInAll someDiff [.change (.str 1) 7] viewApp)
    (painted h).isOk = true ∧ paleOrNot 7 = none ∧
    (∃ r ∈ (painted h).state.model.tm.rows, r.nid = .str 1 ∧ drawn h 0 r.addr = (some 99, some 0)) :=
  ⟨countBank_fair rfl ⟨trivial, trivial⟩, by decide⟩

/-- **A row whose colour GDK does not know is drawn in the colours of the row drawn before**: node 2 has the number 9. -/
theorem C61_refuted_unknown : ViewFairRun someDiff [.change (.str 2) 9] viewApp ∧
    let h := .colour 2 paleOrNot :: tells (sentInAll someDiff [.change (.str 2) 9] viewApp)
    (painted h).isOk = true ∧ paleOrNot 9 = some 200 ∧ grey 200 = none ∧
    (∃ r ∈ (painted h).state.model.tm.rows, ∃ q ∈ (painted h).state.model.tm.rows, r.nid = .str 1 ∧ q.nid = .str 2 ∧
      drawn (h ++ [.draw 0 (some r.addr)]) 0 q.addr = (some 99, some 0)) :=
  ⟨countBank_fair rfl ⟨trivial, trivial⟩, by decide⟩

/-- **A renderer loses the text colour that it was made with**, as soon as any row is drawn, even a row without a colour. -/
theorem C61_refuted_own : ∃ c0 : Canvas Nat Nat Nat, c0.bg = some 2 ∧ (c0.cells 0).foreground = some 5 ∧
    ∀ row, c0.lookedUp 2 row = none → ∃ c, c0.cellData grey 99 0 row = .ok c ∧ (c.cells 0).foreground = none := by
  refine ⟨{ cols := colourColumns, bg := some 2, cells := fun _ => { text := true, foreground := some 5 } }, rfl, rfl, fun row h => ?_⟩
  unfold Canvas.cellData
  rw [show (some 2 : Option Nat) = some 2 from rfl]
  dsimp only
  rw [h]
  exact ⟨_, rfl, rfl⟩

/-- **`set_bg_color` for a first column without a column of its own raises**, because that column is never shown (`C49_refuted_first`);
the column is used for colours nevertheless. -/
theorem C61_refuted_hidden : ∃ w : Columns Nat (Nat → Option Nat), Columns.make [{ name := 1, value := fun v => some v, newColumn := false }] = .ok w ∧
    ∀ f, ∃ c, Canvas.setBgColor 1 f { cols := w, cells := twoCells } = .err .attributeError c ∧ c.bg = some 1 ∧ c.cols = w :=
  ⟨_, rfl, fun _ => ⟨_, rfl, rfl, rfl⟩⟩

end Larch
