import Verif.Proofs.ByHand

/-!
# C58: rows that are opened and closed by hand
-/

namespace Larch

open Spec TM Widget

variable {V : Type} {diff : List Id → List Id → List Id} {O : GtkOrder} {alloc : Nat → Nat}

/-- All rows of a node, by their addresses. -/
theorem fold_addresses {w : Widget V} (h : SInv diff alloc w.scr) {x : Id} {ps : List (List Id)} {as : List Nat}
    (hps : ∀ l, l ∈ ps ↔ IsRow w.scr.app.ft l ∧ l.getLast? = some x) (has : List.Forall₂ (fun a l => RowPath w.scr.tm.rows a l) as ps) (b : Nat) :
    b ∈ as ↔ ∃ q ∈ w.scr.tm.rows, q.addr = b ∧ q.nid = x := by
  obtain ⟨rows0, P0, hi0, hrow0⟩ := h.isRow
  constructor
  · intro hb
    obtain ⟨l, hl, hbl⟩ := forall₂_left has b hb
    obtain ⟨⟨q, hq, rfl⟩, hPq⟩ := hi0.of_rowPath hbl
    refine ⟨q, hq, rfl, ?_⟩
    rw [hi0.path q hq] at hPq
    have := congrArg List.head? hPq
    rw [List.head?_reverse, ((hps l).1 hl).2] at this
    simpa using this
  · rintro ⟨q, hq, rfl, hqx⟩
    have hq' : (P0 q.addr).reverse ∈ ps := by
      refine (hps _).2 ⟨(hrow0 _).1 ((hi0.img _).2 ⟨q, hq, by simp⟩), ?_⟩
      rw [List.getLast?_reverse, hi0.path q hq, hqx]; rfl
    obtain ⟨b, hb, hbl⟩ := forall₂_right has _ hq'
    obtain ⟨⟨q', hq2, rfl⟩, hPq⟩ := hi0.of_rowPath hbl
    rw [List.reverse_reverse] at hPq
    rw [← hi0.inj q' hq2 q hq hPq]; exact hb

/-- Opening rows of which none is below another. -/
theorem mem_expandAll {m : TM} (h : (m.rows.map GRow.addr).Nodup) (as : List Nat) : ∀ {opened : List Nat},
    (∀ a ∈ as, ∃ r ∈ m.rows, r.addr = a ∧ ∀ p, r.parent = some p → p ∉ as) → ∀ b,
    (b ∈ as.foldl (method m.rows .expand) opened ↔ b ∈ opened ∨ ∃ r ∈ m.rows, r.addr = b ∧ b ∈ as ∧ ChildRow m.rows b ∧ UnderOpen opened r) := by
  induction as with
  | nil => intro opened _ b; simp
  | cons a as ih =>
    intro opened has b
    obtain ⟨r, hr, rfl, hra⟩ := has a List.mem_cons_self
    rw [List.foldl_cons, ih fun c hc => ?_]
    · show b ∈ expandRow m.rows false opened r.addr ∨ _ ↔ _
      have hsame : ∀ q ∈ m.rows, q.addr ∈ as → (UnderOpen (expandRow m.rows false opened r.addr) q ↔ UnderOpen opened q) := by
        intro q hq hqa
        refine forall_congr' fun p => forall_congr' fun hp => ?_
        rw [mem_expandRow h hr]
        refine ⟨?_, Or.inl⟩
        rintro (x | ⟨rfl, -⟩)
        · exact x
        · exfalso
          obtain ⟨q', hq', e, hn⟩ := has q.addr (List.mem_cons_of_mem _ hqa)
          cases List.inj_on_of_nodup_map h hq' hq e
          exact hn _ hp List.mem_cons_self
      rw [mem_expandRow h hr]
      constructor
      · rintro ((x | ⟨rfl, x, y⟩) | ⟨q, hq, rfl, x1, x2, x3⟩)
        · exact Or.inl x
        · exact Or.inr ⟨r, hr, rfl, List.mem_cons_self, x, y⟩
        · exact Or.inr ⟨q, hq, rfl, List.mem_cons_of_mem _ x1, x2, (hsame q hq x1).1 x3⟩
      · rintro (x | ⟨q, hq, rfl, x1, x2, x3⟩)
        · exact Or.inl (Or.inl x)
        · rcases List.mem_cons.1 x1 with e | x1
          · cases List.inj_on_of_nodup_map h hq hr e
            exact Or.inl (Or.inr ⟨rfl, x2, x3⟩)
          · exact Or.inr ⟨q, hq, rfl, x1, x2, (hsame q hq x1).2 x3⟩
    · obtain ⟨q, hq, e, hn⟩ := has c (List.mem_cons_of_mem _ hc)
      exact ⟨q, hq, e, fun p hp h => hn p hp (List.mem_cons_of_mem _ h)⟩

/-! ### C58 -/

/-- **C58** (partial). The user closes a row: it and the rows below it are closed, and nothing else changes. The user opens a row:
it is open if it has children and nothing is closed above it, and nothing else changes. Neither is remembered.

Missing: as for `C58_application_partial`. -/
theorem C58_click_partial (hdiff : SetDiff diff) (hO : GtkSound O) (ha : Function.Injective alloc) {w : Widget V}
    (h : InUse diff O alloc w) {q : GRow} (hq : q ∈ w.scr.tm.rows) {lq : List Id} (hlq : RowPath w.scr.tm.rows q.addr lq) (f : Fold) :
    (w.step diff O alloc (.click f q.addr)).scr = w.scr ∧ (w.step diff O alloc (.click f q.addr)).memory = w.memory ∧
    ∀ r ∈ w.scr.tm.rows, ∀ l, RowPath w.scr.tm.rows r.addr l →
      (r.addr ∈ (w.step diff O alloc (.click f q.addr)).opened ↔
        match f with
        | .collapse => r.addr ∈ w.opened ∧ ¬ lq <+: l
        | .expand => r.addr ∈ w.opened ∨ (r = q ∧ ChildRow w.scr.tm.rows r.addr ∧ UnderOpen w.opened r)) := by
  have hi := inUse_inv hdiff hO ha h
  obtain ⟨rows, P, ti, -⟩ := hi.s.isRow
  refine ⟨rfl, rfl, fun r hr l hl => ?_⟩
  cases f with
  | collapse =>
    show r.addr ∈ collapseRow w.scr.tm.rows w.opened q.addr ↔ r.addr ∈ w.opened ∧ ¬ lq <+: l
    unfold collapseRow
    simp only [List.mem_filter, Bool.not_eq_true', ← Bool.not_eq_true, List.contains_iff_mem]
    rw [ti.mem_subtree hq hr, (ti.of_rowPath hl).2, (ti.of_rowPath hlq).2, List.reverse_suffix]
  | expand =>
    show r.addr ∈ expandRow w.scr.tm.rows false w.opened q.addr ↔ _
    rw [mem_expandRow ti.addrs hq]
    refine or_congr_right ⟨?_, ?_⟩
    · rintro ⟨e, x⟩
      cases ti.same hr hq e
      exact ⟨rfl, x⟩
    · rintro ⟨rfl, x⟩
      exact ⟨rfl, x⟩

/-- **C58** (partial). `collapse_node` for a displayed node closes its rows and all rows below them, and nothing else;
`expand_node` opens those of its rows that have children and are below open rows only, and nothing else. The node is remembered
in both cases, and no other node is.

Missing: as for `C58_application_partial`. -/
theorem C58_node_partial (hdiff : SetDiff diff) (hO : GtkSound O) (ha : Function.Injective alloc) {w : Widget V}
    (h : InUse diff O alloc w) {x : Id} (hn : x ≠ .none) (he : x ≠ .empty) (hx : ∃ l, IsRow w.scr.app.ft l ∧ l.getLast? = some x) (f : Fold) :
    (w.step diff O alloc (.fold f x)).scr.tm.rows = w.scr.tm.rows ∧ (w.step diff O alloc (.fold f x)).scr.app = w.scr.app ∧
    (∀ y, Named (w.step diff O alloc (.fold f x)).memory y ↔ Named w.memory y ∨ y = x) ∧
    ∀ r ∈ w.scr.tm.rows, ∀ l, RowPath w.scr.tm.rows r.addr l →
      (r.addr ∈ (w.step diff O alloc (.fold f x)).opened ↔
        match f with
        | .collapse => r.addr ∈ w.opened ∧ x ∉ l
        | .expand => r.addr ∈ w.opened ∨ (r.nid = x ∧ ChildRow w.scr.tm.rows r.addr ∧ UnderOpen w.opened r)) := by
  have hi := inUse_inv hdiff hO ha h
  have hfal : x.falsy = false := by
    rw [← Bool.not_eq_true, falsy_iff]
    rintro (h | h)
    · exact hn h
    · exact he h
  obtain ⟨l0, hl0, hl0x⟩ := hx
  obtain ⟨hx1, hx2, -⟩ := hi.s.v.row_wanted hl0 hl0x
  obtain ⟨ps, as, hps, hne, -, k2, k3, k4, -, -, k7, k8⟩ := fold_shown hdiff hO ha f hi.s hfal hx1 hx2
  have hmem := fold_addresses hi.s hps k7
  obtain ⟨rows, P, ti, -⟩ := hi.s.isRow
  refine ⟨k3, k2, fun y => ?_, fun r hr l hl => ?_⟩
  · show Named (w.fold O f x).memory y ↔ _
    rw [k4]
    unfold Named
    constructor
    · rintro ⟨path, hp, e⟩
      rcases List.mem_append.1 hp with hp | hp
      · exact Or.inl ⟨path, hp, e⟩
      · rw [((hps path).1 hp).2] at e
        exact Or.inr (Option.some.inj e).symm
    · rintro (⟨path, hp, e⟩ | rfl)
      · exact ⟨path, List.mem_append_left _ hp, e⟩
      · exact ⟨l0, List.mem_append_right _ ((hps l0).2 ⟨hl0, hl0x⟩), hl0x⟩
  · show r.addr ∈ (w.fold O f x).opened ↔ _
    rw [k8]
    cases f with
    | collapse =>
      rw [mem_collapseAll]
      refine and_congr_right fun _ => ⟨fun hall hxl => ?_, fun hxl a ha hs => ?_⟩
      · obtain ⟨q, hq, hqx, hsuf⟩ := ti.on_path _ r hr rfl (x := x) (by rw [(ti.of_rowPath hl).2]; exact List.mem_reverse.2 hxl)
        exact hall q.addr ((hmem _).2 ⟨q, hq, rfl, hqx⟩) ((ti.mem_subtree hq hr).2 hsuf)
      · obtain ⟨q, hq, rfl, hqx⟩ := (hmem a).1 ha
        have hsuf := (ti.mem_subtree hq hr).1 hs
        refine hxl (List.mem_reverse.1 ?_)
        rw [← (ti.of_rowPath hl).2]
        refine hsuf.subset ?_
        rw [ti.path q hq, hqx]
        exact List.mem_cons_self
    | expand =>
      rw [mem_expandAll ti.addrs as fun a ha => ?_]
      · refine or_congr_right ⟨?_, ?_⟩
        · rintro ⟨q, hq, e, x1, x2, x3⟩
          cases ti.same hq hr e
          obtain ⟨q, hq', e', hqx⟩ := (hmem _).1 x1
          cases ti.same hq' hr e'
          exact ⟨hqx, x2, x3⟩
        · rintro ⟨x1, x2, x3⟩
          exact ⟨r, hr, rfl, (hmem _).2 ⟨r, hr, rfl, x1⟩, x2, x3⟩
      · obtain ⟨q, hq, rfl, hqx⟩ := (hmem a).1 ha
        refine ⟨q, hq, rfl, fun p hp hpa => ?_⟩
        obtain ⟨b, hb, rfl, hbx⟩ := (hmem p).1 hpa
        have := (hi.s.row hq).2.2.1 b hb hp
        rw [hqx, hbx] at this
        exact (hi.s.v.viewOK hdiff).noCycle x (Relation.TransGen.single this)

/-- C58: called for a node that is not displayed, or for no node, both change no row and remember nothing for now. -/
theorem C58_node_hidden {w : Widget V} {x : Id} (hx : x = w.scr.app.ft.root ∨ w.scr.app.ft.view.has x = false) (f : Fold) :
    (w.step diff O alloc (.fold f x)).scr = w.scr ∧ (w.step diff O alloc (.fold f x)).opened = w.opened ∧
    (w.step diff O alloc (.fold f x)).memory = w.memory := by
  show (w.fold O f x).scr = _ ∧ (w.fold O f x).opened = _ ∧ (w.fold O f x).memory = _
  cases hf : x.falsy with
  | true =>
    have hw : w.fold O f x = w := by unfold Widget.fold; rw [hf]; rfl
    rw [hw]; exact ⟨rfl, rfl, rfl⟩
  | false =>
    rw [fold_hidden f hf hx]
    split <;> exact ⟨rfl, rfl, rfl⟩

theorem userFair_quiet (hdiff : SetDiff diff) (hO : GtkSound O) (ha : Function.Injective alloc) (cs : List (WAct V))
    (hq : ∀ c ∈ cs, Quiet c) : ∀ {w : Widget V}, UInv diff alloc w → UserFair diff O alloc cs w →
    (w.run diff O alloc cs).memory = w.memory ∧ ∀ {old : List GRow} {was : List Nat}, (∀ r ∈ old, r.addr ∈ usedTill alloc w.scr.clock) →
      Since (remembered w.memory) old was w.scr.tm.rows w.opened →
      Since (remembered w.memory) old was (w.run diff O alloc cs).scr.tm.rows (w.run diff O alloc cs).opened := by
  induction cs with
  | nil => intro w _ _; exact ⟨rfl, fun _ hs => hs⟩
  | cons c cs ih =>
    intro w h hf
    have h1 := h.step hdiff hO ha c hf.1
    obtain ⟨k1, k2⟩ := ih (fun c hc => hq c (List.mem_cons_of_mem _ hc)) h1 hf.2
    have hc := hq c List.mem_cons_self
    -- one action
    have one : (w.step diff O alloc c).memory = w.memory ∧ w.scr.clock ≤ (w.step diff O alloc c).scr.clock ∧
        ∀ {old : List GRow} {was : List Nat}, (∀ r ∈ old, r.addr ∈ usedTill alloc w.scr.clock) →
        Since (remembered w.memory) old was w.scr.tm.rows w.opened →
        Since (remembered w.memory) old was (w.step diff O alloc c).scr.tm.rows (w.step diff O alloc c).opened := by
      cases c with
      | app c => exact ⟨rfl, Nat.le_add_right _ _, (h.act hdiff hO ha c hf.1).2⟩
      | look path =>
        refine ⟨rfl, Nat.le_refl _, fun _ hs => ?_⟩
        have er : (w.scr.step diff O alloc (.look path)).tm.rows = w.scr.tm.rows := getIterUp_rows O _ _
        show Since _ _ _ (w.scr.step diff O alloc (.look path)).tm.rows w.opened
        rw [er]; exact hs
      | drop selected at_ =>
        obtain ⟨-, d2, d3⟩ := UInv.dropRows (O := O) hdiff hO ha (Screen.destination w.scr.tm at_) ((Screen.wire selected).filterMap id) h hf.1
        exact ⟨dropRows_memory _ _ w, d2, d3⟩
      | fold f x => exact hc.elim
      | idle => exact hc.elim
      | click f a => exact hc.elim
    obtain ⟨o1, o2, o3⟩ := one
    rw [o1] at k1 k2
    exact ⟨k1, fun hold hs => k2 (fun r hr => usedTill_mono alloc o2 (hold r hr)) (o3 hold hs)⟩

/-- **C58** (partial). Whatever the application does and whatever is dropped, until something is folded or clicked on again: the
widget remembers the same nodes; a row that keeps one of its children stays open or closed as it was; a row that is open then
has children, has only open rows above it, and is not remembered or was open before; and a row that has children, has only
open rows above it and is not remembered is open, unless it was there, had children and was closed before.

Missing: the conditions of C24 to C27; GTK using the memory of removed rows again (C36); collapsing a node that is not
displayed and then appears below two displayed parents (`C52_refuted_two_parents`). -/
theorem C58_application_partial (hdiff : SetDiff diff) (hO : GtkSound O) (ha : Function.Injective alloc) {w : Widget V}
    (h : InUse diff O alloc w) (cs : List (WAct V)) (hq : ∀ c ∈ cs, Quiet c) (hf : UserFair diff O alloc cs w) :
    (w.run diff O alloc cs).memory = w.memory ∧
    ∀ r ∈ (w.run diff O alloc cs).scr.tm.rows,
      (KeptChild w.scr.tm.rows (w.run diff O alloc cs).scr.tm.rows r → (r.addr ∈ (w.run diff O alloc cs).opened ↔ r.addr ∈ w.opened)) ∧
      (r.addr ∈ (w.run diff O alloc cs).opened → ChildRow (w.run diff O alloc cs).scr.tm.rows r.addr ∧
        UnderOpen (w.run diff O alloc cs).opened r ∧ (¬ Named w.memory r.nid ∨ (r ∈ w.scr.tm.rows ∧ r.addr ∈ w.opened))) ∧
      (ChildRow (w.run diff O alloc cs).scr.tm.rows r.addr → UnderOpen (w.run diff O alloc cs).opened r → ¬ Named w.memory r.nid →
        r.addr ∈ (w.run diff O alloc cs).opened ∨ (r ∈ w.scr.tm.rows ∧ ChildRow w.scr.tm.rows r.addr ∧ r.addr ∉ w.opened)) := by
  have hi := inUse_inv hdiff hO ha h
  obtain ⟨k1, k2⟩ := userFair_quiet hdiff hO ha cs hq hi hf
  have hs := k2 hi.s.used (Since.start hi.g)
  have hg := (hi.run hdiff hO ha cs hf).g
  refine ⟨k1, fun r hr => ⟨hs.kept r hr, fun hop => ⟨hg.kids _ hop, hg.up r hr hop, ?_⟩, fun hc hu hn => hs.closes r hr hc hu ?_⟩⟩
  · rw [named_iff]; exact hs.opens r hr hop
  · rw [← named_iff]; exact hn

/-! ### An example -/

/-- 1 with 2 and 5 below it, 3 below 2, and 4 below 3. The user closes 2 and then opens it again, so 3 is closed; `expand_node` is
called for 3 before and after that; 2 is collapsed by `collapse_node`, and the user opens it. -/
def handHistory : List (WAct Nat) :=
  [.app (.edit (.addNode (.new (.str 1) .none) .none)), .app (.edit (.addNode (.new (.str 2) .none) (.str 1))),
   .app (.edit (.addNode (.new (.str 3) .none) (.str 2))), .app (.edit (.addNode (.new (.str 4) .none) (.str 3))),
   .app (.edit (.addNode (.new (.str 5) .none) (.str 1))), .click .collapse 1, .click .expand 1, .fold .collapse (.str 2), .click .expand 1]

theorem handHistory_fair : UserFair someDiff byInsertion id handHistory bareWidget :=
  ⟨add_fair (Made.new _ _) (by decide) (by decide) rfl, add_fair (Made.new _ _) (by decide) (by decide) rfl,
    add_fair (Made.new _ _) (by decide) (by decide) rfl, add_fair (Made.new _ _) (by decide) (by decide) rfl,
    add_fair (Made.new _ _) (by decide) (by decide) rfl, (by decide), (by decide), trivial, (by decide), trivial⟩

def handWidget : Widget Nat := bareWidget.run someDiff byInsertion id handHistory

theorem handWidget_inUse : InUse someDiff byInsertion id handWidget := by
  obtain ⟨ops, bcs, root, d, ft, h1, h3, e, -, hw⟩ := bareWidget_start
  exact ⟨ops, bcs, root, d, ft, handHistory, h1, h3, e, hw ▸ handHistory_fair, by rw [← hw]; rfl⟩

/-- The rows: 1, 2 and 3 have children, 1 and 2 are open, and 2 is remembered. -/
example : handWidget.scr.tm.rows = [⟨0, none, .str 1⟩, ⟨1, some 0, .str 2⟩, ⟨3, some 1, .str 3⟩, ⟨6, some 3, .str 4⟩, ⟨10, some 0, .str 5⟩] ∧
    handWidget.opened = [0, 1] ∧ handWidget.memory = [[.str 1, .str 2]] := ⟨by decide, by decide, by decide⟩

/-- `C58_click_partial`: closing 1 closes 2 too; opening 3 opens only 3. -/
example : (handWidget.step someDiff byInsertion id (.click .collapse 0)).opened = [] ∧
    (handWidget.step someDiff byInsertion id (.click .expand 3)).opened = [0, 1, 3] := ⟨by decide, by decide⟩

/-- `C58_node_partial`: 2 is displayed; `collapse_node` leaves 1 open, `expand_node` for 3 opens it. -/
example : (∃ l, IsRow handWidget.scr.app.ft l ∧ l.getLast? = some (.str 3)) ∧
    (handWidget.step someDiff byInsertion id (.fold .collapse (.str 2))).opened = [0] ∧
    (handWidget.step someDiff byInsertion id (.fold .expand (.str 3))).opened = [0, 1, 3] := by
  refine ⟨⟨[.str 1, .str 2, .str 3], ⟨by simp, ?_⟩, rfl⟩, by decide, by decide⟩
  refine List.isChain_cons_cons.2 ⟨by decide, List.isChain_cons_cons.2 ⟨by decide, List.isChain_cons_cons.2 ⟨by decide, List.isChain_singleton _⟩⟩⟩

/-- What the application does then: 6 is added below 3 and 7 below 5, and 8 below 7. -/
def handMore : List (WAct Nat) :=
  [.app (.edit (.addNode (.new (.str 6) .none) (.str 3))), .app (.edit (.addNode (.new (.str 7) .none) (.str 5))),
   .app (.edit (.addNode (.new (.str 8) .none) (.str 7))), .drop [1] (some (10, .into))]

/-- `C58_application_partial`: 3 keeps a child and stays closed; 5 and 7 get their first children and are opened. Then the user drops 2 on
5: its rows are removed and made anew, so it is closed, because it is remembered, and 3 below it is closed. -/
example : (∀ c ∈ handMore, Quiet c) ∧ UserFair someDiff byInsertion id handMore handWidget ∧
    (handWidget.run someDiff byInsertion id (handMore.take 3)).opened = [0, 1, 10, 16] ∧
    (handWidget.run someDiff byInsertion id handMore).opened = [0, 10, 16] ∧
    KeptChild handWidget.scr.tm.rows (handWidget.run someDiff byInsertion id (handMore.take 3)).scr.tm.rows ⟨3, some 1, .str 3⟩ := by
  refine ⟨?_, ⟨add_fair (Made.new _ _) (by decide) (by decide) rfl, add_fair (Made.new _ _) (by decide) (by decide) rfl,
    add_fair (Made.new _ _) (by decide) (by decide) rfl, OwnApplied.fewer (unfiltered rfl), trivial⟩, by decide, by decide, by decide, ⟨6, some 3, .str 4⟩, by decide, by decide, rfl⟩
  simp [handMore, Quiet]

/-- 1 with 2 below it; the user closes 1; 2 is removed, and 3 is added below 1. -/
def clickHistory : List (WAct Nat) :=
  [.app (.edit (.addNode (.new (.str 1) .none) .none)), .app (.edit (.addNode (.new (.str 2) .none) (.str 1))), .click .collapse 0,
   .app (.edit (.delNode (.str 2) false)), .app (.edit (.addNode (.new (.str 3) .none) (.str 1)))]

/-- A row that the user has closed does not stay closed when it loses all its children and gets others: the widget does not
remember what the user does. -/
theorem C58_refuted_click : UserFair someDiff byInsertion id clickHistory bareWidget ∧
    0 ∉ (bareWidget.run someDiff byInsertion id (clickHistory.take 3)).opened ∧
    (⟨0, none, .str 1⟩ : GRow) ∈ (bareWidget.run someDiff byInsertion id (clickHistory.take 3)).scr.tm.rows ∧
    (⟨0, none, .str 1⟩ : GRow) ∈ (bareWidget.run someDiff byInsertion id clickHistory).scr.tm.rows ∧
    0 ∈ (bareWidget.run someDiff byInsertion id clickHistory).opened := by
  refine ⟨⟨add_fair (Made.new _ _) (by decide) (by decide) rfl, add_fair (Made.new _ _) (by decide) (by decide) rfl, (by decide),
    ⟨⟨(by show List.length _ ≤ 1; decide), (by rintro _ _ ⟨⟩), (by rintro _ ⟨⟩)⟩, .inl (unfiltered rfl)⟩, add_fair (Made.new _ _) (by decide) (by decide) rfl, trivial⟩,
    by decide, by decide, by decide, by decide⟩

end Larch
