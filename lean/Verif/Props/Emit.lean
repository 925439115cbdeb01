import Verif.Props.ByHand
import Verif.Spec.Emit
import Verif.Props.Print

/-!
# C59: the signals for opened and closed rows
-/

namespace Larch

open Spec TM Widget

variable {V : Type} {diff : List Id → List Id → List Id} {O : GtkOrder} {alloc : Nat → Nat} {m : TM}

/-! ### The path of a signal -/

theorem descend_cons (rs : List GRow) (p : Option Nat) (i : Nat) (l : List Nat) {a : Nat} (h : O.nth rs p i = some a) :
    descend O rs p (i :: l) = descend O rs (some a) l := by
  rw [show descend O rs p (i :: l) = (match O.nth rs p i with
    | none => none
    | some a => descend O rs (some a) l) from by cases p <;> rfl, h]

theorem llPath_cons (path : List Nat) (i : Nat) (is : List Nat) (ll : List Id) {a : Nat} (h : descend O m.rows none (path.take i) = some a) :
    llPath O m path (i :: is) ll = llPath O m path is (ll ++ [(m.value a).getD .none]) := by
  rw [show llPath O m path (i :: is) ll = (match descend O m.rows none (path.take i) with
    | none => .error .valueError
    | some a => llPath O m path is (ll ++ [(m.value a).getD .none])) from rfl, h]

theorem llPath_cons_none (path : List Nat) (i : Nat) (is : List Nat) (ll : List Id) (h : descend O m.rows none (path.take i) = none) :
    llPath O m path (i :: is) ll = .error .valueError := by
  rw [show llPath O m path (i :: is) ll = (match descend O m.rows none (path.take i) with
    | none => .error .valueError
    | some a => llPath O m path is (ll ++ [(m.value a).getD .none])) from rfl, h]

theorem descend_append (rs : List GRow) (l1 l2 : List Nat) : ∀ p a, descend O rs p l1 = some a → descend O rs p (l1 ++ l2) = descend O rs (some a) l2 := by
  induction l1 with
  | nil => intro p a h; cases p with
    | none => cases h
    | some b => cases h; rfl
  | cons i l1 ih =>
    intro p a h
    rw [List.cons_append]
    cases e : O.nth rs p i with
    | none => cases p <;> (unfold descend at h; rw [e] at h; cases h)
    | some b =>
      rw [descend_cons rs p i _ e] at h ⊢
      exact ih _ _ h

theorem leads_descend {rs : List GRow} {path : List Nat} {a : Nat} (h : Leads O rs path a) : descend O rs none path = some a := by
  induction h with
  | top h => rw [descend_cons rs none _ _ h]; rfl
  | under _ h2 ih => rw [descend_append rs _ _ none _ ih, descend_cons rs _ _ _ h2]; rfl

theorem llPath_append (path : List Nat) (is1 is2 : List Nat) : ∀ ll, llPath O m path (is1 ++ is2) ll =
    match llPath O m path is1 ll with
    | .ok ll' => llPath O m path is2 ll'
    | .error e => .error e := by
  induction is1 with
  | nil => intro ll; rfl
  | cons i is ih =>
    intro ll
    rw [List.cons_append]
    cases e : descend O m.rows none (path.take i) with
    | none => rw [llPath_cons_none _ _ _ _ e, llPath_cons_none _ _ _ _ e]
    | some a => rw [llPath_cons _ _ _ _ e, llPath_cons _ _ _ _ e]; exact ih _

theorem llPath_take (path more : List Nat) (is : List Nat) : ∀ ll, (∀ i ∈ is, i ≤ path.length) →
    llPath O m (path ++ more) is ll = llPath O m path is ll := by
  induction is with
  | nil => intro ll _; rfl
  | cons i is ih =>
    intro ll h
    have et := List.take_append_of_le_length (l₂ := more) (h i List.mem_cons_self)
    cases e : descend O m.rows none (path.take i) with
    | none => rw [llPath_cons_none _ _ _ _ e, llPath_cons_none _ _ _ _ (et ▸ e)]
    | some a =>
      rw [llPath_cons _ _ _ _ e, llPath_cons _ _ _ _ (et ▸ e)]
      exact ih _ fun j hj => h j (List.mem_cons_of_mem _ hj)

theorem rowPath_one {rs : List GRow} (hd : (rs.map GRow.addr).Nodup) {a : Nat} {l l' : List Id} (h : RowPath rs a l) :
    RowPath rs a l' → l' = l := by
  induction h generalizing l' with
  | @top r hr hp =>
    intro h'
    obtain ⟨q, hq, e, h'⟩ := rowPath_inv h'
    cases List.inj_on_of_nodup_map hd hq hr e
    rcases h' with ⟨-, rfl⟩ | ⟨p, l0, e', -⟩
    · rfl
    · rw [hp] at e'; cases e'
  | @under r p l0 hr hp _ ih =>
    intro h'
    obtain ⟨q, hq, e, h'⟩ := rowPath_inv h'
    cases List.inj_on_of_nodup_map hd hq hr e
    rcases h' with ⟨e', -⟩ | ⟨p', l1, e', h1, rfl⟩
    · rw [hp] at e'; cases e'
    · rw [hp] at e'
      cases e'
      rw [ih h1]

/-- What is sent is the path of the row. -/
theorem emit_path (hO : GtkSound O) (hd : (m.rows.map GRow.addr).Nodup) {path : List Nat} {a : Nat} (h : Leads O m.rows path a) :
    ∃ l, RowPath m.rows a l ∧ emit O m path = .ok l := by
  induction h with
  | @top i a h =>
    obtain ⟨r, hr, rfl, hp⟩ := hO.nth _ _ _ _ h
    refine ⟨[r.nid], .top hr hp, ?_⟩
    show llPath O m [i] [1] [] = _
    have : descend O m.rows none (List.take 1 [i]) = some r.addr := leads_descend (Leads.top h)
    rw [llPath_cons _ _ _ _ this, (TM.value_eq hd).2 ⟨r, hr, rfl, rfl⟩]
    rfl
  | @under path p i a h1 h2 ih =>
    obtain ⟨l, hl, e⟩ := ih
    obtain ⟨r, hr, rfl, hp⟩ := hO.nth _ _ _ _ h2
    refine ⟨l ++ [r.nid], .under hr hp hl, ?_⟩
    unfold emit at e ⊢
    rw [List.length_append, List.length_singleton, List.range'_1_concat, llPath_append, llPath_take, e]
    · dsimp only
      have : descend O m.rows none (List.take (1 + path.length) (path ++ [i])) = some r.addr := by
        rw [List.take_of_length_le (by simp [Nat.add_comm])]
        exact leads_descend (Leads.under h1 h2)
      rw [llPath_cons _ _ _ _ this, (TM.value_eq hd).2 ⟨r, hr, rfl, rfl⟩]
      rfl
    · intro j hj
      have := (List.mem_range'_1.1 hj).2
      omega

theorem saysWhere (hO : GtkSound O) (hd : (m.rows.map GRow.addr).Nodup) {a : Nat} {l : List Id} (hl : RowPath m.rows a l) : SaysWhere O m a := by
  refine ⟨l, hl, fun path hp => ?_⟩
  obtain ⟨l', hl', e⟩ := emit_path hO hd hp
  rw [e, rowPath_one hd hl hl']

/-- **C59** (partial). The signal for a row, sent at any time, carries exactly the path of the row in the view, however the rows
are sorted.

Missing: as for C58. -/
theorem C59_path_partial (hdiff : SetDiff diff) (hO : GtkSound O) (ha : Function.Injective alloc) {w : Widget V}
    (h : InUse diff O alloc w) {path : List Nat} {a : Nat} (hp : Leads O w.scr.tm.rows path a) :
    ∃ r ∈ w.scr.tm.rows, r.addr = a ∧ ∃ l, emit O w.scr.tm path = .ok l ∧ RowPath w.scr.tm.rows a l ∧ IsRow w.scr.app.ft l ∧ l.getLast? = some r.nid := by
  have hi := inUse_inv hdiff hO ha h
  obtain ⟨rows, P, ti, hrow⟩ := hi.s.isRow
  obtain ⟨l, hl, e⟩ := emit_path hO ti.addrs hp
  obtain ⟨⟨r, hr, rfl⟩, hP⟩ := ti.of_rowPath hl
  refine ⟨r, hr, rfl, l, e, hl, (hrow l).1 ((ti.img l).2 ⟨r, hr, hP⟩), ?_⟩
  have := ti.path r hr
  rw [hP] at this
  rw [← List.head?_reverse, this]; rfl

/-- C59: every row can be reached, so there is a signal for it. -/
theorem C59_reachable {order : List GRow → Option Nat → List Nat} (hO : GtkOrdered O order) {rs : List GRow} {a : Nat} {l : List Id}
    (h : RowPath rs a l) : ∃ path, Leads O rs path a ∧ path.length = l.length := by
  induction h with
  | @top r hr hp =>
    obtain ⟨i, hi, e⟩ := List.mem_iff_getElem.1 ((hO.mem rs none r.addr).2 ⟨r, hr, rfl, hp⟩)
    exact ⟨[i], .top (by rw [hO.nth, List.getElem?_eq_getElem hi, e]), rfl⟩
  | @under r p l hr hp _ ih =>
    obtain ⟨path, hpath, hlen⟩ := ih
    obtain ⟨i, hi, e⟩ := List.mem_iff_getElem.1 ((hO.mem rs (some p) r.addr).2 ⟨r, hr, rfl, hp⟩)
    exact ⟨path ++ [i], .under hpath (by rw [hO.nth, List.getElem?_eq_getElem hi, e]), by simp [hlen]⟩

/-! ### When there are signals -/

/-- **C59** (partial). When the user clicks on a row there is one signal if the row is closed or opened by it, and otherwise none.

Missing: as for C58. -/
theorem C59_click_partial (hdiff : SetDiff diff) (hO : GtkSound O) (ha : Function.Injective alloc) {w : Widget V}
    (h : InUse diff O alloc w) {r : GRow} (hr : r ∈ w.scr.tm.rows) (f : Fold) :
    ((r.addr ∈ (w.step diff O alloc (.click f r.addr)).opened ↔ r.addr ∈ w.opened) → w.clickReports f r.addr = []) ∧
    (¬ (r.addr ∈ (w.step diff O alloc (.click f r.addr)).opened ↔ r.addr ∈ w.opened) → w.clickReports f r.addr = [(f, r.addr)]) := by
  have hi := inUse_inv hdiff hO ha h
  obtain ⟨rows, P, ti, -⟩ := hi.s.isRow
  cases f with
  | collapse =>
    have hno : r.addr ∉ (w.step diff O alloc (.click .collapse r.addr)).opened := by
      show r.addr ∉ collapseRow w.scr.tm.rows w.opened r.addr
      unfold collapseRow
      simp [self_subtree]
    simp only [hno, false_iff, Classical.not_not]
    unfold clickReports reports
    exact ⟨fun h => by simp [h], fun h => by simp [h]⟩
  | expand =>
    show ((r.addr ∈ expandRow w.scr.tm.rows false w.opened r.addr ↔ _) → _) ∧ (¬ (r.addr ∈ expandRow w.scr.tm.rows false w.opened r.addr ↔ _) → _)
    rw [mem_expandRow ti.addrs hr]
    unfold clickReports reports
    have hc : (hasKids w.scr.tm.rows r.addr && inSight w.scr.tm.rows w.opened r.addr && !w.opened.contains r.addr) = true ↔
        (ChildRow w.scr.tm.rows r.addr ∧ UnderOpen w.opened r) ∧ r.addr ∉ w.opened := by
      rw [Bool.and_eq_true, Bool.and_eq_true, hasKids_iff, inSight_iff ti.addrs hr]
      simp [UnderOpen]
    dsimp only
    constructor
    · intro he
      rw [if_neg]
      rw [hc]
      exact fun hh => hh.2 (he.1 (Or.inr ⟨rfl, hh.1⟩))
    · intro he
      rw [if_pos]
      rw [hc]
      by_cases ho : r.addr ∈ w.opened
      · exact absurd ⟨fun _ => ho, Or.inl⟩ he
      · refine ⟨?_, ho⟩
        by_contra hn
        exact he ⟨fun x => x.elim id fun y => absurd y.2 hn, Or.inl⟩

/-- What is reported when several rows are folded one after the other. -/
def reportsAll (rs : List GRow) (f : Fold) : List Nat → List Nat → List (Fold × Nat)
  | [], _ => []
  | a :: as, opened => reports rs opened f a ++ reportsAll rs f as (method rs f opened a)

theorem pathReports_rows (hdiff : SetDiff diff) (hO : GtkSound O) (ha : Function.Injective alloc) (f : Fold) (x : Id) (ps : List (List Id)) : ∀ {w : Widget V},
    SInv diff alloc w.scr → (∀ l ∈ ps, IsRow w.scr.app.ft l ∧ l.getLast? = some x) →
    ∃ as : List Nat, List.Forall₂ (fun a l => RowPath w.scr.tm.rows a l) as ps ∧ pathReports O f x ps w = reportsAll w.scr.tm.rows f as w.opened := by
  induction ps with
  | nil => intro w h _; exact ⟨[], List.Forall₂.nil, rfl⟩
  | cons path ps ih =>
    intro w h hps
    obtain ⟨hrow, hlast⟩ := hps path List.mem_cons_self
    obtain ⟨rows, P, hi, hrows⟩ := h.isRow
    have hin : path ∈ rows := (hrows path).2 hrow
    obtain ⟨i1, i2, -, -⟩ := hi.lookup hO (hi.tail hin)
    obtain ⟨r, hr, hPr⟩ := (hi.img _).1 hin
    have hrp : RowPath w.scr.tm.rows r.addr path := by simpa using hi.rowPath _ r hr hPr
    have hit := (i1 r.addr).2 hrp
    have hx : r.nid = x := by
      rw [hi.path r hr] at hPr
      have := congrArg List.head? hPr
      rw [List.head?_reverse, hlast] at this
      simpa using this
    have hS : SInv diff alloc (w.scr.step diff O alloc (.look path)) := by
      refine h.step hdiff hO ha (.look path) ?_
      show path.dropLast = [] ∨ ∃ a, RowPath w.scr.tm.rows a path.dropLast
      rcases hi.tail hin with e | ⟨q, hq, e⟩
      · left
        rw [List.tail_reverse, List.reverse_eq_nil_iff] at e; exact e
      · right
        refine ⟨q.addr, ?_⟩
        have := hi.rowPath _ q hq e
        rwa [List.tail_reverse, List.reverse_reverse] at this
    have hval : (w.scr.tm.getIter O path).2.value r.addr = some x := by
      unfold TM.value
      rw [i2]
      have := value_row hi.addrs hr
      rw [hx] at this
      exact this
    obtain ⟨as, k7, k8⟩ := ih
      (w := { w with
        scr := w.scr.step diff O alloc (.look path)
        opened := method (w.scr.tm.getIter O path).2.rows f w.opened r.addr
        memory := w.memory ++ [path] }) hS (fun l hl => hps l (List.mem_cons_of_mem _ hl))
    have er : (w.scr.step diff O alloc (.look path)).tm.rows = w.scr.tm.rows := i2
    refine ⟨r.addr :: as, List.Forall₂.cons hrp (er ▸ k7), ?_⟩
    unfold pathReports
    rw [show w.scr.tm.getIter O path = ((w.scr.tm.getIter O path).1, (w.scr.tm.getIter O path).2) from rfl, hit]
    dsimp only
    rw [if_pos hval]
    unfold reportsAll
    rw [i2]
    congr 1
    have : pathReports O f x ps _ = _ := k8
    rw [er, i2] at this
    exact this

theorem mem_reports {rs : List GRow} (hd : (rs.map GRow.addr).Nodup) {r : GRow} (hr : r ∈ rs) {opened : List Nat} (f : Fold) (g : Fold) (b : Nat) :
    (g, b) ∈ reports rs opened f r.addr ↔ g = f ∧ b = r.addr ∧
      match f with
      | .collapse => b ∈ opened
      | .expand => b ∉ opened ∧ ChildRow rs b ∧ UnderOpen opened r := by
  unfold reports
  cases f with
  | collapse =>
    dsimp only
    split
    · next h =>
      rw [List.contains_iff_mem] at h
      simp only [List.mem_singleton, Prod.mk.injEq]
      exact ⟨fun ⟨e1, e2⟩ => ⟨e1, e2, e2 ▸ h⟩, fun ⟨e1, e2, _⟩ => ⟨e1, e2⟩⟩
    · next h =>
      rw [List.contains_iff_mem] at h
      exact ⟨fun h' => (by cases h'), fun ⟨_, e, h'⟩ => absurd (e ▸ h') h⟩
  | expand =>
    dsimp only
    have hc : (hasKids rs r.addr && inSight rs opened r.addr && !opened.contains r.addr) = true ↔
        (ChildRow rs r.addr ∧ UnderOpen opened r) ∧ r.addr ∉ opened := by
      rw [Bool.and_eq_true, Bool.and_eq_true, hasKids_iff, inSight_iff hd hr]
      simp [UnderOpen]
    split
    · next h =>
      rw [hc] at h
      simp only [List.mem_singleton, Prod.mk.injEq]
      exact ⟨fun ⟨e1, e2⟩ => ⟨e1, e2, by rw [e2]; exact ⟨h.2, h.1⟩⟩, fun ⟨e1, e2, _⟩ => ⟨e1, e2⟩⟩
    · next h =>
      rw [hc] at h
      refine ⟨fun h' => (by cases h'), ?_⟩
      rintro ⟨_, rfl, h'⟩
      exact absurd ⟨h'.2, h'.1⟩ h

theorem reports_small (rs : List GRow) (opened : List Nat) (f : Fold) (a : Nat) : reports rs opened f a = [] ∨ reports rs opened f a = [(f, a)] := by
  unfold reports
  cases f with
  | collapse => dsimp only; split <;> simp
  | expand => dsimp only; split <;> simp

theorem reportsAll_sublist (rs : List GRow) (f : Fold) (as : List Nat) : ∀ opened, (reportsAll rs f as opened).Sublist (as.map (f, ·)) := by
  induction as with
  | nil => intro opened; exact List.Sublist.slnil
  | cons a as ih =>
    intro opened
    unfold reportsAll
    rw [List.map_cons]
    rcases reports_small rs opened f a with e | e
    · rw [e]; exact (ih _).cons _
    · rw [e]; exact (ih _).cons_cons _

/-- Rows of which none is below another are folded: what is reported for one does not depend on the others. -/
theorem mem_reportsAll {rows : List (List Id)} {P : Nat → List Id} (hi : TInv m rows P) (f g : Fold) (as : List Nat) : ∀ {opened : List Nat}, as.Nodup →
    (∀ a ∈ as, ∃ r ∈ m.rows, r.addr = a ∧ ∀ q ∈ m.rows, q.addr ∈ as → P q.addr <:+ P a → q.addr = a) → ∀ b,
    ((g, b) ∈ reportsAll m.rows f as opened ↔ g = f ∧ b ∈ as ∧
      match f with
      | .collapse => b ∈ opened
      | .expand => b ∉ opened ∧ ChildRow m.rows b ∧ ∃ r ∈ m.rows, r.addr = b ∧ UnderOpen opened r) := by
  induction as with
  | nil => intro opened _ _ b; simp [reportsAll]
  | cons a as ih =>
    intro opened hnd has b
    obtain ⟨r, hr, rfl, hra⟩ := has a List.mem_cons_self
    rw [List.nodup_cons] at hnd
    unfold reportsAll
    rw [List.mem_append, mem_reports hi.addrs hr, ih hnd.2 fun c hc => ?_]
    · -- the state of `b` is the same after `r` has been folded
      have hsame : b ∈ as → (b ∈ method m.rows f opened r.addr ↔ b ∈ opened) ∧
          (f = .expand → ((∃ q ∈ m.rows, q.addr = b ∧ UnderOpen (method m.rows f opened r.addr) q) ↔ ∃ q ∈ m.rows, q.addr = b ∧ UnderOpen opened q)) := by
        intro hb
        obtain ⟨q, hq, rfl, hqa⟩ := has b (List.mem_cons_of_mem _ hb)
        have hne : q.addr ≠ r.addr := fun e => hnd.1 (e ▸ hb)
        refine ⟨?_, ?_⟩
        · cases f with
          | collapse =>
            show q.addr ∈ collapseRow m.rows opened r.addr ↔ _
            unfold collapseRow
            simp only [List.mem_filter, Bool.not_eq_true', ← Bool.not_eq_true, List.contains_iff_mem]
            rw [hi.mem_subtree hr hq]
            exact ⟨And.left, fun x => ⟨x, fun hs => hne (hqa r hr List.mem_cons_self hs).symm⟩⟩
          | expand =>
            show q.addr ∈ expandRow m.rows false opened r.addr ↔ _
            rw [mem_expandRow hi.addrs hr]
            exact ⟨fun x => x.elim id fun y => absurd y.1 hne, Or.inl⟩
        · rintro rfl
          refine exists_congr fun q' => and_congr_right fun hq' => and_congr_right fun e => ?_
          cases hi.same hq' hq e
          refine forall_congr' fun p => forall_congr' fun hp => ?_
          show p ∈ expandRow m.rows false opened r.addr ↔ _
          rw [mem_expandRow hi.addrs hr]
          refine ⟨?_, Or.inl⟩
          rintro (x | ⟨rfl, -⟩)
          · exact x
          · refine absurd (hqa r hr List.mem_cons_self ?_).symm hne
            rw [hi.path _ hq, hp]
            exact List.suffix_cons _ _
      constructor
      · rintro (⟨e1, rfl, h3⟩ | ⟨e1, h2, h3⟩)
        · refine ⟨e1, List.mem_cons_self, ?_⟩
          cases f with
          | collapse => exact h3
          | expand => exact ⟨h3.1, h3.2.1, r, hr, rfl, h3.2.2⟩
        · refine ⟨e1, List.mem_cons_of_mem _ h2, ?_⟩
          cases f with
          | collapse => exact (hsame h2).1.1 h3
          | expand => exact ⟨fun x => h3.1 ((hsame h2).1.2 x), h3.2.1, ((hsame h2).2 rfl).1 h3.2.2⟩
      · rintro ⟨e1, h2, h3⟩
        rcases List.mem_cons.1 h2 with rfl | h2
        · refine Or.inl ⟨e1, rfl, ?_⟩
          cases f with
          | collapse => exact h3
          | expand =>
            obtain ⟨q, hq, e, hu⟩ := h3.2.2
            cases hi.same hq hr e
            exact ⟨h3.1, h3.2.1, hu⟩
        · refine Or.inr ⟨e1, h2, ?_⟩
          cases f with
          | collapse => exact (hsame h2).1.2 h3
          | expand => exact ⟨fun x => h3.1 ((hsame h2).1.1 x), h3.2.1, ((hsame h2).2 rfl).2 h3.2.2⟩
    · obtain ⟨q, hq, e, hn⟩ := has c (List.mem_cons_of_mem _ hc)
      exact ⟨q, hq, e, fun q' hq' h1 h2 => hn q' hq' (List.mem_cons_of_mem _ h1) h2⟩

theorem row_once {ft : FT} (h : ViewOK ft) {l : List Id} (hl : IsRow ft l) : l.Nodup := by
  have h1 : List.IsChain (Relation.TransGen fun p c => c ∈ ft.view.kids p) (ft.root :: l) := hl.2.imp fun _ _ h => .single h
  rw [List.isChain_iff_pairwise] at h1
  refine (List.pairwise_cons.1 h1).2.imp fun {a b} h2 e => ?_
  subst e
  exact h.noCycle a h2

/-- **C59** (partial). `collapse_node` and `expand_node` for a displayed node send one signal for each of its rows that they close or
open, and no others.

Missing: as for C58. -/
theorem C59_node_partial (hdiff : SetDiff diff) (hO : GtkSound O) (ha : Function.Injective alloc) {w : Widget V}
    (h : InUse diff O alloc w) {x : Id} (hn : x ≠ .none) (he : x ≠ .empty) (hx : ∃ l, IsRow w.scr.app.ft l ∧ l.getLast? = some x) (f : Fold) :
    (w.foldReports O f x).Nodup ∧
    ∀ g b, (g, b) ∈ w.foldReports O f x ↔ g = f ∧ ∃ r ∈ w.scr.tm.rows, r.addr = b ∧ r.nid = x ∧
      ¬ (b ∈ (w.step diff O alloc (.fold f x)).opened ↔ b ∈ w.opened) := by
  have hi := inUse_inv hdiff hO ha h
  obtain ⟨-, -, -, hop⟩ := C58_node_partial hdiff hO ha h hn he hx f
  have hfal : x.falsy = false := by
    rw [← Bool.not_eq_true, falsy_iff]
    rintro (h | h)
    · exact hn h
    · exact he h
  obtain ⟨l0, hl0, hl0x⟩ := hx
  obtain ⟨hx1, hx2, -⟩ := hi.s.v.row_wanted hl0 hl0x
  obtain ⟨ps, e, hnd, hps⟩ := C31_paths w.scr.app.ft (hi.s.v.viewOK hdiff) x hx1 hx2
  obtain ⟨as, k7, k8⟩ := pathReports_rows hdiff hO ha f x ps hi.s fun l hl => (hps l).1 hl
  have hmem := fold_addresses hi.s hps k7
  obtain ⟨rows, P, ti, hrow⟩ := hi.s.isRow
  have hrep : w.foldReports O f x = reportsAll w.scr.tm.rows f as w.opened := by
    unfold foldReports
    rw [hfal, e]
    exact k8
  have hasnd : as.Nodup := by
    clear hrep k8 hmem
    clear hps e
    induction k7 with
    | nil => exact List.nodup_nil
    | @cons a l as ps h1 h2 ih =>
      rw [List.nodup_cons] at hnd ⊢
      refine ⟨fun ha => hnd.1 ?_, ih hnd.2⟩
      obtain ⟨l', hl', h3⟩ := forall₂_left h2 a ha
      rw [← rowPath_one ti.addrs h1 h3]; exact hl'
  have hapart : ∀ a ∈ as, ∃ r ∈ w.scr.tm.rows, r.addr = a ∧ ∀ q ∈ w.scr.tm.rows, q.addr ∈ as → P q.addr <:+ P a → q.addr = a := by
    intro a ha
    obtain ⟨r, hr, rfl, hrx⟩ := (hmem a).1 ha
    refine ⟨r, hr, rfl, fun q hq hqa hs => ?_⟩
    obtain ⟨q', hq', e', hqx⟩ := (hmem _).1 hqa
    have hd : (P r.addr).Nodup := by
      rw [← List.nodup_reverse]
      exact row_once (hi.s.v.viewOK hdiff) ((hrow _).1 ((ti.img _).2 ⟨r, hr, by simp⟩))
    have hsame := ti.same hq' hq e'
    subst hsame
    rw [ti.path r hr, List.nodup_cons] at hd
    rw [ti.path r hr, List.suffix_cons_iff] at hs
    rcases hs with hs | hs
    · rw [← ti.path r hr] at hs
      rw [ti.inj q' hq r hr hs]
    · refine absurd (hs.subset ?_) hd.1
      rw [ti.path q' hq, hqx, hrx]
      exact List.mem_cons_self
  refine ⟨?_, fun g b => ?_⟩
  · rw [hrep]
    exact (reportsAll_sublist _ f as _).nodup (hasnd.map fun _ _ e => (Prod.mk.inj e).2)
  · rw [hrep, mem_reportsAll ti f g as hasnd hapart]
    refine and_congr_right fun _ => ?_
    rw [hmem]
    constructor
    · rintro ⟨⟨r, hr, rfl, hrx⟩, h3⟩
      refine ⟨r, hr, rfl, hrx, ?_⟩
      obtain ⟨l, hl⟩ : ∃ l, RowPath w.scr.tm.rows r.addr l := ⟨_, ti.rowPath _ r hr rfl⟩
      rw [hop r hr l hl]
      cases f with
      | collapse =>
        refine fun hh => (hh.2 h3).2 ?_
        have := ti.path r hr
        rw [(ti.of_rowPath hl).2, hrx] at this
        exact List.mem_reverse.1 (this ▸ List.mem_cons_self)
      | expand =>
        obtain ⟨q, hq, e', hu⟩ := h3.2.2
        cases ti.same hq hr e'
        exact fun hh => h3.1 (hh.1 (Or.inr ⟨hrx, h3.2.1, hu⟩))
    · rintro ⟨r, hr, rfl, hrx, h3⟩
      refine ⟨⟨r, hr, rfl, hrx⟩, ?_⟩
      obtain ⟨l, hl⟩ : ∃ l, RowPath w.scr.tm.rows r.addr l := ⟨_, ti.rowPath _ r hr rfl⟩
      rw [hop r hr l hl] at h3
      cases f with
      | collapse =>
        dsimp only at h3 ⊢
        by_contra hno
        exact h3 ⟨And.left, fun y => absurd y hno⟩
      | expand =>
        dsimp only at h3 ⊢
        have ho : r.addr ∉ w.opened := fun y => h3 ⟨fun _ => y, Or.inl⟩
        by_contra hno
        refine h3 ⟨fun y => y.elim id fun z => absurd ⟨ho, z.2.1, r, hr, rfl, z.2.2⟩ hno, Or.inl⟩

/-- C59: for a node that is not displayed, or for no node, there are no signals. -/
theorem C59_node_hidden {w : Widget V} {x : Id} (hx : x = w.scr.app.ft.root ∨ w.scr.app.ft.view.has x = false) (f : Fold) :
    w.foldReports O f x = [] := by
  unfold foldReports
  rw [C31_paths_other w.scr.app.ft x hx]
  split
  · rfl
  · rfl

/-! ### While the application acts -/

theorem toggled_childless {rs : List GRow} {memory : List (List Id)} {opened : List Nat} {p : Nat} (hm : m.rows = rs) (h : hasKids rs p = false) :
    toggled memory m opened p = opened := by
  unfold toggled expandRow
  rw [hm, h]
  simp

theorem opened_above {rows : List (List Id)} {P : Nat → List Id} (hi : TInv m rows P) {opened : List Nat}
    (hup : ∀ r ∈ m.rows, r.addr ∈ opened → UnderOpen opened r) {q : GRow} (hq : q ∈ m.rows) (n : Nat) :
    ∀ r ∈ m.rows, (P r.addr).length = n → P q.addr <:+ P r.addr → r.addr ∈ opened → q.addr ∈ opened := by
  induction n with
  | zero =>
    intro r hr hn _ _
    rw [hi.path r hr] at hn
    cases hn
  | succ n ih =>
    intro r hr hn hs ho
    rw [hi.path r hr, List.suffix_cons_iff] at hs
    rcases hs with hs | hs
    · rw [← hi.path r hr] at hs
      rw [hi.inj q hq r hr hs]; exact ho
    · cases hp : r.parent with
      | none =>
        rw [hp] at hs
        have := hi.path q hq
        rw [List.suffix_nil.1 hs] at this
        cases this
      | some p =>
        rw [hp] at hs
        obtain ⟨b, hb, rfl⟩ := hi.live r hr p hp
        refine ih b hb ?_ hs (hup r hr ho _ hp)
        rw [hi.path r hr, hp] at hn
        exact Nat.succ.inj hn

theorem mem_toggleReports {rows : List (List Id)} {P : Nat → List Id} (hi : TInv m rows P) {memory : List (List Id)} {opened : List Nat}
    (hup : ∀ r ∈ m.rows, r.addr ∈ opened → UnderOpen opened r) {r : GRow} (hr : r ∈ m.rows) (b : Nat) :
    b ∈ toggleReports memory m opened r.addr ↔ b ∈ toggled memory m opened r.addr ∧ b ∉ opened := by
  unfold toggleReports
  unfold toggled
  dsimp only
  split
  · next hc =>
    rw [Bool.and_eq_true, Bool.not_eq_true', ← Bool.not_eq_true, List.contains_iff_mem] at hc
    unfold expandRow
    split
    · next hk =>
      rw [List.drop_left]
      simp only [if_true, List.mem_append]
      refine ⟨fun h => ⟨Or.inr h, fun ho => hc.1 ?_⟩, fun h => h.1.elim (fun x => absurd x h.2) id⟩
      rw [List.mem_filter, hasKids_iff] at h
      obtain ⟨h1, c, hcm, hp⟩ := h
      obtain ⟨q, hq, rfl⟩ := hi.live c hcm b hp
      exact opened_above hi hup hr _ q hq rfl ((hi.mem_subtree hr hq).1 h1) ho
    · simp
  · simp

/-- What GTK reports is what is opened. -/
theorem reported_one {memory : List (List Id)} {opened : List Nat} {rows : List (List Id)} {P : Nat → List Id} (h : TInv m rows P) (hg : GInv m.rows opened) {rows' : List (List Id)}
    {c : TM.Act} (hf : FreshNow m c)
    {m' : TM} {P' : Nat → List Id} (e : m.act O c = .ok m') (h' : TInv m' rows' P') (x : TM × Nat) :
    x ∈ hearReports O memory c m opened ↔ x.1 = m' ∧ x.2 ∈ hear O memory c m opened ∧ x.2 ∉ opened := by
  have es : (m.act O c).state = m' := by rw [e]; rfl
  have hno : ∀ {o : List Nat}, (∀ b ∈ o, b ∈ opened) → (x ∈ ([] : List (TM × Nat)) ↔ x.1 = m' ∧ x.2 ∈ o ∧ x.2 ∉ opened) := fun ho =>
    ⟨fun h => (by cases h), fun h => absurd (ho _ h.2.1) h.2.2⟩
  cases c with
  | lookup path => exact hno fun _ h => h
  | sig s a shown =>
    unfold hearReports hear
    rw [es]
    dsimp only
    cases hev : s.ev with
    | modified => exact hno fun _ h => h
    | added =>
      dsimp only
      cases hp : parentOf m'.rows a with
      | none => exact hno fun _ h => h
      | some p =>
        dsimp only
        split
        · obtain ⟨it, hrows⟩ : ∃ it, m'.rows = m.rows ++ [⟨a, it, s.nid⟩] := by
            refine ⟨(m.getIter O s.path.dropLast).1, ?_⟩
            rw [← es]
            show (match s.ev with
              | .added => m.addTask O s.nid s.path a
              | .modified => m.updateTask O s.path shown
              | .deleted => m.removeTask O s.nid s.path : Res TM).state.rows = _
            rw [hev]
            show (m.getIter O s.path.dropLast).2.rows ++ _ = _
            congr 1
            exact getIterUp_rows O _ m
          have hnew : (⟨a, it, s.nid⟩ : GRow) ∈ m'.rows := by rw [hrows]; simp
          rw [parentOf_eq (r := ⟨a, it, s.nid⟩) h'.addrs hnew] at hp
          obtain ⟨q, hq, rfl⟩ := h'.live _ hnew p hp
          have hup : ∀ r ∈ m'.rows, r.addr ∈ opened → UnderOpen opened r := by
            intro r hr ho
            rw [hrows, List.mem_append, List.mem_singleton] at hr
            rcases hr with hr | rfl
            · exact hg.up r hr ho
            · obtain ⟨r', hr', e'⟩ := hg.live _ ho
              exact absurd e' (hf hev r' hr')
          rw [List.mem_map]
          constructor
          · rintro ⟨b, hb, rfl⟩
            exact ⟨rfl, (mem_toggleReports h' hup hq b).1 hb⟩
          · rintro ⟨rfl, h2⟩
            exact ⟨x.2, (mem_toggleReports h' hup hq _).2 h2, rfl⟩
        · exact hno fun _ h => h
    | deleted =>
      dsimp only
      have hfil : ∀ b ∈ opened.filter (fun c => m'.rows.any (fun r => decide (r.addr = c))), b ∈ opened := fun b hb => (List.mem_filter.1 hb).1
      cases (m.getIter O s.path).1 with
      | none => exact hno fun _ h => h
      | some b =>
        dsimp only
        cases parentOf m.rows b with
        | none => exact hno hfil
        | some p =>
          dsimp only
          split
          · exact hno hfil
          · next hk =>
            unfold toggleReports
            rw [toggled_childless rfl (by simpa using hk), List.drop_length]
            exact hno fun b hb => hfil b (List.mem_filter.1 hb).1

/-- A series of signals: every row reported has just been opened, and all that are opened are reported. -/
theorem reported_all (hO : GtkSound O) {memory : List (List Id)} (cs : List TM.Act) :
    ∀ {m : TM} {rows rows' : List (List Id)} {P : Nat → List Id} {opened : List Nat},
    TInv m rows P → GInv m.rows opened →
    replay (signals cs) rows = some rows' → Throughout O FreshNow cs m →
    Throughout O NotCached cs m → Throughout O ParentThere cs m →
    (∀ x ∈ hearAllReports O memory cs m opened, ∃ r ∈ x.1.rows, r.addr = x.2 ∧ ChildRow x.1.rows x.2 ∧ r.nid ∉ remembered memory ∧ SaysWhere O x.1 x.2) ∧
    ∀ b ∈ Widget.hearAll O memory cs m opened, b ∈ opened ∨ ∃ m0, (m0, b) ∈ hearAllReports O memory cs m opened := by
  induction cs with
  | nil =>
    intro m rows rows' P opened _ _ _ _ _ _
    refine ⟨?_, fun b hb => Or.inl hb⟩
    intro x hx; cases hx
  | cons c cs ih =>
    intro m rows rows' P opened h hg hw hf hc hl
    rw [replay_signals_cons] at hw
    obtain ⟨rows1, hw1, hw2⟩ := Option.bind_eq_some_iff.1 hw
    obtain ⟨m1, P1, e1, i1, -, -, j3⟩ := tmAct_inv hO h hw1 hf.1 hc.1 hl.1
    have est : (m.act O c).state = m1 := by rw [e1]; rfl
    have hd := heard_one (memory := memory) hO h hg hw1 hf.1 e1 i1 j3
    have hg1 := hg.heard h.addrs hd
    obtain ⟨k1, k2⟩ := ih i1 hg1 hw2 (est ▸ hf.2) (est ▸ hc.2) (est ▸ hl.2)
    have hone := reported_one (memory := memory) h hg hf.1 e1 i1
    unfold Widget.hearAll hearAllReports
    rw [e1]
    dsimp only
    refine ⟨fun x hx => ?_, fun b hb => ?_⟩
    · rcases List.mem_append.1 hx with hx | hx
      · obtain ⟨hx1, hx2, hx3⟩ := (hone x).1 hx
        obtain ⟨r, hr, hra⟩ := hg1.live _ hx2
        rw [hx1]
        refine ⟨r, hr, hra, hg1.kids _ hx2, ?_, hra ▸ saysWhere hO i1.addrs (i1.rowPath _ r hr rfl)⟩
        cases hd with
        | same e1 e2 => rw [e2] at hx2; exact absurd hx2 hx3
        | added n en ha hfresh hleaf ho =>
          rcases (ho _).1 hx2 with y | ⟨q, hq, -, -, y, -, e'⟩
          · exact absurd y hx3
          · have hq' : q ∈ m1.rows := by rw [en]; exact List.mem_append_left _ hq
            cases i1.same hr hq' (hra.trans e')
            exact y
        | deleted d hd' hleaf hrows ho => exact absurd ((ho _).1 hx2).1 hx3
      · exact k1 x hx
    · rcases k2 b hb with y | ⟨m0, y⟩
      · by_cases hb0 : b ∈ opened
        · exact Or.inl hb0
        · exact Or.inr ⟨m1, List.mem_append_left _ ((hone (m1, b)).2 ⟨rfl, y, hb0⟩)⟩
      · exact Or.inr ⟨m0, List.mem_append_right _ y⟩

/-- **C59** (partial). While the application acts, a signal is sent only for a row that has just got its first child and whose node
is not remembered, with the path of that row as it is then; and every row that is opened is reported.

Missing: as for C58. -/
theorem C59_application_partial (hdiff : SetDiff diff) (hO : GtkSound O) (ha : Function.Injective alloc) {w : Widget V}
    (h : InUse diff O alloc w) (c : FAct V) (hf : ViewFair w.scr.app c) :
    (∀ x ∈ w.actReports diff O alloc c, ∃ r ∈ x.1.rows, r.addr = x.2 ∧ ChildRow x.1.rows x.2 ∧ ¬ Named w.memory r.nid ∧ SaysWhere O x.1 x.2) ∧
    ∀ b ∈ (w.step diff O alloc (.app c)).opened, b ∉ w.opened → ∃ m0, (m0, b) ∈ w.actReports diff O alloc c := by
  have hi := inUse_inv hdiff hO ha h
  obtain ⟨s1, e1, -, -, -⟩ := hi.s.act (O := O) hdiff hO ha c hf
  obtain ⟨new, hnew⟩ := act_appends c (by rintro rfl; exact hf) e1
  obtain ⟨rows, P, ti, hr⟩ := hi.s.rows
  obtain ⟨rows1, P1, hi1, r1⟩ := s1.rows
  have hrep : replay new rows = some rows1 := by rw [← hnew, replay_append, hr] at r1; exact r1
  have hdrop : (w.scr.act diff O alloc c).app.ft.view.out.drop w.scr.app.ft.view.out.length = new := by rw [← hnew, List.drop_left]
  have hnd : (usedTill alloc w.scr.clock ++ (List.range' w.scr.clock new.length).map alloc).Nodup := by
    rw [← usedTill_add]
    exact List.Nodup.map ha List.nodup_range
  have hsub := addresses_heard alloc new w.scr.clock
  have hw' : replay (signals (Screen.heard alloc w.scr.clock new)) rows = some rows1 := by rw [signals_heard]; exact hrep
  obtain ⟨f1, f2⟩ := no_reuse hO (Screen.heard alloc w.scr.clock new) ti hw' (hnd.sublist (hsub.append_left _)) hi.s.used hi.s.cached
    (parentThere_heard O alloc new w.scr.clock w.scr.tm)
  obtain ⟨k1, k2⟩ := reported_all (memory := w.memory) hO _ ti hi.g hw' f1 f2 (parentThere_heard O alloc new w.scr.clock w.scr.tm)
  have hre : w.actReports diff O alloc c = hearAllReports O w.memory (Screen.heard alloc w.scr.clock new) w.scr.tm w.opened := by
    unfold actReports
    dsimp only
    rw [hdrop]
  have hop : (w.step diff O alloc (.app c)).opened = Widget.hearAll O w.memory (Screen.heard alloc w.scr.clock new) w.scr.tm w.opened := by
    show (w.act diff O alloc c).opened = _
    unfold Widget.act
    dsimp only
    rw [hdrop]
  rw [hre, hop]
  refine ⟨fun x hx => ?_, fun b hb hn => (k2 b hb).resolve_left hn⟩
  obtain ⟨r, y1, y2, y3, y4, y5⟩ := k1 x hx
  exact ⟨r, y1, y2, y3, (by rw [named_iff]; exact y4), y5⟩

/-! ### Examples -/

/-- `C59_path_partial` and `C59_reachable`: 3 is the only child of 2, which is the first child of 1; 5 is the second child of 1. -/
example : Leads byInsertion handWidget.scr.tm.rows [0, 0, 0] 3 ∧ emit byInsertion handWidget.scr.tm [0, 0, 0] = .ok [.str 1, .str 2, .str 3] ∧
    Leads byInsertion handWidget.scr.tm.rows [0, 1] 10 ∧ emit byInsertion handWidget.scr.tm [0, 1] = .ok [.str 1, .str 5] :=
  ⟨.under (p := 1) (.under (p := 0) (.top (i := 0) (by decide)) (i := 0) (by decide)) (i := 0) (by decide), by decide,
    .under (.top (a := 0) (i := 0) (by decide)) (i := 1) (by decide), by decide⟩

/-- `C59_reachable`: with the order in which rows are inserted. -/
example : ∃ path, Leads byInsertion handWidget.scr.tm.rows path 3 ∧ path.length = 3 :=
  C59_reachable byInsertion_ordered (l := [.str 1, .str 2, .str 3])
    (.under (r := ⟨3, some 1, .str 3⟩) (p := 1) (l := [.str 1, .str 2]) (by decide) rfl
      (.under (r := ⟨1, some 0, .str 2⟩) (p := 0) (l := [.str 1]) (by decide) rfl (.top (r := ⟨0, none, .str 1⟩) (by decide) rfl)))

/-- `C59_click_partial`: 1 and 2 are open, 3 is closed, 4 has no children. -/
example : handWidget.clickReports .collapse 0 = [(.collapse, 0)] ∧ handWidget.clickReports .expand 0 = [] ∧
    handWidget.clickReports .expand 3 = [(.expand, 3)] ∧ handWidget.clickReports .collapse 3 = [] ∧ handWidget.clickReports .expand 6 = [] :=
  ⟨by decide, by decide, by decide, by decide, by decide⟩

/-- `C59_node_partial`: the same with `collapse_node` and `expand_node`. -/
example : handWidget.foldReports byInsertion .collapse (.str 2) = [(.collapse, 1)] ∧ handWidget.foldReports byInsertion .expand (.str 2) = [] ∧
    handWidget.foldReports byInsertion .expand (.str 3) = [(.expand, 3)] ∧ handWidget.foldReports byInsertion .expand (.str 9) = [] :=
  ⟨by decide, by decide, by decide, by decide⟩

/-- `C59_application_partial`: 5 gets its first child. -/
example : ViewFair handWidget.scr.app (.edit (.addNode (.new (.str 7) .none) (.str 5))) ∧
    (handWidget.actReports someDiff byInsertion id (.edit (.addNode (.new (.str 7) .none) (.str 5)))).map Prod.snd = [10] :=
  ⟨add_fair (Made.new _ _) (by decide) (by decide) rfl, by decide⟩

/-- Not every row that is closed is reported: 2 is closed together with 1, and 1 is closed when it loses its children, without a
signal for either. -/
theorem C59_refuted_closed :
    (1 ∈ handWidget.opened ∧ 1 ∉ (handWidget.step someDiff byInsertion id (.click .collapse 0)).opened ∧
      (.collapse, 1) ∉ handWidget.clickReports .collapse 0) ∧
    ((⟨1, some 0, .str 2⟩ : GRow) ∈ (handWidget.step someDiff byInsertion id (.app (.edit (.delNode (.str 3) false)))).scr.tm.rows ∧
      1 ∉ (handWidget.step someDiff byInsertion id (.app (.edit (.delNode (.str 3) false)))).opened ∧
      handWidget.actReports someDiff byInsertion id (.edit (.delNode (.str 3) false)) = []) :=
  ⟨⟨by decide, by decide, by decide⟩, by decide, by decide, List.eq_nil_of_map_eq_nil (f := Prod.snd) (by decide)⟩

end Larch
