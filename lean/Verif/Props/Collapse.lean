import Verif.Proofs.Collapse
import Verif.Props.Live

/-!
# C53: collapsed nodes stay collapsed, and all others are open
-/

namespace Larch

open Spec TM Widget

variable {V : Type} {diff : List Id → List Id → List Id} {O : GtkOrder} {alloc : Nat → Nat}

/-! ### Rows below a row -/

theorem TInv.subtree_suffix {m : TM} {rows : List (List Id)} {P : Nat → List Id} (h : TInv m rows P) {r : GRow} (n : Nat) :
    ∀ q ∈ m.rows, q.addr ∈ subtree m.rows r.addr n → P r.addr <:+ P q.addr := by
  induction n with
  | zero => intro q _ hq'; simp only [subtree, List.mem_singleton] at hq'; rw [hq']
  | succ n ih =>
    intro q hq hq'
    unfold subtree at hq'
    dsimp only at hq'
    rcases List.mem_append.1 hq' with hq' | hq'
    · exact ih q hq hq'
    · obtain ⟨c, hc, e⟩ := List.mem_map.1 hq'
      rw [List.mem_filter] at hc
      obtain ⟨hc, hp⟩ := hc
      have : c = q := h.same hc hq e
      subst this
      cases hpar : c.parent with
      | none => rw [hpar] at hp; simp at hp
      | some p =>
        rw [hpar] at hp
        obtain ⟨b, hb, rfl⟩ := h.live c hc p hpar
        have := ih b hb (by simpa using hp)
        rw [h.path c hc, hpar]
        exact this.trans (List.suffix_cons _ _)

theorem TInv.suffix_subtree {m : TM} {rows : List (List Id)} {P : Nat → List Id} (h : TInv m rows P) {r : GRow} (hr : r ∈ m.rows) (n : Nat) :
    ∀ q ∈ m.rows, P r.addr <:+ P q.addr → (P q.addr).length ≤ (P r.addr).length + n → q.addr ∈ subtree m.rows r.addr n := by
  induction n with
  | zero =>
    intro q hq hs hn
    have := hs.eq_of_length_le hn
    rw [h.inj r hr q hq this]
    exact self_subtree _ _ _
  | succ n ih =>
    intro q hq hs hn
    unfold subtree
    by_cases he : P r.addr = P q.addr
    · rw [h.inj r hr q hq he]; exact List.mem_append_left _ (self_subtree _ _ _)
    · refine List.mem_append_right _ (List.mem_map.2 ⟨q, List.mem_filter.2 ⟨hq, ?_⟩, rfl⟩)
      rw [h.path q hq] at hs he hn
      have hs' : P r.addr <:+ above P q.parent := by
        rcases List.suffix_cons_iff.1 hs with e | e
        · exact absurd e he
        · exact e
      cases hpar : q.parent with
      | none =>
        rw [hpar] at hs'
        have := List.suffix_nil.1 hs'
        rw [h.path r hr] at this
        cases this
      | some p =>
        obtain ⟨b, hb, rfl⟩ := h.live q hq p hpar
        rw [hpar] at hs' hn
        simp only [above, List.length_cons] at hs' hn
        have := ih b hb hs' (by omega)
        simpa using this

/-- A row is not deeper than there are rows. -/
theorem TInv.depth {m : TM} {rows : List (List Id)} {P : Nat → List Id} (h : TInv m rows P) {r : GRow} (hr : r ∈ m.rows) :
    (P r.addr).length ≤ m.rows.length := by
  have key : ∀ n, ∀ r ∈ m.rows, (P r.addr).length = n → ∀ k, 1 ≤ k → k ≤ n → ∃ q ∈ m.rows, (P q.addr).length = k := by
    intro n
    induction n with
    | zero => intro r _ _ k h1 h2; omega
    | succ n ih =>
      intro r hr hn k h1 h2
      by_cases hk : k = n + 1
      · exact ⟨r, hr, hn.trans hk.symm⟩
      · rw [h.path r hr] at hn
        cases hpar : r.parent with
        | none => rw [hpar] at hn; simp only [above, List.length_cons, List.length_nil] at hn; omega
        | some p =>
          obtain ⟨b, hb, rfl⟩ := h.live r hr p hpar
          rw [hpar] at hn
          exact ih b hb (by simpa [above] using hn) k h1 (by omega)
  have hsub : (List.range' 1 (P r.addr).length) ⊆ m.rows.map (fun q => (P q.addr).length) := by
    intro k hk
    rw [List.mem_range'_1] at hk
    obtain ⟨q, hq, e⟩ := key _ r hr rfl k hk.1 (by omega)
    exact List.mem_map.2 ⟨q, hq, e⟩
  have := (List.Nodup.subperm List.nodup_range' hsub).length_le
  simpa using this

/-- The rows below a row, by their paths. -/
theorem TInv.mem_subtree {m : TM} {rows : List (List Id)} {P : Nat → List Id} (h : TInv m rows P) {r q : GRow} (hr : r ∈ m.rows) (hq : q ∈ m.rows) :
    q.addr ∈ subtree m.rows r.addr m.rows.length ↔ P r.addr <:+ P q.addr :=
  ⟨h.subtree_suffix _ q hq, fun hs => h.suffix_subtree hr _ q hq hs (by have := h.depth hq; omega)⟩

/-- A node on the path of a row has a row there. -/
theorem TInv.on_path {m : TM} {rows : List (List Id)} {P : Nat → List Id} (h : TInv m rows P) {x : Id} : ∀ n, ∀ r ∈ m.rows, (P r.addr).length = n →
    x ∈ P r.addr → ∃ q ∈ m.rows, q.nid = x ∧ P q.addr <:+ P r.addr := by
  intro n
  induction n with
  | zero => intro r _ hn hx; rw [List.length_eq_zero_iff.1 hn] at hx; cases hx
  | succ n ih =>
    intro r hr hn hx
    have hp := h.path r hr
    rw [hp] at hx hn
    rcases List.mem_cons.1 hx with e | hx
    · exact ⟨r, hr, e.symm, List.suffix_refl _⟩
    · cases hpar : r.parent with
      | none => rw [hpar] at hx; cases hx
      | some p =>
        obtain ⟨b, hb, rfl⟩ := h.live r hr p hpar
        rw [hpar] at hx hn hp
        obtain ⟨q, hq, e, hs⟩ := ih b hb (by simpa [above] using hn) hx
        exact ⟨q, hq, e, by rw [hp]; exact hs.trans (List.suffix_cons _ _)⟩

theorem TInv.same_path {m m' : TM} {rows rows' : List (List Id)} {P P' : Nat → List Id} (h : TInv m rows P) (h' : TInv m' rows' P')
    (e : m'.rows = m.rows) {r : GRow} (hr : r ∈ m.rows) : P r.addr = P' r.addr := by
  have := (h'.of_rowPath (e.symm ▸ h.rowPath _ r hr rfl)).2
  rw [this, List.reverse_reverse]

theorem EInv.congr {m m' : TM} {P P' : Nat → List Id} {opened : List Nat} {mem : List Id} (h : EInv m P opened mem) (e : m'.rows = m.rows)
    (hP : ∀ r ∈ m.rows, P r.addr = P' r.addr) : EInv m' P' opened mem :=
  ⟨fun r hr => by rw [e] at hr ⊢; rw [← hP r hr]; exact h.row r hr, fun a ha => by rw [e]; exact h.live a ha⟩

/-! ### `collapse_node` -/

/-- What the loop over the paths does if every path is a row of the node. -/
theorem foldPaths_rows (hdiff : SetDiff diff) (hO : GtkSound O) (ha : Function.Injective alloc) (f : Fold) (x : Id) (ps : List (List Id)) : ∀ {w : Widget V},
    SInv diff alloc w.scr → (∀ l ∈ ps, IsRow w.scr.app.ft l ∧ l.getLast? = some x) →
    ∃ (w' : Widget V) (as : List Nat), foldPaths O f x ps w = (w', !ps.isEmpty) ∧ SInv diff alloc w'.scr ∧ w'.scr.app = w.scr.app ∧
      w'.scr.tm.rows = w.scr.tm.rows ∧ w'.memory = w.memory ++ ps ∧ w'.pending = w.pending ∧ w'.idle = w.idle ∧
      List.Forall₂ (fun a l => RowPath w.scr.tm.rows a l) as ps ∧ w'.opened = as.foldl (method w.scr.tm.rows f) w.opened := by
  induction ps with
  | nil => intro w h _; exact ⟨w, [], rfl, h, rfl, rfl, by simp, rfl, rfl, List.Forall₂.nil, rfl⟩
  | cons path ps ih =>
    intro w h hps
    obtain ⟨hrow, hlast⟩ := hps path List.mem_cons_self
    obtain ⟨rows, P, hi, hrows⟩ := h.isRow
    have hin : path ∈ rows := (hrows path).2 hrow
    obtain ⟨i1, i2, -, -⟩ := hi.lookup hO (hi.tail hin)
    obtain ⟨r, hr, hPr⟩ := (hi.img _).1 hin
    have hrp : RowPath w.scr.tm.rows r.addr path := by simpa using hi.rowPath _ r hr hPr
    have hit := (i1 r.addr).2 hrp
    have hx : r.nid = x := by
      rw [hi.path r hr] at hPr
      have := congrArg List.head? hPr
      rw [List.head?_reverse, hlast] at this
      simpa using this
    -- the screen after the lookup
    have hS : SInv diff alloc (w.scr.step diff O alloc (.look path)) := by
      refine h.step hdiff hO ha (.look path) ?_
      show path.dropLast = [] ∨ ∃ a, RowPath w.scr.tm.rows a path.dropLast
      rcases hi.tail hin with e | ⟨q, hq, e⟩
      · left
        rw [List.tail_reverse, List.reverse_eq_nil_iff] at e; exact e
      · right
        refine ⟨q.addr, ?_⟩
        have := hi.rowPath _ q hq e
        rwa [List.tail_reverse, List.reverse_reverse] at this
    have hval : (w.scr.tm.getIter O path).2.value r.addr = some x := by
      unfold TM.value
      rw [i2]
      have := value_row hi.addrs hr
      rw [hx] at this
      exact this
    obtain ⟨w', as, e, k1, k2, k3, k4, k5, k6, k7, k8⟩ := ih
      (w := { w with
        scr := w.scr.step diff O alloc (.look path)
        opened := method (w.scr.tm.getIter O path).2.rows f w.opened r.addr
        memory := w.memory ++ [path] }) hS (fun l hl => hps l (List.mem_cons_of_mem _ hl))
    have k3' : w'.scr.tm.rows = w.scr.tm.rows := k3.trans i2
    refine ⟨w', r.addr :: as, ?_, k1, k2, k3', by rw [k4]; simp, k5, k6, List.Forall₂.cons hrp ?_, ?_⟩
    · unfold foldPaths
      rw [show w.scr.tm.getIter O path = ((w.scr.tm.getIter O path).1, (w.scr.tm.getIter O path).2) from rfl, hit]
      dsimp only
      rw [if_pos hval]
      simp only [List.isEmpty_cons, Bool.not_false, Prod.mk.injEq, and_true]
      exact congrArg Prod.fst e
    · have : (w.scr.step diff O alloc (.look path)).tm.rows = w.scr.tm.rows := i2
      rw [← this]; exact k7
    · rw [k8]
      have : (w.scr.step diff O alloc (.look path)).tm.rows = w.scr.tm.rows := i2
      simp only [this, List.foldl_cons, i2]

theorem mem_collapseAll (rs : List GRow) (as : List Nat) : ∀ (opened : List Nat) (b : Nat),
    b ∈ as.foldl (method rs .collapse) opened ↔ b ∈ opened ∧ ∀ a ∈ as, b ∉ subtree rs a rs.length := by
  induction as with
  | nil => intro opened b; simp
  | cons a as ih =>
    intro opened b
    rw [List.foldl_cons, ih]
    simp only [method, collapseRow, List.mem_filter, List.mem_cons, forall_eq_or_imp]
    simp [and_assoc]

theorem forall₂_left {α β : Type} {R : α → β → Prop} {as : List α} {bs : List β} (h : List.Forall₂ R as bs) : ∀ a ∈ as, ∃ b ∈ bs, R a b := by
  induction h with
  | nil => intro a ha; cases ha
  | cons h _ ih =>
    intro a ha
    rcases List.mem_cons.1 ha with rfl | ha
    · exact ⟨_, List.mem_cons_self, h⟩
    · obtain ⟨b, hb, h'⟩ := ih a ha
      exact ⟨b, List.mem_cons_of_mem _ hb, h'⟩

theorem forall₂_right {α β : Type} {R : α → β → Prop} {as : List α} {bs : List β} (h : List.Forall₂ R as bs) : ∀ b ∈ bs, ∃ a ∈ as, R a b := by
  induction h with
  | nil => intro a ha; cases ha
  | cons h _ ih =>
    intro a ha
    rcases List.mem_cons.1 ha with rfl | ha
    · exact ⟨_, List.mem_cons_self, h⟩
    · obtain ⟨b, hb, h'⟩ := ih a ha
      exact ⟨b, List.mem_cons_of_mem _ hb, h'⟩

theorem falsy_iff (x : Id) : x.falsy = true ↔ x = .none ∨ x = .empty := by
  cases x <;> simp [Id.falsy]

/-- Calling `collapse_node` or `expand_node` for a displayed node. -/
theorem fold_shown (hdiff : SetDiff diff) (hO : GtkSound O) (ha : Function.Injective alloc) (f : Fold) {x : Id} {w : Widget V}
    (h : SInv diff alloc w.scr) (hf : x.falsy = false) (hx : w.scr.app.ft.view.has x = true) (hr : x ≠ w.scr.app.ft.root) :
    ∃ ps as, (∀ l, l ∈ ps ↔ IsRow w.scr.app.ft l ∧ l.getLast? = some x) ∧ ps ≠ [] ∧
      SInv diff alloc (w.fold O f x).scr ∧ (w.fold O f x).scr.app = w.scr.app ∧
      (w.fold O f x).scr.tm.rows = w.scr.tm.rows ∧ (w.fold O f x).memory = w.memory ++ ps ∧ (w.fold O f x).pending = w.pending ∧
      (w.fold O f x).idle = w.idle ∧ List.Forall₂ (fun a l => RowPath w.scr.tm.rows a l) as ps ∧
      (w.fold O f x).opened = as.foldl (method w.scr.tm.rows f) w.opened := by
  obtain ⟨ps, e, -, hps⟩ := C31_paths w.scr.app.ft (h.v.viewOK hdiff) x hx hr
  obtain ⟨w', as, e', k⟩ := foldPaths_rows hdiff hO ha f x ps h (fun l hl => (hps l).1 hl)
  obtain ⟨l, hl⟩ := h.v.has_row hx hr
  have hne : ps ≠ [] := List.ne_nil_of_mem ((hps l).2 hl)
  have hw : w.fold O f x = w' := by
    unfold Widget.fold
    rw [hf, e]
    simp only [Bool.false_eq_true, if_false]
    rw [e']
    simp [hne]
  rw [hw]
  exact ⟨ps, as, hps, hne, k⟩

/-- Calling it for a node that is not displayed, or for the virtual root. -/
theorem fold_hidden (f : Fold) {x : Id} {w : Widget V} (hf : x.falsy = false)
    (hx : x = w.scr.app.ft.root ∨ w.scr.app.ft.view.has x = false) :
    w.fold O f x = if w.scr.app.ft.view.has x then { w with idle := w.idle ++ [(x, f)] } else { w with pending := w.pending ++ [(x, f)] } := by
  unfold Widget.fold
  rw [hf, C31_paths_other w.scr.app.ft x hx]
  simp only [Bool.false_eq_true, if_false]
  rfl

/-! ### The invariant of the widget -/

structure WInv (diff : List Id → List Id → List Id) (alloc : Nat → Nat) (cs : List (WAct V)) (w : Widget V) : Prop where
  s : SInv diff alloc w.scr
  e : ∀ rows P, TInv w.scr.tm rows P → EInv w.scr.tm P w.opened (remembered w.memory)
  mem : ∀ x ∈ remembered w.memory, Asked cs x
  asked : ∀ x, Asked cs x → x ∈ remembered w.memory ∨ (x, Fold.collapse) ∈ w.pending ∨ (x, Fold.collapse) ∈ w.idle
  pend : ∀ p ∈ w.pending, w.scr.app.ft.view.has p.1 = false ∧ p.2 = .collapse ∧ Asked cs p.1
  idl : ∀ p ∈ w.idle, p.2 = .collapse ∧ Asked cs p.1

theorem asked_more {cs : List (WAct V)} {x : Id} (h : Asked cs x) (c : WAct V) : Asked (cs ++ [c]) x :=
  ⟨h.1, h.2.1, List.mem_append_left _ h.2.2⟩

theorem asked_before {cs : List (WAct V)} {x : Id} {c : WAct V} (h : Asked (cs ++ [c]) x) (hc : c ≠ .fold .collapse x) : Asked cs x := by
  refine ⟨h.1, h.2.1, ?_⟩
  rcases List.mem_append.1 h.2.2 with h' | h'
  · exact h'
  · exact absurd (List.mem_singleton.1 h').symm hc

/-- `collapse_node`, called now or by the main loop. -/
theorem WInv.fold (hdiff : SetDiff diff) (hO : GtkSound O) (ha : Function.Injective alloc) {cs cs' : List (WAct V)} {x : Id} {w : Widget V}
    (s : SInv diff alloc w.scr) (e : ∀ rows P, TInv w.scr.tm rows P → EInv w.scr.tm P w.opened (remembered w.memory))
    (mem : ∀ y ∈ remembered w.memory, Asked cs y) (hcs : ∀ y, Asked cs y → Asked cs' y)
    (asked : ∀ y, Asked cs' y → y = x ∨ y ∈ remembered w.memory ∨ (y, Fold.collapse) ∈ w.pending ∨ (y, Fold.collapse) ∈ w.idle)
    (pend : ∀ p ∈ w.pending, w.scr.app.ft.view.has p.1 = false ∧ p.2 = .collapse ∧ Asked cs p.1)
    (idl : ∀ p ∈ w.idle, p.2 = .collapse ∧ Asked cs p.1) (hx : x.falsy = false → Asked cs' x) :
    WInv diff alloc cs' (w.fold O .collapse x) := by
  cases hf : x.falsy with
  | true =>
    have hw : w.fold O .collapse x = w := by unfold Widget.fold; rw [hf]; rfl
    rw [hw]
    refine ⟨s, e, fun y hy => hcs y (mem y hy), fun y hy => ?_, fun p hp => ⟨(pend p hp).1, (pend p hp).2.1, hcs _ (pend p hp).2.2⟩,
      fun p hp => ⟨(idl p hp).1, hcs _ (idl p hp).2⟩⟩
    rcases asked y hy with rfl | h
    · rcases (falsy_iff y).1 hf with h | h
      · exact absurd h hy.1
      · exact absurd h hy.2.1
    · exact h
  | false =>
    have hax := hx hf
    by_cases hsh : w.scr.app.ft.view.has x = true ∧ x ≠ w.scr.app.ft.root
    · obtain ⟨ps, as, hps, hne, k1, k2, k3, k4, k5, k6, k7, k8⟩ := fold_shown hdiff hO ha .collapse s hf hsh.1 hsh.2
      have hrem : ∀ y, y ∈ remembered (w.fold O .collapse x).memory ↔ y ∈ remembered w.memory ∨ y = x := by
        intro y
        rw [k4]
        simp only [remembered, List.filterMap_append, List.mem_append]
        refine or_congr_right ?_
        rw [List.mem_filterMap]
        constructor
        · rintro ⟨l, hl, e⟩
          rw [((hps l).1 hl).2] at e
          exact (Option.some.inj e).symm
        · rintro rfl
          obtain ⟨l, hl⟩ := List.exists_mem_of_ne_nil _ hne
          exact ⟨l, hl, ((hps l).1 hl).2⟩
      refine ⟨k1, fun rows P hi => ?_, fun y hy => ?_, fun y hy => ?_, fun p hp => ?_, fun p hp => ?_⟩
      · -- the rows
        obtain ⟨rows0, P0, hi0, hrow0⟩ := s.isRow
        have he := e rows0 P0 hi0
        have hmem : ∀ b, b ∈ as ↔ ∃ q ∈ w.scr.tm.rows, q.addr = b ∧ q.nid = x := by
          intro b
          constructor
          · intro hb
            obtain ⟨l, hl, hbl⟩ := forall₂_left k7 b hb
            obtain ⟨⟨q, hq, rfl⟩, hPq⟩ := hi0.of_rowPath hbl
            refine ⟨q, hq, rfl, ?_⟩
            rw [hi0.path q hq] at hPq
            have := congrArg List.head? hPq
            rw [List.head?_reverse, ((hps l).1 hl).2] at this
            simpa using this
          · rintro ⟨q, hq, rfl, hqx⟩
            have hq' : (P0 q.addr).reverse ∈ ps := by
              refine (hps _).2 ⟨(hrow0 _).1 ((hi0.img _).2 ⟨q, hq, by simp⟩), ?_⟩
              rw [List.getLast?_reverse, hi0.path q hq, hqx]; rfl
            obtain ⟨b, hb, hbl⟩ := forall₂_right k7 _ hq'
            obtain ⟨⟨q', hq2, rfl⟩, hPq⟩ := hi0.of_rowPath hbl
            rw [List.reverse_reverse] at hPq
            rw [← hi0.inj q' hq2 q hq hPq]; exact hb
        refine EInv.congr (m := w.scr.tm) (P := P0) ⟨fun r hr => ?_, fun b hb => ?_⟩ k3 fun r hr => hi0.same_path hi k3 hr
        · rw [k8, mem_collapseAll, he.row r hr]
          constructor
          · rintro ⟨⟨x1, x2⟩, x3⟩
            refine ⟨x1, fun y hy hm => ?_⟩
            rcases (hrem y).1 hm with hm | rfl
            · exact x2 y hy hm
            · obtain ⟨q, hq, hqx, hs⟩ := hi0.on_path _ r hr rfl hy
              exact x3 q.addr ((hmem _).2 ⟨q, hq, rfl, hqx⟩) ((hi0.mem_subtree hq hr).2 hs)
          · rintro ⟨x1, x2⟩
            refine ⟨⟨x1, fun y hy hm => x2 y hy ((hrem y).2 (Or.inl hm))⟩, fun b hb hbs => ?_⟩
            obtain ⟨q, hq, rfl, hqx⟩ := (hmem b).1 hb
            have hs := (hi0.mem_subtree hq hr).1 hbs
            refine x2 x (hs.subset ?_) ((hrem x).2 (Or.inr rfl))
            rw [hi0.path q hq, hqx]
            exact List.mem_cons_self
        · rw [k8, mem_collapseAll] at hb
          exact he.live b hb.1
      · rcases (hrem y).1 hy with h | rfl
        · exact hcs y (mem y h)
        · exact hax
      · rw [hrem, k5, k6]
        rcases asked y hy with rfl | h | h
        · exact Or.inl (Or.inr rfl)
        · exact Or.inl (Or.inl h)
        · exact Or.inr h
      · rw [k5] at hp
        rw [k2]
        exact ⟨(pend p hp).1, (pend p hp).2.1, hcs _ (pend p hp).2.2⟩
      · rw [k6] at hp
        exact ⟨(idl p hp).1, hcs _ (idl p hp).2⟩
    · have hx' : x = w.scr.app.ft.root ∨ w.scr.app.ft.view.has x = false := by
        by_cases h1 : x = w.scr.app.ft.root
        · exact Or.inl h1
        · exact Or.inr (Bool.not_eq_true _ ▸ fun h2 => hsh ⟨h2, h1⟩)
      rw [fold_hidden .collapse hf hx']
      split
      · refine ⟨s, e, fun y hy => hcs y (mem y hy), fun y hy => ?_, fun p hp => ⟨(pend p hp).1, (pend p hp).2.1, hcs _ (pend p hp).2.2⟩,
          fun p hp => ?_⟩
        · show _ ∨ _ ∨ (y, Fold.collapse) ∈ w.idle ++ [(x, Fold.collapse)]
          rw [List.mem_append]
          rcases asked y hy with rfl | h | h | h
          · exact Or.inr (Or.inr (Or.inr List.mem_cons_self))
          · exact Or.inl h
          · exact Or.inr (Or.inl h)
          · exact Or.inr (Or.inr (Or.inl h))
        · rcases List.mem_append.1 hp with hp | hp
          · exact ⟨(idl p hp).1, hcs _ (idl p hp).2⟩
          · rw [List.mem_singleton] at hp; subst hp; exact ⟨rfl, hax⟩
      · next hno =>
        refine ⟨s, e, fun y hy => hcs y (mem y hy), fun y hy => ?_, fun p hp => ?_, fun p hp => ⟨(idl p hp).1, hcs _ (idl p hp).2⟩⟩
        · show _ ∨ (y, Fold.collapse) ∈ w.pending ++ [(x, Fold.collapse)] ∨ _
          rw [List.mem_append]
          rcases asked y hy with rfl | h | h | h
          · exact Or.inr (Or.inl (Or.inr List.mem_cons_self))
          · exact Or.inl h
          · exact Or.inr (Or.inl (Or.inl h))
          · exact Or.inr (Or.inr h)
        · rcases List.mem_append.1 hp with hp | hp
          · exact ⟨(pend p hp).1, (pend p hp).2.1, hcs _ (pend p hp).2.2⟩
          · rw [List.mem_singleton] at hp; subst hp; exact ⟨Bool.not_eq_true _ ▸ hno, rfl, hax⟩

theorem replay_node (sigs : List Sig) : ∀ {rows rows' : List (List Id)}, replay sigs rows = some rows' → ∀ s ∈ sigs, s.path.getLast? = some s.nid := by
  induction sigs with
  | nil => intro rows rows' _ s hs; cases hs
  | cons s sigs ih =>
    intro rows rows' h s' hs'
    obtain ⟨rows1, h1, h2⟩ := Option.bind_eq_some_iff.1 h
    rcases List.mem_cons.1 hs' with rfl | hs'
    · unfold applySig at h1
      split at h1
      · next hl => exact hl
      · cases h1
    · exact ih h2 s' hs'

/-- The application acts. -/
theorem WInv.act (hdiff : SetDiff diff) (hO : GtkSound O) (ha : Function.Injective alloc) {cs : List (WAct V)} {w : Widget V} (h : WInv diff alloc cs w)
    (c : FAct V) (hf : ViewFair w.scr.app c) : WInv diff alloc cs (w.act diff O alloc c) := by
  have hS := (h.s.act (O := O) hdiff hO ha c hf)
  obtain ⟨s1, e1, -, -, -⟩ := hS
  obtain ⟨new, hnew⟩ := act_appends c (by rintro rfl; exact hf) e1
  obtain ⟨rows, P, hi, hr⟩ := h.s.rows
  obtain ⟨rows1, P1, hi1, r1⟩ := s1.rows
  have hrep : replay new rows = some rows1 := by rw [← hnew, replay_append, hr] at r1; exact r1
  have hdrop : (w.scr.act diff O alloc c).app.ft.view.out.drop w.scr.app.ft.view.out.length = new := by rw [← hnew, List.drop_left]
  -- the rows
  have hnd : (usedTill alloc w.scr.clock ++ (List.range' w.scr.clock new.length).map alloc).Nodup := by
    rw [← usedTill_add]
    exact List.Nodup.map ha List.nodup_range
  have hsub := addresses_heard alloc new w.scr.clock
  have hw' : replay (signals (Screen.heard alloc w.scr.clock new)) rows = some rows1 := by rw [signals_heard]; exact hrep
  obtain ⟨f1, f2⟩ := no_reuse hO (Screen.heard alloc w.scr.clock new) hi hw' (hnd.sublist (hsub.append_left _)) h.s.used h.s.cached
    (parentThere_heard O alloc new w.scr.clock w.scr.tm)
  obtain ⟨m', P', em, hi', he'⟩ := EInv.hearAll (memory := w.memory) hO _ hi (h.e rows P hi) hw' f1 f2 (parentThere_heard O alloc new w.scr.clock w.scr.tm)
  have htm : (w.scr.act diff O alloc c).tm = m' := by
    show (TM.run O (Screen.heard alloc w.scr.clock ((w.scr.act diff O alloc c).app.ft.view.out.drop w.scr.app.ft.view.out.length)) w.scr.tm).state = m'
    rw [hdrop, em]; rfl
  have hannounced : ∀ x, w.scr.app.ft.view.has x = false → (w.scr.act diff O alloc c).app.ft.view.has x = true →
      new.any (fun s => decide (s.ev = .added) && decide (s.nid = x)) = true := by
    intro x hx hx'
    have hroot := act_root e1
    have hne : x ≠ (w.scr.act diff O alloc c).app.ft.root := by
      rintro rfl
      rw [hroot, (h.s.v.viewOK hdiff).root] at hx
      cases hx
    obtain ⟨l, hl, hlx⟩ := s1.v.has_row hx' hne
    have hl1 : l ∈ rows1 := by
      obtain ⟨rows', q1, -, q3⟩ := s1.v.observerAgrees
      rw [r1] at q1
      cases q1
      exact (q3 l).2 hl
    rcases replay_mem new hrep l hl1 with h0 | ⟨s, hs, hev, hpath⟩
    · exfalso
      obtain ⟨rows', q1, -, q3⟩ := h.s.v.observerAgrees
      rw [hr] at q1
      cases q1
      have := (h.s.v.row_wanted ((q3 l).1 h0) hlx).1
      rw [hx] at this; cases this
    · refine List.any_eq_true.2 ⟨s, hs, ?_⟩
      have hn := replay_node new hrep s hs
      rw [hpath, hlx] at hn
      simp [hev, (Option.some.inj hn).symm]
  have hact : w.act diff O alloc c = { w with
      scr := w.scr.act diff O alloc c
      opened := Widget.hearAll O w.memory (Screen.heard alloc w.scr.clock new) w.scr.tm w.opened
      pending := w.pending.filter (fun p => !new.any (fun s => decide (s.ev = .added) && decide (s.nid = p.1)))
      idle := w.idle ++ w.pending.filter (fun p => new.any (fun s => decide (s.ev = .added) && decide (s.nid = p.1))) } := by
    unfold Widget.act
    dsimp only
    rw [hdrop]
  rw [hact]
  refine ⟨s1, fun rows2 P2 hi2 => ?_, h.mem, fun x hx => ?_, fun p hp => ?_, fun p hp => ?_⟩
  · show EInv (w.scr.act diff O alloc c).tm P2 _ _
    exact he'.congr (by rw [htm]) fun r hr => hi'.same_path hi2 (by show (w.scr.act diff O alloc c).tm.rows = _; rw [htm]) hr
  · dsimp only
    rcases h.asked x hx with h1 | h1 | h1
    · exact Or.inl h1
    · by_cases hb : new.any (fun s => decide (s.ev = .added) && decide (s.nid = x)) = true
      · exact Or.inr (Or.inr (List.mem_append_right _ (List.mem_filter.2 ⟨h1, hb⟩)))
      · exact Or.inr (Or.inl (List.mem_filter.2 ⟨h1, by simpa using hb⟩))
    · exact Or.inr (Or.inr (List.mem_append_left _ h1))
  · obtain ⟨hp1, hp2⟩ := List.mem_filter.1 hp
    refine ⟨?_, (h.pend p hp1).2⟩
    show (w.scr.act diff O alloc c).app.ft.view.has p.1 = false
    by_contra hc
    rw [Bool.not_eq_false] at hc
    have := hannounced p.1 (h.pend p hp1).1 hc
    rw [this] at hp2
    cases hp2
  · rcases List.mem_append.1 hp with hp | hp
    · exact h.idl p hp
    · exact (h.pend p (List.mem_filter.1 hp).1).2

theorem WInv.more {cs : List (WAct V)} {w : Widget V} (h : WInv diff alloc cs w) {c : WAct V} (hc : ∀ x, c ≠ .fold .collapse x) :
    WInv diff alloc (cs ++ [c]) w :=
  ⟨h.s, h.e, fun x hx => asked_more (h.mem x hx) c, fun x hx => h.asked x (asked_before hx (hc x)), fun p hp => ⟨(h.pend p hp).1, (h.pend p hp).2.1, asked_more (h.pend p hp).2.2 c⟩,
    fun p hp => ⟨(h.idl p hp).1, asked_more (h.idl p hp).2 c⟩⟩

/-- The user drops rows. -/
theorem WInv.drop (hdiff : SetDiff diff) (hO : GtkSound O) (ha : Function.Injective alloc) {cs : List (WAct V)} (dest : Id) (l : List Nat) :
    ∀ {w : Widget V}, WInv diff alloc cs w → FewerApplied w.scr.app → WInv diff alloc cs (w.dropRows diff O alloc dest l) := by
  induction l with
  | nil => intro w h _; exact h
  | cons a l ih =>
    intro w h hfew
    unfold Widget.dropRows
    split
    · exact ih h hfew
    · exact ih (h.act hdiff hO ha _ (moveNode_fair hfew _ _)) (FewerApplied.act_edit hfew _)

theorem WInv.step (hdiff : SetDiff diff) (hO : GtkSound O) (ha : Function.Injective alloc) {cs : List (WAct V)} {w : Widget V} (h : WInv diff alloc cs w)
    (c : WAct V) (hf : match c with
      | .app c => ViewFair w.scr.app c
      | .look path => ParentThere w.scr.tm (.lookup path)
      | .fold f _ => f = .collapse
      | .idle => True
      | .click _ _ => False
      | .drop _ _ => FewerApplied w.scr.app) : WInv diff alloc (cs ++ [c]) (w.step diff O alloc c) := by
  cases c with
  | app c => exact (h.act hdiff hO ha c hf).more fun x => by rintro ⟨⟩
  | look path =>
    refine WInv.more (w := { w with scr := w.scr.step diff O alloc (.look path) }) (cs := cs)
      ⟨h.s.step hdiff hO ha (.look path) hf, fun rows P hi => ?_, h.mem, h.asked, h.pend, h.idl⟩ fun x => by rintro ⟨⟩
    obtain ⟨rows0, P0, hi0, -⟩ := h.s.rows
    have er : (w.scr.step diff O alloc (.look path)).tm.rows = w.scr.tm.rows := getIterUp_rows O _ _
    exact (h.e rows0 P0 hi0).congr er fun r hr => hi0.same_path hi er hr
  | fold f x =>
    subst hf
    refine WInv.fold hdiff hO ha h.s h.e h.mem (fun y hy => asked_more hy _) (fun y hy => ?_) h.pend h.idl fun hx => ⟨?_, ?_, by simp⟩
    · by_cases e : y = x
      · exact Or.inl e
      · exact Or.inr (h.asked y (asked_before hy (by rintro ⟨⟩; exact e rfl)))
    · rintro rfl; cases hx
    · rintro rfl; cases hx
  | idle =>
    unfold Widget.step
    dsimp only
    cases hid : w.idle with
    | nil => exact h.more fun x => by rintro ⟨⟩
    | cons p l =>
      obtain ⟨x, f⟩ := p
      dsimp only
      obtain ⟨hfc, hax⟩ := h.idl (x, f) (by rw [hid]; exact List.mem_cons_self)
      dsimp only at hfc hax
      subst hfc
      refine WInv.fold (w := { w with idle := l }) hdiff hO ha h.s h.e h.mem (fun y hy => asked_more hy _) (fun y hy => ?_) h.pend
        (fun p hp => h.idl p (by rw [hid]; exact List.mem_cons_of_mem _ hp)) fun _ => asked_more hax _
      rcases h.asked y (asked_before hy (by rintro ⟨⟩)) with h1 | h1 | h1
      · exact Or.inr (Or.inl h1)
      · exact Or.inr (Or.inr (Or.inl h1))
      · rw [hid] at h1
        rcases List.mem_cons.1 h1 with h1 | h1
        · exact Or.inl (congrArg Prod.fst h1)
        · exact Or.inr (Or.inr (Or.inr h1))
  | click f a => exact hf.elim
  | drop selected at_ => exact (WInv.drop hdiff hO ha _ _ h hf).more fun x => by rintro ⟨⟩

theorem WInv.run (hdiff : SetDiff diff) (hO : GtkSound O) (ha : Function.Injective alloc) (cs : List (WAct V)) : ∀ {cs0 : List (WAct V)} {w : Widget V},
    WInv diff alloc cs0 w → WidgetFair diff O alloc cs w → WInv diff alloc (cs0 ++ cs) (w.run diff O alloc cs) := by
  induction cs with
  | nil => intro cs0 w h _; rw [List.append_nil]; exact h
  | cons c cs ih =>
    intro cs0 w h hf
    have := ih (h.step hdiff hO ha c hf.1) hf.2
    rwa [List.append_assoc] at this

theorem WInv.start (hdiff : SetDiff diff) (hO : GtkSound O) (ha : Function.Injective alloc) {w : Widget V} (h : WidgetStart diff O alloc w) :
    WInv diff alloc [] w := by
  obtain ⟨ops, bcs, root, d, ft, h1, h3, e, hflat, rfl⟩ := h
  obtain ⟨ft', e', hr⟩ := (ViewStart.mk h1 h3).run (bcs := bcs) hdiff d
  rw [e] at e'
  cases e'
  obtain ⟨a, ea, hv⟩ := hr [] trivial
  cases ea
  have s := SInv.start hO ha hv
  refine ⟨s, fun rows P hi => ⟨fun r hr => ?_, fun a ha => (by cases ha)⟩, fun x hx => (by cases hx), fun x hx => (by cases hx.2.2),
    fun p hp => (by cases hp), fun p hp => (by cases hp)⟩
  refine ⟨fun h => (by cases h), fun h => ?_⟩
  exfalso
  obtain ⟨⟨q, hq, hp⟩, -⟩ := h
  obtain ⟨rows0, P0, hi0, hrow⟩ := s.isRow
  have := hflat (P0 q.addr).reverse ((hrow _).1 ((hi0.img _).2 ⟨q, hq, by simp⟩))
  rw [hi0.path q hq, hp] at this
  simp only [above, hi0.path r hr] at this
  simp at this

/-! ### What is remembered stays remembered -/

theorem foldPaths_memory (f : Fold) (x : Id) (mem : List (List Id)) (ps : List (List Id)) : ∀ w : Widget V, mem <+: w.memory →
    mem <+: (foldPaths O f x ps w).1.memory := by
  induction ps with
  | nil => intro w h; exact h
  | cons path ps ih =>
    intro w h
    unfold foldPaths
    dsimp only
    split
    · exact ih _ h
    · split
      · exact ih _ (h.trans (List.prefix_append _ _))
      · exact ih _ h

theorem fold_memory (f : Fold) (x : Id) (w : Widget V) : w.memory <+: (w.fold O f x).memory := by
  unfold Widget.fold
  split
  · exact List.prefix_refl _
  · split
    · exact List.prefix_refl _
    · next ps e =>
      have := foldPaths_memory (O := O) f x w.memory ps w (List.prefix_refl _)
      revert this
      generalize foldPaths O f x ps w = q
      intro this
      dsimp only
      split
      · exact this
      · split <;> exact this

theorem dropRows_memory (dest : Id) (l : List Nat) : ∀ w : Widget V, (w.dropRows diff O alloc dest l).memory = w.memory := by
  induction l with
  | nil => intro w; rfl
  | cons a l ih =>
    intro w
    unfold Widget.dropRows
    split
    · exact ih w
    · exact ih _

theorem step_memory (c : WAct V) (w : Widget V) : w.memory <+: (w.step diff O alloc c).memory := by
  cases c with
  | app c => exact List.prefix_refl _
  | look path => exact List.prefix_refl _
  | fold f x => exact fold_memory f x w
  | idle =>
    unfold Widget.step
    dsimp only
    split
    · exact List.prefix_refl _
    · next x f l _ => exact fold_memory f x { w with idle := l }
  | click f a => exact List.prefix_refl _
  | drop selected at_ => rw [show (w.step diff O alloc (.drop selected at_)).memory = w.memory from dropRows_memory _ _ w]

theorem run_memory (cs : List (WAct V)) : ∀ w : Widget V, w.memory <+: (w.run diff O alloc cs).memory := by
  induction cs with
  | nil => intro w; exact List.prefix_refl _
  | cons c cs ih => intro w; exact (step_memory c w).trans (ih _)

theorem run_split (cs1 cs2 : List (WAct V)) : ∀ w : Widget V, w.run diff O alloc (cs1 ++ cs2) = (w.run diff O alloc cs1).run diff O alloc cs2 := by
  induction cs1 with
  | nil => intro w; rfl
  | cons c cs ih => intro w; exact ih _

theorem widgetFair_split (cs1 cs2 : List (WAct V)) : ∀ w : Widget V, WidgetFair diff O alloc (cs1 ++ cs2) w →
    WidgetFair diff O alloc cs1 w ∧ WidgetFair diff O alloc cs2 (w.run diff O alloc cs1) := by
  induction cs1 with
  | nil => intro w h; exact ⟨trivial, h⟩
  | cons c cs ih => intro w h; exact ⟨⟨h.1, (ih _ h.2).1⟩, (ih _ h.2).2⟩

/-! ### C53 -/

/-- **C53** (partial). For every fair history: the rows are those of the view; and when the main loop has nothing left to do, a
row is open exactly if it has children and `collapse_node` was called neither for its node nor for a node above it. It does not
matter how often rows were removed and came back, nor whether the node was displayed when it was called.

Missing: widgets made for a view that shows rows below other rows already (`C53_refuted_start`); `expand_node`
(`C53_refuted_expand`); rows that the user opens or closes by hand; collapsing a node that is not displayed and then appears
below two displayed parents (`C52_refuted_two_parents`); GTK using the memory of removed rows again (C36). -/
theorem C53_rows_partial (hdiff : SetDiff diff) (hO : GtkSound O) (ha : Function.Injective alloc) {w : Widget V}
    (h : WidgetStart diff O alloc w) (cs : List (WAct V)) (hf : WidgetFair diff O alloc cs w) :
    ScreenRight (w.run diff O alloc cs).scr ∧ ((w.run diff O alloc cs).idle = [] →
      ∀ r ∈ (w.run diff O alloc cs).scr.tm.rows, ∀ l, RowPath (w.run diff O alloc cs).scr.tm.rows r.addr l →
        (r.addr ∈ (w.run diff O alloc cs).opened ↔ ChildRow (w.run diff O alloc cs).scr.tm.rows r.addr ∧ ∀ x ∈ l, ¬ Asked cs x)) := by
  have hi := (WInv.start hdiff hO ha h).run hdiff hO ha cs hf
  rw [List.nil_append] at hi
  refine ⟨hi.s.right, fun hid r hr l hl => ?_⟩
  obtain ⟨rows, P, hti, hrow⟩ := hi.s.isRow
  rw [(hi.e rows P hti).row r hr, (hti.of_rowPath hl).2]
  refine and_congr_right fun _ => ⟨fun hx x hxl hask => ?_, fun hx x hxl hm => hx x (List.mem_reverse.1 hxl) (hi.mem x hm)⟩
  have hxl' : x ∈ P r.addr := by rw [(hti.of_rowPath hl).2]; exact List.mem_reverse.2 hxl
  rcases hi.asked x hask with h1 | h1 | h1
  · exact hx x (List.mem_reverse.2 hxl) h1
  · obtain ⟨q, hq, hqx, -⟩ := hti.on_path _ r hr rfl hxl'
    have h2 : IsRow (w.run diff O alloc cs).scr.app.ft (P q.addr).reverse := (hrow _).1 ((hti.img _).2 ⟨q, hq, by simp⟩)
    have h3 := (hi.s.v.row_wanted (x := x) h2 (by rw [List.getLast?_reverse, hti.path q hq, hqx]; rfl)).1
    rw [(hi.pend _ h1).1] at h3
    cases h3
  · rw [hid] at h1; cases h1

/-- **C53** (partial), also while the main loop still has something to do. Rows with children are open if `collapse_node` was
called neither for their node nor for a node above. And from the moment on when it is called for a displayed node, no row of that
node and no row below is open.

Missing: as for `C53_rows_partial`. -/
theorem C53_always_partial (hdiff : SetDiff diff) (hO : GtkSound O) (ha : Function.Injective alloc) {w : Widget V}
    (h : WidgetStart diff O alloc w) (cs : List (WAct V)) (hf : WidgetFair diff O alloc cs w) {r : GRow}
    (hr : r ∈ (w.run diff O alloc cs).scr.tm.rows) {l : List Id} (hl : RowPath (w.run diff O alloc cs).scr.tm.rows r.addr l) :
    (ChildRow (w.run diff O alloc cs).scr.tm.rows r.addr → (∀ x ∈ l, ¬ Asked cs x) → r.addr ∈ (w.run diff O alloc cs).opened) ∧
    ∀ cs1 x cs2, cs = cs1 ++ .fold .collapse x :: cs2 → x ≠ .none → x ≠ .empty →
      (∃ l', IsRow (w.run diff O alloc cs1).scr.app.ft l' ∧ l'.getLast? = some x) → x ∈ l → r.addr ∉ (w.run diff O alloc cs).opened := by
  have hi := (WInv.start hdiff hO ha h).run hdiff hO ha cs hf
  rw [List.nil_append] at hi
  obtain ⟨rows, P, hti, hrow⟩ := hi.s.isRow
  have hE := (hi.e rows P hti).row r hr
  rw [(hti.of_rowPath hl).2] at hE
  refine ⟨fun hc hx => hE.2 ⟨hc, fun x hxl hm => hx x (List.mem_reverse.1 hxl) (hi.mem x hm)⟩, ?_⟩
  rintro cs1 x cs2 rfl hn he ⟨l', hl', hlx⟩ hxl hop
  refine (hE.1 hop).2 x (List.mem_reverse.2 hxl) ?_
  obtain ⟨hf1, -⟩ := widgetFair_split cs1 _ w hf
  have hi1 := (WInv.start hdiff hO ha h).run hdiff hO ha cs1 hf1
  obtain ⟨hx1, hx2, -⟩ := hi1.s.v.row_wanted hl' hlx
  have hfal : x.falsy = false := by
    rw [← Bool.not_eq_true, falsy_iff]
    rintro (h | h)
    · exact hn h
    · exact he h
  obtain ⟨ps, as, hps, hne, -, -, -, k4, -⟩ := fold_shown hdiff hO ha .collapse hi1.s hfal hx1 hx2
  rw [run_split]
  have hpre : ((w.run diff O alloc cs1).fold O .collapse x).memory <+: ((w.run diff O alloc cs1).run diff O alloc (.fold .collapse x :: cs2)).memory :=
    run_memory cs2 _
  refine List.mem_filterMap.2 ⟨l', hpre.subset ?_, hlx⟩
  rw [k4]
  exact List.mem_append_right _ ((hps l').2 ⟨hl', hlx⟩)

theorem expandRow_mono {rs : List GRow} {opened : List Nat} (a : Nat) : ∀ b ∈ opened, b ∈ expandRow rs false opened a := by
  intro b hb
  unfold expandRow
  split
  · exact List.mem_append_left _ hb
  · exact hb

theorem expandAll_mono (rs : List GRow) (as : List Nat) : ∀ (opened : List Nat), ∀ b ∈ opened, b ∈ as.foldl (method rs .expand) opened := by
  induction as with
  | nil => intro opened b hb; exact hb
  | cons a as ih => intro opened b hb; exact ih _ b (expandRow_mono a b hb)

/-- C53: `expand_node` opens every row of a displayed node that has children and can be seen, and closes nothing. -/
theorem C53_expand_partial (hdiff : SetDiff diff) (hO : GtkSound O) (ha : Function.Injective alloc) {w : Widget V}
    (h : WidgetStart diff O alloc w) (cs : List (WAct V)) (hf : WidgetFair diff O alloc cs w) {x : Id} (hn : x ≠ .none) (he : x ≠ .empty) :
    ((w.run diff O alloc cs).step diff O alloc (.fold .expand x)).scr.tm.rows = (w.run diff O alloc cs).scr.tm.rows ∧
    (∀ a ∈ (w.run diff O alloc cs).opened, a ∈ ((w.run diff O alloc cs).step diff O alloc (.fold .expand x)).opened) ∧
    ∀ r ∈ (w.run diff O alloc cs).scr.tm.rows, r.nid = x → ChildRow (w.run diff O alloc cs).scr.tm.rows r.addr →
      (∀ p, r.parent = some p → p ∈ (w.run diff O alloc cs).opened) →
      r.addr ∈ ((w.run diff O alloc cs).step diff O alloc (.fold .expand x)).opened := by
  have hi := (WInv.start hdiff hO ha h).run hdiff hO ha cs hf
  have hfal : x.falsy = false := by
    rw [← Bool.not_eq_true, falsy_iff]
    rintro (h | h)
    · exact hn h
    · exact he h
  show ((w.run diff O alloc cs).fold O .expand x).scr.tm.rows = _ ∧ (∀ a ∈ _, a ∈ ((w.run diff O alloc cs).fold O .expand x).opened) ∧
    ∀ r ∈ _, _ → _ → _ → _ ∈ ((w.run diff O alloc cs).fold O .expand x).opened
  generalize w.run diff O alloc cs = w1 at hi ⊢
  by_cases hsh : w1.scr.app.ft.view.has x = true ∧ x ≠ w1.scr.app.ft.root
  · obtain ⟨ps, as, hps, -, -, -, k3, -, -, -, k7, k8⟩ := fold_shown hdiff hO ha .expand hi.s hfal hsh.1 hsh.2
    rw [k3, k8]
    refine ⟨rfl, expandAll_mono _ _ _, fun r hr hx hc hp => ?_⟩
    obtain ⟨rows, P, hti, hrow⟩ := hi.s.isRow
    have hr' : r.addr ∈ as := by
      have hq : (P r.addr).reverse ∈ ps := by
        refine (hps _).2 ⟨(hrow _).1 ((hti.img _).2 ⟨r, hr, by simp⟩), ?_⟩
        rw [List.getLast?_reverse, hti.path r hr, hx]; rfl
      obtain ⟨b, hb, hbl⟩ := forall₂_right k7 _ hq
      obtain ⟨⟨q', hq2, rfl⟩, hPq⟩ := hti.of_rowPath hbl
      rw [List.reverse_reverse] at hPq
      rw [← hti.inj q' hq2 r hr hPq]; exact hb
    obtain ⟨as1, as2, rfl⟩ := List.append_of_mem hr'
    rw [List.foldl_append, List.foldl_cons]
    refine expandAll_mono _ _ _ _ ?_
    show r.addr ∈ expandRow w1.scr.tm.rows false (as1.foldl (method w1.scr.tm.rows .expand) w1.opened) r.addr
    unfold expandRow
    rw [if_pos]
    · exact List.mem_append_right _ (by simp)
    · rw [Bool.and_eq_true, hasKids_iff, inSight_iff hti.addrs hr]
      exact ⟨hc, fun p hpar => expandAll_mono _ _ _ _ (hp p hpar)⟩
  · have hx' : x = w1.scr.app.ft.root ∨ w1.scr.app.ft.view.has x = false := by
      by_cases h1 : x = w1.scr.app.ft.root
      · exact Or.inl h1
      · exact Or.inr (Bool.not_eq_true _ ▸ fun h2 => hsh ⟨h2, h1⟩)
    have hno : ∀ r ∈ w1.scr.tm.rows, r.nid ≠ x := by
      rintro r hr rfl
      obtain ⟨rows, P, hti, hrow⟩ := hi.s.isRow
      have h2 : IsRow w1.scr.app.ft (P r.addr).reverse := (hrow _).1 ((hti.img _).2 ⟨r, hr, by simp⟩)
      have h3 := hi.s.v.row_wanted (x := r.nid) h2 (by rw [List.getLast?_reverse, hti.path r hr]; rfl)
      exact hsh ⟨h3.1, h3.2.1⟩
    rw [fold_hidden .expand hfal hx']
    split
    · exact ⟨rfl, fun a h => h, fun r hr hx => absurd hx (hno r hr)⟩
    · exact ⟨rfl, fun a h => h, fun r hr hx => absurd hx (hno r hr)⟩

/-! ### A widget at work -/

/-- An empty tree, and the widget of its view. -/
def bareApp : FApp Nat :=
  ⟨St.init, fun (_ : Id) => 0, Bank.run {} [], (FT.new someDiff (Bank.run {} []) St.init.t (fun (_ : Id) => 0) (.str 100) true).state⟩

def bareWidget : Widget Nat := Widget.start byInsertion id bareApp

theorem bareWidget_start : WidgetStart someDiff byInsertion id bareWidget := by
  refine ⟨[], [], .str 100, fun _ => 0, bareApp.ft, trivial, by decide, rfl, fun l hl => ?_, rfl⟩
  obtain ⟨hne, hc⟩ := hl
  cases l with
  | nil => exact absurd rfl hne
  | cons x l =>
    have h1 := (List.isChain_cons_cons.1 hc).1
    have h2 : bareApp.ft.view.kids (.str 100) = [] := by decide
    have h3 : bareApp.ft.root = .str 100 := rfl
    rw [h3, h2] at h1
    cases h1

/-- 2 is to be collapsed before it exists. Then 1, 2 below 1, 3 below 2 and 4 below 3 are added; 6 below 5, and 5 is collapsed; 7 is
added below 5, and below 1. -/
def foldHistory : List (WAct Nat) :=
  [.fold .collapse (.str 2), .app (.edit (.addNode (.new (.str 1) .none) .none)), .app (.edit (.addNode (.new (.str 2) .none) (.str 1))),
   .app (.edit (.addNode (.new (.str 3) .none) (.str 2))), .app (.edit (.addNode (.new (.str 4) .none) (.str 3))), .idle,
   .app (.edit (.addNode (.new (.str 5) .none) .none)), .app (.edit (.addNode (.new (.str 6) .none) (.str 5))), .fold .collapse (.str 5),
   .app (.edit (.delNode (.str 6) false)), .app (.edit (.addNode (.new (.str 7) .none) (.str 5))), .app (.edit (.addParent (.str 7) (.str 1)))]

theorem unfiltered {a : FApp V} (h : a.ft.applied = []) : OwnApplied a := by
  intro n hn; rw [h] at hn; cases hn

/-- An edit that adds a node is fair, if no filter is applied. -/
theorem add_fair {w : Widget Nat} {nd : Node} {p : Id} (hm : Made nd) (h : nd.id.falsy = false ∧ nd.id ≠ rootId ∧
    (insertNode w.scr.app.s.t nd).allEnabled = true ∧ (addNode w.scr.app.s nd p).isOk = true) (hr : nd.id ≠ w.scr.app.ft.root)
    (hn : w.scr.app.ft.applied = []) : ViewFair w.scr.app (.edit (.addNode nd p)) :=
  ⟨⟨careful_add hm h, (by rintro _ _ ⟨⟩; exact hr), (by rintro _ ⟨⟩)⟩, .inl (unfiltered hn)⟩

theorem foldHistory_fair : WidgetFair someDiff byInsertion id foldHistory bareWidget := by
  refine ⟨rfl, add_fair (Made.new _ _) (by decide) (by decide) rfl, add_fair (Made.new _ _) (by decide) (by decide) rfl,
    add_fair (Made.new _ _) (by decide) (by decide) rfl, add_fair (Made.new _ _) (by decide) (by decide) rfl, trivial,
    add_fair (Made.new _ _) (by decide) (by decide) rfl, add_fair (Made.new _ _) (by decide) (by decide) rfl, rfl,
    ⟨⟨(by show List.length _ ≤ 1; decide), (by rintro _ _ ⟨⟩), (by rintro _ ⟨⟩)⟩, .inl (unfiltered rfl)⟩, add_fair (Made.new _ _) (by decide) (by decide) rfl,
    ⟨⟨trivial, (by rintro _ _ ⟨⟩), (by rintro _ ⟨⟩)⟩, .inl (unfiltered rfl)⟩, trivial⟩

/-- `C53_rows_partial` and `C53_always_partial` for this history: 1 is open, 2 and 5 are not, and neither is 3, which is below 2; 5 got a
new child after its last one had gone. Before the main loop came to run, 2 and 3 were open too. -/
example : WidgetStart someDiff byInsertion id bareWidget ∧ WidgetFair someDiff byInsertion id foldHistory bareWidget ∧
    (bareWidget.run someDiff byInsertion id foldHistory).scr.tm.rows = [⟨0, none, .str 1⟩, ⟨1, some 0, .str 2⟩, ⟨3, some 1, .str 3⟩,
      ⟨6, some 3, .str 4⟩, ⟨10, none, .str 5⟩, ⟨16, some 10, .str 7⟩, ⟨19, some 0, .str 7⟩] ∧
    (bareWidget.run someDiff byInsertion id foldHistory).opened = [0] ∧ (bareWidget.run someDiff byInsertion id foldHistory).idle = [] ∧
    (bareWidget.run someDiff byInsertion id (foldHistory.take 5)).opened = [0, 1, 3] :=
  ⟨bareWidget_start, foldHistory_fair, by decide, by decide, by decide, by decide⟩

/-- `C53_expand_partial` after this history: 2 and then 5 are opened. -/
example : ((bareWidget.run someDiff byInsertion id foldHistory).run someDiff byInsertion id
    [.fold .expand (.str 2), .fold .expand (.str 5)]).opened = [0, 1, 10] := by decide

/-- A widget for a view that shows rows below other rows already: they are all closed, though nobody asked for it. `expand_all`
is called while the model is empty. -/
theorem C53_refuted_start : Reached someDiff byInsertion id (Widget.start byInsertion id dropApp).scr ∧
    (Widget.start byInsertion id dropApp).idle = [] ∧ (⟨0, none, .str 1⟩ : GRow) ∈ (Widget.start byInsertion id dropApp).scr.tm.rows ∧
    ChildRow (Widget.start byInsertion id dropApp).scr.tm.rows 0 ∧ 0 ∉ (Widget.start byInsertion id dropApp).opened :=
  ⟨dropScreen_reached id [] trivial, rfl, by decide, ⟨⟨1, some 0, .str 2⟩, by decide, rfl⟩, by decide⟩

/-- 1 with 2 below it; `expand_node` is called for 1; 2 is removed, and 3 is added below 1. -/
def expandHistory : List (WAct Nat) :=
  [.app (.edit (.addNode (.new (.str 1) .none) .none)), .app (.edit (.addNode (.new (.str 2) .none) (.str 1))), .fold .expand (.str 1),
   .app (.edit (.delNode (.str 2) false)), .app (.edit (.addNode (.new (.str 3) .none) (.str 1)))]

/-- Calling `expand_node` makes the widget remember the node as collapsed: the row is closed when it gets a child next time, and
without the call it is open. -/
theorem C53_refuted_expand : (bareWidget.run someDiff byInsertion id expandHistory).idle = [] ∧
    (⟨0, none, .str 1⟩ : GRow) ∈ (bareWidget.run someDiff byInsertion id expandHistory).scr.tm.rows ∧
    ChildRow (bareWidget.run someDiff byInsertion id expandHistory).scr.tm.rows 0 ∧
    (∀ x, ¬ Asked expandHistory x) ∧ 0 ∉ (bareWidget.run someDiff byInsertion id expandHistory).opened ∧
    0 ∈ (bareWidget.run someDiff byInsertion id (expandHistory.eraseIdx 2)).opened := by
  refine ⟨by decide, by decide, ⟨⟨6, some 0, .str 3⟩, by decide, rfl⟩, ?_, by decide, by decide⟩
  rintro x ⟨-, -, h⟩
  simp [expandHistory] at h

end Larch
