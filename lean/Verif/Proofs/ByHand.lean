import Verif.Spec.ByHand
import Verif.Props.Collapse

/-!
# Invariants for rows opened and closed by hand
-/

namespace Larch

open Spec TM Widget

variable {V : Type} {diff : List Id → List Id → List Id} {O : GtkOrder} {alloc : Nat → Nat}
  {m : TM} {rows : List (List Id)} {P : Nat → List Id} {opened : List Nat} {memory : List (List Id)}

/-- Open rows are there, have children, and are below open rows. -/
structure GInv (rs : List GRow) (opened : List Nat) : Prop where
  live : ∀ a ∈ opened, ∃ r ∈ rs, r.addr = a
  kids : ∀ a ∈ opened, ChildRow rs a
  up : ∀ r ∈ rs, r.addr ∈ opened → UnderOpen opened r

theorem named_iff {x : Id} : Named memory x ↔ x ∈ remembered memory := by
  simp [Named, remembered, List.mem_filterMap]

/-- What one signal does to the rows and to the open rows. -/
inductive SigDone (mem : List Id) (rs : List GRow) (opened : List Nat) (c : TM.Act) (rs' : List GRow) (opened' : List Nat) : Prop
  | same : rs' = rs → opened' = opened → SigDone mem rs opened c rs' opened'
  | added (n : GRow) : rs' = rs ++ [n] → n.addr ∈ addresses [c] → (∀ r ∈ rs, r.addr ≠ n.addr) → ¬ ChildRow rs' n.addr →
      (∀ b, b ∈ opened' ↔ b ∈ opened ∨ ∃ q ∈ rs, n.parent = some q.addr ∧ ¬ ChildRow rs q.addr ∧ q.nid ∉ mem ∧ UnderOpen opened q ∧ b = q.addr) →
      SigDone mem rs opened c rs' opened'
  | deleted (d : GRow) : d ∈ rs → ¬ ChildRow rs d.addr → (∀ r, r ∈ rs' ↔ r ∈ rs ∧ r ≠ d) →
      (∀ b, b ∈ opened' ↔ b ∈ opened ∧ (d.parent = some b → ChildRow rs' b)) → SigDone mem rs opened c rs' opened'

theorem heard_one (hO : GtkSound O) (h : TInv m rows P) (hg : GInv m.rows opened) {rows' : List (List Id)}
    {c : TM.Act} (hw : replay (signals [c]) rows = some rows') (hf : FreshNow m c)
    {m' : TM} {P' : Nat → List Id} (e : m.act O c = .ok m') (h' : TInv m' rows' P') (hP : ∀ r ∈ m.rows, P' r.addr = P r.addr) :
    SigDone (remembered memory) m.rows opened c m'.rows (Widget.hear O memory c m opened) := by
  have es : (m.act O c).state = m' := by rw [e]; rfl
  cases c with
  | lookup path =>
    refine .same ?_ rfl
    rw [← es]
    exact getIterUp_rows O _ m
  | sig s a shown =>
    unfold Widget.hear
    rw [es]
    dsimp only
    cases hev : s.ev with
    | modified =>
      refine .same ?_ rfl
      rw [← es]
      show (match s.ev with
        | .added => m.addTask O s.nid s.path a
        | .modified => m.updateTask O s.path shown
        | .deleted => m.removeTask O s.nid s.path : Res TM).state.rows = _
      rw [hev]
      dsimp only [updateTask]
      split
      · exact getIterUp_rows O _ m
      · rfl
    | added =>
      dsimp only
      obtain ⟨it, hrows⟩ : ∃ it, m'.rows = m.rows ++ [⟨a, it, s.nid⟩] := by
        refine ⟨(m.getIter O s.path.dropLast).1, ?_⟩
        rw [← es]
        show (match s.ev with
          | .added => m.addTask O s.nid s.path a
          | .modified => m.updateTask O s.path shown
          | .deleted => m.removeTask O s.nid s.path : Res TM).state.rows = _
        rw [hev]
        show (m.getIter O s.path.dropLast).2.rows ++ _ = _
        congr 1
        exact getIterUp_rows O _ m
      have hnew : (⟨a, it, s.nid⟩ : GRow) ∈ m'.rows := by rw [hrows]; simp
      have hcase : ∀ r ∈ m'.rows, r ∈ m.rows ∨ r = ⟨a, it, s.nid⟩ := fun r hr => by
        rw [hrows, List.mem_append, List.mem_singleton] at hr; exact hr
      have hfresh : ∀ r ∈ m.rows, r.addr ≠ a := hf hev
      have hleaf : ¬ ChildRow m'.rows a := by
        rintro ⟨r, hr, hp⟩
        rcases hcase r hr with hr' | rfl
        · obtain ⟨q, hq, rfl⟩ := h.live r hr' a hp
          exact hfresh q hq rfl
        · exact h'.path_ne hnew hp
      refine .added ⟨a, it, s.nid⟩ hrows (by simp [addresses, hev]) hfresh hleaf fun b => ?_
      rw [parentOf_eq (r := ⟨a, it, s.nid⟩) h'.addrs hnew]
      dsimp only
      cases it with
      | none =>
        refine ⟨Or.inl, ?_⟩
        rintro (hb | ⟨q, -, hq, -⟩)
        · exact hb
        · cases hq
      | some p =>
        dsimp only
        obtain ⟨q, hq', rfl⟩ := h'.live _ hnew p rfl
        have hq : q ∈ m.rows := by
          rcases hcase q hq' with hq | hqe
          · exact hq
          · exact absurd (congrArg some (congrArg GRow.addr hqe)) (h'.path_ne hnew)
        split
        · next hone =>
          have hno : ¬ ChildRow m.rows q.addr := by
            rintro ⟨r, hr, hp⟩
            rw [hrows, List.filter_append, List.length_append] at hone
            have h1 : 0 < (m.rows.filter (fun r => decide (r.parent = some q.addr))).length :=
              List.length_pos_of_mem (List.mem_filter.2 ⟨hr, by simpa using hp⟩)
            have h2 : ([(⟨a, some q.addr, s.nid⟩ : GRow)].filter (fun r => decide (r.parent = some q.addr))).length = 1 := by
              simp
            omega
          have hqo : q.addr ∉ opened := fun ho => hno (hg.kids _ ho)
          have hflat : ∀ r ∈ m'.rows, r.parent = some q.addr → ¬ ChildRow m'.rows r.addr := by
            intro r hr hp
            rcases hcase r hr with hr' | rfl
            · exact absurd ⟨r, hr', hp⟩ hno
            · exact hleaf
          rw [mem_toggled h'.addrs hq']
          refine or_congr_right ⟨?_, ?_⟩
          · rintro ⟨-, x1, -, x2, x3, x4⟩
            refine ⟨q, hq, rfl, hno, x1, x2, ?_⟩
            rcases subtree_flat hflat _ b x3 with rfl | ⟨r, hr, rfl, hp⟩
            · rfl
            · exact absurd x4 (hflat r hr hp)
          · rintro ⟨q', hq2, x1, -, x2, x3, rfl⟩
            cases h.same hq hq2 (Option.some.inj x1)
            exact ⟨hqo, x2, ⟨_, hnew, rfl⟩, x3, self_subtree _ _ _, _, hnew, rfl⟩
        · next hone =>
          refine ⟨Or.inl, ?_⟩
          rintro (hb | ⟨q', hq2, x1, x2, -⟩)
          · exact hb
          · exfalso
            cases h.same hq hq2 (Option.some.inj x1)
            refine hone ?_
            rw [hrows, List.filter_append, List.length_append, List.filter_eq_nil_iff.2 (fun x hx hp => x2 ⟨x, hx, by simpa using hp⟩)]
            simp
    | deleted =>
      dsimp only
      have hw' : (applySig rows s).bind (replay []) = some rows' := hw
      obtain ⟨rows1, hs, e1⟩ := Option.bind_eq_some_iff.1 hw'
      cases e1
      unfold applySig at hs
      rw [hev] at hs
      split at hs
      case isFalse => cases hs
      dsimp only at hs
      split at hs
      case isFalse => cases hs
      next hcond =>
      cases hs
      obtain ⟨b, hb, hPb⟩ := (h.img _).1 hcond.1
      have hleaf : ¬ ChildRow m.rows b.addr := h.leaf hb (by rw [hPb, List.reverse_reverse]; exact hcond.2)
      have hit : (m.getIter O s.path).1 = some b.addr := by
        refine ((h.lookup hO (h.tail hcond.1)).1 b.addr).2 ?_
        simpa using h.rowPath _ b hb hPb
      rw [hit]
      dsimp only
      have hrows : ∀ r, r ∈ m'.rows ↔ r ∈ m.rows ∧ r ≠ b := by
        intro r
        constructor
        · intro hr
          have hr' : r ∈ m.rows := by
            have := act_rows O m (.sig s a shown)
            rw [es] at this
            rcases this r hr with hr' | hr'
            · exact hr'
            · simp [addresses, hev] at hr'
          refine ⟨hr', ?_⟩
          rintro rfl
          have := (h'.img s.path).2 ⟨r, hr, by rw [hP r hr']; exact hPb⟩
          exact (List.Nodup.mem_erase_iff h.once).1 this |>.1 rfl
        · rintro ⟨hr, hne⟩
          have h1 : (P r.addr).reverse ∈ rows := (h.img _).2 ⟨r, hr, by simp⟩
          have h2 : (P r.addr).reverse ≠ s.path := fun e => hne (h.inj r hr b hb (by rw [hPb, ← e, List.reverse_reverse]))
          obtain ⟨q, hq, hPq⟩ := (h'.img _).1 ((List.mem_erase_of_ne h2).2 h1)
          rw [List.reverse_reverse] at hPq
          have hq' : q ∈ m.rows := by
            have := act_rows O m (.sig s a shown)
            rw [es] at this
            rcases this q hq with hr' | hr'
            · exact hr'
            · simp [addresses, hev] at hr'
          rw [hP q hq'] at hPq
          rw [← h.inj q hq' r hr hPq]; exact hq
      have hfil : ∀ c, c ∈ opened.filter (fun c => m'.rows.any (fun r => decide (r.addr = c))) ↔ c ∈ opened := by
        intro c
        rw [List.mem_filter]
        refine ⟨And.left, fun hc => ⟨hc, ?_⟩⟩
        obtain ⟨r, hr, rfl⟩ := hg.live c hc
        refine List.any_eq_true.2 ⟨r, (hrows r).2 ⟨hr, ?_⟩, by simp⟩
        rintro rfl
        exact hleaf (hg.kids _ hc)
      refine .deleted b hb hleaf hrows fun c => ?_
      rw [parentOf_eq h.addrs hb]
      cases hpar : b.parent with
      | none =>
        dsimp only
        rw [hfil]
        exact ⟨fun x => ⟨x, fun e => by cases e⟩, And.left⟩
      | some p =>
        dsimp only
        split
        · next hk =>
          rw [hasKids_iff] at hk
          rw [hfil]
          refine ⟨fun x => ⟨x, ?_⟩, And.left⟩
          rintro ⟨⟩
          exact hk
        · next hk =>
          rw [hasKids_iff] at hk
          obtain ⟨q, hq, rfl⟩ := h.live b hb p hpar
          have hqb : q ≠ b := fun e => h.path_ne hb (by rw [hpar, e])
          have hq' : q ∈ m'.rows := (hrows q).2 ⟨hq, hqb⟩
          rw [mem_toggled h'.addrs hq', List.mem_filter, hfil]
          constructor
          · rintro (x | x)
            · refine ⟨x.1, ?_⟩
              rintro ⟨⟩
              simp at x
            · exact absurd x.2.2.1 hk
          · rintro ⟨x1, x2⟩
            refine Or.inl ⟨x1, ?_⟩
            simp only [ne_eq, decide_not, Bool.not_eq_eq_eq_not, Bool.not_true, decide_eq_false_iff_not]
            rintro rfl
            exact hk (x2 rfl)

/-! ### One signal keeps the invariants -/

/-- The open rows, as compared with an earlier moment: rows that kept a child are as they were; other rows are open only if they
are not remembered, or were open; and rows that are not remembered are closed only if they were closed. -/
structure Since (mem : List Id) (old : List GRow) (was : List Nat) (rs : List GRow) (opened : List Nat) : Prop where
  kept : ∀ r ∈ rs, KeptChild old rs r → (r.addr ∈ opened ↔ r.addr ∈ was)
  opens : ∀ r ∈ rs, r.addr ∈ opened → r.nid ∉ mem ∨ (r ∈ old ∧ r.addr ∈ was)
  closes : ∀ r ∈ rs, ChildRow rs r.addr → UnderOpen opened r → r.nid ∉ mem → r.addr ∈ opened ∨ (r ∈ old ∧ ChildRow old r.addr ∧ r.addr ∉ was)

variable {mem : List Id} {rs rs' : List GRow} {opened' : List Nat} {c : TM.Act}

theorem GInv.heard (hg : GInv rs opened) (hd : (rs.map GRow.addr).Nodup) (h : SigDone mem rs opened c rs' opened') : GInv rs' opened' := by
  cases h with
  | same e1 e2 => subst e1; subst e2; exact hg
  | added n e ha hfresh hleaf ho =>
    subst e
    have hup : ∀ {a}, ChildRow rs a → ChildRow (rs ++ [n]) a := fun ⟨r, hr, hp⟩ => ⟨r, List.mem_append_left _ hr, hp⟩
    refine ⟨fun a ha => ?_, fun a ha => ?_, fun r hr hro => ?_⟩
    · rcases (ho a).1 ha with h1 | ⟨q, hq, -, -, -, -, rfl⟩
      · obtain ⟨r, hr, e⟩ := hg.live a h1
        exact ⟨r, List.mem_append_left _ hr, e⟩
      · exact ⟨q, List.mem_append_left _ hq, rfl⟩
    · rcases (ho a).1 ha with h1 | ⟨q, hq, hp, -, -, -, rfl⟩
      · exact hup (hg.kids a h1)
      · exact ⟨n, by simp, hp⟩
    · intro p hp
      refine (ho p).2 (Or.inl ?_)
      rcases (ho _).1 hro with h1 | ⟨q, hq, -, -, -, hu, e⟩
      · obtain ⟨r', hr', e⟩ := hg.live _ h1
        rcases List.mem_append.1 hr with hr | hr
        · exact hg.up r hr h1 p hp
        · rw [List.mem_singleton] at hr
          subst hr
          exact absurd e (hfresh _ hr')
      · rcases List.mem_append.1 hr with hr | hr
        · cases List.inj_on_of_nodup_map hd hr hq e
          exact hu p hp
        · rw [List.mem_singleton] at hr
          subst hr
          exact absurd e.symm (hfresh _ hq)
  | deleted d hd' hleaf hrows ho =>
    refine ⟨fun a ha => ?_, fun a ha => ?_, fun r hr hro p hp => ?_⟩
    · obtain ⟨h1, -⟩ := (ho a).1 ha
      obtain ⟨r, hr, rfl⟩ := hg.live a h1
      refine ⟨r, (hrows r).2 ⟨hr, ?_⟩, rfl⟩
      rintro rfl
      exact hleaf (hg.kids _ h1)
    · obtain ⟨h1, h2⟩ := (ho a).1 ha
      obtain ⟨q, hq, hp⟩ := hg.kids a h1
      by_cases e : q = d
      · subst e; exact h2 hp
      · exact ⟨q, (hrows q).2 ⟨hq, e⟩, hp⟩
    · exact (ho p).2 ⟨hg.up r ((hrows r).1 hr).1 ((ho _).1 hro).1 p hp, fun _ => ⟨r, hr, hp⟩⟩

theorem Since.start (hg : GInv rs opened) : Since mem rs opened rs opened := by
  refine ⟨fun r hr _ => Iff.rfl, fun r hr h => Or.inr ⟨hr, h⟩, fun r hr hc _ _ => ?_⟩
  by_cases h : r.addr ∈ opened
  · exact Or.inl h
  · exact Or.inr ⟨hr, hc, h⟩

theorem Since.heard {old : List GRow} {was : List Nat} (hg : GInv rs opened) (hd : (rs.map GRow.addr).Nodup)
    (hold : ∀ r ∈ old, r.addr ∉ addresses [c]) (hs : Since mem old was rs opened) (h : SigDone mem rs opened c rs' opened') :
    Since mem old was rs' opened' := by
  cases h with
  | same e1 e2 => subst e1; subst e2; exact hs
  | added n e ha hfresh hleaf ho =>
    subst e
    have hn : n ∉ old := fun h => hold n h ha
    have hno : n.addr ∉ opened' := by
      rw [ho]
      rintro (x | ⟨q, hq', -, -, -, -, x⟩)
      · obtain ⟨q, hq, e⟩ := hg.live _ x
        exact hfresh q hq e
      · exact hfresh q hq' x.symm
    have hup : ∀ r ∈ rs, UnderOpen opened' r → UnderOpen opened r := by
      intro r hr h p hp
      rcases (ho p).1 (h p hp) with x | ⟨q, hq', x, y, -, -, rfl⟩
      · exact x
      · exact absurd ⟨r, hr, hp⟩ y
    refine ⟨fun r hr hk => ?_, fun r hr hop => ?_, fun r hr hc hu hm => ?_⟩
    · rcases List.mem_append.1 hr with hr' | hr'
      · obtain ⟨h1, c, hc, hc', hp⟩ := hk
        have hc2 : c ∈ rs := by
          rcases List.mem_append.1 hc' with hc' | hc'
          · exact hc'
          · rw [List.mem_singleton] at hc'; subst hc'; exact absurd hc hn
        rw [ho, ← hs.kept r hr' ⟨h1, c, hc, hc2, hp⟩]
        refine ⟨?_, Or.inl⟩
        rintro (x | ⟨q, hq', x1, x2, -, -, x5⟩)
        · exact x
        · exact absurd ⟨c, hc2, x5 ▸ hp⟩ x2
      · rw [List.mem_singleton] at hr'; subst hr'; exact absurd hk.1 hn
    · rcases List.mem_append.1 hr with hr' | hr'
      · rcases (ho _).1 hop with x | ⟨q, hq', x1, x2, x3, x4, x5⟩
        · exact hs.opens r hr' x
        · cases List.inj_on_of_nodup_map hd hr' hq' x5
          exact Or.inl x3
      · rw [List.mem_singleton] at hr'; subst hr'; exact absurd hop hno
    · rcases List.mem_append.1 hr with hr' | hr'
      · by_cases hc0 : ChildRow rs r.addr
        · rcases hs.closes r hr' hc0 (hup r hr' hu) hm with x | x
          · exact Or.inl ((ho _).2 (Or.inl x))
          · exact Or.inr x
        · obtain ⟨c, hc, hp⟩ := hc
          rcases List.mem_append.1 hc with hc | hc
          · exact absurd ⟨c, hc, hp⟩ hc0
          · rw [List.mem_singleton] at hc; subst hc
            exact Or.inl ((ho _).2 (Or.inr ⟨r, hr', hp, hc0, hm, hup r hr' hu, rfl⟩))
      · rw [List.mem_singleton] at hr'; subst hr'; exact absurd hc hleaf
  | deleted d hd' hleaf hrows ho =>
    have hup : ∀ r, UnderOpen opened' r → UnderOpen opened r := fun r h p hp => ((ho p).1 (h p hp)).1
    have hin : ∀ r ∈ rs', r ∈ rs := fun r hr => ((hrows r).1 hr).1
    have hch : ∀ a, ChildRow rs' a → ChildRow rs a := fun a ⟨c, hc, hp⟩ => ⟨c, hin c hc, hp⟩
    refine ⟨fun r hr hk => ?_, fun r hr hop => hs.opens r (hin r hr) ((ho _).1 hop).1, fun r hr hc hu hm => ?_⟩
    · obtain ⟨h1, c, hc, hc', hp⟩ := hk
      rw [ho, ← hs.kept r (hin r hr) ⟨h1, c, hc, hin c hc', hp⟩]
      exact ⟨And.left, fun x => ⟨x, fun _ => ⟨c, hc', hp⟩⟩⟩
    · rcases hs.closes r (hin r hr) (hch _ hc) (hup r hu) hm with x | x
      · exact Or.inl ((ho _).2 ⟨x, fun _ => hc⟩)
      · exact Or.inr x

/-- A series of signals. -/
theorem Since.hearAll (hO : GtkSound O) {old : List GRow} {was : List Nat} (cs : List TM.Act) :
    ∀ {m : TM} {rows rows' : List (List Id)} {P : Nat → List Id} {opened : List Nat},
    TInv m rows P → GInv m.rows opened → Since (remembered memory) old was m.rows opened → (∀ r ∈ old, r.addr ∉ addresses cs) →
    replay (signals cs) rows = some rows' → Throughout O FreshNow cs m →
    Throughout O NotCached cs m → Throughout O ParentThere cs m →
    ∃ m' P', TM.run O cs m = .ok m' ∧ TInv m' rows' P' ∧ GInv m'.rows (Widget.hearAll O memory cs m opened) ∧
      Since (remembered memory) old was m'.rows (Widget.hearAll O memory cs m opened) := by
  induction cs with
  | nil => intro m rows rows' P opened h hg hs _ hw _ _ _; cases hw; exact ⟨m, P, rfl, h, hg, hs⟩
  | cons c cs ih =>
    intro m rows rows' P opened h hg hs ho hw hf hc hl
    rw [replay_signals_cons] at hw
    obtain ⟨rows1, hw1, hw2⟩ := Option.bind_eq_some_iff.1 hw
    obtain ⟨m1, P1, e1, i1, -, -, j3⟩ := tmAct_inv hO h hw1 hf.1 hc.1 hl.1
    have est : (m.act O c).state = m1 := by rw [e1]; rfl
    have hd := heard_one (memory := memory) hO h hg hw1 hf.1 e1 i1 j3
    have hcons : ∀ b, b ∈ addresses (c :: cs) ↔ b ∈ addresses [c] ∨ b ∈ addresses cs := by
      intro b
      cases c with
      | lookup p => simp [addresses]
      | sig s a sh => simp only [addresses]; split <;> simp
    obtain ⟨m', P', e2, i2, g2, s2⟩ := ih i1 (hg.heard h.addrs hd) (hs.heard hg h.addrs (fun r hr h' => ho r hr ((hcons _).2 (Or.inl h'))) hd)
      (fun r hr h' => ho r hr ((hcons _).2 (Or.inr h'))) hw2 (est ▸ hf.2) (est ▸ hc.2) (est ▸ hl.2)
    refine ⟨m', P', by rw [TM.run, e1]; exact e2, i2, ?_⟩
    unfold Widget.hearAll
    rw [e1]
    exact ⟨g2, s2⟩

/-! ### The invariant of the widget -/

/-- The screen is right, and the open rows are possible. -/
structure UInv (diff : List Id → List Id → List Id) (alloc : Nat → Nat) (w : Widget V) : Prop where
  s : SInv diff alloc w.scr
  g : GInv w.scr.tm.rows w.opened

/-- The application acts. -/
theorem UInv.act (hdiff : SetDiff diff) (hO : GtkSound O) (ha : Function.Injective alloc) {w : Widget V} (h : UInv diff alloc w)
    (c : FAct V) (hf : ViewFair w.scr.app c) : UInv diff alloc (w.act diff O alloc c) ∧
      ∀ {old : List GRow} {was : List Nat}, (∀ r ∈ old, r.addr ∈ usedTill alloc w.scr.clock) → Since (remembered w.memory) old was w.scr.tm.rows w.opened →
      Since (remembered w.memory) old was (w.act diff O alloc c).scr.tm.rows (w.act diff O alloc c).opened := by
  obtain ⟨s1, e1, -, -, -⟩ := h.s.act (O := O) hdiff hO ha c hf
  obtain ⟨new, hnew⟩ := act_appends c (by rintro rfl; exact hf) e1
  obtain ⟨rows, P, hi, hr⟩ := h.s.rows
  obtain ⟨rows1, P1, hi1, r1⟩ := s1.rows
  have hrep : replay new rows = some rows1 := by rw [← hnew, replay_append, hr] at r1; exact r1
  have hdrop : (w.scr.act diff O alloc c).app.ft.view.out.drop w.scr.app.ft.view.out.length = new := by rw [← hnew, List.drop_left]
  have hnd : (usedTill alloc w.scr.clock ++ (List.range' w.scr.clock new.length).map alloc).Nodup := by
    rw [← usedTill_add]
    exact List.Nodup.map ha List.nodup_range
  have hsub := addresses_heard alloc new w.scr.clock
  have hw' : replay (signals (Screen.heard alloc w.scr.clock new)) rows = some rows1 := by rw [signals_heard]; exact hrep
  obtain ⟨f1, f2⟩ := no_reuse hO (Screen.heard alloc w.scr.clock new) hi hw' (hnd.sublist (hsub.append_left _)) h.s.used h.s.cached
    (parentThere_heard O alloc new w.scr.clock w.scr.tm)
  have hop : (w.act diff O alloc c).opened = Widget.hearAll O w.memory (Screen.heard alloc w.scr.clock new) w.scr.tm w.opened := by
    unfold Widget.act
    dsimp only
    rw [hdrop]
  have hsc : (w.act diff O alloc c).scr = w.scr.act diff O alloc c := rfl
  have key : ∀ {old : List GRow} {was : List Nat}, (∀ r ∈ old, r.addr ∈ usedTill alloc w.scr.clock) → Since (remembered w.memory) old was w.scr.tm.rows w.opened →
      GInv (w.act diff O alloc c).scr.tm.rows (w.act diff O alloc c).opened ∧
      Since (remembered w.memory) old was (w.act diff O alloc c).scr.tm.rows (w.act diff O alloc c).opened := by
    intro old was hold hs
    obtain ⟨m', P', em, -, he'⟩ := Since.hearAll (memory := w.memory) hO _ hi h.g hs
      (fun r hr h' => (List.nodup_append.1 hnd).2.2 _ (hold r hr) _ (hsub.subset h') rfl) hw' f1 f2 (parentThere_heard O alloc new w.scr.clock w.scr.tm)
    have htm : (w.scr.act diff O alloc c).tm = m' := by
      show (TM.run O (Screen.heard alloc w.scr.clock ((w.scr.act diff O alloc c).app.ft.view.out.drop w.scr.app.ft.view.out.length)) w.scr.tm).state = m'
      rw [hdrop, em]; rfl
    rw [hop, hsc, htm]
    exact he'
  exact ⟨⟨s1, (key h.s.used (Since.start h.g)).1⟩, fun hold hs => (key hold hs).2⟩

theorem UInv.dropRows (hdiff : SetDiff diff) (hO : GtkSound O) (ha : Function.Injective alloc) (dest : Id) (l : List Nat) :
    ∀ {w : Widget V}, UInv diff alloc w → FewerApplied w.scr.app → UInv diff alloc (w.dropRows diff O alloc dest l) ∧ w.scr.clock ≤ (w.dropRows diff O alloc dest l).scr.clock ∧
      ∀ {old : List GRow} {was : List Nat}, (∀ r ∈ old, r.addr ∈ usedTill alloc w.scr.clock) → Since (remembered w.memory) old was w.scr.tm.rows w.opened →
      Since (remembered w.memory) old was (w.dropRows diff O alloc dest l).scr.tm.rows (w.dropRows diff O alloc dest l).opened := by
  induction l with
  | nil => intro w h _; exact ⟨h, Nat.le_refl _, fun _ hs => hs⟩
  | cons a l ih =>
    intro w h hfew
    unfold Widget.dropRows
    split
    · exact ih h hfew
    · next x _ =>
      obtain ⟨h1, h2⟩ := h.act (O := O) hdiff hO ha (.edit (.moveNode x dest)) (moveNode_fair hfew _ _)
      have hcl : w.scr.clock ≤ (w.act diff O alloc (.edit (.moveNode x dest))).scr.clock := Nat.le_add_right _ _
      obtain ⟨k1, k2, k3⟩ := ih h1 (FewerApplied.act_edit hfew _)
      exact ⟨k1, hcl.trans k2, fun hold hs => k3 (fun r hr => usedTill_mono alloc hcl (hold r hr)) (h2 hold hs)⟩

/-! ### Opening and closing rows -/

theorem GInv.collapse (h : TInv m rows P) (hg : GInv m.rows opened) {r : GRow} (hr : r ∈ m.rows) : GInv m.rows (collapseRow m.rows opened r.addr) := by
  have hm : ∀ b, b ∈ collapseRow m.rows opened r.addr ↔ b ∈ opened ∧ b ∉ subtree m.rows r.addr m.rows.length := by
    intro b; simp [collapseRow]
  refine ⟨fun a ha => hg.live a ((hm a).1 ha).1, fun a ha => hg.kids a ((hm a).1 ha).1, fun q hq hqo p hp => ?_⟩
  obtain ⟨h1, h2⟩ := (hm _).1 hqo
  refine (hm p).2 ⟨hg.up q hq h1 p hp, fun hs => h2 ?_⟩
  obtain ⟨b, hb, rfl⟩ := h.live q hq p hp
  refine (h.mem_subtree hr hq).2 (((h.mem_subtree hr hb).1 hs).trans ?_)
  rw [h.path q hq, hp]
  exact List.suffix_cons _ _

theorem mem_expandRow (h : (m.rows.map GRow.addr).Nodup) {r : GRow} (hr : r ∈ m.rows) (b : Nat) :
    b ∈ expandRow m.rows false opened r.addr ↔ b ∈ opened ∨ (b = r.addr ∧ ChildRow m.rows r.addr ∧ UnderOpen opened r) := by
  unfold expandRow
  split
  · next hk =>
    rw [Bool.and_eq_true, hasKids_iff, inSight_iff h hr] at hk
    simp only [Bool.false_eq_true, if_false, List.mem_append, List.mem_singleton]
    exact ⟨fun x => x.imp id fun y => ⟨y, hk⟩, fun x => x.imp id And.left⟩
  · next hk =>
    rw [Bool.and_eq_true, hasKids_iff, inSight_iff h hr] at hk
    exact ⟨Or.inl, fun x => x.elim id fun y => absurd y.2 hk⟩

theorem GInv.expand (h : TInv m rows P) (hg : GInv m.rows opened) {r : GRow} (hr : r ∈ m.rows) : GInv m.rows (expandRow m.rows false opened r.addr) := by
  refine ⟨fun a ha => ?_, fun a ha => ?_, fun q hq hqo p hp => ?_⟩
  · rcases (mem_expandRow h.addrs hr a).1 ha with x | ⟨rfl, -⟩
    · exact hg.live a x
    · exact ⟨r, hr, rfl⟩
  · rcases (mem_expandRow h.addrs hr a).1 ha with x | ⟨rfl, x, -⟩
    · exact hg.kids a x
    · exact x
  · refine (mem_expandRow h.addrs hr p).2 (Or.inl ?_)
    rcases (mem_expandRow h.addrs hr _).1 hqo with x | ⟨e, -, x⟩
    · exact hg.up q hq x p hp
    · cases h.same hq hr e
      exact x p hp

theorem GInv.method (h : TInv m rows P) (hg : GInv m.rows opened) (f : Fold) {r : GRow} (hr : r ∈ m.rows) : GInv m.rows (method m.rows f opened r.addr) := by
  cases f with
  | collapse => exact hg.collapse h hr
  | expand => exact hg.expand h hr

theorem GInv.methods (h : TInv m rows P) (f : Fold) (as : List Nat) : ∀ {opened}, GInv m.rows opened → (∀ a ∈ as, ∃ r ∈ m.rows, r.addr = a) →
    GInv m.rows (as.foldl (Widget.method m.rows f) opened) := by
  induction as with
  | nil => intro opened hg _; exact hg
  | cons a as ih =>
    intro opened hg has
    obtain ⟨r, hr, rfl⟩ := has a List.mem_cons_self
    exact ih (hg.method h f hr) fun b hb => has b (List.mem_cons_of_mem _ hb)

/-- `collapse_node` and `expand_node`. -/
theorem UInv.fold (hdiff : SetDiff diff) (hO : GtkSound O) (ha : Function.Injective alloc) {w : Widget V} (h : UInv diff alloc w)
    (f : Fold) (x : Id) : UInv diff alloc (w.fold O f x) ∧ (w.fold O f x).scr.tm.rows = w.scr.tm.rows := by
  cases hf : x.falsy with
  | true =>
    have hw : w.fold O f x = w := by unfold Widget.fold; rw [hf]; rfl
    rw [hw]; exact ⟨h, rfl⟩
  | false =>
    by_cases hsh : w.scr.app.ft.view.has x = true ∧ x ≠ w.scr.app.ft.root
    · obtain ⟨ps, as, hps, hne, k1, k2, k3, k4, k5, k6, k7, k8⟩ := fold_shown hdiff hO ha f h.s hf hsh.1 hsh.2
      refine ⟨⟨k1, ?_⟩, k3⟩
      obtain ⟨rows, P, hi, -⟩ := h.s.isRow
      rw [k3, k8]
      refine GInv.methods hi f as h.g fun a ha => ?_
      obtain ⟨l, hl, hal⟩ := forall₂_left k7 a ha
      exact (hi.of_rowPath hal).1
    · have hx' : x = w.scr.app.ft.root ∨ w.scr.app.ft.view.has x = false := by
        by_cases h1 : x = w.scr.app.ft.root
        · exact Or.inl h1
        · exact Or.inr (Bool.not_eq_true _ ▸ fun h2 => hsh ⟨h2, h1⟩)
      rw [fold_hidden f hf hx']
      split
      · exact ⟨⟨h.s, h.g⟩, rfl⟩
      · exact ⟨⟨h.s, h.g⟩, rfl⟩

theorem UInv.step (hdiff : SetDiff diff) (hO : GtkSound O) (ha : Function.Injective alloc) {w : Widget V} (h : UInv diff alloc w)
    (c : WAct V) (hf : match c with
      | .app c => ViewFair w.scr.app c
      | .look path => ParentThere w.scr.tm (.lookup path)
      | .click _ a => ∃ r ∈ w.scr.tm.rows, r.addr = a
      | .fold _ _ => True
      | .idle => True
      | .drop _ _ => FewerApplied w.scr.app) : UInv diff alloc (w.step diff O alloc c) := by
  cases c with
  | app c => exact (h.act hdiff hO ha c hf).1
  | look path =>
    refine ⟨h.s.step hdiff hO ha (.look path) hf, ?_⟩
    have er : (w.scr.step diff O alloc (.look path)).tm.rows = w.scr.tm.rows := getIterUp_rows O _ _
    show GInv (w.scr.step diff O alloc (.look path)).tm.rows w.opened
    rw [er]; exact h.g
  | fold f x => exact (h.fold hdiff hO ha f x).1
  | idle =>
    unfold Widget.step
    dsimp only
    split
    · exact h
    · next x f l _ => exact (UInv.fold (w := { w with idle := l }) hdiff hO ha ⟨h.s, h.g⟩ f x).1
  | click f a =>
    obtain ⟨r, hr, rfl⟩ := hf
    obtain ⟨rows, P, hi, -⟩ := h.s.isRow
    exact ⟨h.s, h.g.method hi f hr⟩
  | drop selected at_ => exact (UInv.dropRows hdiff hO ha _ _ h hf).1

theorem UInv.run (hdiff : SetDiff diff) (hO : GtkSound O) (ha : Function.Injective alloc) (cs : List (WAct V)) : ∀ {w : Widget V},
    UInv diff alloc w → UserFair diff O alloc cs w → UInv diff alloc (w.run diff O alloc cs) := by
  induction cs with
  | nil => intro w h _; exact h
  | cons c cs ih => intro w h hf; exact ih (h.step hdiff hO ha c hf.1) hf.2

theorem inUse_inv (hdiff : SetDiff diff) (hO : GtkSound O) (ha : Function.Injective alloc) {w : Widget V} (h : InUse diff O alloc w) :
    UInv diff alloc w := by
  obtain ⟨ops, bcs, root, d, ft, cs, h1, h3, e, hf, rfl⟩ := h
  obtain ⟨ft', e', hr⟩ := (ViewStart.mk h1 h3).run (bcs := bcs) hdiff d
  rw [e] at e'
  cases e'
  obtain ⟨a, ea, hv⟩ := hr [] trivial
  cases ea
  refine UInv.run hdiff hO ha cs ⟨SInv.start hO ha hv, ?_, ?_, ?_⟩ hf
  · intro a ha; cases ha
  · intro a ha; cases ha
  · intro r _ ha; cases ha

end Larch
