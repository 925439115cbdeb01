import Verif.Spec.Collapse
import Verif.Props.DragDrop

/-!
# Invariant of the open rows
-/

namespace Larch

open Spec TM Widget

variable {V : Type} {diff : List Id → List Id → List Id} {O : GtkOrder} {alloc : Nat → Nat}
  {m : TM} {rows : List (List Id)} {P : Nat → List Id} {opened : List Nat} {memory : List (List Id)}

/-- The remembered nodes. -/
def remembered (memory : List (List Id)) : List Id := memory.filterMap List.getLast?

/-- Exactly the rows with children are open that are not, and are not below, a row of a remembered node. -/
structure EInv (m : TM) (P : Nat → List Id) (opened : List Nat) (mem : List Id) : Prop where
  row : ∀ r ∈ m.rows, r.addr ∈ opened ↔ ChildRow m.rows r.addr ∧ ∀ x ∈ P r.addr, x ∉ mem
  live : ∀ a ∈ opened, ∃ r ∈ m.rows, r.addr = a

theorem hasKids_iff {rs : List GRow} {a : Nat} : hasKids rs a = true ↔ ChildRow rs a := by
  simp [hasKids, ChildRow]

theorem parentOf_eq {rs : List GRow} (h : (rs.map GRow.addr).Nodup) {r : GRow} (hr : r ∈ rs) : parentOf rs r.addr = r.parent := by
  unfold parentOf
  cases e : rs.find? (fun q => decide (q.addr = r.addr)) with
  | none => simpa using List.find?_eq_none.1 e r hr
  | some q =>
    have hq := List.mem_of_find?_eq_some e
    have hqa : q.addr = r.addr := by simpa using List.find?_some e
    rw [List.inj_on_of_nodup_map h hq hr hqa]
    rfl

theorem inSight_iff {rs : List GRow} (h : (rs.map GRow.addr).Nodup) {r : GRow} (hr : r ∈ rs) :
    inSight rs opened r.addr = true ↔ ∀ p, r.parent = some p → p ∈ opened := by
  unfold inSight
  rw [parentOf_eq h hr, Bool.and_eq_true]
  have : rs.any (fun q => decide (q.addr = r.addr)) = true := List.any_eq_true.2 ⟨r, hr, by simp⟩
  simp only [this, true_and]
  cases r.parent with
  | none => simp
  | some p => simp

theorem mem_remembered {x : Id} : x ∈ remembered memory ↔ memory.any (fun c => decide (c.getLast? = some x)) = true := by
  simp [remembered]

theorem value_row (h : (m.rows.map GRow.addr).Nodup) {r : GRow} (hr : r ∈ m.rows) : m.value r.addr = some r.nid :=
  (TM.value_eq h).2 ⟨r, hr, rfl, rfl⟩

/-- `on_child_toggled`, in words. -/
theorem mem_toggled (h : (m.rows.map GRow.addr).Nodup) {r : GRow} (hr : r ∈ m.rows) (b : Nat) :
    b ∈ toggled memory m opened r.addr ↔ b ∈ opened ∨ (r.addr ∉ opened ∧ r.nid ∉ remembered memory ∧ ChildRow m.rows r.addr ∧
      (∀ p, r.parent = some p → p ∈ opened) ∧ b ∈ subtree m.rows r.addr m.rows.length ∧ ChildRow m.rows b) := by
  unfold toggled expandRow
  rw [value_row h hr]
  dsimp only
  split
  · next hc =>
    simp only [Bool.and_eq_true, Bool.not_eq_true', ← Bool.not_eq_true, List.contains_iff_mem, ← mem_remembered] at hc
    split
    · next hk =>
      rw [Bool.and_eq_true, hasKids_iff, inSight_iff h hr] at hk
      simp only [if_true, List.mem_append, List.mem_filter, hasKids_iff]
      constructor
      · rintro (h1 | h1)
        · exact Or.inl h1
        · exact Or.inr ⟨hc.1, hc.2, hk.1, hk.2, h1⟩
      · rintro (h1 | h1)
        · exact Or.inl h1
        · exact Or.inr h1.2.2.2.2
    · next hk =>
      rw [Bool.and_eq_true, hasKids_iff, inSight_iff h hr] at hk
      exact ⟨Or.inl, fun h1 => h1.elim id fun h2 => absurd ⟨h2.2.2.1, h2.2.2.2.1⟩ hk⟩
  · next hc =>
    simp only [Bool.and_eq_true, Bool.not_eq_true', ← Bool.not_eq_true, List.contains_iff_mem, ← mem_remembered] at hc
    exact ⟨Or.inl, fun h1 => h1.elim id fun h2 => absurd ⟨h2.1, h2.2.1⟩ hc⟩

theorem self_subtree (rs : List GRow) (a : Nat) (n : Nat) : a ∈ subtree rs a n := by
  induction n with
  | zero => simp [subtree]
  | succ n ih => unfold subtree; exact List.mem_append_left _ ih

/-- Below a row whose children have no children there are only its children. -/
theorem subtree_flat {rs : List GRow} {a : Nat} (h : ∀ r ∈ rs, r.parent = some a → ¬ ChildRow rs r.addr) (n : Nat) :
    ∀ b ∈ subtree rs a n, b = a ∨ ∃ r ∈ rs, r.addr = b ∧ r.parent = some a := by
  induction n with
  | zero => intro b hb; exact Or.inl (by simpa [subtree] using hb)
  | succ n ih =>
    intro b hb
    unfold subtree at hb
    dsimp only at hb
    rcases List.mem_append.1 hb with hb | hb
    · exact ih b hb
    · obtain ⟨r, hr, rfl⟩ := List.mem_map.1 hb
      rw [List.mem_filter] at hr
      obtain ⟨hr, hp⟩ := hr
      cases hpar : r.parent with
      | none => rw [hpar] at hp; simp at hp
      | some p =>
        rw [hpar] at hp
        have hp' : p ∈ subtree rs a n := by simpa using hp
        rcases ih p hp' with rfl | ⟨q, hq, rfl, hqa⟩
        · exact Or.inr ⟨r, hr, rfl, hpar⟩
        · exact absurd ⟨r, hr, hpar⟩ (h q hq hqa)

theorem TInv.path_ne (h : TInv m rows P) {r : GRow} (hr : r ∈ m.rows) : r.parent ≠ some r.addr := by
  intro e
  have := h.path r hr
  rw [e] at this
  have := congrArg List.length this
  simp [above] at this

/-- The row of an announced path that nothing is announced below has no children. -/
theorem TInv.leaf (h : TInv m rows P) {r : GRow} (hr : r ∈ m.rows) (hleaf : ∀ l ∈ rows, (P r.addr).reverse <+: l → l = (P r.addr).reverse) :
    ¬ ChildRow m.rows r.addr := by
  rintro ⟨q, hq, hp⟩
  have hPq := h.path q hq
  rw [hp] at hPq
  simp only [above] at hPq
  have := hleaf (P q.addr).reverse ((h.img _).2 ⟨q, hq, by simp⟩) (by rw [hPq, List.reverse_cons]; exact List.prefix_append _ _)
  have := congrArg List.length this
  rw [hPq] at this
  simp at this

/-- One signal: the rows open are right again. -/
theorem EInv.hear (hO : GtkSound O) (h : TInv m rows P) (he : EInv m P opened (remembered memory)) {rows' : List (List Id)}
    {c : TM.Act} (hw : replay (signals [c]) rows = some rows') (hf : FreshNow m c) (hc : NotCached m c) (hl : ParentThere m c)
    {m' : TM} {P' : Nat → List Id} (e : m.act O c = .ok m') (h' : TInv m' rows' P') (hP : ∀ r ∈ m.rows, P' r.addr = P r.addr) :
    EInv m' P' (Widget.hear O memory c m opened) (remembered memory) := by
  have es : (m.act O c).state = m' := by rw [e]; rfl
  -- the same rows
  have same : m'.rows = m.rows → EInv m' P' opened (remembered memory) := fun er =>
    ⟨fun r hr => by rw [er] at hr ⊢; rw [hP r hr]; exact he.row r hr, fun a ha => by rw [er]; exact he.live a ha⟩
  cases c with
  | lookup path =>
    refine same ?_
    rw [← es]
    exact getIterUp_rows O _ m
  | sig s a shown =>
    unfold Widget.hear
    rw [es]
    dsimp only
    cases hev : s.ev with
    | modified =>
      refine same ?_
      rw [← es]
      show (match s.ev with
        | .added => m.addTask O s.nid s.path a
        | .modified => m.updateTask O s.path shown
        | .deleted => m.removeTask O s.nid s.path : Res TM).state.rows = _
      rw [hev]
      dsimp only [updateTask]
      split
      · exact getIterUp_rows O _ m
      · rfl
    | added =>
      dsimp only
      obtain ⟨it, hrows⟩ : ∃ it, m'.rows = m.rows ++ [⟨a, it, s.nid⟩] := by
        refine ⟨(m.getIter O s.path.dropLast).1, ?_⟩
        rw [← es]
        show (match s.ev with
          | .added => m.addTask O s.nid s.path a
          | .modified => m.updateTask O s.path shown
          | .deleted => m.removeTask O s.nid s.path : Res TM).state.rows = _
        rw [hev]
        show (m.getIter O s.path.dropLast).2.rows ++ _ = _
        congr 1
        exact getIterUp_rows O _ m
      have hnew : (⟨a, it, s.nid⟩ : GRow) ∈ m'.rows := by rw [hrows]; simp
      have hold : ∀ r ∈ m.rows, r ∈ m'.rows := fun r hr => by rw [hrows]; exact List.mem_append_left _ hr
      have hcase : ∀ r ∈ m'.rows, r ∈ m.rows ∨ r = ⟨a, it, s.nid⟩ := fun r hr => by
        rw [hrows, List.mem_append, List.mem_singleton] at hr; exact hr
      have hfresh : ∀ r ∈ m.rows, r.addr ≠ a := hf hev
      -- the new row has no children
      have hleaf : ¬ ChildRow m'.rows a := by
        rintro ⟨r, hr, hp⟩
        rcases hcase r hr with hr' | rfl
        · obtain ⟨q, hq, rfl⟩ := h.live r hr' a hp
          exact hfresh q hq rfl
        · exact h'.path_ne hnew hp
      have hopen : a ∉ opened := fun ha => by
        obtain ⟨r, hr, rfl⟩ := he.live a ha
        exact hfresh r hr rfl
      have hchild : ∀ b, ChildRow m'.rows b ↔ ChildRow m.rows b ∨ it = some b := by
        intro b
        constructor
        · rintro ⟨r, hr, hp⟩
          rcases hcase r hr with hr' | rfl
          · exact Or.inl ⟨r, hr', hp⟩
          · exact Or.inr hp
        · rintro (⟨r, hr, hp⟩ | hb)
          · exact ⟨r, hold r hr, hp⟩
          · exact ⟨_, hnew, hb⟩
      rw [parentOf_eq (r := ⟨a, it, s.nid⟩) h'.addrs hnew]
      dsimp only
      -- nothing changes for rows that keep their children
      have keep : (∀ r ∈ m.rows, it = some r.addr → ChildRow m.rows r.addr) → EInv m' P' opened (remembered memory) := by
        intro hk
        refine ⟨fun r hr => ?_, fun b hb => ?_⟩
        · rcases hcase r hr with hr' | rfl
          · rw [hP r hr', he.row r hr', hchild]
            exact ⟨fun x => ⟨Or.inl x.1, x.2⟩, fun x => ⟨x.1.elim id (hk r hr'), x.2⟩⟩
          · exact ⟨fun x => absurd x hopen, fun x => absurd x.1 hleaf⟩
        · obtain ⟨r, hr, rfl⟩ := he.live b hb
          exact ⟨r, hold r hr, rfl⟩
      cases it with
      | none => exact keep fun r hr e => by cases e
      | some p =>
        dsimp only
        obtain ⟨q, hq', rfl⟩ := h'.live _ hnew p rfl
        have hq : q ∈ m.rows := by
          rcases hcase q hq' with hq | hqe
          · exact hq
          · exact absurd (congrArg some (congrArg GRow.addr hqe)) (h'.path_ne hnew)
        split
        · next hone =>
          -- the first child
          have hno : ¬ ChildRow m.rows q.addr := by
            rintro ⟨r, hr, hp⟩
            rw [hrows, List.filter_append, List.length_append] at hone
            have h1 : 0 < (m.rows.filter (fun r => decide (r.parent = some q.addr))).length :=
              List.length_pos_of_mem (List.mem_filter.2 ⟨hr, by simpa using hp⟩)
            have h2 : ([(⟨a, some q.addr, s.nid⟩ : GRow)].filter (fun r => decide (r.parent = some q.addr))).length = 1 := by
              simp
            omega
          have hqo : q.addr ∉ opened := fun ho => hno ((he.row q hq).1 ho).1
          have hflat : ∀ r ∈ m'.rows, r.parent = some q.addr → ¬ ChildRow m'.rows r.addr := by
            intro r hr hp
            rcases hcase r hr with hr' | rfl
            · exact absurd ⟨r, hr', hp⟩ hno
            · exact hleaf
          have hsub : ∀ b, b ∈ subtree m'.rows q.addr m'.rows.length ∧ ChildRow m'.rows b ↔ b = q.addr := by
            intro b
            constructor
            · rintro ⟨hb, hk⟩
              rcases subtree_flat hflat _ b hb with rfl | ⟨r, hr, rfl, hp⟩
              · rfl
              · exact absurd hk (hflat r hr hp)
            · rintro rfl
              exact ⟨self_subtree _ _ _, _, hnew, rfl⟩
          refine ⟨fun r hr => ?_, fun b hb => ?_⟩
          · rw [mem_toggled h'.addrs hq', hsub]
            rcases hcase r hr with hr' | rfl
            · by_cases hrq : r = q
              · subst hrq
                rw [hP r hq, h.path r hq]
                constructor
                · rintro (x | ⟨-, x1, x2, x3, -⟩)
                  · exact absurd x hqo
                  · refine ⟨x2, fun y hy => ?_⟩
                    rcases List.mem_cons.1 hy with rfl | hy
                    · exact x1
                    · cases hpar : r.parent with
                      | none => rw [hpar] at hy; cases hy
                      | some p' =>
                        obtain ⟨q', hq2, rfl⟩ := h.live r hq p' hpar
                        rw [hpar] at hy
                        exact ((he.row q' hq2).1 (x3 _ hpar)).2 y hy
                · rintro ⟨x1, x2⟩
                  refine Or.inr ⟨hqo, x2 _ List.mem_cons_self, x1, fun p' hp' => ?_, rfl⟩
                  obtain ⟨q', hq2, rfl⟩ := h.live r hq p' hp'
                  exact (he.row q' hq2).2 ⟨⟨r, hq, hp'⟩, fun y hy => x2 y (List.mem_cons_of_mem _ (by rw [hp']; exact hy))⟩
              · have hne : r.addr ≠ q.addr := fun e => hrq (h.same hr' hq e)
                rw [hP r hr', he.row r hr', hchild r.addr]
                constructor
                · rintro (x | x)
                  · exact ⟨Or.inl x.1, x.2⟩
                  · exact absurd x.2.2.2.2 hne
                · rintro ⟨x | x, x2⟩
                  · exact Or.inl ⟨x, x2⟩
                  · exact absurd (Option.some.inj x).symm hne
            · constructor
              · rintro (x | x)
                · exact absurd x hopen
                · exact absurd x.2.2.2.2.symm (hfresh q hq)
              · exact fun x => absurd x.1 hleaf
          · rw [mem_toggled h'.addrs hq', hsub] at hb
            rcases hb with hb | ⟨-, -, -, -, rfl⟩
            · obtain ⟨r, hr, rfl⟩ := he.live b hb
              exact ⟨r, hold r hr, rfl⟩
            · exact ⟨q, hq', rfl⟩
        · next hone =>
          refine keep fun r hr e => ?_
          rw [Option.some.inj e] at hone
          by_contra hno
          refine hone ?_
          rw [hrows, List.filter_append, List.length_append, List.filter_eq_nil_iff.2 (fun x hx hp => hno ⟨x, hx, by simpa using hp⟩)]
          simp [Option.some.inj e]
    | deleted =>
      dsimp only
      -- the row
      have hw' : (applySig rows s).bind (replay []) = some rows' := hw
      obtain ⟨rows1, hs, e1⟩ := Option.bind_eq_some_iff.1 hw'
      cases e1
      unfold applySig at hs
      rw [hev] at hs
      split at hs
      case isFalse => cases hs
      dsimp only at hs
      split at hs
      case isFalse => cases hs
      next hcond =>
      cases hs
      obtain ⟨b, hb, hPb⟩ := (h.img _).1 hcond.1
      have hleaf : ¬ ChildRow m.rows b.addr := h.leaf hb (by rw [hPb, List.reverse_reverse]; exact hcond.2)
      have hit : (m.getIter O s.path).1 = some b.addr := by
        refine ((h.lookup hO (h.tail hcond.1)).1 b.addr).2 ?_
        simpa using h.rowPath _ b hb hPb
      rw [hit]
      dsimp only
      have hrows : ∀ r, r ∈ m'.rows ↔ r ∈ m.rows ∧ r ≠ b := by
        intro r
        constructor
        · intro hr
          have hr' : r ∈ m.rows := by
            have := act_rows O m (.sig s a shown)
            rw [es] at this
            rcases this r hr with hr' | hr'
            · exact hr'
            · simp [addresses, hev] at hr'
          refine ⟨hr', ?_⟩
          rintro rfl
          have := (h'.img s.path).2 ⟨r, hr, by rw [hP r hr']; exact hPb⟩
          exact (List.Nodup.mem_erase_iff h.once).1 this |>.1 rfl
        · rintro ⟨hr, hne⟩
          have h1 : (P r.addr).reverse ∈ rows := (h.img _).2 ⟨r, hr, by simp⟩
          have h2 : (P r.addr).reverse ≠ s.path := fun e => hne (h.inj r hr b hb (by rw [hPb, ← e, List.reverse_reverse]))
          obtain ⟨q, hq, hPq⟩ := (h'.img _).1 ((List.mem_erase_of_ne h2).2 h1)
          rw [List.reverse_reverse] at hPq
          have hq' : q ∈ m.rows := by
            have := act_rows O m (.sig s a shown)
            rw [es] at this
            rcases this q hq with hr' | hr'
            · exact hr'
            · simp [addresses, hev] at hr'
          rw [hP q hq'] at hPq
          rw [← h.inj q hq' r hr hPq]; exact hq
      have hfil : ∀ c, c ∈ opened.filter (fun c => m'.rows.any (fun r => decide (r.addr = c))) ↔ c ∈ opened := by
        intro c
        rw [List.mem_filter]
        refine ⟨And.left, fun hc => ⟨hc, ?_⟩⟩
        obtain ⟨r, hr, rfl⟩ := he.live c hc
        refine List.any_eq_true.2 ⟨r, (hrows r).2 ⟨hr, ?_⟩, by simp⟩
        rintro rfl
        exact hleaf ((he.row r hr).1 hc).1
      have hliv : ∀ c ∈ opened, ∃ r ∈ m'.rows, r.addr = c := by
        intro c hc
        have := (List.mem_filter.1 ((hfil c).2 hc)).2
        simpa using this
      rw [parentOf_eq h.addrs hb]
      cases hpar : b.parent with
      | none =>
        dsimp only
        refine ⟨fun r hr => ?_, fun c hc => hliv c ((hfil c).1 hc)⟩
        have hr' := ((hrows r).1 hr).1
        rw [hfil, hP r hr', he.row r hr']
        refine and_congr_left fun _ => ⟨fun ⟨q, hq, hp⟩ => ⟨q, (hrows q).2 ⟨hq, ?_⟩, hp⟩, fun ⟨q, hq, hp⟩ => ⟨q, ((hrows q).1 hq).1, hp⟩⟩
        rintro rfl
        rw [hpar] at hp; cases hp
      | some p =>
        dsimp only
        split
        · next hk =>
          rw [hasKids_iff] at hk
          refine ⟨fun r hr => ?_, fun c hc => hliv c ((hfil c).1 hc)⟩
          have hr' := ((hrows r).1 hr).1
          rw [hfil, hP r hr', he.row r hr']
          refine and_congr_left fun _ => ⟨fun ⟨q, hq, hp⟩ => ?_, fun ⟨q, hq, hp⟩ => ⟨q, ((hrows q).1 hq).1, hp⟩⟩
          by_cases hqb : q = b
          · subst hqb
            rw [hpar] at hp
            cases hp
            exact hk
          · exact ⟨q, (hrows q).2 ⟨hq, hqb⟩, hp⟩
        · next hk =>
          rw [hasKids_iff] at hk
          obtain ⟨q, hq, rfl⟩ := h.live b hb p hpar
          have hqb : q ≠ b := fun e => h.path_ne hb (by rw [hpar, e])
          have hq' : q ∈ m'.rows := (hrows q).2 ⟨hq, hqb⟩
          have htog : ∀ c, c ∈ toggled memory m' ((opened.filter (fun c => m'.rows.any (fun r => decide (r.addr = c)))).filter (· ≠ q.addr)) q.addr
              ↔ c ∈ opened ∧ c ≠ q.addr := by
            intro c
            rw [mem_toggled h'.addrs hq', List.mem_filter, hfil]
            constructor
            · rintro (x | x)
              · exact ⟨x.1, by simpa using x.2⟩
              · exact absurd x.2.2.1 hk
            · exact fun x => Or.inl ⟨x.1, by simpa using x.2⟩
          refine ⟨fun r hr => ?_, fun c hc => hliv c ((htog c).1 hc).1⟩
          have hr' := ((hrows r).1 hr).1
          rw [htog, hP r hr', he.row r hr']
          by_cases hrq : r = q
          · subst hrq
            exact ⟨fun x => absurd rfl x.2, fun x => absurd x.1 hk⟩
          · have hne : r.addr ≠ q.addr := fun e => hrq (h.same hr' hq e)
            constructor
            · rintro ⟨⟨⟨y, hy, hp⟩, x2⟩, -⟩
              refine ⟨⟨y, (hrows y).2 ⟨hy, ?_⟩, hp⟩, x2⟩
              rintro rfl
              rw [hpar] at hp
              exact hne (Option.some.inj hp).symm
            · rintro ⟨⟨y, hy, hp⟩, x2⟩
              exact ⟨⟨⟨y, ((hrows y).1 hy).1, hp⟩, x2⟩, hne⟩

/-- A series of signals. -/
theorem EInv.hearAll (hO : GtkSound O) (cs : List TM.Act) : ∀ {m : TM} {rows rows' : List (List Id)} {P : Nat → List Id} {opened : List Nat},
    TInv m rows P → EInv m P opened (remembered memory) → replay (signals cs) rows = some rows' → Throughout O FreshNow cs m →
    Throughout O NotCached cs m → Throughout O ParentThere cs m →
    ∃ m' P', TM.run O cs m = .ok m' ∧ TInv m' rows' P' ∧ EInv m' P' (Widget.hearAll O memory cs m opened) (remembered memory) := by
  induction cs with
  | nil => intro m rows rows' P opened h he hw _ _ _; cases hw; exact ⟨m, P, rfl, h, he⟩
  | cons c cs ih =>
    intro m rows rows' P opened h he hw hf hc hl
    rw [replay_signals_cons] at hw
    obtain ⟨rows1, hw1, hw2⟩ := Option.bind_eq_some_iff.1 hw
    obtain ⟨m1, P1, e1, i1, -, -, j3⟩ := tmAct_inv hO h hw1 hf.1 hc.1 hl.1
    have est : (m.act O c).state = m1 := by rw [e1]; rfl
    have he1 := he.hear hO h hw1 hf.1 hc.1 hl.1 e1 i1 j3
    obtain ⟨m', P', e2, i2, he2⟩ := ih i1 he1 hw2 (est ▸ hf.2) (est ▸ hc.2) (est ▸ hl.2)
    refine ⟨m', P', by rw [TM.run, e1]; exact e2, i2, ?_⟩
    unfold Widget.hearAll
    rw [e1]
    exact he2

end Larch
