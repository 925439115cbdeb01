import Verif.Proofs.TreeModel
import Verif.Props.FilteredTree

/-!
# C36: the GTK tree model mirrors the signals
-/

namespace Larch

open Spec TM

theorem Throughout.and {O : GtkOrder} {Q R : TM → TM.Act → Prop} {h : List TM.Act} {m : TM} (h1 : Throughout O Q h m)
    (h2 : Throughout O R h m) : Throughout O (fun m c => Q m c ∧ R m c) h m := by
  induction h generalizing m with
  | nil => trivial
  | cons c h ih => exact ⟨⟨h1.1, h2.1⟩, ih h1.2 h2.2⟩

theorem ParentThere.tail {m : TM} {rows : List (List Id)} {P : Nat → List Id} (h : TInv m rows P) {path : List Id}
    (hp : path.dropLast = [] ∨ ∃ a, RowPath m.rows a path.dropLast) :
    path.reverse.tail = [] ∨ ∃ r ∈ m.rows, P r.addr = path.reverse.tail := by
  have e : path.reverse.tail = path.dropLast.reverse := by
    rcases List.eq_nil_or_concat path with rfl | ⟨l, x, rfl⟩
    · rfl
    · simp
  rw [e]
  rcases hp with hp | ⟨a, hp⟩
  · exact Or.inl (by rw [hp]; rfl)
  · obtain ⟨⟨r, hr, rfl⟩, e'⟩ := h.of_rowPath hp
    exact Or.inr ⟨r, hr, e'⟩

/-- One step of a well-formed stream. `U` collects addresses that were in use. -/
theorem tmAct_inv {O : GtkOrder} (hO : GtkSound O) {m : TM} {rows rows' : List (List Id)} {P : Nat → List Id}
    (h : TInv m rows P) {c : TM.Act} (hw : replay (signals [c]) rows = some rows') (hf : FreshNow m c)
    (hc : NotCached m c) (hl : ParentThere m c) :
    ∃ m' P', m.act O c = .ok m' ∧ TInv m' rows' P' ∧
      (∀ r ∈ m'.rows, r.addr ∈ addresses [c] ∨ ∃ q ∈ m.rows, q.addr = r.addr) ∧
      (∀ k b, m'.cpaths k = some b → m.cpaths k = some b ∨ ∃ r ∈ m.rows, r.addr = b) ∧
      ∀ r ∈ m.rows, P' r.addr = P r.addr := by
  cases c with
  | lookup path =>
    obtain ⟨-, i2, i3, i4⟩ := h.lookup hO (ParentThere.tail h hl)
    cases hw
    exact ⟨_, P, rfl, i4, fun r hr => Or.inr ⟨r, i2 ▸ hr, rfl⟩, i3, fun _ _ => rfl⟩
  | sig s a shown =>
    have hw' : (applySig rows s).bind (replay []) = some rows' := hw
    obtain ⟨rows1, hs, e⟩ := Option.bind_eq_some_iff.1 hw'
    cases e
    unfold applySig at hs
    split at hs
    · next hlast =>
      obtain ⟨ev, nid, path⟩ := s
      show ∃ m' P', (match ev with
        | .added => m.addTask O nid path a
        | .modified => m.updateTask O path shown
        | .deleted => m.removeTask O nid path) = .ok m' ∧ _
      cases ev with
      | added =>
        dsimp only at hs ⊢
        split at hs
        · next hcond =>
          cases hs
          obtain ⟨m', P', e1, e2, e3, e4, -, e5⟩ := h.add hO hlast hcond.1 hcond.2 (hf rfl) (hc rfl)
          refine ⟨m', P', e1, e2, fun r hr => ?_, e4, fun r hr => e5 _ (hf rfl r hr)⟩
          rcases e3 r hr with e | e
          · exact Or.inl (by simp [addresses, e])
          · exact Or.inr e
        · cases hs
      | modified =>
        dsimp only at hs ⊢
        split at hs
        · next hcond =>
          cases hs
          unfold TM.updateTask
          cases shown with
          | true =>
            obtain ⟨-, i2, i3, i4⟩ := h.lookup hO (h.tail hcond)
            exact ⟨_, P, rfl, i4, fun r hr => Or.inr ⟨r, i2 ▸ hr, rfl⟩, i3, fun _ _ => rfl⟩
          | false => exact ⟨_, P, rfl, h, fun r hr => Or.inr ⟨r, hr, rfl⟩, fun _ _ e => Or.inl e, fun _ _ => rfl⟩
        · cases hs
      | deleted =>
        dsimp only at hs ⊢
        split at hs
        · next hcond =>
          cases hs
          obtain ⟨m', e1, e2, e3, e4⟩ := h.remove hO hlast hcond.1 hcond.2
          exact ⟨m', P, e1, e2, fun r hr => Or.inr ⟨r, e3 r hr, rfl⟩, e4, fun _ _ => rfl⟩
        · cases hs
    · cases hs

theorem replay_signals_cons (c : TM.Act) (h : List TM.Act) (rows : List (List Id)) :
    replay (signals (c :: h)) rows = (replay (signals [c]) rows).bind (replay (signals h)) := by
  cases c with
  | lookup p => rfl
  | sig s a b =>
    show (applySig rows s).bind _ = ((applySig rows s).bind (replay [])).bind _
    cases applySig rows s <;> rfl

theorem tmRun_inv {O : GtkOrder} (hO : GtkSound O) (h : List TM.Act) : ∀ {m : TM} {rows rows' : List (List Id)}
    {P : Nat → List Id}, TInv m rows P → replay (signals h) rows = some rows' → Throughout O FreshNow h m →
    Throughout O NotCached h m → Throughout O ParentThere h m →
    ∃ m' P', TM.run O h m = .ok m' ∧ TInv m' rows' P' := by
  induction h with
  | nil => intro m rows rows' P hi hw _ _ _; cases hw; exact ⟨m, P, rfl, hi⟩
  | cons c h ih =>
    intro m rows rows' P hi hw hf hc hl
    rw [replay_signals_cons] at hw
    obtain ⟨rows1, hw1, hw2⟩ := Option.bind_eq_some_iff.1 hw
    obtain ⟨m1, P1, e1, i1, -, -, -⟩ := tmAct_inv hO hi hw1 hf.1 hc.1 hl.1
    have est : (m.act O c).state = m1 := by rw [e1]; rfl
    obtain ⟨m', P', e2, i2⟩ := ih i1 hw2 (est ▸ hf.2) (est ▸ hc.2) (est ▸ hl.2)
    exact ⟨m', P', by rw [TM.run, e1]; exact e2, i2⟩

theorem TInv.finds {O : GtkOrder} (hO : GtkSound O) {m : TM} {rows : List (List Id)} {P : Nat → List Id}
    (h : TInv m rows P) : Finds O m rows := by
  intro path hp
  refine (h.lookup hO (ParentThere.tail h ?_)).1
  rcases hp with hp | hp
  · exact Or.inl hp
  · obtain ⟨r, hr, e⟩ := (h.img _).1 hp
    exact Or.inr ⟨r.addr, by simpa using h.rowPath _ r hr e⟩

/-- **C36** (partial). For every order of the rows, every well-formed stream of signals and every interleaving with
lookups: nothing raises, the rows of the store are exactly the announced paths, and the row found for a path is the row of
that path, or nothing is found if there is none.

Missing: a new row that lives where another path of its node is still cached (`C36_refuted_reuse`), and looking up a path
whose parent row is not there (`C36_refuted_lookup`); the claim is false for both. -/
theorem C36_mirror_partial {O : GtkOrder} (hO : GtkSound O) (h : List TM.Act) {rows : List (List Id)}
    (hw : replay (signals h) [] = some rows) (hf : Throughout O FreshNow h {}) (hc : Throughout O NotCached h {})
    (hl : Throughout O ParentThere h {}) :
    ∃ m, TM.run O h {} = .ok m ∧ Mirrors m.rows rows ∧ Finds O m rows := by
  obtain ⟨m, P, e, hi⟩ := tmRun_inv hO h (TInv.init (P := fun _ => [])) hw hf hc hl
  exact ⟨m, e, hi.mirrors, hi.finds hO⟩

/-- If no address is used twice, both conditions on addresses hold. -/
theorem no_reuse {O : GtkOrder} (hO : GtkSound O) (h : List TM.Act) : ∀ {m : TM} {rows rows' : List (List Id)}
    {P : Nat → List Id} {U : List Nat}, TInv m rows P → replay (signals h) rows = some rows' →
    (U ++ addresses h).Nodup → (∀ r ∈ m.rows, r.addr ∈ U) → (∀ k b, m.cpaths k = some b → b ∈ U) →
    Throughout O ParentThere h m → Throughout O FreshNow h m ∧ Throughout O NotCached h m := by
  induction h with
  | nil => intros; exact ⟨trivial, trivial⟩
  | cons c h ih =>
    intro m rows rows' P U hi hw hn hr hk hl
    have hcons : addresses (c :: h) = addresses [c] ++ addresses h := by
      cases c with
      | lookup p => rfl
      | sig s a b => simp only [addresses]; split <;> simp
    rw [hcons, ← List.append_assoc] at hn
    have hfresh : ∀ a ∈ addresses [c], a ∉ U := fun a ha hu =>
      (List.nodup_append.1 (List.nodup_append.1 hn).1).2.2 a hu a ha rfl
    have hf : FreshNow m c := by
      cases c with
      | lookup p => trivial
      | sig s a b =>
        intro hev r hr' e
        exact hfresh a (by simp [addresses, hev]) (e ▸ hr r hr')
    have hc : NotCached m c := by
      cases c with
      | lookup p => trivial
      | sig s a b =>
        intro hev k hk' _
        exact absurd (hk k a hk') (hfresh a (by simp [addresses, hev]))
    rw [replay_signals_cons] at hw
    obtain ⟨rows1, hw1, hw2⟩ := Option.bind_eq_some_iff.1 hw
    obtain ⟨m1, P1, e1, i1, j1, j2, -⟩ := tmAct_inv hO hi hw1 hf hc hl.1
    have est : (m.act O c).state = m1 := by rw [e1]; rfl
    have := ih (U := U ++ addresses [c]) i1 hw2 hn
      (fun r hr' => by
        rcases j1 r hr' with e | ⟨q, hq, e⟩
        · exact List.mem_append_right _ e
        · exact List.mem_append_left _ (e ▸ hr q hq))
      (fun k b hb => by
        rcases j2 k b hb with e | ⟨q, hq, e⟩
        · exact List.mem_append_left _ (hk k b e)
        · exact List.mem_append_left _ (e ▸ hr q hq))
      (est ▸ hl.2)
    rw [← est] at this
    exact ⟨⟨hf, this.1⟩, ⟨hc, this.2⟩⟩

/-- **C36** (partial), with a condition on the memory alone: no address is ever used for two rows. -/
theorem C36_mirror_no_reuse_partial {O : GtkOrder} (hO : GtkSound O) (h : List TM.Act) {rows : List (List Id)}
    (hw : replay (signals h) [] = some rows) (ha : (addresses h).Nodup) (hl : Throughout O ParentThere h {}) :
    ∃ m, TM.run O h {} = .ok m ∧ Mirrors m.rows rows ∧ Finds O m rows := by
  obtain ⟨hf, hc⟩ := no_reuse hO h (U := []) (TInv.init (P := fun _ => [])) hw ha (fun r hr => by cases hr)
    (fun k b hk => by cases hk) hl
  exact C36_mirror_partial hO h hw hf hc hl

/-- **C36, end to end** (partial): the signals of a view, after any fair history of an application (C26), fed to a GTK
model with any interleaved lookups, leave it with exactly the rows of the view, and lookups find them. -/
theorem C36_view_partial {V : Type} {diff : List Id → List Id → List Id} {ops : List Op}
    {bcs : List (Bank.Call (Id → V))} {root : Id} (hs : ViewStart ops root)
    (hdiff : SetDiff diff) (d : Id → V) {O : GtkOrder} (hO : GtkSound O) :
    ∃ ft, FT.new diff (Bank.run {} bcs) (runOps St.init ops).t d root true = .ok ft ∧
      ∀ cs, ViewFairRun diff cs ⟨runOps St.init ops, d, Bank.run {} bcs, ft⟩ →
        ∃ a, FApp.run diff cs ⟨runOps St.init ops, d, Bank.run {} bcs, ft⟩ = .ok a ∧
          ∀ h : List TM.Act, signals h = a.ft.view.out → (addresses h).Nodup → Throughout O ParentThere h {} →
            ∃ m, TM.run O h {} = .ok m ∧ (m.rows.map GRow.addr).Nodup ∧
              (∀ l, IsRow a.ft l ↔ ∃ r ∈ m.rows, RowPath m.rows r.addr l) ∧
              ∀ path, IsRow a.ft path → ∀ b, (m.getIter O path).1 = some b ↔ RowPath m.rows b path := by
  obtain ⟨ft, e, hr⟩ := C26_observer_partial hs hdiff d
  refine ⟨ft, e, fun cs hf => ?_⟩
  obtain ⟨a, ea, rows, h1, h2, h3⟩ := hr cs hf
  refine ⟨a, ea, fun h hsig hadd hl => ?_⟩
  obtain ⟨hf', hc'⟩ := no_reuse hO h (U := []) (TInv.init (P := fun _ => [])) (hsig ▸ h1) hadd
    (fun r hr => by cases hr) (fun k b hk => by cases hk) hl
  obtain ⟨m, P, em, hi⟩ := tmRun_inv hO h (TInv.init (P := fun _ => [])) (hsig ▸ h1) hf' hc' hl
  refine ⟨m, em, hi.addrs, fun l => ?_, fun path hp => (hi.lookup hO (hi.tail ((h3 path).2 hp))).1⟩
  rw [← h3, hi.img]
  constructor
  · rintro ⟨r, hr, e⟩
    exact ⟨r, hr, by simpa using hi.rowPath _ r hr e⟩
  · rintro ⟨r, hr, hl⟩
    exact ⟨r, hr, (hi.of_rowPath hl).2⟩

/-! ## An order, an example, and the limits -/

/-- Rows in the order of their insertion. -/
def byInsertion : GtkOrder where
  nth rows p n := ((rows.filter (fun r => r.parent = p))[n]?).map GRow.addr
  next rows a :=
    match rows.find? (fun r => r.addr = a) with
    | none => none
    | some r =>
      (((rows.filter (fun q => q.parent = r.parent)).dropWhile (fun q => q.addr ≠ a)).find? (fun q => q.addr ≠ a)).map
        GRow.addr

theorem byInsertion_sound : GtkSound byInsertion := by
  refine ⟨fun rows p n a e => ?_, fun rows a b e => ?_⟩
  · obtain ⟨r, hr, rfl⟩ := Option.map_eq_some_iff.1 e
    have := List.mem_of_getElem? hr
    rw [List.mem_filter] at this
    exact ⟨r, this.1, rfl, by simpa using this.2⟩
  · have e' : (match rows.find? (fun r => r.addr = a) with
      | none => none
      | some r =>
        (((rows.filter (fun q => q.parent = r.parent)).dropWhile (fun q => q.addr ≠ a)).find?
          (fun q => q.addr ≠ a)).map GRow.addr) = some b := e
    split at e'
    · cases e'
    · next r hr =>
      obtain ⟨q, hq, rfl⟩ := Option.map_eq_some_iff.1 e'
      have h1 := (List.dropWhile_sublist _).subset (List.mem_of_find?_eq_some hq)
      rw [List.mem_filter] at h1
      refine ⟨q, h1.1, rfl, by simpa using List.find?_some hq, r, List.mem_of_find?_eq_some hr,
        by simpa using List.find?_some hr, by simpa using h1.2⟩

/-- A signal about the node at the end of a path. -/
def note (ev : SigEv) (path : List Nat) (a : Nat) : TM.Act :=
  .sig ⟨ev, .str (path.getLastD 0), path.map Id.str⟩ a true

/-- Rows come and go, also below each other; the second row of node 3 is found by its position. -/
def tmHistory : List TM.Act :=
  [note .added [1] 10, note .added [2] 11, note .added [1, 3] 12, note .added [1, 4] 13, note .added [2, 3] 14,
   .lookup [.str 1, .str 4], note .modified [1, 4] 0, note .deleted [1, 3] 0, note .deleted [1, 4] 0,
   note .added [1, 3] 15, .lookup [.str 1, .str 3], .lookup [.str 2, .str 9]]

example : ∃ rows m, replay (signals tmHistory) [] = some rows ∧ (addresses tmHistory).Nodup ∧
    TM.run byInsertion tmHistory {} = .ok m ∧
    rows = [[.str 1, .str 3], [.str 2, .str 3], [.str 2], [.str 1]] ∧
    m.rows = [⟨10, none, .str 1⟩, ⟨11, none, .str 2⟩, ⟨14, some 11, .str 3⟩, ⟨15, some 10, .str 3⟩] :=
  ⟨_, _, rfl, by decide, rfl, rfl, rfl⟩

example : Throughout byInsertion ParentThere tmHistory {} := by
  refine ⟨trivial, trivial, trivial, trivial, trivial, Or.inr ⟨10, ?_⟩, trivial, trivial, trivial, trivial,
    Or.inr ⟨10, ?_⟩, Or.inr ⟨11, ?_⟩, trivial⟩
  · exact RowPath.top (r := ⟨10, none, .str 1⟩) (by decide) rfl
  · exact RowPath.top (r := ⟨10, none, .str 1⟩) (by decide) rfl
  · exact RowPath.top (r := ⟨11, none, .str 2⟩) (by decide) rfl

/-- Two top rows are removed (the first iterator then points to the second row), a row for the first node appears below a
third node in the memory of the second row, and the first node comes back to the top. -/
def reuseHistory : List TM.Act :=
  [note .added [9] 20, note .added [1] 21, note .added [2] 22, note .deleted [1] 0, note .deleted [2] 0,
   note .added [9, 1] 22, note .added [1] 23]

/-- **C36 is false if memory is used again**: in a well-formed stream, with every new row at an address where no row
lives, the row found for a path is the row of another path (the cached iterator is valid and its row belongs to the same
node). Removing that path then removes the wrong row. -/
theorem C36_refuted_reuse :
    Throughout byInsertion FreshNow reuseHistory {} ∧ Throughout byInsertion ParentThere reuseHistory {} ∧
    ∃ m rows, replay (signals reuseHistory) [] = some rows ∧ TM.run byInsertion reuseHistory {} = .ok m ∧
      [Id.str 1] ∈ rows ∧ (m.getIter byInsertion [.str 1]).1 = some 22 ∧ RowPath m.rows 22 [.str 9, .str 1] ∧
      ∃ m', m.act byInsertion (note .deleted [1] 0) = .ok m' ∧
        m'.rows = [⟨20, none, .str 9⟩, ⟨23, none, .str 1⟩] := by
  refine ⟨⟨?_, ?_, ?_, ?_, ?_, ?_, ?_, trivial⟩, ⟨trivial, trivial, trivial, trivial, trivial, trivial, trivial, trivial⟩,
    _, _, rfl, rfl, by decide, rfl, ?_, _, rfl, rfl⟩
  · intro _; decide
  · intro _; decide
  · intro _; decide
  · intro h; cases h
  · intro h; cases h
  · intro _; decide
  · intro _; decide
  · exact RowPath.under (r := ⟨22, some 20, .str 1⟩) (l := [.str 9]) (by decide) rfl
      (RowPath.top (r := ⟨20, none, .str 9⟩) (by decide) rfl)

/-- Somebody looks up a path whose parent row is not there yet, while the node has a row at the top. -/
def orphanHistory : List TM.Act :=
  [note .added [1] 21, .lookup [.str 9, .str 1], note .added [9] 20, note .added [9, 1] 22]

/-- **C36 is false if a path is looked up whose parent row is not there**: the search goes on at the top and finds the row
of another path, and the cache keeps it, so that the row found later for an announced path is wrong. -/
theorem C36_refuted_lookup :
    (addresses orphanHistory).Nodup ∧
    ∃ m rows, replay (signals orphanHistory) [] = some rows ∧ TM.run byInsertion orphanHistory {} = .ok m ∧
      [Id.str 9, .str 1] ∈ rows ∧ (m.getIter byInsertion [.str 9, .str 1]).1 = some 21 ∧ RowPath m.rows 21 [.str 1] :=
  ⟨by decide, _, _, rfl, rfl, by decide, rfl, RowPath.top (r := ⟨21, none, .str 1⟩) (by decide) rfl⟩

end Larch
