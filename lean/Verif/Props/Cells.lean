import Verif.Proofs.Touched

/-!
# C47: the columns of the GTK tree model are up to date
-/

namespace Larch

open Spec TM

variable {V W : Type}

/-! ### One step of the GTK model -/

/-- The rows carry the values kept for their paths. -/
def CellsAre (m : CModel W) (P : Nat → List Id) (C : List Id → List (Option W)) : Prop :=
  ∀ r ∈ m.tm.rows, m.cells r.addr = C (P r.addr).reverse

/-- The rows and caches of the model do not depend on the columns. -/
theorem CModel.act_tm {O : GtkOrder} {types : List (V → Option W)} {m : CModel W} {d : Id → V} {c : TM.Act} {m' : CModel W}
    (h : m.act O types d c = .ok m') : m.tm.act O c = .ok m'.tm := by
  have hw : ∀ {cells : Nat → List (Option W)} {r : Res TM}, CModel.withTM cells r = .ok m' → r = .ok m'.tm := by
    intro cells r h
    cases r with
    | err e s => cases h
    | ok s => cases h; rfl
  cases c with
  | lookup path => cases h; rfl
  | sig s a shown =>
    obtain ⟨ev, nid, path⟩ := s
    cases ev with
    | added => exact hw h
    | deleted => exact hw h
    | modified =>
      change m.updateTask O types d nid path shown = .ok m' at h
      show m.tm.updateTask O path shown = .ok m'.tm
      unfold CModel.updateTask at h
      unfold TM.updateTask
      cases shown with
      | false => cases h; rfl
      | true =>
        simp only [if_true] at h ⊢
        cases hg : m.tm.getIter O path with
        | mk it tm =>
          rw [hg] at h
          cases it with
          | none => cases h; rfl
          | some a => cases h; rfl

theorem CellsAre.act {O : GtkOrder} (hO : GtkSound O) {types : List (V → Option W)} {m : CModel W} {rows rows' : List (List Id)}
    {P : Nat → List Id} {C : List Id → List (Option W)} (hi : TInv m.tm rows P) (hc : CellsAre m P C) {d : Id → V} {c : TM.Act}
    (hsh : ∀ s a b, c = .sig s a b → b = true)
    (hw : replay (signals [c]) rows = some rows') (hf : FreshNow m.tm c) (hn : NotCached m.tm c) (hl : ParentThere m.tm c) :
    ∃ m' P', m.act O types d c = .ok m' ∧ TInv m'.tm rows' P' ∧ CellsAre m' P' (paintAll types (told [(c, d)]) C) := by
  cases c with
  | lookup path =>
    obtain ⟨-, i2, -, i4⟩ := hi.lookup hO (ParentThere.tail hi hl)
    cases hw
    exact ⟨_, P, rfl, i4, fun r hr => hc r (i2 ▸ hr)⟩
  | sig s a shown =>
    have hsh := hsh s a shown rfl
    subst hsh
    have hw' : (applySig rows s).bind (replay []) = some rows' := hw
    obtain ⟨rows1, hs, e⟩ := Option.bind_eq_some_iff.1 hw'
    cases e
    unfold applySig at hs
    split at hs
    · next hlast =>
      obtain ⟨ev, nid, path⟩ := s
      show ∃ m' P', (match ev with
        | .added => m.addTask O types d nid path a
        | .modified => m.updateTask O types d nid path true
        | .deleted => CModel.withTM m.cells (m.tm.removeTask O nid path)) = .ok m' ∧ _
      cases ev with
      | added =>
        dsimp only at hs hlast ⊢
        split at hs
        · next hcond =>
          cases hs
          obtain ⟨m', P', e1, e2, e3, -, e5, e6⟩ := hi.add hO hlast hcond.1 hcond.2 (hf rfl) (hn rfl)
          unfold CModel.addTask
          rw [e1]
          refine ⟨_, P', rfl, e2, fun r hr => ?_⟩
          show CModel.store m.cells a _ r.addr = paint types d C _ _
          unfold CModel.store paint
          by_cases hra : r.addr = a
          · rw [if_pos hra, hra, e5, List.reverse_reverse, if_pos rfl]
          · rw [if_neg hra]
            obtain ⟨q, hq, hqa⟩ := (e3 r hr).resolve_left hra
            rw [e6 _ hra, if_neg]
            · rw [← hqa]; exact hc q hq
            · intro e
              refine hcond.1 ((hi.img _).2 ⟨q, hq, ?_⟩)
              rw [hqa]; exact (List.reverse_eq_iff.1 e)
        · cases hs
      | modified =>
        dsimp only at hs hlast ⊢
        split at hs
        · next hcond =>
          cases hs
          obtain ⟨i1, i2, -, i4⟩ := hi.lookup hO (hi.tail hcond)
          unfold CModel.updateTask
          rw [if_pos rfl]
          obtain ⟨q, hq, hqp⟩ := (hi.img _).1 hcond
          have hit := (i1 q.addr).2 (by simpa using hi.rowPath _ q hq hqp)
          cases hg : m.tm.getIter O path with
          | mk it tm =>
            rw [hg] at hit i2 i4
            dsimp only at hit i2 i4 ⊢
            rw [hit]
            refine ⟨_, P, rfl, i4, fun r hr => ?_⟩
            have hr' : r ∈ m.tm.rows := by rw [← i2]; exact hr
            show CModel.store m.cells q.addr _ r.addr = paint types d C _ _
            unfold CModel.store paint
            by_cases hra : r.addr = q.addr
            · have hrp : (P r.addr).reverse = path := by rw [hra, hqp, List.reverse_reverse]
              rw [if_pos hra, if_pos hrp]
              dsimp only
              rw [← hra, hc r hr']
            · rw [if_neg hra, if_neg]
              · exact hc r hr'
              · intro e
                refine hra (congrArg GRow.addr (hi.inj r hr' q hq ?_))
                rw [hqp]; exact (List.reverse_eq_iff.1 e)
        · cases hs
      | deleted =>
        dsimp only at hs hlast ⊢
        split at hs
        · next hcond =>
          cases hs
          obtain ⟨m', e1, e2, e3, -⟩ := hi.remove hO hlast hcond.1 hcond.2
          rw [e1]
          refine ⟨_, P, rfl, e2, fun r hr => ?_⟩
          show m.cells r.addr = paint types d C _ _
          unfold paint
          have : (if (P r.addr).reverse = path then C (P r.addr).reverse else C (P r.addr).reverse) = C (P r.addr).reverse := by
            split <;> rfl
          exact (hc r (e3 r hr)).trans this.symm
        · cases hs
    · cases hs

theorem told_cons (c : TM.Act × (Id → V)) (h : List (TM.Act × (Id → V))) : told (c :: h) = told [c] ++ told h := by
  obtain ⟨c, d⟩ := c
  cases c <;> rfl

theorem told_signals (h : List (TM.Act × (Id → V))) : (told h).map Prod.fst = signals (h.map Prod.fst) := by
  induction h with
  | nil => rfl
  | cons c h ih =>
    obtain ⟨c, d⟩ := c
    cases c with
    | lookup p => exact ih
    | sig s a b => exact congrArg (s :: ·) ih

theorem CellsAre.run {O : GtkOrder} (hO : GtkSound O) {types : List (V → Option W)} (h : List (TM.Act × (Id → V))) :
    ∀ {m : CModel W} {rows rows' : List (List Id)} {P : Nat → List Id} {C : List Id → List (Option W)}, TInv m.tm rows P →
    CellsAre m P C → ShownWhenSent h → replay (signals (h.map Prod.fst)) rows = some rows' →
    Throughout O FreshNow (h.map Prod.fst) m.tm → Throughout O NotCached (h.map Prod.fst) m.tm →
    Throughout O ParentThere (h.map Prod.fst) m.tm →
    ∃ m' P', CModel.run O types h m = .ok m' ∧ TInv m'.tm rows' P' ∧ CellsAre m' P' (paintAll types (told h) C) := by
  induction h with
  | nil => intro m rows rows' P C hi hc _ hw _ _ _; cases hw; exact ⟨m, P, rfl, hi, hc⟩
  | cons c h ih =>
    intro m rows rows' P C hi hc hsh hw hf hn hl
    rw [List.map_cons, replay_signals_cons] at hw
    obtain ⟨rows1, hw1, hw2⟩ := Option.bind_eq_some_iff.1 hw
    obtain ⟨m1, P1, e1, i1, c1⟩ := hc.act hO hi (d := c.2) (fun s a b e => hsh c (by simp) s a b e) hw1 hf.1 hn.1 hl.1
    have est : (m.tm.act O c.1).state = m1.tm := by rw [CModel.act_tm e1]; rfl
    obtain ⟨m2, P2, e2, i2, c2⟩ := ih i1 c1 (fun q hq => hsh q (by simp [hq])) hw2 (est ▸ hf.2) (est ▸ hn.2) (est ▸ hl.2)
    refine ⟨m2, P2, by rw [CModel.run, e1]; exact e2, i2, ?_⟩
    rw [told_cons, paintAll_append]
    exact c2

/-- The signals of a view that is right, heard by a GTK model from the first one on. -/
theorem VState.cells {diff : List Id → List Id → List Id} (hdiff : SetDiff diff) {O : GtkOrder} (hO : GtkSound O)
    (types : List (V → Option W)) {a0 : FApp V} (h0 : VState diff a0) {cs : List (FAct V)} (hf : ViewFairRun diff cs a0) :
    ∃ a, FApp.run diff cs a0 = .ok a ∧
      ∀ h : List (TM.Act × (Id → V)), told h = sentInAll diff cs a0 →
        ShownWhenSent h → (addresses (h.map Prod.fst)).Nodup → Throughout O ParentThere (h.map Prod.fst) {} →
        ∃ m : CModel W, CModel.run O types h {} = .ok m ∧
          (∀ l, IsRow a.ft l ↔ ∃ r ∈ m.tm.rows, RowPath m.tm.rows r.addr l) ∧
          (∀ path, IsRow a.ft path → ∀ b, (m.tm.getIter O path).1 = some b ↔ RowPath m.tm.rows b path) ∧
          CellsCurrent types a.data m := by
  obtain ⟨rows0, r1, -, -⟩ := h0.observerAgrees
  obtain ⟨a, rows, ea, ha, hr, hout, hcur⟩ := run_current hdiff types cs h0 hf r1 (new_current types r1 fun _ => [])
  rw [← paintAll_append] at hcur
  refine ⟨a, ea, fun h ht hsh hadd hl => ?_⟩
  have hsig : signals (h.map Prod.fst) = a.ft.view.out := by
    rw [← told_signals, ht, sentInAll, hout, List.map_append]
    simp [Function.comp_def]
  have hrep : replay (signals (h.map Prod.fst)) [] = some rows := by rw [hsig]; exact hr
  obtain ⟨hf', hc'⟩ := no_reuse hO (h.map Prod.fst) (m := {}) (U := []) (TInv.init (P := fun _ => [])) hrep hadd
    (fun r hr => by cases hr) (fun k b hk => by cases hk) hl
  obtain ⟨m, P, em, hi, hcells⟩ := CellsAre.run hO (types := types) h (m := {}) (C := fun _ => [])
    (TInv.init (P := fun _ => [])) (fun r hr => by cases hr) hsh hrep hf' hc' hl
  rw [ht] at hcells
  obtain ⟨rows', r1', -, r3⟩ := ha.observerAgrees
  rw [hr] at r1'
  cases r1'
  refine ⟨m, em, fun l => ?_, fun path hp => (hi.lookup hO (hi.tail ((r3 path).2 hp))).1, ?_⟩
  · rw [← r3, hi.img]
    constructor
    · rintro ⟨r, hr, e⟩
      exact ⟨r, hr, by simpa using hi.rowPath _ r hr e⟩
    · rintro ⟨r, hr, hl⟩
      exact ⟨r, hr, (hi.of_rowPath hl).2⟩
  · intro r hr' k f w hk hw
    rw [hcells r hr']
    have hin : (P r.addr).reverse ∈ rows := (hi.img _).2 ⟨r, hr', by simp⟩
    refine (hcur _ hin r.nid ?_).val k f w hk hw
    rw [hi.path r hr']
    simp


/-- **C47** (partial): the signals of a view, after any fair history of an application (C26), fed to a GTK model together
with the data of the moment and with any interleaved lookups: nothing raises, the rows are the rows of the view, the row
of a path is the one that is found for it, and every row shows in every column the value computed from the present data of
its node.

Missing: a value that is `None` now (`C47_refuted_none`), and what is missing in C36. -/
theorem C47_cells_partial {diff : List Id → List Id → List Id} {ops : List Op}
    {bcs : List (Bank.Call (Id → V))} {root : Id} (hs : ViewStart ops root)
    (hdiff : SetDiff diff) (d : Id → V) {O : GtkOrder} (hO : GtkSound O) (types : List (V → Option W)) :
    ∃ ft, FT.new diff (Bank.run {} bcs) (runOps St.init ops).t d root true = .ok ft ∧
      ∀ cs, ViewFairRun diff cs ⟨runOps St.init ops, d, Bank.run {} bcs, ft⟩ →
        ∃ a, FApp.run diff cs ⟨runOps St.init ops, d, Bank.run {} bcs, ft⟩ = .ok a ∧
          ∀ h : List (TM.Act × (Id → V)), told h = sentInAll diff cs ⟨runOps St.init ops, d, Bank.run {} bcs, ft⟩ →
            ShownWhenSent h → (addresses (h.map Prod.fst)).Nodup → Throughout O ParentThere (h.map Prod.fst) {} →
            ∃ m : CModel W, CModel.run O types h {} = .ok m ∧
              (∀ l, IsRow a.ft l ↔ ∃ r ∈ m.tm.rows, RowPath m.tm.rows r.addr l) ∧
              (∀ path, IsRow a.ft path → ∀ b, (m.tm.getIter O path).1 = some b ↔ RowPath m.tm.rows b path) ∧
              CellsCurrent types a.data m := by
  obtain ⟨ft, e, h0⟩ := hs.run hdiff d
  obtain ⟨a0, e0, h0⟩ := h0 [] trivial
  cases e0
  exact ⟨ft, e, fun cs hf => h0.cells hdiff hO types hf⟩

/-! ### An example, and the limit -/

/-- Hand a list of signals to a model, with new rows at ever new addresses. -/
def feed : List (Sig × (Id → V)) → Nat → List (TM.Act × (Id → V))
  | [], _ => []
  | (s, d) :: l, k => (.sig s k true, d) :: feed l (k + 1)

/-- Every list of signals can be handed over in the way C47 asks for. -/
theorem feed_ok (O : GtkOrder) (l : List (Sig × (Id → V))) : ∀ (k : Nat) (m : TM), told (feed l k) = l ∧ ShownWhenSent (feed l k) ∧
    ((addresses ((feed l k).map Prod.fst)).Nodup ∧ ∀ a ∈ addresses ((feed l k).map Prod.fst), k ≤ a) ∧
    Throughout O ParentThere ((feed l k).map Prod.fst) m := by
  induction l with
  | nil => intro k m; exact ⟨rfl, (fun c hc => by cases hc), ⟨List.nodup_nil, (fun a ha => by cases ha)⟩, trivial⟩
  | cons x l ih =>
    intro k m
    obtain ⟨s, d⟩ := x
    obtain ⟨i1, i2, ⟨i3, i4⟩, i5⟩ := ih (k + 1) (m.act O (.sig s k true)).state
    refine ⟨congrArg ((s, d) :: ·) i1, ?_, ?_, trivial, i5⟩
    · intro c hc s' a b e
      rcases List.mem_cons.1 hc with rfl | hc
      · cases e; rfl
      · exact i2 c hc s' a b e
    · show List.Nodup (if s.ev = .added then k :: addresses ((feed l (k + 1)).map Prod.fst) else addresses ((feed l (k + 1)).map Prod.fst)) ∧
        ∀ a ∈ (if s.ev = .added then k :: addresses ((feed l (k + 1)).map Prod.fst) else addresses ((feed l (k + 1)).map Prod.fst)), k ≤ a
      split
      · refine ⟨List.nodup_cons.2 ⟨fun h => by have := i4 k h; omega, i3⟩, fun a ha => ?_⟩
        rcases List.mem_cons.1 ha with rfl | ha
        · exact le_refl _
        · have := i4 a ha; omega
      · exact ⟨i3, fun a ha => by have := i4 a ha; omega⟩

/-- Two columns: the number itself, and the number if it is small. -/
def someTypes : List (Nat → Option Nat) := [fun v => some v, fun v => if v < 5 then some v else none]

theorem viewApp_new : FT.new someDiff (Bank.run {} countBank) (runOps St.init viewOps).t (fun _ => 0) (.str 100) true =
    .ok viewApp.ft := rfl

/-- C47 for a concrete history. -/
example : ∃ a, FApp.run someDiff viewHistory viewApp = .ok a ∧
    ∃ m : CModel Nat, CModel.run byInsertion someTypes (feed (sentInAll someDiff viewHistory viewApp) 0) {} = .ok m ∧
      CellsCurrent someTypes a.data m := by
  obtain ⟨ft, e, h⟩ := C47_cells_partial viewStart someDiff_ok (fun _ => 0) byInsertion_sound someTypes
  rw [viewApp_new] at e
  cases e
  obtain ⟨a, ea, h⟩ := h viewHistory viewHistory_fair
  obtain ⟨h1, h2, ⟨h3, -⟩, h4⟩ := feed_ok byInsertion (sentInAll someDiff viewHistory viewApp) 0 {}
  obtain ⟨m, em, -, -, hm⟩ := h _ h1 h2 h3 h4
  exact ⟨a, ea, m, em, hm⟩

/-- The rows and their values at the end: 1 with its number 3, and 2 below it with its number 8. -/
example : (CModel.run byInsertion someTypes (feed (sentInAll someDiff viewHistory viewApp) 0) {}).state.tm.rows.map
      (fun r => (r.nid, (CModel.run byInsertion someTypes (feed (sentInAll someDiff viewHistory viewApp) 0) {}).state.cells r.addr)) =
    [(.str 1, [some 3, some 3]), (.str 2, [some 8, none])] := by decide

/-- **C47 is false for a value that becomes `None`**: the number of node 1 changes from 0 to 7, the second column has no
value any more, and the row still shows the old one. -/
theorem C47_refuted_none : ViewFairRun someDiff [.change (.str 1) 7] viewApp ∧
    (∃ a, FApp.run someDiff [.change (.str 1) 7] viewApp = .ok a ∧ a.data (.str 1) = 7) ∧
    ∃ m : CModel Nat, CModel.run byInsertion someTypes (feed (sentInAll someDiff [.change (.str 1) 7] viewApp) 0) {} = .ok m ∧
      ∃ r ∈ m.tm.rows, r.nid = .str 1 ∧ m.cells r.addr = [some 7, some 0] ∧ CModel.build someTypes 7 = [some 7, none] := by
  refine ⟨⟨.inl (ownBank_run _ countBank_own).2.applied, trivial⟩, ⟨_, rfl, rfl⟩, _, rfl, ⟨0, none, .str 1⟩, by decide, rfl, rfl, rfl⟩

end Larch
