import Verif.Props.TreeModel
import Verif.Props.Move
import Verif.Proofs.Touched
import Verif.Spec.DragDrop
import Verif.Props.Consistency
import Verif.Props.Untouched

/-!
# C50: drag and drop
-/

namespace Larch

open Spec TM Screen

variable {V : Type} {diff : List Id → List Id → List Id} {O : GtkOrder} {alloc : Nat → Nat}

/-! ### Moving a node, whatever the flags are -/

/-- `move_node(x, p)` changes nothing but the parents of `x`. -/
theorem moveNode_frame {s : St} (h : Good s.t) (x p : Id) : MoveFrame s.t (moveNode s x p).state.t x := by
  by_cases hx : s.t.has x = true
  · obtain ⟨nx, hnx⟩ := (Tree.has_iff _ _).1 hx
    by_cases hen : p ≠ x ∧ nx.parentsEnabled = true
    · by_cases hp : s.t.has p = true
      · obtain ⟨np, hnp⟩ := (Tree.has_iff _ _).1 hp
        by_cases hpc : np.childrenEnabled = true
        · have hacc : Accept s.t p x := ⟨fun nd hn => by rw [hnp] at hn; cases hn; exact hpc, fun nd hn => by rw [hnx] at hn; cases hn; exact hen.2⟩
          by_cases hr : Graph.Reach s.t.rawParents p x
          · obtain ⟨s', e, -, fr, -⟩ := (moveNode_spec h hx hp hen.1 hacc).2 hr
            rw [e]; exact fr
          · obtain ⟨s', e, -, fr, -⟩ := (moveNode_spec h hx hp hen.1 hacc).1 hr
            rw [e]; exact fr
        · have : moveNode s x p = .ok s := by
            unfold moveNode nodeSetParent
            rw [if_pos hx, hnx]; dsimp only
            rw [if_pos hen, hnp]; dsimp only
            rw [if_neg hpc]
          rw [this]; exact MoveFrame.refl _ _
      · obtain ⟨s', e, -, fr, -⟩ := moveNode_absent h hnx (by simpa using hp) hen.2
        rw [e]; exact fr
    · have : moveNode s x p = .ok s := by
        unfold moveNode nodeSetParent
        rw [if_pos hx, hnx]; dsimp only
        rw [if_neg hen]
      rw [this]; exact MoveFrame.refl _ _
  · have : moveNode s x p = .ok s := by
      unfold moveNode
      rw [if_neg hx]
    rw [this]; exact MoveFrame.refl _ _

/-! ### The rows of the model -/

theorem getIterUp_rows (O : GtkOrder) : ∀ (k : List Id) (m : TM), (getIterUp O k m).2.rows = m.rows := by
  intro k
  induction k with
  | nil => intro m; rfl
  | cons x up ih =>
    intro m
    unfold getIterUp
    split
    · split
      · rfl
      · exact ih m
    · exact ih m

/-- A row keeps its node: after a step every row was there before, or lives at the new address. -/
theorem act_rows (O : GtkOrder) (m : TM) (c : TM.Act) : ∀ r ∈ (m.act O c).state.rows, r ∈ m.rows ∨ r.addr ∈ addresses [c] := by
  intro r hr
  cases c with
  | lookup path => exact Or.inl (by have := getIterUp_rows O path.reverse m; exact this ▸ hr)
  | sig s a b =>
    have hg : ∀ p : List Id, (m.getIter O p).2.rows = m.rows := fun p => getIterUp_rows O p.reverse m
    unfold TM.act at hr
    dsimp only at hr
    cases hev : s.ev with
    | added =>
      rw [hev] at hr
      have hr' : r ∈ (m.getIter O s.path.dropLast).2.rows ++ [⟨a, (m.getIter O s.path.dropLast).1, s.nid⟩] := hr
      rw [hg, List.mem_append, List.mem_singleton] at hr'
      rcases hr' with h | rfl
      · exact Or.inl h
      · right; simp [addresses, hev]
    | modified =>
      rw [hev] at hr
      dsimp only [updateTask] at hr
      left
      split at hr
      · exact hg _ ▸ hr
      · exact hr
    | deleted =>
      rw [hev] at hr
      left
      dsimp only [removeTask] at hr
      have hg' := hg s.path
      generalize m.getIter O s.path = g at hr hg'
      obtain ⟨it, m'⟩ := g
      dsimp only at hr hg'
      rw [← hg']
      cases it with
      | none => exact hr
      | some a' =>
        dsimp only at hr
        split at hr
        · split at hr
          · exact (List.mem_filter.1 hr).1
          · exact (List.mem_filter.1 hr).1
        · exact hr

/-- Only `remove_task` removes rows. -/
theorem act_keeps (O : GtkOrder) (m : TM) (c : TM.Act) (hc : ∀ s a b, c = .sig s a b → s.ev ≠ .deleted) :
    ∀ r ∈ m.rows, r ∈ (m.act O c).state.rows := by
  intro r hr
  cases c with
  | lookup path => exact (getIterUp_rows O path.reverse m).symm ▸ hr
  | sig s a b =>
    have hg : ∀ p : List Id, (m.getIter O p).2.rows = m.rows := fun p => getIterUp_rows O p.reverse m
    unfold TM.act
    dsimp only
    cases hev : s.ev with
    | added =>
      show r ∈ (m.getIter O s.path.dropLast).2.rows ++ _
      rw [hg]
      exact List.mem_append_left _ hr
    | modified =>
      dsimp only [updateTask]
      split
      · exact (hg _).symm ▸ hr
      · exact hr
    | deleted => exact absurd hev (hc s a b rfl)

/-- Everything known about a run of the model. -/
theorem tmRun_track (hO : GtkSound O) (h : List TM.Act) : ∀ {m : TM} {rows rows' : List (List Id)}
    {P : Nat → List Id}, TInv m rows P → replay (signals h) rows = some rows' → Throughout O FreshNow h m →
    Throughout O NotCached h m → Throughout O ParentThere h m →
    ∃ m' P', TM.run O h m = .ok m' ∧ TInv m' rows' P' ∧ (∀ r ∈ m'.rows, r ∈ m.rows ∨ r.addr ∈ addresses h) ∧
      (∀ k b, m'.cpaths k = some b → m.cpaths k = some b ∨ (∃ r ∈ m.rows, r.addr = b) ∨ b ∈ addresses h) ∧
      ∀ r ∈ m.rows, (∀ s ∈ signals h, s.ev = .deleted → s.path ≠ (P r.addr).reverse) → r ∈ m'.rows ∧ P' r.addr = P r.addr := by
  induction h with
  | nil => intro m rows rows' P hi hw _ _ _; cases hw; exact ⟨m, P, rfl, hi, fun r hr => Or.inl hr, fun k b hb => Or.inl hb, fun r hr _ => ⟨hr, rfl⟩⟩
  | cons c h ih =>
    intro m rows rows' P hi hw hf hc hl
    have hcons : ∀ b, b ∈ addresses (c :: h) ↔ b ∈ addresses [c] ∨ b ∈ addresses h := by
      intro b
      cases c with
      | lookup p => simp [addresses]
      | sig s a sh => simp only [addresses]; split <;> simp
    rw [replay_signals_cons] at hw
    obtain ⟨rows1, hw1, hw2⟩ := Option.bind_eq_some_iff.1 hw
    obtain ⟨m1, P1, e1, i1, -, j2, j3⟩ := tmAct_inv hO hi hw1 hf.1 hc.1 hl.1
    have est : (m.act O c).state = m1 := by rw [e1]; rfl
    have j1 := act_rows O m c
    rw [est] at j1
    obtain ⟨m', P', e2, i2, k1, k2, k3⟩ := ih i1 hw2 (est ▸ hf.2) (est ▸ hc.2) (est ▸ hl.2)
    refine ⟨m', P', by rw [TM.run, e1]; exact e2, i2, fun r hr => ?_, fun k b hb => ?_, fun r hr hs => ?_⟩
    · rw [hcons]
      rcases k1 r hr with h1 | h1
      · rcases j1 r h1 with h2 | h2
        · exact Or.inl h2
        · exact Or.inr (Or.inl h2)
      · exact Or.inr (Or.inr h1)
    · rw [hcons]
      rcases k2 k b hb with h1 | ⟨r, hr, rfl⟩ | h1
      · rcases j2 k b h1 with h2 | h2
        · exact Or.inl h2
        · exact Or.inr (Or.inl h2)
      · rcases j1 r hr with h2 | h2
        · exact Or.inr (Or.inl ⟨r, h2, rfl⟩)
        · exact Or.inr (Or.inr (Or.inl h2))
      · exact Or.inr (Or.inr (Or.inr h1))
    · have hr1 : r ∈ m1.rows := by
        by_cases hd : ∃ s a b, c = .sig s a b ∧ s.ev = .deleted
        · obtain ⟨s, a, b, rfl, hev⟩ := hd
          have hne : s.path ≠ (P r.addr).reverse := hs s (by simp [signals]) hev
          have hrow : (P r.addr).reverse ∈ rows := (hi.img _).2 ⟨r, hr, by simp⟩
          have hw1' : (applySig rows s).bind (replay []) = some rows1 := hw1
          obtain ⟨rows2, hs2, e⟩ := Option.bind_eq_some_iff.1 hw1'
          cases e
          unfold applySig at hs2
          rw [hev] at hs2
          split at hs2
          · dsimp only at hs2
            split at hs2
            · cases hs2
              obtain ⟨q, hq, e⟩ := (i1.img _).1 ((List.mem_erase_of_ne (Ne.symm hne)).2 hrow)
              rw [List.reverse_reverse] at e
              rcases j1 q hq with hq' | hq'
              · rw [j3 q hq'] at e
                rw [hi.inj r hr q hq' e.symm]; exact hq
              · simp [addresses, hev] at hq'
            · cases hs2
          · cases hs2
        · rw [← est]
          exact act_keeps O m c (fun s a b e hev => hd ⟨s, a, b, e, hev⟩) r hr
      obtain ⟨x1, x2⟩ := k3 r hr1 (fun s hm hev => by
        rw [j3 r hr]
        refine hs s ?_ hev
        cases c with
        | lookup p => exact hm
        | sig s' a b => exact List.mem_cons_of_mem _ hm)
      exact ⟨x1, x2.trans (j3 r hr)⟩

theorem signals_heard (alloc : Nat → Nat) (l : List Sig) : ∀ k, signals (heard alloc k l) = l := by
  induction l with
  | nil => intro k; rfl
  | cons s l ih => intro k; exact congrArg (s :: ·) (ih (k + 1))

theorem addresses_heard (alloc : Nat → Nat) (l : List Sig) : ∀ k, (addresses (heard alloc k l)).Sublist ((List.range' k l.length).map alloc) := by
  induction l with
  | nil => intro k; exact List.Sublist.slnil
  | cons s l ih =>
    intro k
    show (if s.ev = .added then alloc k :: addresses (heard alloc (k + 1) l) else addresses (heard alloc (k + 1) l)).Sublist _
    rw [List.length_cons, List.range'_succ, List.map_cons]
    split
    · exact (ih (k + 1)).cons_cons _
    · exact (ih (k + 1)).cons _

theorem parentThere_heard (O : GtkOrder) (alloc : Nat → Nat) (l : List Sig) : ∀ k m, Throughout O ParentThere (heard alloc k l) m := by
  induction l with
  | nil => intro k m; trivial
  | cons s l ih => intro k m; exact ⟨trivial, ih _ _⟩

/-- The addresses used up to a moment. -/
def usedTill (alloc : Nat → Nat) (k : Nat) : List Nat := (List.range k).map alloc

theorem usedTill_add (alloc : Nat → Nat) (k n : Nat) : usedTill alloc (k + n) = usedTill alloc k ++ (List.range' k n).map alloc := by
  unfold usedTill
  rw [← List.map_append, List.range_eq_range', List.range_eq_range', ← List.range'_append_1, Nat.zero_add]

/-- The model hears signals that make sense. -/
theorem tm_hears (hO : GtkSound O) (ha : Function.Injective alloc) {m : TM} {rows rows' : List (List Id)} {P : Nat → List Id}
    {k : Nat} (h : TInv m rows P) (hu : ∀ r ∈ m.rows, r.addr ∈ usedTill alloc k)
    (hc : ∀ p b, m.cpaths p = some b → b ∈ usedTill alloc k) (l : List Sig) (hw : replay l rows = some rows') :
    ∃ m' P', TM.run O (heard alloc k l) m = .ok m' ∧ TInv m' rows' P' ∧
      (∀ r ∈ m'.rows, r ∈ m.rows ∨ r.addr ∉ usedTill alloc k) ∧
      (∀ r ∈ m'.rows, r.addr ∈ usedTill alloc (k + l.length)) ∧
      (∀ p b, m'.cpaths p = some b → b ∈ usedTill alloc (k + l.length)) ∧
      ∀ r ∈ m.rows, (∀ s ∈ l, s.ev = .deleted → s.path ≠ (P r.addr).reverse) → r ∈ m'.rows ∧ P' r.addr = P r.addr := by
  have hnd : (usedTill alloc k ++ (List.range' k l.length).map alloc).Nodup := by
    rw [← usedTill_add]
    exact List.Nodup.map ha List.nodup_range
  have hsub := addresses_heard alloc l k
  have hw' : replay (signals (heard alloc k l)) rows = some rows' := by rw [signals_heard]; exact hw
  obtain ⟨f1, f2⟩ := no_reuse hO (heard alloc k l) h hw' (hnd.sublist (hsub.append_left _)) hu hc (parentThere_heard O alloc l k m)
  obtain ⟨m', P', e, hi, k1, k2, k3⟩ := tmRun_track hO _ h hw' f1 f2 (parentThere_heard O alloc l k m)
  have hin : ∀ b ∈ addresses (heard alloc k l), b ∈ (List.range' k l.length).map alloc := fun b hb => hsub.subset hb
  rw [signals_heard] at k3
  refine ⟨m', P', e, hi, fun r hr => ?_, fun r hr => ?_, fun p b hb => ?_, k3⟩
  · rcases k1 r hr with h1 | h1
    · exact Or.inl h1
    · exact Or.inr fun h2 => (List.nodup_append.1 hnd).2.2 _ h2 _ (hin _ h1) rfl
  · rw [usedTill_add, List.mem_append]
    rcases k1 r hr with h1 | h1
    · exact Or.inl (hu r h1)
    · exact Or.inr (hin _ h1)
  · rw [usedTill_add, List.mem_append]
    rcases k2 p b hb with h1 | ⟨r, hr, rfl⟩ | h1
    · exact Or.inl (hc p b h1)
    · exact Or.inl (hu r hr)
    · exact Or.inr (hin _ h1)

/-! ### The invariant of the screen -/

/-- The view is right, the model has its rows, and GTK used only the addresses given out so far. -/
structure SInv (diff : List Id → List Id → List Id) (alloc : Nat → Nat) (w : Screen V) : Prop where
  v : VState diff w.app
  rows : ∃ rows P, TInv w.tm rows P ∧ replay w.app.ft.view.out [] = some rows
  used : ∀ r ∈ w.tm.rows, r.addr ∈ usedTill alloc w.clock
  cached : ∀ p b, w.tm.cpaths p = some b → b ∈ usedTill alloc w.clock

theorem SInv.start (hO : GtkSound O) (ha : Function.Injective alloc) {a : FApp V} (h : VState diff a) :
    SInv diff alloc (Screen.start O alloc a) := by
  obtain ⟨rows, r1, -, -⟩ := h.observerAgrees
  obtain ⟨m, P, e, hi, -, k1, k2, -⟩ := tm_hears (O := O) (k := 0) hO ha (TInv.init (P := fun _ => [])) (fun r hr => by cases hr) (fun p b hb => by cases hb) _ r1
  rw [Nat.zero_add] at k1 k2
  have hm : (Screen.start O alloc a).tm = m := by unfold Screen.start; rw [e]; rfl
  exact ⟨h, ⟨rows, P, hm ▸ hi, r1⟩, hm ▸ k1, hm ▸ k2⟩

/-- One action of the application. -/
theorem SInv.act (hdiff : SetDiff diff) (hO : GtkSound O) (ha : Function.Injective alloc) {w : Screen V} (h : SInv diff alloc w)
    (c : FAct V) (hf : ViewFair w.app c) : SInv diff alloc (w.act diff O alloc c) ∧
      w.app.act diff c = .ok (w.act diff O alloc c).app ∧ w.clock ≤ (w.act diff O alloc c).clock ∧
      (∀ r ∈ (w.act diff O alloc c).tm.rows, r ∈ w.tm.rows ∨ r.addr ∉ usedTill alloc w.clock) ∧
      (IsEdit c → (∀ op, c = .edit op → OwnApplied w.app) → ∀ r ∈ w.tm.rows, ∀ l, RowPath w.tm.rows r.addr l → IsRow (w.act diff O alloc c).app.ft l →
        r ∈ (w.act diff O alloc c).tm.rows ∧ RowPath (w.act diff O alloc c).tm.rows r.addr l) := by
  obtain ⟨a1, e1, h1⟩ := act_vstate hdiff h.v c hf
  obtain ⟨new, hnew⟩ := act_appends c (by rintro rfl; exact hf) e1
  obtain ⟨rows, P, hi, hr⟩ := h.rows
  obtain ⟨rows1, r1, -, -⟩ := h1.observerAgrees
  have hrep : replay new rows = some rows1 := by
    rw [← hnew, replay_append, hr] at r1; exact r1
  have hdrop : a1.ft.view.out.drop w.app.ft.view.out.length = new := by rw [← hnew, List.drop_left]
  obtain ⟨m, P', e, hi', k0, k1, k2, k3⟩ := tm_hears (O := O) hO ha hi h.used h.cached new hrep
  have hw : w.act diff O alloc c = ⟨a1, m, w.clock + new.length⟩ := by
    unfold Screen.act
    rw [e1]
    show (⟨a1, _, _⟩ : Screen V) = _
    dsimp only [Res.state]
    rw [hdrop, e]
  rw [hw]
  refine ⟨⟨h1, ⟨rows1, P', hi', r1⟩, k1, k2⟩, e1, Nat.le_add_right _ _, k0, fun hc own r hr' l hl hl' => ?_⟩
  obtain ⟨sent, e2, h2⟩ := edit_needed hdiff h.v c hc hf own e1
  rw [← hnew] at e2
  have := List.append_cancel_left e2
  subst this
  have hP : P r.addr = l.reverse := (hi.of_rowPath hl).2
  have hrow : IsRow w.app.ft l := by
    obtain ⟨rows', q1, -, q3⟩ := h.v.observerAgrees
    rw [hr] at q1
    cases q1
    exact (q3 l).1 ((hi.img l).2 ⟨r, hr', hP⟩)
  obtain ⟨x1, x2⟩ := k3 r hr' fun s hs hev e => h2.kept s hs (by rw [hev]; decide) (by
    rw [hP, List.reverse_reverse] at e
    rw [e]
    exact ⟨hrow, hl'⟩)
  refine ⟨x1, ?_⟩
  have := hi'.rowPath _ r x1 x2
  rw [hP, List.reverse_reverse] at this
  exact this

theorem moveNode_fair {a : FApp V} (h : FewerApplied a) (x p : Id) : ViewFair a (.edit (.moveNode x p)) :=
  ⟨⟨trivial, (fun _ _ e => by cases e), (fun _ e => by cases e)⟩, .inr (.inl ⟨h, (fun _ _ e => by cases e), fun _ e => by cases e⟩)⟩

theorem FewerApplied.congr {a a' : FApp V} (h : FewerApplied a) (hb : a'.bank = a.bank) (hp : a'.ft.applied = a.ft.applied) :
    FewerApplied a' := fun n hn f hf => h n (hp ▸ hn) f (hb ▸ hf)

theorem OwnApplied.congr {a a' : FApp V} (h : OwnApplied a) (hb : a'.bank = a.bank) (hp : a'.ft.applied = a.ft.applied) :
    OwnApplied a' := fun n hn f hf => h n (hp ▸ hn) f (hb ▸ hf)

theorem FewerApplied.act_edit {w : Screen V} (h : FewerApplied w.app) (op : Op) : FewerApplied (w.act diff O alloc (.edit op)).app := by
  obtain ⟨b1, -, b3, -⟩ := edit_same (diff := diff) w.app op
  exact FewerApplied.congr h b1 b3

theorem edit_s (a : FApp V) (op : Op) : (a.act diff (.edit op)).state.s = (Larch.step a.s op).state := by
  show (FApp.withFT _ (Res.forEach _ _ _)).state.s = _
  generalize Res.forEach _ _ _ = r
  cases r <;> rfl

theorem usedTill_mono (alloc : Nat → Nat) {k n : Nat} (h : k ≤ n) {a : Nat} (ha : a ∈ usedTill alloc k) : a ∈ usedTill alloc n := by
  obtain ⟨m, rfl⟩ := Nat.exists_eq_add_of_le h
  rw [usedTill_add]
  exact List.mem_append_left _ ha

/-- Dropping rows: the screen stays right, a row that is still there is the row it was, and only nodes of dragged rows get
other parents. -/
theorem SInv.dropRows (hdiff : SetDiff diff) (hO : GtkSound O) (ha : Function.Injective alloc) (dest : Id) (l : List Nat) :
    ∀ {w : Screen V}, SInv diff alloc w → FewerApplied w.app → SInv diff alloc (w.dropRows diff O alloc dest l) ∧
      (∀ y, (w.dropRows diff O alloc dest l).app.s.t.has y = w.app.s.t.has y) ∧
      ∀ y, (∀ r ∈ w.tm.rows, r.addr ∈ l → r.nid ≠ y) → (∀ a ∈ l, a ∈ usedTill alloc w.clock) →
        (w.dropRows diff O alloc dest l).app.s.t.getParents y = w.app.s.t.getParents y := by
  induction l with
  | nil => intro w h _; exact ⟨h, fun _ => rfl, fun _ _ _ => rfl⟩
  | cons a l ih =>
    intro w h hfew
    unfold Screen.dropRows
    cases hv : w.tm.value a with
    | none =>
      obtain ⟨i1, i2, i3⟩ := ih h hfew
      exact ⟨i1, i2, fun y hy hu => i3 y (fun r hr hl => hy r hr (List.mem_cons_of_mem _ hl)) (fun b hb => hu b (List.mem_cons_of_mem _ hb))⟩
    | some x =>
      dsimp only
      obtain ⟨j1, j2, j3, j4, -⟩ := h.act (O := O) hdiff hO ha _ (moveNode_fair hfew x dest)
      obtain ⟨i1, i2, i3⟩ := ih j1 (FewerApplied.act_edit hfew _)
      have hs : (w.act diff O alloc (.edit (.moveNode x dest))).app.s = (moveNode w.app.s x dest).state := by
        exact edit_s w.app _
      have fr := moveNode_frame h.v.good x dest
      rw [← hs] at fr
      refine ⟨i1, fun y => by rw [i2, fr.has], fun y hy hu => ?_⟩
      obtain ⟨rows, P, hi, -⟩ := h.rows
      obtain ⟨r, hr, rfl, rfl⟩ := (TM.value_eq hi.addrs).1 hv
      rw [i3 y, j1.v.good.wf.getParents_eq, h.v.good.wf.getParents_eq]
      · exact fr.parents y (fun e => hy r hr (by simp) e.symm)
      · intro q hq hql
        rcases j4 q hq with hq' | hq'
        · exact hy q hq' (List.mem_cons_of_mem _ hql)
        · exact absurd (hu q.addr (List.mem_cons_of_mem _ hql)) hq'
      · exact fun b hb => usedTill_mono alloc j3 (hu b (List.mem_cons_of_mem _ hb))

/-! ### Everything that is reached -/

theorem wire_rows (l : List Nat) : (wire l).filterMap id = l := by
  unfold wire
  split
  · next h => subst h; rfl
  · simp [List.filterMap_map, Function.comp_def]

theorem SInv.step (hdiff : SetDiff diff) (hO : GtkSound O) (ha : Function.Injective alloc) {w : Screen V} (h : SInv diff alloc w)
    (c : SAct V) (hf : match c with
      | .app c => ViewFair w.app c
      | .look path => ParentThere w.tm (.lookup path)
      | .drop _ _ => FewerApplied w.app) : SInv diff alloc (w.step diff O alloc c) := by
  cases c with
  | app c => exact (h.act hdiff hO ha c hf).1
  | look path =>
    obtain ⟨rows, P, hi, hr⟩ := h.rows
    obtain ⟨-, i2, i3, i4⟩ := hi.lookup hO (ParentThere.tail hi hf)
    refine ⟨h.v, ⟨rows, P, i4, hr⟩, ?_, fun p b hb => ?_⟩
    · show ∀ r ∈ (w.tm.getIter O path).2.rows, _
      rw [i2]; exact h.used
    · rcases i3 p b hb with h1 | ⟨r, hr, rfl⟩
      · exact h.cached p b h1
      · exact h.used r hr
  | drop sel at_ => exact (h.dropRows hdiff hO ha _ _ hf).1

theorem SInv.run (hdiff : SetDiff diff) (hO : GtkSound O) (ha : Function.Injective alloc) (cs : List (SAct V)) :
    ∀ {w : Screen V}, SInv diff alloc w → ScreenFair diff O alloc cs w → SInv diff alloc (w.run diff O alloc cs) := by
  induction cs with
  | nil => intro w h _; exact h
  | cons c cs ih => intro w h hf; exact ih (h.step hdiff hO ha c hf.1) hf.2

theorem reached_inv (hdiff : SetDiff diff) (hO : GtkSound O) (ha : Function.Injective alloc) {w : Screen V}
    (h : Reached diff O alloc w) : SInv diff alloc w := by
  obtain ⟨ops, bcs, root, d, ft, cs, h1, h3, e, hf, rfl⟩ := h
  obtain ⟨ft', e', hr⟩ := (ViewStart.mk h1 h3).run (bcs := bcs) hdiff d
  rw [e] at e'
  cases e'
  obtain ⟨a, ea, hv⟩ := hr [] trivial
  cases ea
  exact (SInv.start hO ha hv).run hdiff hO ha cs hf

theorem SInv.isRow {w : Screen V} (h : SInv diff alloc w) : ∃ rows P, TInv w.tm rows P ∧ ∀ l, l ∈ rows ↔ IsRow w.app.ft l := by
  obtain ⟨rows, P, hi, hr⟩ := h.rows
  obtain ⟨rows', r1, -, r3⟩ := h.v.observerAgrees
  rw [hr] at r1
  cases r1
  exact ⟨rows, P, hi, r3⟩

theorem SInv.right {w : Screen V} (h : SInv diff alloc w) : ScreenRight w := by
  obtain ⟨rows, P, hi, hr⟩ := h.isRow
  have hm := hi.mirrors
  refine ⟨hm.addrs, fun r hr' => ?_, fun l hl => ?_⟩
  · obtain ⟨l, hl, hp, -⟩ := hm.row r hr'
    exact ⟨l, (hr l).1 hl, hp⟩
  · exact hm.path l ((hr l).2 hl)

/-- The last step of a row. -/
theorem isRow_snoc (ft : FT) (l : List Id) (x : Id) : IsRow ft (l ++ [x]) ↔
    (l = [] ∨ IsRow ft l) ∧ x ∈ ft.view.kids (l.getLast?.getD ft.root) := by
  unfold IsRow
  rw [← List.cons_append, List.isChain_append]
  constructor
  · rintro ⟨-, h1, -, h3⟩
    refine ⟨?_, ?_⟩
    · by_cases hl : l = []
      · exact Or.inl hl
      · exact Or.inr ⟨hl, h1⟩
    · refine h3 _ ?_ x rfl
      rw [List.getLast?_cons]; rfl
  · rintro ⟨h1, h2⟩
    refine ⟨by simp, ?_, List.isChain_singleton _, fun p hp y hy => ?_⟩
    · rcases h1 with rfl | h1
      · exact List.isChain_singleton _
      · exact h1.2
    · rw [List.getLast?_cons] at hp
      cases hp
      cases hy
      exact h2

/-- What a row of the model says about the view. -/
theorem SInv.row {w : Screen V} (h : SInv diff alloc w) {r : GRow} (hr : r ∈ w.tm.rows) :
    (∃ p, r.nid ∈ w.app.ft.view.kids p) ∧ (r.parent = none → r.nid ∈ w.app.ft.view.kids w.app.ft.root) ∧
    (∀ q ∈ w.tm.rows, r.parent = some q.addr → r.nid ∈ w.app.ft.view.kids q.nid) ∧
    (r.parent = none ∨ ∃ q ∈ w.tm.rows, r.parent = some q.addr) := by
  obtain ⟨rows, P, hi, hrow⟩ := h.isRow
  have h1 : IsRow w.app.ft (P r.addr).reverse := (hrow _).1 ((hi.img _).2 ⟨r, hr, by simp⟩)
  rw [hi.path r hr, List.reverse_cons, isRow_snoc] at h1
  refine ⟨⟨_, h1.2⟩, fun e => ?_, fun q hq e => ?_, ?_⟩
  · have := h1.2
    rw [e] at this
    exact this
  · have := h1.2
    rw [e] at this
    simp only [above] at this
    rw [hi.path q hq] at this
    simpa using this
  · cases e : r.parent with
    | none => exact Or.inl rfl
    | some p =>
      obtain ⟨q, hq, rfl⟩ := hi.live r hr p e
      exact Or.inr ⟨q, hq, rfl⟩

/-- A child in the view has a row below every row of its parent, and only one. -/
theorem SInv.child {w : Screen V} (h : SInv diff alloc w) {x : Id} {q : Option GRow} (hq : ∀ r, q = some r → r ∈ w.tm.rows)
    (hx : x ∈ w.app.ft.view.kids ((q.map GRow.nid).getD w.app.ft.root)) :
    ∃ r ∈ w.tm.rows, r.nid = x ∧ r.parent = q.map GRow.addr ∧
      ∀ r' ∈ w.tm.rows, r'.nid = x → r'.parent = q.map GRow.addr → r' = r := by
  obtain ⟨rows, P, hi, hrow⟩ := h.isRow
  have habove : ∃ l : List Id, (l = [] ∨ IsRow w.app.ft l) ∧ l.getLast?.getD w.app.ft.root = (q.map GRow.nid).getD w.app.ft.root ∧
      l.reverse = above P (q.map GRow.addr) ∧ (q = none → l = []) := by
    cases q with
    | none => exact ⟨[], Or.inl rfl, rfl, rfl, fun _ => rfl⟩
    | some r0 =>
      have hr0 := hq r0 rfl
      refine ⟨(P r0.addr).reverse, Or.inr ((hrow _).1 ((hi.img _).2 ⟨r0, hr0, by simp⟩)), ?_, by simp [above], fun e => by cases e⟩
      rw [hi.path r0 hr0]
      simp
  obtain ⟨l, a1, a2, a3, a4⟩ := habove
  have hl : l ++ [x] ∈ rows := (hrow _).2 ((isRow_snoc _ _ _).2 ⟨a1, a2 ▸ hx⟩)
  obtain ⟨r, hr, hp⟩ := (hi.img _).1 hl
  rw [List.reverse_append, List.reverse_singleton, List.singleton_append, a3] at hp
  have hp' := hp
  rw [hi.path r hr] at hp'
  have hnid := (List.cons.inj hp').1
  have hab := (List.cons.inj hp').2
  have hpar : r.parent = q.map GRow.addr := by
    cases e : r.parent with
    | none =>
      cases q with
      | none => rfl
      | some r0 =>
        rw [e] at hab
        have h0 := hi.path r0 (hq r0 rfl)
        have : above P (Option.map GRow.addr (some r0)) = P r0.addr := rfl
        rw [this, h0] at hab
        cases hab
    | some p =>
      obtain ⟨q0, hq0, rfl⟩ := hi.live r hr p e
      rw [e] at hab
      have h0 := hi.path q0 hq0
      have h0' : above P (some q0.addr) = P q0.addr := rfl
      cases q with
      | none => rw [h0', h0] at hab; cases hab
      | some r0 =>
        have : above P (Option.map GRow.addr (some r0)) = P r0.addr := rfl
        rw [this, h0'] at hab
        rw [hi.inj q0 hq0 r0 (hq r0 rfl) hab]
        rfl
  refine ⟨r, hr, hnid, hpar, fun r' hr' hn hp2 => hi.inj r' hr' r hr ?_⟩
  rw [hi.path r' hr', hi.path r hr, hn, hnid, hp2, hpar]

/-! ### One row -/

theorem SInv.wanted {w : Screen V} (h : SInv diff alloc w) {r : GRow} (hr : r ∈ w.tm.rows) : Wanted w.app r.nid := by
  obtain ⟨⟨p, hp⟩, -⟩ := h.row hr
  have hsh := h.v.rebuilt.rightShape
  have hp' := (hsh.mirror p r.nid).1 hp
  have hne : r.nid ≠ w.app.ft.root := by
    intro e
    rw [e, hsh.top] at hp'
    cases hp'
  refine (h.v.rebuilt.showsExactly.shown r.nid hne).1 ?_
  exact View.has_of_par hp'

theorem wanted_congr {a a' : FApp V} (own : OwnApplied a) {x : Id} (hb : a'.bank = a.bank) (hd : a'.data = a.data)
    (hp : a'.ft.applied = a.ft.applied) (hh : a'.s.t.has x = a.s.t.has x) (h : Wanted a x) : Wanted a' x := by
  refine ⟨by rw [hh]; exact h.1, fun n hn => ?_⟩
  obtain ⟨f, hf, hs⟩ := h.2 n (hp ▸ hn)
  refine ⟨f, by rw [hb]; exact hf, ?_⟩
  unfold Filter.isDisplayed at hs ⊢
  rw [hh, hd, own n (hp ▸ hn) f hf a'.s.t a.s.t a.data a.data x _ rfl]
  exact hs

/-- Dropping one row is one move. -/
theorem drop_one {w : Screen V} (h : SInv diff alloc w) {r : GRow} (hr : r ∈ w.tm.rows) (at_ : Option (Nat × DropPos)) :
    w.drop diff O alloc [r.addr] at_ = w.act diff O alloc (.edit (.moveNode r.nid (destination w.tm at_))) := by
  obtain ⟨rows, P, hi, -⟩ := h.rows
  unfold Screen.drop
  rw [wire_rows]
  unfold Screen.dropRows
  rw [(TM.value_eq hi.addrs).2 ⟨r, hr, rfl, rfl⟩]
  rfl

theorem SInv.target {w : Screen V} (h : SInv diff alloc w) {at_ : Option (Nat × DropPos)} {q : GRow}
    (ht : Target w.tm.rows at_ q) : q ∈ w.tm.rows ∧ destination w.tm at_ = q.nid := by
  obtain ⟨rows, P, hi, -⟩ := h.rows
  have hv : ∀ q ∈ w.tm.rows, w.tm.value q.addr = some q.nid := fun q hq => (TM.value_eq hi.addrs).2 ⟨q, hq, rfl, rfl⟩
  cases ht with
  | into hq =>
    refine ⟨hq, ?_⟩
    simp only [destination, hv q hq, Option.getD_some]
  | beside hq0 hq hp hpos =>
    rename_i q0 pos
    refine ⟨hq, ?_⟩
    have hf : w.tm.rows.find? (fun r => r.addr = q0.addr) = some q0 := by
      have := hv q0 hq0
      unfold TM.value at this
      obtain ⟨q1, h1, -⟩ := Option.map_eq_some_iff.1 this
      rw [h1]
      exact congrArg some (hi.same (List.mem_of_find?_eq_some h1) hq0 (by simpa using List.find?_some h1))
    cases pos with
    | into => exact absurd rfl hpos
    | before => simp only [destination, hf, hp, hv q hq, Option.getD_some]
    | after => simp only [destination, hf, hp, hv q hq, Option.getD_some]

theorem SInv.targetTop {w : Screen V} (h : SInv diff alloc w) {at_ : Option (Nat × DropPos)}
    (ht : TargetTop w.tm.rows at_) : destination w.tm at_ = .none := by
  obtain ⟨rows, P, hi, -⟩ := h.rows
  cases ht with
  | nowhere => rfl
  | beside hq0 hp hpos =>
    rename_i q0 pos
    have hf : w.tm.rows.find? (fun r => r.addr = q0.addr) = some q0 := by
      cases e : w.tm.rows.find? (fun r => decide (r.addr = q0.addr)) with
      | none => simpa using List.find?_eq_none.1 e q0 hq0
      | some q1 => exact congrArg some (hi.same (List.mem_of_find?_eq_some e) hq0 (by simpa using List.find?_some e))
    cases pos with
    | into => exact absurd rfl hpos
    | before => simp only [destination, hf, hp]
    | after => simp only [destination, hf, hp]

/-- A node with one parent has its rows below the rows of that parent. -/
theorem SInv.rowsBelow {w : Screen V} (h : SInv diff alloc w) {x q : Id} (hx : Wanted w.app x) (hq : Wanted w.app q)
    (hflat : ¬ FlatView w.app) (hp : w.app.s.t.getParents x = [q]) : RowsBelow w.tm.rows x q := by
  have hsh := h.v.rebuilt.rightShape
  have hpar : ∀ p, p ∈ w.app.ft.view.pars x ↔ p = q := by
    intro p
    have hwp : ∀ p, WantedParent w.app p x ↔ p = q := by
      intro p
      unfold WantedParent IsParent
      rw [hp, List.mem_singleton]
      constructor
      · exact fun h => h.2.1
      · rintro rfl; exact ⟨hflat, rfl, hq⟩
    rw [hsh.parents x hx p, hwp]
    constructor
    · rintro (h | ⟨-, h⟩)
      · exact h
      · exact absurd ((hwp q).2 rfl) (h _)
    · exact Or.inl
  have hroot : q ≠ w.app.ft.root := by
    intro e
    have := h.v.rootFree
    rw [← e, hq.1] at this
    cases this
  constructor
  · intro r' hr' hn
    obtain ⟨-, k1, k2, k3⟩ := h.row hr'
    rcases k3 with e | ⟨q', hq', e⟩
    · have := (hpar _).1 ((hsh.mirror _ _).1 (hn ▸ k1 e))
      exact absurd this.symm hroot
    · exact ⟨q', hq', e, (hpar _).1 ((hsh.mirror _ _).1 (hn ▸ k2 q' hq' e))⟩
  · intro q' hq' hn
    exact h.child (q := some q') (fun r hr => by cases hr; exact hq') ((hsh.mirror _ _).2 ((hpar _).2 hn))

/-- A node without parents has one row, at the top. -/
theorem SInv.topRow {w : Screen V} (h : SInv diff alloc w) {x : Id} (hx : Wanted w.app x) (hp : w.app.s.t.getParents x = []) :
    ∃ r' ∈ w.tm.rows, r'.nid = x ∧ r'.parent = none ∧ ∀ r'' ∈ w.tm.rows, r''.nid = x → r'' = r' := by
  have hsh := h.v.rebuilt.rightShape
  have hpar : ∀ p, p ∈ w.app.ft.view.pars x ↔ p = w.app.ft.root := by
    intro p
    have hwp : ∀ p, ¬ WantedParent w.app p x := by
      rintro p ⟨-, hp', -⟩
      unfold IsParent at hp'
      rw [hp] at hp'
      cases hp'
    rw [hsh.parents x hx p]
    constructor
    · rintro (h | h)
      · exact absurd h (hwp p)
      · exact h.1
    · rintro rfl; exact Or.inr ⟨rfl, hwp⟩
  obtain ⟨r', c1, c2, c3, c4⟩ := h.child (q := none) (fun r hr => by cases hr) ((hsh.mirror _ _).2 ((hpar _).2 rfl))
  refine ⟨r', c1, c2, c3, fun r'' hr'' hn => c4 r'' hr'' hn ?_⟩
  obtain ⟨-, -, k2, k3⟩ := h.row hr''
  rcases k3 with e | ⟨q', hq', e⟩
  · exact e
  · have := (hpar _).1 ((hsh.mirror _ _).1 (hn ▸ k2 q' hq' e))
    have hwq := h.wanted hq'
    rw [this] at hwq
    have hf := h.v.rootFree
    rw [hwq.1] at hf
    cases hf

/-! ### Many rows -/

theorem act_app (w : Screen V) (c : FAct V) : (w.act diff O alloc c).app = (w.app.act diff c).state := rfl

/-- A row that does not pass through the moved node is still a row. -/
theorem SInv.rowStays (hdiff : SetDiff diff) (hO : GtkSound O) (ha : Function.Injective alloc) {w : Screen V} (h : SInv diff alloc w) (own : OwnApplied w.app) (x dest : Id)
    {l : List Id} (hx : x ∉ l) (hl : IsRow w.app.ft l) : IsRow (w.act diff O alloc (.edit (.moveNode x dest))).app.ft l := by
  obtain ⟨j1, -⟩ := h.act (O := O) hdiff hO ha _ (moveNode_fair (OwnApplied.fewer own) x dest)
  have hs : (w.act diff O alloc (.edit (.moveNode x dest))).app.s = (moveNode w.app.s x dest).state := edit_s w.app _
  have fr := moveNode_frame h.v.good x dest
  rw [← hs] at fr
  obtain ⟨b1, b2, b3, b4⟩ := edit_same (diff := diff) w.app (.moveNode x dest)
  rw [← act_app (O := O) (alloc := alloc)] at b1 b2 b3 b4
  have hw := h.v.rebuilt
  have hw' := j1.v.rebuilt
  have own' := OwnApplied.congr own b1 b3
  generalize (w.act diff O alloc (.edit (.moveNode x dest))).app = a' at *
  have hwant : ∀ y, Wanted a' y ↔ Wanted w.app y := fun y =>
    ⟨wanted_congr own' b1.symm b2.symm b3.symm (fr.has y).symm, wanted_congr own b1 b2 b3 (fr.has y)⟩
  have hflat : FlatView a' ↔ FlatView w.app := by
    unfold FlatView; rw [b3, b1]
  have hpar : ∀ p c, c ≠ x → (WantedParent a' p c ↔ WantedParent w.app p c) := by
    intro p c hc
    unfold WantedParent IsParent
    rw [hwant, hflat, hw'.good.wf.getParents_eq, hw.good.wf.getParents_eq, fr.parents c hc]
  induction l using List.reverseRecOn with
  | nil => exact absurd rfl hl.1
  | append_singleton l c ih =>
    rw [isRow_snoc] at hl ⊢
    have hcx : c ≠ x := by rintro rfl; simp at hx
    refine ⟨hl.1.imp_right (ih (fun hm => hx (by simp [hm]))), ?_⟩
    rw [b4]
    have hk := (hw.rightShape.mirror _ _).1 hl.2
    have hc : Wanted w.app c := by
      refine (hw.showsExactly.shown c ?_).1 (View.has_of_par hk)
      rintro rfl
      rw [hw.rightShape.top] at hk
      cases hk
    rw [hw'.rightShape.mirror, hw'.rightShape.parents c ((hwant c).2 hc), b4]
    rw [hw.rightShape.parents c hc] at hk
    simp only [hpar _ c hcx]
    exact hk

/-- Rows that are not below one another are all moved, if moves of their nodes work. -/
theorem SInv.dropMany (hdiff : SetDiff diff) (hO : GtkSound O) (ha : Function.Injective alloc) {dest : Id} {Ok : Tree → Id → Prop} {ps : List Id}
    (hok : ∀ s x, Good s.t → Ok s.t x → (moveNode s x dest).state.t.getParents x = ps)
    (hkeep : ∀ s x y, Good s.t → Ok s.t x → Ok s.t y → Ok (moveNode s x dest).state.t y) (K : Id → Prop) (sel : List GRow) :
    ∀ {w : Screen V}, SInv diff alloc w → OwnApplied w.app →
      (∀ r ∈ sel, K r.nid ∧ Ok w.app.s.t r.nid ∧ r.addr ∈ usedTill alloc w.clock ∧
        ((r ∈ w.tm.rows ∧ ∃ l, RowPath w.tm.rows r.addr l ∧ ∀ z ∈ l, K z → z = r.nid) ∨
          (w.app.s.t.getParents r.nid = ps ∧ ∀ v, w.tm.value r.addr = some v → v = r.nid))) →
      ∀ x, ((∃ r ∈ sel, r.nid = x) ∨ (Ok w.app.s.t x ∧ w.app.s.t.getParents x = ps)) →
        (w.dropRows diff O alloc dest (sel.map GRow.addr)).app.s.t.getParents x = ps := by
  induction sel with
  | nil =>
    intro w h _ _ x hx
    rcases hx with ⟨r, hr, -⟩ | hx
    · cases hr
    · exact hx.2
  | cons r sel ih =>
    intro w h own hs x hx
    obtain ⟨rows, P, hi, -⟩ := h.rows
    have hval : ∀ r' ∈ r :: sel, ∀ v, w.tm.value r'.addr = some v → v = r'.nid := by
      intro r' hr' v hv
      rcases (hs r' hr').2.2.2 with ⟨h1, -⟩ | ⟨-, h1⟩
      · rw [(TM.value_eq hi.addrs).2 ⟨r', h1, rfl, rfl⟩] at hv
        exact (Option.some.inj hv).symm
      · exact h1 v hv
    rw [List.map_cons, Screen.dropRows]
    obtain ⟨hK, hOk, hu, hcase⟩ := hs r (by simp)
    cases hv : w.tm.value r.addr with
    | none =>
      dsimp only
      refine ih h own (fun r' hr' => hs r' (List.mem_cons_of_mem _ hr')) x ?_
      rcases hx with ⟨r', hr', rfl⟩ | hx
      · rcases List.mem_cons.1 hr' with rfl | hr'
        · right
          refine ⟨hOk, ?_⟩
          rcases hcase with ⟨h1, -⟩ | h1
          · rw [(TM.value_eq hi.addrs).2 ⟨r', h1, rfl, rfl⟩] at hv; cases hv
          · exact h1.1
        · exact Or.inl ⟨r', hr', rfl⟩
      · exact Or.inr hx
    | some v =>
      have := hval r (by simp) v hv
      subst this
      dsimp only
      obtain ⟨j1, -, j3, j4, j5⟩ := h.act (O := O) hdiff hO ha _ (moveNode_fair (OwnApplied.fewer own) r.nid dest)
      have es : (w.act diff O alloc (.edit (.moveNode r.nid dest))).app.s = (moveNode w.app.s r.nid dest).state := edit_s w.app _
      have fr := moveNode_frame h.v.good r.nid dest
      have hdone := hok w.app.s r.nid h.v.good hOk
      have hkp := fun y => hkeep w.app.s r.nid y h.v.good hOk
      rw [← es] at fr hdone hkp
      have hpar : ∀ y, y ≠ r.nid → (w.act diff O alloc (.edit (.moveNode r.nid dest))).app.s.t.getParents y = w.app.s.t.getParents y := by
        intro y hy
        rw [j1.v.good.wf.getParents_eq, h.v.good.wf.getParents_eq]; exact fr.parents y hy
      have hstay := fun l => h.rowStays (O := O) hdiff hO ha own r.nid dest (l := l)
      have own1 : OwnApplied (w.act diff O alloc (.edit (.moveNode r.nid dest))).app := by
        obtain ⟨b1, -, b3, -⟩ := edit_same (diff := diff) w.app (.moveNode r.nid dest)
        exact OwnApplied.congr own b1 b3
      refine ih j1 own1 (fun r' hr' => ?_) x ?_
      · obtain ⟨g1, g2, g3, g4⟩ := hs r' (List.mem_cons_of_mem _ hr')
        refine ⟨g1, hkp _ g2, usedTill_mono alloc j3 g3, ?_⟩
        have hval' : ∀ v, (w.act diff O alloc (.edit (.moveNode r.nid dest))).tm.value r'.addr = some v → v = r'.nid := by
          intro v hv
          obtain ⟨rows', P', hi', -⟩ := j1.rows
          obtain ⟨q, hq, e1, e2⟩ := (TM.value_eq hi'.addrs).1 hv
          rcases j4 q hq with hq' | hq'
          · exact hval r' (List.mem_cons_of_mem _ hr') v ((TM.value_eq hi.addrs).2 ⟨q, hq', e1, e2⟩)
          · exact absurd (e1 ▸ g3) hq'
        by_cases hn : r'.nid = r.nid
        · exact Or.inr ⟨hn ▸ hdone, hval'⟩
        · rcases g4 with ⟨k1, l, k2, k3⟩ | ⟨k1, -⟩
          · left
            obtain ⟨rows', P', hi', hrow⟩ := h.isRow
            have hl : IsRow w.app.ft l := (hrow l).1 ((hi'.img l).2 ⟨r', k1, (hi'.of_rowPath k2).2⟩)
            obtain ⟨m1, m2⟩ := j5 trivial (fun _ _ => own) r' k1 l k2 (hstay l (fun hm => hn (k3 _ hm hK).symm) hl)
            exact ⟨m1, l, m2, k3⟩
          · exact Or.inr ⟨by rw [hpar _ hn]; exact k1, hval'⟩
      · rcases hx with ⟨r', hr', rfl⟩ | ⟨hx1, hx2⟩
        · rcases List.mem_cons.1 hr' with rfl | hr'
          · exact Or.inr ⟨hkp _ hOk, hdone⟩
          · exact Or.inl ⟨r', hr', rfl⟩
        · right
          refine ⟨hkp x hx1, ?_⟩
          by_cases e : x = r.nid
          · rw [e]; exact hdone
          · rw [hpar x e]; exact hx2

/-- `move_node(x, None)` takes away all parents. -/
theorem moveNode_none {s : St} (h : Good s.t) {x : Id} (hx : s.t.has x = true) : (moveNode s x .none).state.t.rawParents x = [] := by
  have hnone : s.t.has .none = false := by
    cases e : s.t.has .none with
    | false => rfl
    | true => have := (h.wf.ids .none e).1; cases this
  obtain ⟨nx, hnx⟩ := (Tree.has_iff _ _).1 hx
  by_cases hen : nx.parentsEnabled = true
  · obtain ⟨s', e, -, -, hp⟩ := moveNode_absent h hnx hnone hen
    rw [e]; exact hp
  · have hp := h.wf.flagP x nx hnx (by simpa using hen)
    have : moveNode s x .none = .ok s := by
      unfold moveNode nodeSetParent
      rw [if_pos hx, hnx]; dsimp only
      rw [if_neg (fun h => hen h.2)]
    rw [this]
    show s.t.rawParents x = []
    rw [Tree.rawParents_of_node hnx]; exact hp

theorem dropRows_same (dest : Id) (l : List Nat) : ∀ w : Screen V, (w.dropRows diff O alloc dest l).app.bank = w.app.bank ∧
    (w.dropRows diff O alloc dest l).app.data = w.app.data ∧ (w.dropRows diff O alloc dest l).app.ft.applied = w.app.ft.applied := by
  induction l with
  | nil => intro w; exact ⟨rfl, rfl, rfl⟩
  | cons a l ih =>
    intro w
    unfold Screen.dropRows
    split
    · exact ih w
    · rename_i x _
      obtain ⟨h1, h2, h3⟩ := ih (w.act diff O alloc (.edit (.moveNode x dest)))
      obtain ⟨b1, b2, b3, -⟩ := edit_same (diff := diff) w.app (.moveNode x dest)
      exact ⟨h1.trans b1, h2.trans b2, h3.trans b3⟩

/-- Moving `x` below `q` works and leaves it no other parent. -/
def Movable (q : Id) (t : Tree) (x : Id) : Prop :=
  t.has x = true ∧ t.has q = true ∧ q ≠ x ∧ Accept t q x ∧ ¬ Ancestor t x q ∧ ((t.getParents x).filter (· ≠ q)).length ≤ 1

theorem accept_congr {t t' : Tree} (h : ∀ y, t'.nodeAttrs y = t.nodeAttrs y) {p c : Id} (ha : Accept t p c) :
    Accept t' p c := by
  have tr : ∀ y nd, t'.node? y = some nd → ∃ nd0, t.node? y = some nd0 ∧
      nd0.parentsEnabled = nd.parentsEnabled ∧ nd0.childrenEnabled = nd.childrenEnabled := by
    intro y nd hn
    have h1 := h y
    unfold Tree.nodeAttrs at h1
    rw [hn] at h1
    cases h2 : t.node? y with
    | none => rw [h2] at h1; simp at h1
    | some nd0 =>
      rw [h2] at h1
      simp [Tree.attrs] at h1
      exact ⟨nd0, rfl, h1.2.1.symm, h1.2.2.1.symm⟩
  constructor
  · intro nd hn
    obtain ⟨nd0, h0, -, h2⟩ := tr p nd hn
    rw [← h2]; exact ha.1 _ h0
  · intro nd hn
    obtain ⟨nd0, h0, h2, -⟩ := tr c nd hn
    rw [← h2]; exact ha.2 _ h0

theorem Movable.keep {s : St} (h : Good s.t) {q x y : Id} (hx : Movable q s.t x) (hy : Movable q s.t y) :
    Movable q (moveNode s x q).state.t y := by
  have fr := moveNode_frame h x q
  obtain ⟨x1, x2, x3, x4, x5, x6⟩ := hx
  obtain ⟨s', e, hp⟩ := C12_move_dismisses_partial s h x q x1 x2 x3 x4 x5 x6
  obtain ⟨s'', e', -, -, h3, h4⟩ := C12_move_effect s h x q x1 x2 x3 x4 x5
  rw [e] at e'
  cases e'
  have es : (moveNode s x q).state = s' := by
    change moveNode s x q = _ at e
    rw [e]; rfl
  rw [es] at fr ⊢
  obtain ⟨y1, y2, y3, y4, y5, y6⟩ := hy
  refine ⟨by rw [h3]; exact y1, by rw [h3]; exact y2, y3, accept_congr fr.attrs y4, fun hanc => ?_, ?_⟩
  · -- the ancestors of `q` are what they were, because `x` is not among them
    have key : ∀ z, Relation.TransGen (fun a p => IsParent s'.t p a) q z → Relation.TransGen (fun a p => IsParent s.t p a) q z := by
      intro z hz
      induction hz with
      | single h1 => exact .single (by unfold IsParent at h1 ⊢; rw [h4 q x3] at h1; exact h1)
      | tail h0 h1 ih =>
        rename_i b c
        refine ih.tail ?_
        unfold IsParent at h1 ⊢
        rw [h4 b (by rintro rfl; exact x5 ih)] at h1
        exact h1
    exact y5 (key y hanc)
  · by_cases e : y = x
    · subst e; rw [hp]; simp
    · rw [h4 y e]; exact y6

/-! ### C50 -/

/-- **C50** (partial): whatever the user drops, one row or many, onto anything, in between any fair history of the
application: the rows on the screen are those of the view, and the view is right.

Missing: GTK using the memory of a removed row again (C36); drops under filters on everything below a node. -/
theorem C50_screen_partial (hdiff : SetDiff diff) (hO : GtkSound O) (ha : Function.Injective alloc) {w : Screen V}
    (h : Reached diff O alloc w) : ScreenRight w ∧ ShowsExactly w.app ∧ RightShape w.app :=
  ⟨(reached_inv hdiff hO ha h).right, (reached_inv hdiff hO ha h).v.rebuilt.showsExactly, (reached_inv hdiff hO ha h).v.rebuilt.rightShape⟩

/-- **C50** (partial): of many rows that are dropped together, only the nodes that were selected may get other parents, and
no node comes or goes.

Missing: GTK using the memory of a removed row again (`C50_refuted_reuse`); filters on everything below a node. -/
theorem C50_only_dragged_partial (hdiff : SetDiff diff) (hO : GtkSound O) (ha : Function.Injective alloc) {w : Screen V}
    (h : Reached diff O alloc w) (hfew : FewerApplied w.app) (sel : List GRow) (hsel : ∀ r ∈ sel, r ∈ w.tm.rows) (at_ : Option (Nat × DropPos)) :
    (∀ y, (w.drop diff O alloc (sel.map GRow.addr) at_).app.s.t.has y = w.app.s.t.has y) ∧
    ∀ y, (∀ r ∈ sel, r.nid ≠ y) →
      (w.drop diff O alloc (sel.map GRow.addr) at_).app.s.t.getParents y = w.app.s.t.getParents y := by
  have hi := reached_inv hdiff hO ha h
  obtain ⟨-, h2, h3⟩ := hi.dropRows (O := O) hdiff hO ha (destination w.tm at_) (sel.map GRow.addr) hfew
  unfold Screen.drop
  rw [wire_rows]
  refine ⟨h2, fun y hy => h3 y (fun r hr hm => ?_) (fun a ha => ?_)⟩
  · obtain ⟨q, hq, e⟩ := List.mem_map.1 hm
    obtain ⟨rows, P, ti, -⟩ := hi.rows
    rw [ti.same hr (hsel q hq) e.symm]
    exact hy q hq
  · obtain ⟨q, hq, rfl⟩ := List.mem_map.1 ha
    exact hi.used q (hsel q hq)

/-- **C50** (partial): dropping a row onto another, or beside one that is below another: the node gets that other node as
its only parent, nothing else changes in the tree, and (unless the view is flat) its rows are then exactly below the rows
of that node.

Missing: nodes with two or more other parents (`C12_refuted`), a target below the node (`C50_refuted_descendant`), and filters
on other nodes, which may hide the target when it gets a child. -/
theorem C50_drop_partial (hdiff : SetDiff diff) (hO : GtkSound O) (ha : Function.Injective alloc) {w : Screen V}
    (h : Reached diff O alloc w) (own : OwnApplied w.app) {r q : GRow} {at_ : Option (Nat × DropPos)} (hr : r ∈ w.tm.rows) (ht : Target w.tm.rows at_ q)
    (hne : q.nid ≠ r.nid) (hacc : Accept w.app.s.t q.nid r.nid) (hanc : ¬ Ancestor w.app.s.t r.nid q.nid)
    (h1 : ((w.app.s.t.getParents r.nid).filter (· ≠ q.nid)).length ≤ 1) :
    OnlyMoves w.app.s.t (w.drop diff O alloc [r.addr] at_).app.s.t r.nid ∧
    (w.drop diff O alloc [r.addr] at_).app.s.t.getParents r.nid = [q.nid] ∧
    (¬ FlatView w.app → RowsBelow (w.drop diff O alloc [r.addr] at_).tm.rows r.nid q.nid) := by
  have hi := reached_inv hdiff hO ha h
  obtain ⟨hq, hd⟩ := hi.target ht
  rw [drop_one hi hr, hd]
  obtain ⟨j1, j2, -, -, -⟩ := hi.act (O := O) hdiff hO ha _ (moveNode_fair (OwnApplied.fewer own) r.nid q.nid)
  have hs : (w.act diff O alloc (.edit (.moveNode r.nid q.nid))).app.s = (Larch.step w.app.s (.moveNode r.nid q.nid)).state :=
    edit_s w.app _
  obtain ⟨b1, b2, b3, b4⟩ := edit_same (diff := diff) w.app (.moveNode r.nid q.nid)
  have hwr := hi.wanted hr
  have hwq := hi.wanted hq
  obtain ⟨s', e, h2⟩ := C12_move_dismisses_partial w.app.s hi.v.good r.nid q.nid hwr.1 hwq.1 hne hacc hanc h1
  obtain ⟨s'', e', -, -, h3, h4⟩ := C12_move_effect w.app.s hi.v.good r.nid q.nid hwr.1 hwq.1 hne hacc hanc
  rw [e] at e'
  cases e'
  rw [e] at hs
  have hs' : (w.act diff O alloc (.edit (.moveNode r.nid q.nid))).app.s = s' := hs
  generalize hw' : w.act diff O alloc (.edit (.moveNode r.nid q.nid)) = w' at *
  have ha' : w'.app = (w.app.act diff (.edit (.moveNode r.nid q.nid))).state := by rw [← hw']; rfl
  rw [← ha'] at b1 b2 b3 b4
  refine ⟨⟨fun y => by rw [hs']; exact h3 y, fun y hy => by rw [hs']; exact h4 y hy⟩, by rw [hs']; exact h2, fun hflat => ?_⟩
  have hwr' : Wanted w'.app r.nid := wanted_congr own b1 b2 b3 (by rw [hs']; exact h3 _) hwr
  have hwq' : Wanted w'.app q.nid := wanted_congr own b1 b2 b3 (by rw [hs']; exact h3 _) hwq
  have hflat' : ¬ FlatView w'.app := by
    rintro ⟨n, hn, f, hf, hfl⟩
    exact hflat ⟨n, b3 ▸ hn, f, b1 ▸ hf, hfl⟩
  exact j1.rowsBelow hwr' hwq' hflat' (by rw [hs']; exact h2)

/-- C50: dropping a row beside a row of the top, or beside all rows: the node loses its parents, however many, nothing
else changes in the tree, and the node has one row, at the top. -/
theorem C50_drop_top (hdiff : SetDiff diff) (hO : GtkSound O) (ha : Function.Injective alloc) {w : Screen V}
    (h : Reached diff O alloc w) (own : OwnApplied w.app) {r : GRow} {at_ : Option (Nat × DropPos)} (hr : r ∈ w.tm.rows) (ht : TargetTop w.tm.rows at_) :
    OnlyMoves w.app.s.t (w.drop diff O alloc [r.addr] at_).app.s.t r.nid ∧
    (w.drop diff O alloc [r.addr] at_).app.s.t.getParents r.nid = [] ∧
    ∃ r' ∈ (w.drop diff O alloc [r.addr] at_).tm.rows, r'.nid = r.nid ∧ r'.parent = none ∧
      ∀ r'' ∈ (w.drop diff O alloc [r.addr] at_).tm.rows, r''.nid = r.nid → r'' = r' := by
  have hi := reached_inv hdiff hO ha h
  rw [drop_one hi hr, hi.targetTop ht]
  obtain ⟨j1, j2, -, -, -⟩ := hi.act (O := O) hdiff hO ha _ (moveNode_fair (OwnApplied.fewer own) r.nid .none)
  have hs : (w.act diff O alloc (.edit (.moveNode r.nid .none))).app.s = (Larch.step w.app.s (.moveNode r.nid .none)).state :=
    edit_s w.app _
  obtain ⟨b1, b2, b3, b4⟩ := edit_same (diff := diff) w.app (.moveNode r.nid .none)
  have hwr := hi.wanted hr
  have fr := moveNode_frame hi.v.good r.nid .none
  have h2 := moveNode_none hi.v.good hwr.1
  have hs0 : (Larch.step w.app.s (.moveNode r.nid .none)).state = (moveNode w.app.s r.nid .none).state := rfl
  rw [hs0] at hs
  rw [← hs] at fr h2
  generalize hw' : w.act diff O alloc (.edit (.moveNode r.nid .none)) = w' at *
  have ha' : w'.app = (w.app.act diff (.edit (.moveNode r.nid .none))).state := by rw [← hw']; rfl
  rw [← ha'] at b1 b2 b3 b4
  have h3 : w'.app.s.t.getParents r.nid = [] := by rw [j1.v.good.wf.getParents_eq]; exact h2
  refine ⟨⟨fr.has, fun y hy => ?_⟩, h3, ?_⟩
  · rw [j1.v.good.wf.getParents_eq, hi.v.good.wf.getParents_eq]; exact fr.parents y hy
  have hwr' : Wanted w'.app r.nid := wanted_congr own b1 b2 b3 (fr.has _) hwr
  exact j1.topRow hwr' h3

/-- C50: rows dropped together beside a row of the top, or beside all rows, no one below a row of another selected node: all
their nodes lose their parents, however many, and each has one row, at the top. -/
theorem C50_drop_many_top (hdiff : SetDiff diff) (hO : GtkSound O) (ha : Function.Injective alloc) {w : Screen V}
    (h : Reached diff O alloc w) (own : OwnApplied w.app) {sel : List GRow} {at_ : Option (Nat × DropPos)} (hsel : ∀ r ∈ sel, r ∈ w.tm.rows)
    (hap : Apart w.tm.rows sel) (ht : TargetTop w.tm.rows at_) : ∀ r ∈ sel,
    (w.drop diff O alloc (sel.map GRow.addr) at_).app.s.t.getParents r.nid = [] ∧
    ∃ r' ∈ (w.drop diff O alloc (sel.map GRow.addr) at_).tm.rows, r'.nid = r.nid ∧ r'.parent = none ∧
      ∀ r'' ∈ (w.drop diff O alloc (sel.map GRow.addr) at_).tm.rows, r''.nid = r.nid → r'' = r' := by
  intro r hr
  have hi := reached_inv hdiff hO ha h
  obtain ⟨j1, j2, -⟩ := hi.dropRows (O := O) hdiff hO ha .none (sel.map GRow.addr) (OwnApplied.fewer own)
  obtain ⟨b1, b2, b3⟩ := dropRows_same (diff := diff) (O := O) (alloc := alloc) .none (sel.map GRow.addr) w
  unfold Screen.drop
  rw [wire_rows, hi.targetTop ht]
  have hp := hi.dropMany (O := O) hdiff hO ha (dest := .none) (Ok := fun t x => t.has x = true) (ps := [])
    (fun s x hg hx => by
      have hg' : Good (moveNode s x .none).state.t := step_good hg (.moveNode x .none) trivial
      rw [hg'.wf.getParents_eq]; exact moveNode_none hg hx)
    (fun s x y hg _ hy => by rw [(moveNode_frame hg x .none).has]; exact hy)
    (fun z => ∃ r ∈ sel, r.nid = z) sel (w := w) own (fun r hr => by
      obtain ⟨l, -, hl⟩ := hi.right.2.1 r (hsel r hr)
      refine ⟨⟨r, hr, rfl⟩, (hi.wanted (hsel r hr)).1, hi.used r (hsel r hr), Or.inl ⟨hsel r hr, l, hl, ?_⟩⟩
      rintro z hz ⟨q, hq, rfl⟩
      exact hap r hr l hl q hq hz) r.nid (Or.inl ⟨r, hr, rfl⟩)
  exact ⟨hp, j1.topRow (wanted_congr own b1 b2 b3 (j2 _) (hi.wanted (hsel r hr))) hp⟩

/-- **C50** (partial): the same for rows dropped onto a row, or beside one that is below another: all their nodes get that
node as their only parent, and (unless the view is flat) their rows are then exactly below its rows.

Missing: nodes with two or more other parents, targets below a dragged node, rows below one another, filters on other nodes. -/
theorem C50_drop_many_partial (hdiff : SetDiff diff) (hO : GtkSound O) (ha : Function.Injective alloc) {w : Screen V}
    (h : Reached diff O alloc w) (own : OwnApplied w.app) {sel : List GRow} {q : GRow} {at_ : Option (Nat × DropPos)} (hsel : ∀ r ∈ sel, r ∈ w.tm.rows)
    (hap : Apart w.tm.rows sel) (ht : Target w.tm.rows at_ q)
    (hmv : ∀ r ∈ sel, q.nid ≠ r.nid ∧ Accept w.app.s.t q.nid r.nid ∧ ¬ Ancestor w.app.s.t r.nid q.nid ∧
      ((w.app.s.t.getParents r.nid).filter (· ≠ q.nid)).length ≤ 1) : ∀ r ∈ sel,
    (w.drop diff O alloc (sel.map GRow.addr) at_).app.s.t.getParents r.nid = [q.nid] ∧
    (¬ FlatView w.app → RowsBelow (w.drop diff O alloc (sel.map GRow.addr) at_).tm.rows r.nid q.nid) := by
  intro r hr
  have hi := reached_inv hdiff hO ha h
  obtain ⟨hq, hd⟩ := hi.target ht
  obtain ⟨j1, j2, -⟩ := hi.dropRows (O := O) hdiff hO ha q.nid (sel.map GRow.addr) (OwnApplied.fewer own)
  obtain ⟨b1, b2, b3⟩ := dropRows_same (diff := diff) (O := O) (alloc := alloc) q.nid (sel.map GRow.addr) w
  unfold Screen.drop
  rw [wire_rows, hd]
  have hp := hi.dropMany (O := O) hdiff hO ha (dest := q.nid) (Ok := Movable q.nid) (ps := [q.nid])
    (fun s x hg ⟨x1, x2, x3, x4, x5, x6⟩ => by
      obtain ⟨s', e, hp⟩ := C12_move_dismisses_partial s hg x q.nid x1 x2 x3 x4 x5 x6
      change moveNode s x q.nid = _ at e
      rw [e]; exact hp)
    (fun s x y hg hx hy => hx.keep hg hy)
    (fun z => ∃ r ∈ sel, r.nid = z) sel (w := w) own (fun r hr => by
      obtain ⟨l, -, hl⟩ := hi.right.2.1 r (hsel r hr)
      refine ⟨⟨r, hr, rfl⟩, ⟨(hi.wanted (hsel r hr)).1, (hi.wanted hq).1, hmv r hr⟩, hi.used r (hsel r hr), Or.inl ⟨hsel r hr, l, hl, ?_⟩⟩
      rintro z hz ⟨q, hq, rfl⟩
      exact hap r hr l hl q hq hz) r.nid (Or.inl ⟨r, hr, rfl⟩)
  refine ⟨hp, fun hflat => j1.rowsBelow (wanted_congr own b1 b2 b3 (j2 _) (hi.wanted (hsel r hr)))
    (wanted_congr own b1 b2 b3 (j2 _) (hi.wanted hq)) ?_ hp⟩
  rintro ⟨n, hn, f, hf, hfl⟩
  exact hflat ⟨n, b3 ▸ hn, f, b1 ▸ hf, hfl⟩

/-! ### Other widgets -/

theorem free_range (F : Type) (ts : Targets F) (n : Nat) (h : ∀ i, ts.any (fun t => t.1 = i) = true ↔ 1 ≤ i ∧ i ≤ n) : ∀ m i,
    1 ≤ i → i + m = n + 1 → Targets.free ts m i = n + 1 := by
  intro m
  induction m with
  | zero => intro i _ e; exact e
  | succ m ih =>
    intro i hi e
    unfold Targets.free
    rw [if_pos ((h i).2 ⟨hi, by omega⟩)]
    exact ih (i + 1) (by omega) (by omega)

/-- The targets of other widgets are numbered from 1 on, in the order in which they are added. -/
theorem targets_numbered {F : Type} (l : List F) : l.foldl Targets.add [] = (List.range' 1 l.length).zip l := by
  induction l using List.reverseRecOn with
  | nil => rfl
  | append_singleton l f ih =>
    rw [List.foldl_append, List.foldl_cons, List.foldl_nil, ih]
    unfold Targets.add
    have hlen : ((List.range' 1 l.length).zip l).length = l.length := by simp
    rw [hlen, free_range F _ l.length (fun i => ?_) l.length 1 (le_refl _) (by omega)]
    · rw [List.length_append, List.length_singleton, List.range'_concat, List.zip_append (by simp)]
      rw [Nat.one_mul, Nat.add_comm 1]; rfl
    · rw [List.any_eq_true]
      constructor
      · rintro ⟨⟨k, g⟩, hm, hk⟩
        have := List.of_mem_zip hm
        rw [List.mem_range'_1] at this
        have e : k = i := by simpa using hk
        omega
      · rintro ⟨h1, h2⟩
        have hi : i - 1 < l.length := by omega
        refine ⟨(i, l[i - 1]), ?_, by simp⟩
        rw [List.mem_iff_getElem]
        refine ⟨i - 1, by simp; omega, ?_⟩
        rw [List.getElem_zip, List.getElem_range']
        congr 1
        omega

/-- **C50** (partial): rows dropped from another widget: the function that was registered for that kind of drop is called for
each of them, in order, with the node of the row and the node that is dropped on.

Missing: an empty selection (`C50_refuted_empty`), and functions that change the rows of their source. -/
theorem C50_external_partial {F : Type} (fs : List F) (k : Nat) (f : F) (hk : fs[k]? = some f) (src : TM)
    (hsrc : (src.rows.map GRow.addr).Nodup) (sel : List GRow) (hsel : ∀ r ∈ sel, r ∈ src.rows) (hne : sel ≠ []) (dest : Id)
    (hd : dest.falsy = false) :
    (fs.foldl Targets.add []).drop (k + 1) src (wire (sel.map GRow.addr)) dest = .ok (sel.map fun r => (f, r.nid, dest)) := by
  rw [targets_numbered]
  obtain ⟨hk1, hk2⟩ := List.getElem?_eq_some_iff.1 hk
  have hfind : ((List.range' 1 fs.length).zip fs).find? (fun t => t.1 = k + 1) = some (k + 1, f) := by
    cases e : ((List.range' 1 fs.length).zip fs).find? (fun t => decide (t.1 = k + 1)) with
    | none =>
      have := List.find?_eq_none.1 e (k + 1, f) (by
        rw [List.mem_iff_getElem]
        refine ⟨k, by simpa using hk1, ?_⟩
        rw [List.getElem_zip, List.getElem_range', hk2]
        congr 1
        omega)
      simp at this
    | some t =>
      have h1 := List.mem_of_find?_eq_some e
      have h2 : t.1 = k + 1 := by simpa using List.find?_some e
      obtain ⟨j, hj, hjt⟩ := List.mem_iff_getElem.1 h1
      rw [List.getElem_zip, List.getElem_range'] at hjt
      have h3 : 1 + 1 * j = k + 1 := by rw [← hjt] at h2; exact h2
      have : j = k := by omega
      subst this
      rw [← hjt, hk2]
      congr 2
  unfold Targets.drop
  rw [hfind]
  dsimp only
  rw [hd]
  have hw : wire (sel.map GRow.addr) = (sel.map GRow.addr).map some := by
    unfold wire
    rw [if_neg]
    simpa using hne
  rw [if_neg (by simp), if_neg (by rw [hw]; simp), wire_rows, List.map_map]
  congr 1
  refine List.map_congr_left fun r hr => ?_
  show (f, (src.value r.addr).getD .none, dest) = _
  rw [(TM.value_eq hsrc).2 ⟨r, hsel r hr, rfl, rfl⟩]
  rfl

/-- **An empty selection dropped from another widget raises**: the check for it compares bytes with a string. -/
theorem C50_refuted_empty (f : Nat) (src : TM) : ∃ c, ([f].foldl Targets.add []).drop 1 src (wire []) (.str 7) = .err .valueError c :=
  ⟨[], rfl⟩

/-! ### Examples, and the limits -/

/-- 1 with 2 and 3 below it, 5 below 2, and 4. -/
def dropOps : List Op := [.addNode (.new (.str 1) .none) .none, .addNode (.new (.str 2) .none) (.str 1),
  .addNode (.new (.str 3) .none) (.str 1), .addNode (.new (.str 4) .none) .none, .addNode (.new (.str 5) .none) (.str 2)]

/-- A flat filter that accepts everything. -/
def dropBank : List (Bank.Call (Id → Nat)) := [.add (.plain 5) (fun _ _ _ _ => true) (some { flat := some true })]

def dropApp : FApp Nat := ⟨runOps St.init dropOps, fun _ => 0, Bank.run {} dropBank,
  (FT.new someDiff (Bank.run {} dropBank) (runOps St.init dropOps).t (fun _ => 0) (.str 100) true).state⟩

/-- The screen at the beginning, with the addresses chosen by `alloc`. -/
def dropScreen (alloc : Nat → Nat) : Screen Nat := Screen.start byInsertion alloc dropApp

theorem dropScreen_reached (alloc : Nat → Nat) (cs : List (SAct Nat)) (hf : ScreenFair someDiff byInsertion alloc cs (dropScreen alloc)) :
    Reached someDiff byInsertion alloc ((dropScreen alloc).run someDiff byInsertion alloc cs) := by
  refine ⟨dropOps, dropBank, .str 100, fun _ => 0, dropApp.ft, cs, ?_, by decide, rfl, hf, rfl⟩
  exact ⟨careful_add (Made.new _ _) (by decide), careful_add (Made.new _ _) (by decide), careful_add (Made.new _ _) (by decide),
      careful_add (Made.new _ _) (by decide), careful_add (Made.new _ _) (by decide), trivial⟩

theorem dropBank_own : ∀ n f p, Bank.Call.add n f p ∈ dropBank → OwnData f := by
    intro n f p hm
    simp only [dropBank, List.mem_cons, Bank.Call.add.injEq, List.not_mem_nil, or_false] at hm
    obtain ⟨-, rfl, -⟩ := hm
    exact fun _ _ _ _ _ _ _ => rfl

theorem dropApp_own : OwnApplied dropApp := OwnBank.applied (ownBank_run _ dropBank_own).2

/-- The rows at the beginning. -/
example : (dropScreen id).tm.rows = [⟨0, none, .str 1⟩, ⟨1, some 0, .str 2⟩, ⟨2, some 1, .str 5⟩, ⟨3, some 0, .str 3⟩, ⟨4, none, .str 4⟩] := by
  decide

/-- `C50_drop_partial` for 2, which is dropped onto 4. -/
example : ((dropScreen id).drop someDiff byInsertion id [1] (some (4, .into))).app.s.t.getParents (.str 2) = [.str 4] ∧
    RowsBelow ((dropScreen id).drop someDiff byInsertion id [1] (some (4, .into))).tm.rows (.str 2) (.str 4) := by
  have hi := reached_inv someDiff_ok byInsertion_sound Function.injective_id (dropScreen_reached id [] trivial)
  have := C50_drop_partial someDiff_ok byInsertion_sound Function.injective_id (dropScreen_reached id [] trivial) dropApp_own
    (r := ⟨1, some 0, .str 2⟩) (q := ⟨4, none, .str 4⟩) (at_ := some (4, .into)) (by decide) (Target.into (q := ⟨4, none, .str 4⟩) (by decide)) (by decide)
    (Tree.allEnabled_accept (by decide) _ _) (by
      rw [hi.v.good.wf.ancestor_iff]
      intro hr
      have := Tree.isCircular_true hi.v.good.wf.acyclic (Or.inr hr)
      exact absurd this (by decide)) (by decide)
  refine ⟨this.2.1, this.2.2 ?_⟩
  rintro ⟨n, hn, -⟩
  exact absurd hn (by decide +revert)

/-- `C50_drop_top` for 5, which is dropped before 1; and beside 3 it would have become a child of 1. -/
example : (∃ r' ∈ ((dropScreen id).drop someDiff byInsertion id [2] (some (0, .before))).tm.rows, r'.nid = .str 5 ∧ r'.parent = none) ∧
    ((dropScreen id).drop someDiff byInsertion id [2] (some (3, .after))).app.s.t.getParents (.str 5) = [.str 1] := by
  obtain ⟨-, -, r', h1, h2, h3, -⟩ := C50_drop_top someDiff_ok byInsertion_sound Function.injective_id (dropScreen_reached id [] trivial) dropApp_own
    (r := ⟨2, some 1, .str 5⟩) (at_ := some (0, .before)) (by decide) (TargetTop.beside (q := ⟨0, none, .str 1⟩) (by decide) rfl (by decide))
  exact ⟨⟨r', h1, h2, h3⟩, by decide⟩

/-- `C50_only_dragged_partial` for 1 and 2, which are dropped onto 4 together: 3 stays below 1. -/
example : ((dropScreen id).drop someDiff byInsertion id [0, 1] (some (4, .into))).app.s.t.getParents (.str 3) = [.str 1] :=
  (C50_only_dragged_partial someDiff_ok byInsertion_sound Function.injective_id (dropScreen_reached id [] trivial) (OwnApplied.fewer dropApp_own)
    [⟨0, none, .str 1⟩, ⟨1, some 0, .str 2⟩] (by decide) (some (4, .into))).2 (.str 3) (by decide)

theorem rowPath_unique {w : Screen V} (h : SInv diff alloc w) {a : Nat} {l l' : List Id} (h1 : RowPath w.tm.rows a l)
    (h2 : RowPath w.tm.rows a l') : l = l' := by
  obtain ⟨rows, P, hi, -⟩ := h.rows
  have := (hi.of_rowPath h1).2.symm.trans (hi.of_rowPath h2).2
  exact List.reverse_injective this

/-- 5 and 3 are not below one another. -/
theorem dropScreen_apart : Apart (dropScreen id).tm.rows [⟨2, some 1, .str 5⟩, ⟨3, some 0, .str 3⟩] := by
  have hi := reached_inv someDiff_ok byInsertion_sound Function.injective_id (dropScreen_reached id [] trivial)
  have p1 : RowPath (dropScreen id).tm.rows 0 [.str 1] := RowPath.top (r := ⟨0, none, .str 1⟩) (by decide) rfl
  have p2 : RowPath (dropScreen id).tm.rows 1 [.str 1, .str 2] := RowPath.under (r := ⟨1, some 0, .str 2⟩) (by decide) rfl p1
  have p5 : RowPath (dropScreen id).tm.rows 2 [.str 1, .str 2, .str 5] := RowPath.under (r := ⟨2, some 1, .str 5⟩) (by decide) rfl p2
  have p3 : RowPath (dropScreen id).tm.rows 3 [.str 1, .str 3] := RowPath.under (r := ⟨3, some 0, .str 3⟩) (by decide) rfl p1
  intro r hr l hl
  simp only [List.mem_cons, List.not_mem_nil, or_false] at hr
  rcases hr with rfl | rfl
  · rw [rowPath_unique hi hl p5]; decide
  · rw [rowPath_unique hi hl p3]; decide

/-- `C50_drop_many_partial` for 5 and 3, which are dropped onto 4 together, and `C50_drop_many_top` for the same rows. -/
example : (∀ x ∈ [Id.str 5, Id.str 3], ((dropScreen id).drop someDiff byInsertion id [2, 3] (some (4, .into))).app.s.t.getParents x = [.str 4]) ∧
    ∀ x ∈ [Id.str 5, Id.str 3], ((dropScreen id).drop someDiff byInsertion id [2, 3] none).app.s.t.getParents x = [] := by
  have hi := reached_inv someDiff_ok byInsertion_sound Function.injective_id (dropScreen_reached id [] trivial)
  have hsel : ∀ r ∈ [(⟨2, some 1, .str 5⟩ : GRow), ⟨3, some 0, .str 3⟩], r ∈ (dropScreen id).tm.rows := by decide
  have h1 := C50_drop_many_partial someDiff_ok byInsertion_sound Function.injective_id (dropScreen_reached id [] trivial) dropApp_own
    (q := ⟨4, none, .str 4⟩) (at_ := some (4, .into)) hsel dropScreen_apart (Target.into (q := ⟨4, none, .str 4⟩) (by decide)) (by
      have hanc : ∀ x, (dropScreen id).app.s.t.isCircular (.str 4) x = false → ¬ Ancestor (dropScreen id).app.s.t x (.str 4) := by
        intro x hx hr
        have hr' := (hi.v.good.wf.ancestor_iff _ _).1 hr
        have := Tree.isCircular_true hi.v.good.wf.acyclic (Or.inr hr')
        exact absurd (hx.symm.trans this) (by decide)
      intro r hr
      simp only [List.mem_cons, List.not_mem_nil, or_false] at hr
      rcases hr with rfl | rfl
      · exact ⟨by decide, Tree.allEnabled_accept (by decide) _ _, hanc _ (by decide), by decide⟩
      · exact ⟨by decide, Tree.allEnabled_accept (by decide) _ _, hanc _ (by decide), by decide⟩)
  have h2 := C50_drop_many_top someDiff_ok byInsertion_sound Function.injective_id (dropScreen_reached id [] trivial) dropApp_own
    (at_ := none) hsel dropScreen_apart .nowhere
  refine ⟨fun x hx => ?_, fun x hx => ?_⟩
  · simp only [List.mem_cons, List.not_mem_nil, or_false] at hx
    rcases hx with rfl | rfl
    · exact (h1 ⟨2, some 1, .str 5⟩ (by decide)).1
    · exact (h1 ⟨3, some 0, .str 3⟩ (by decide)).1
  · simp only [List.mem_cons, List.not_mem_nil, or_false] at hx
    rcases hx with rfl | rfl
    · exact (h2 ⟨2, some 1, .str 5⟩ (by decide)).1
    · exact (h2 ⟨3, some 0, .str 3⟩ (by decide)).1

/-- **Of rows below one another only the upper one is moved, or both, depending on their order**: 1 and its child 2 are
dropped onto 4; moving 1 makes the rows below it anew, and the iterator of 2 is not valid any more. -/
theorem C50_refuted_nested : ∃ w : Screen Nat, Reached someDiff byInsertion id w ∧ (⟨0, none, .str 1⟩ : GRow) ∈ w.tm.rows ∧
    (⟨1, some 0, .str 2⟩ : GRow) ∈ w.tm.rows ∧ Target w.tm.rows (some (4, .into)) ⟨4, none, .str 4⟩ ∧
    (w.drop someDiff byInsertion id [0, 1] (some (4, .into))).app.s.t.getParents (.str 2) = [.str 1] ∧
    (w.drop someDiff byInsertion id [1, 0] (some (4, .into))).app.s.t.getParents (.str 2) = [.str 4] :=
  ⟨_, dropScreen_reached id [] trivial, by decide, by decide, Target.into (q := ⟨4, none, .str 4⟩) (by decide), by decide, by decide⟩

/-- **A drop onto a row below is refused, but not without effect**: 2 is dropped onto 5, which is below it, and loses its
parent. -/
theorem C50_refuted_descendant : ∃ w : Screen Nat, Reached someDiff byInsertion id w ∧ (⟨1, some 0, .str 2⟩ : GRow) ∈ w.tm.rows ∧
    Target w.tm.rows (some (2, .into)) ⟨2, some 1, .str 5⟩ ∧ w.app.s.t.getParents (.str 2) = [.str 1] ∧
    (w.drop someDiff byInsertion id [1] (some (2, .into))).app.s.t.getParents (.str 2) = [] :=
  ⟨_, dropScreen_reached id [] trivial, by decide, Target.into (q := ⟨2, some 1, .str 5⟩) (by decide), by decide, by decide⟩

/-- **In a flat view a drop beside a row takes away the parents**: 2 and 3 are children of 1; 2 is dropped after 3, and is not
a child of 1 any more. -/
theorem C50_refuted_flat : ∃ w : Screen Nat, Reached someDiff byInsertion id w ∧ (⟨20, none, .str 2⟩ : GRow) ∈ w.tm.rows ∧
    (⟨22, none, .str 3⟩ : GRow) ∈ w.tm.rows ∧ w.app.s.t.getParents (.str 2) = [.str 1] ∧ w.app.s.t.getParents (.str 3) = [.str 1] ∧
    (w.drop someDiff byInsertion id [20] (some (22, .after))).app.s.t.getParents (.str 2) = [] :=
  ⟨_, dropScreen_reached id [.app (.apply (.plain 5) none false true)] ⟨⟨rfl, fun h => by cases h⟩, trivial⟩, by decide, by decide,
    by decide, by decide, by decide⟩

/-- Whether every new row lives where no row lives. -/
def allFresh (O : GtkOrder) : List TM.Act → TM → Bool
  | [], _ => true
  | .lookup p :: h, m => allFresh O h (m.act O (.lookup p)).state
  | .sig s a b :: h, m => (s.ev != .added || m.rows.all (fun r => r.addr != a)) && allFresh O h (m.act O (.sig s a b)).state

theorem allFresh_ok (O : GtkOrder) : ∀ (h : List TM.Act) (m : TM), allFresh O h m = true → Throughout O FreshNow h m := by
  intro h
  induction h with
  | nil => intro m _; trivial
  | cons c h ih =>
    intro m hm
    cases c with
    | lookup p => exact ⟨trivial, ih _ hm⟩
    | sig s a b =>
      unfold allFresh at hm
      rw [Bool.and_eq_true] at hm
      refine ⟨fun hev r hr => ?_, ih _ hm.2⟩
      have h1 := hm.1
      rw [hev] at h1
      have h2 : ∀ x ∈ m.rows, ¬ x.addr = a := by simpa using h1
      exact h2 r hr

/-- The 20th signal adds its row where row 1 was. -/
def reusing (n : Nat) : Nat := if n = 19 then 1 else n

/-- **A node that was not selected is moved if GTK uses memory again**: 1 and its child 2 are dropped onto 4 together. All rows
below 1 are made anew, the new row of 3 in the memory of the old row of 2, and when it is the turn of 2, 3 is moved. No two
rows ever live at the same address. -/
theorem C50_refuted_reuse : ∃ w : Screen Nat, Reached someDiff byInsertion reusing w ∧
    Throughout byInsertion FreshNow (heard reusing 0 (w.drop someDiff byInsertion reusing [0, 1] (some (4, .into))).app.ft.view.out) {} ∧
    w.tm.value 0 = some (.str 1) ∧ w.tm.value 1 = some (.str 2) ∧ w.tm.value 4 = some (.str 4) ∧
    w.app.s.t.getParents (.str 3) = [.str 1] ∧
    (w.drop someDiff byInsertion reusing [0, 1] (some (4, .into))).app.s.t.getParents (.str 3) = [.str 4] :=
  ⟨_, dropScreen_reached reusing [] trivial, allFresh_ok _ _ _ (by decide), by decide, by decide, by decide, by decide, by decide⟩

end Larch
