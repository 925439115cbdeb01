import Verif.Spec.Picking
import Verif.Props.DragDrop
import Verif.Props.Emit
import Verif.Props.Sorting

/-!
# C72: selected rows and separators
-/

namespace Larch

open Spec

variable {V : Type} {diff : List Id → List Id → List Id} {O : GtkOrder} {alloc : Nat → Nat}

namespace Picker

theorem mem_stillThere {rows : List GRow} {l : List Nat} {a : Nat} : a ∈ stillThere rows l ↔ a ∈ l ∧ ∃ r ∈ rows, r.addr = a := by
  unfold stillThere
  simp

theorem hear_sublist (O : GtkOrder) : ∀ (h : List TM.Act) (m : TM) (l : List Nat), (hear O h m l).Sublist l := by
  intro h
  induction h with
  | nil => intro m l; exact List.Sublist.refl l
  | cons c h ih =>
    intro m l
    unfold hear
    split
    · exact (ih _ _).trans List.filter_sublist
    · exact List.filter_sublist

theorem hear_live (O : GtkOrder) : ∀ (h : List TM.Act) (m : TM) (l : List Nat), (∀ a ∈ l, ∃ r ∈ m.rows, r.addr = a) →
    ∀ a ∈ hear O h m l, ∃ r ∈ (TM.run O h m).state.rows, r.addr = a := by
  intro h
  induction h with
  | nil => intro m l hl; exact hl
  | cons c h ih =>
    intro m l hl a ha
    unfold hear at ha
    unfold TM.run
    cases e : m.act O c with
    | ok m' =>
      rw [e] at ha
      exact ih m' _ (fun a ha => (mem_stillThere.1 ha).2) a ha
    | err x m' =>
      rw [e] at ha
      exact (mem_stillThere.1 ha).2

theorem tmRun_rows (O : GtkOrder) : ∀ (h : List TM.Act) (m : TM), ∀ r ∈ (TM.run O h m).state.rows, r ∈ m.rows ∨ r.addr ∈ addresses h := by
  intro h
  induction h with
  | nil => intro m r hr; exact Or.inl hr
  | cons c h ih =>
    intro m r hr
    have hcons : ∀ b, b ∈ addresses (c :: h) ↔ b ∈ addresses [c] ∨ b ∈ addresses h := by
      intro b
      cases c with
      | lookup p => simp [addresses]
      | sig s a sh => simp only [addresses]; split <;> simp
    rw [hcons]
    have h1 := act_rows O m c
    unfold TM.run at hr
    cases e : m.act O c with
    | ok m' =>
      rw [e] at hr h1
      rcases ih m' r hr with h2 | h2
      · rcases h1 r h2 with h3 | h3
        · exact Or.inl h3
        · exact Or.inr (Or.inl h3)
      · exact Or.inr (Or.inr h2)
    | err x m' =>
      rw [e] at hr h1
      rcases h1 r hr with h3 | h3
      · exact Or.inl h3
      · exact Or.inr (Or.inl h3)

theorem hear_keeps (O : GtkOrder) : ∀ (h : List TM.Act) (m : TM) (l : List Nat) (r : GRow), r.addr ∈ l → r ∈ (TM.run O h m).state.rows →
    r.addr ∉ addresses h → r.addr ∈ hear O h m l := by
  intro h
  induction h with
  | nil => intro m l r hl _ _; exact hl
  | cons c h ih =>
    intro m l r hl hr ha
    have ha' : r.addr ∉ addresses h := by
      intro hh
      apply ha
      cases c with
      | lookup p => exact hh
      | sig s a sh => simp only [addresses]; split <;> simp [hh]
    unfold TM.run at hr
    unfold hear
    cases e : m.act O c with
    | ok m' =>
      rw [e] at hr
      have hr' : r ∈ m'.rows := (tmRun_rows O h m' r hr).resolve_right ha'
      exact ih m' _ r (mem_stillThere.2 ⟨hl, r, hr', rfl⟩) hr ha'
    | err x m' =>
      rw [e] at hr
      exact mem_stillThere.2 ⟨hl, r, hr, rfl⟩

/-- What is always true. -/
structure PInv (diff : List Id → List Id → List Id) (alloc : Nat → Nat) (w : Picker V) : Prop where
  scr : SInv diff alloc w.scr
  once : w.picked.Nodup
  live : ∀ a ∈ w.picked, ∃ r ∈ w.scr.tm.rows, r.addr = a
  single : w.many = false → w.picked.length ≤ 1

theorem look_rows (w : Screen V) (path : List Id) : (w.step diff O alloc (.look path)).tm.rows = w.tm.rows := getIterUp_rows O path.reverse w.tm

theorem PInv.step (hdiff : SetDiff diff) (hO : GtkSound O) (ha : Function.Injective alloc) {w : Picker V} (h : PInv diff alloc w) (c : PAct V)
    (hf : PickFair diff O alloc [c] w) : PInv diff alloc (w.step diff O alloc c) := by
  cases c with
  | app c =>
    refine ⟨(h.scr.act (O := O) hdiff hO ha c hf.1).1, h.once.sublist (hear_sublist O _ _ _), ?_, fun hm => ?_⟩
    · exact hear_live O _ _ _ h.live
    · exact (hear_sublist O _ _ _).length_le.trans (h.single hm)
  | look path =>
    refine ⟨h.scr.step (O := O) hdiff hO ha (.look path) hf.1, h.once, fun a hm => ?_, h.single⟩
    show ∃ r ∈ (w.scr.step diff O alloc (.look path)).tm.rows, r.addr = a
    rw [look_rows]
    exact h.live a hm
  | pick a =>
    unfold Picker.step
    dsimp only
    split
    · rename_i hany
      obtain ⟨r, hr, e⟩ := List.any_eq_true.1 hany
      have e : r.addr = a := by simpa using e
      refine ⟨h.scr, ?_, ?_, ?_⟩
      · dsimp only
        split
        · split
          · exact h.once
          · rename_i hn
            exact List.nodup_append.2 ⟨h.once, List.nodup_singleton a, fun x hx y hy hxy => by
              rw [List.mem_singleton] at hy; subst hy; subst hxy; exact hn (by simpa using hx)⟩
        · exact List.nodup_singleton a
      · intro b hb
        dsimp only at hb
        split at hb
        · split at hb
          · exact h.live b hb
          · rcases List.mem_append.1 hb with hb | hb
            · exact h.live b hb
            · rw [List.mem_singleton] at hb; subst hb; exact ⟨r, hr, e⟩
        · rw [List.mem_singleton] at hb; subst hb; exact ⟨r, hr, e⟩
      · intro hm
        dsimp only at hm ⊢
        rw [hm]
        simp
    · exact h
  | lose l =>
    exact ⟨h.scr, h.once.sublist List.filter_sublist, fun a hm => h.live a (List.mem_filter.1 hm).1,
      fun hm => List.filter_sublist.length_le.trans (h.single hm)⟩
  | mode b stays =>
    cases b with
    | true => exact ⟨h.scr, h.once, h.live, fun hm => by cases hm⟩
    | false =>
      refine ⟨h.scr, h.once.sublist List.filter_sublist, fun a hm => h.live a (List.mem_filter.1 hm).1, fun _ => ?_⟩
      show (w.picked.filter fun a => decide (a = stays)).length ≤ 1
      have : (w.picked.filter fun a => decide (a = stays)).length = w.picked.count stays := by
        rw [List.count_eq_length_filter]; congr 1
      rw [this]
      exact List.nodup_iff_count_le_one.1 h.once stays

theorem PInv.run (hdiff : SetDiff diff) (hO : GtkSound O) (ha : Function.Injective alloc) (cs : List (PAct V)) : ∀ {w : Picker V}, PInv diff alloc w →
    PickFair diff O alloc cs w → PInv diff alloc (w.run diff O alloc cs) := by
  induction cs with
  | nil => intro w h _; exact h
  | cons c cs ih => intro w h hf; exact ih (h.step hdiff hO ha c ⟨hf.1, trivial⟩) hf.2

theorem pickReached_inv (hdiff : SetDiff diff) (hO : GtkSound O) (ha : Function.Injective alloc) {w : Picker V} (h : PickReached diff O alloc w) :
    PInv diff alloc w := by
  obtain ⟨scr, cs, h1, h2, rfl⟩ := h
  exact PInv.run hdiff hO ha cs ⟨reached_inv hdiff hO ha h1, List.nodup_nil, (fun a hm => (by cases hm)), fun _ => Nat.zero_le _⟩ h2

theorem nodesAt_rows {m : TM} (hnd : (m.rows.map GRow.addr).Nodup) : ∀ (sel : List GRow) (paths : List (List Nat)), (∀ r ∈ sel, r ∈ m.rows) →
    List.Forall₂ (fun a p => Leads O m.rows p a) (sel.map GRow.addr) paths → nodesAt O m paths = .ok (sel.map GRow.nid) := by
  intro sel
  induction sel with
  | nil => intro paths _ h; cases h; rfl
  | cons r sel ih =>
    intro paths hs h
    cases h with
    | cons h1 h2 =>
      unfold nodesAt
      rw [leads_descend h1, ih _ (fun r hr => hs r (by simp [hr])) h2]
      dsimp only
      rw [(TM.value_eq hnd).2 ⟨r, hs r (by simp), rfl, rfl⟩]
      rfl

end Picker

open Picker

/-- **C72** (partial): whatever happens, `get_selected_nodes` does not raise and returns exactly the nodes of the selected rows, all of which are displayed
by the view at this moment; in single mode there is at most one.

Missing: the conditions of `ViewFair`. -/
theorem C72_selected_partial (hdiff : SetDiff diff) (hO : GtkSound O) (ha : Function.Injective alloc) {w : Picker V} (h : PickReached diff O alloc w)
    (paths : List (List Nat)) (hp : PathsOf O w.scr.tm.rows w.picked paths) :
    ∃ ids sel, w.selectedNodes O paths = .ok ids ∧ PickedRows w sel ∧ ids.Perm (sel.map GRow.nid) ∧ (∀ x ∈ ids, Wanted w.scr.app x) ∧
      (w.many = false → ids.length ≤ 1) := by
  have hi := pickReached_inv hdiff hO ha h
  obtain ⟨rows, P, ht, -⟩ := hi.scr.rows
  have hsel : ∀ l : List Nat, (∀ a ∈ l, ∃ r ∈ w.scr.tm.rows, r.addr = a) → ∃ sel : List GRow, sel.map GRow.addr = l ∧ ∀ r ∈ sel, r ∈ w.scr.tm.rows := by
    intro l
    induction l with
    | nil => intro _; exact ⟨[], rfl, fun r hr => by cases hr⟩
    | cons a l ih =>
      intro hl
      obtain ⟨sel, h1, h2⟩ := ih fun a hm => hl a (by simp [hm])
      obtain ⟨r, hr, e⟩ := hl a (by simp)
      refine ⟨r :: sel, by simp [e, h1], fun q hq => ?_⟩
      rcases List.mem_cons.1 hq with rfl | hq
      · exact hr
      · exact h2 q hq
  obtain ⟨order, hperm, hfor⟩ := hp
  obtain ⟨sel, h1, h2⟩ := hsel w.picked hi.live
  obtain ⟨sel', h1', h2'⟩ := hsel order fun a hm => hi.live a (hperm.subset hm)
  subst h1'
  have hsub : ∀ l : List GRow, (∀ r ∈ l, r ∈ w.scr.tm.rows) → l = (l.map GRow.addr).filterMap fun a => w.scr.tm.rows.find? fun r => r.addr = a := by
    intro l
    induction l with
    | nil => intro _; rfl
    | cons r l ih =>
      intro hl
      have hf : w.scr.tm.rows.find? (fun q => decide (q.addr = r.addr)) = some r := by
        cases e : w.scr.tm.rows.find? (fun q => decide (q.addr = r.addr)) with
        | none => exact absurd (List.find?_eq_none.1 e r (hl r (by simp))) (by simp)
        | some q =>
          have h3 : q.addr = r.addr := by simpa using List.find?_some e
          rw [List.inj_on_of_nodup_map ht.addrs (List.mem_of_find?_eq_some e) (hl r (by simp)) h3]
      rw [List.map_cons, List.filterMap_cons, hf]
      dsimp only
      rw [← ih fun r hr => hl r (by simp [hr])]
  have hperm' : sel'.Perm sel := by
    rw [hsub sel' h2', hsub sel h2, h1]
    exact hperm.filterMap _
  have hlen : (sel'.map GRow.nid).length = w.picked.length := by rw [← hperm.length_eq, List.length_map, List.length_map]
  refine ⟨sel'.map GRow.nid, sel, ?_, ⟨h1, h2⟩, hperm'.map _, fun x hx => ?_, fun hm => by rw [hlen]; exact hi.single hm⟩
  · unfold selectedNodes
    by_cases h0 : w.picked.length = 0
    · rw [if_pos h0]
      rw [h0, List.length_eq_zero_iff] at hlen
      rw [hlen]
    · rw [if_neg h0]
      exact nodesAt_rows ht.addrs sel' paths h2' hfor
  · obtain ⟨r, hr, rfl⟩ := List.mem_map.1 hx
    exact hi.scr.wanted (h2' r hr)

/-- **C72** (partial): the tree is edited. A selected row whose path is still displayed is still selected; and a row that is selected afterwards
was selected before, with the same node.

Missing: the conditions of `ViewFair`, filters that are applied (`C72_refuted_refilter`), and edits under filters on other nodes
(`C51_refuted_children`). -/
theorem C72_edit_partial (hdiff : SetDiff diff) (hO : GtkSound O) (ha : Function.Injective alloc) {w : Picker V} (h : PickReached diff O alloc w)
    (c : FAct V) (hf : ViewFair w.scr.app c) :
    (IsEdit c → (∀ op, c = .edit op → OwnApplied w.scr.app) → ∀ r ∈ w.scr.tm.rows, r.addr ∈ w.picked → ∀ l, RowPath w.scr.tm.rows r.addr l → IsRow (w.step diff O alloc (.app c)).scr.app.ft l →
      r ∈ (w.step diff O alloc (.app c)).scr.tm.rows ∧ r.addr ∈ (w.step diff O alloc (.app c)).picked ∧
        RowPath (w.step diff O alloc (.app c)).scr.tm.rows r.addr l) ∧
    ∀ r ∈ (w.step diff O alloc (.app c)).scr.tm.rows, r.addr ∈ (w.step diff O alloc (.app c)).picked → r ∈ w.scr.tm.rows ∧ r.addr ∈ w.picked := by
  have hi := pickReached_inv hdiff hO ha h
  obtain ⟨-, -, -, k1, k2⟩ := hi.scr.act (O := O) hdiff hO ha c hf
  constructor
  · intro hc own r hr hpk l hl hl'
    obtain ⟨x1, x2⟩ := k2 hc own r hr l hl hl'
    refine ⟨x1, ?_, x2⟩
    refine hear_keeps O _ _ _ r hpk x1 fun hm => ?_
    have hin := (addresses_heard alloc _ _).subset hm
    have hu := hi.scr.used r hr
    unfold usedTill at hu
    obtain ⟨i, hi1, e1⟩ := List.mem_map.1 hin
    obtain ⟨j, hj1, e2⟩ := List.mem_map.1 hu
    have : i = j := ha (e1.trans e2.symm)
    rw [List.mem_range'_1] at hi1
    rw [List.mem_range] at hj1
    omega
  · intro r hr hpk
    have hold : r.addr ∈ w.picked := (hear_sublist O _ _ _).subset hpk
    obtain ⟨q, hq, e⟩ := hi.live _ hold
    refine ⟨(k1 r hr).resolve_right ?_, hold⟩
    rw [← e]
    exact fun hn => hn (hi.scr.used q hq)

/-- **C72** (partial), for separators: like the comparing functions of C60, the function of the application is asked about the node of the row, at
every signal that is no deletion and after the history, whatever row GTK asks about. Without a function no row is a separator.

Missing: the conditions of `ViewFair` and C36. -/
theorem C72_separator_partial {ops : List Op} {bcs : List (Bank.Call (Id → V))} {root : Id} (hs : ViewStart ops root)
    (hdiff : SetDiff diff) (d : Id → V) {O : GtkOrder} (hO : GtkSound O) :
    ∃ ft, FT.new diff (Bank.run {} bcs) (runOps St.init ops).t d root true = .ok ft ∧
      ∀ cs, ViewFairRun diff cs ⟨runOps St.init ops, d, Bank.run {} bcs, ft⟩ →
        ∃ a, FApp.run diff cs ⟨runOps St.init ops, d, Bank.run {} bcs, ft⟩ = .ok a ∧
          (∀ pre t s post, allMoments diff cs ⟨runOps St.init ops, d, Bank.run {} bcs, ft⟩ = pre ++ (t, s) :: post → s.ev ≠ .deleted →
            ∀ h : List TM.Act, signals h = pre.map Prod.snd ++ [s] → (addresses h).Nodup → Throughout O ParentThere h {} →
              ∃ m, TM.run O h {} = .ok m ∧ ∀ r ∈ m.rows, ∃ n, t.node? r.nid = some n ∧
                (∀ f, m.separator t (some f) r.addr = .ok (f n)) ∧ m.separator t none r.addr = .ok false) ∧
          ∀ h : List TM.Act, signals h = a.ft.view.out → (addresses h).Nodup → Throughout O ParentThere h {} →
            ∃ m, TM.run O h {} = .ok m ∧ ∀ r ∈ m.rows, ∃ n, a.s.t.node? r.nid = some n ∧
              (∀ f, m.separator a.s.t (some f) r.addr = .ok (f n)) ∧ m.separator a.s.t none r.addr = .ok false := by
  have key : ∀ {h : List TM.Act} {rows : List (List Id)} {t : Tree}, replay (signals h) [] = some rows → RowsReal t rows → (addresses h).Nodup →
      Throughout O ParentThere h {} → ∃ m, TM.run O h {} = .ok m ∧ ∀ r ∈ m.rows, ∃ n, t.node? r.nid = some n ∧
        (∀ f, m.separator t (some f) r.addr = .ok (f n)) ∧ m.separator t none r.addr = .ok false := by
    intro h rows t h1 hr hadd hl
    obtain ⟨hf', hc'⟩ := no_reuse hO h (U := []) (TInv.init (P := fun _ => [])) h1 hadd
      (fun r hr => by cases hr) (fun k b hk => by cases hk) hl
    obtain ⟨m, P, em, hi⟩ := tmRun_inv hO h (TInv.init (P := fun _ => [])) h1 hf' hc' hl
    refine ⟨m, em, fun r hrm => ?_⟩
    obtain ⟨x, e, hx⟩ := hr (P r.addr).reverse ((hi.img _).2 ⟨r, hrm, by simp⟩)
    rw [hi.path r hrm] at e
    simp at e
    subst e
    obtain ⟨n, hn⟩ := (Tree.has_iff _ _).1 hx
    refine ⟨n, hn, fun f => ?_, ?_⟩
    · unfold TM.separator Tree.getNode
      rw [(TM.value_eq hi.addrs).2 ⟨r, hrm, rfl, rfl⟩]
      dsimp only
      rw [hn]
    · unfold TM.separator Tree.getNode
      rw [(TM.value_eq hi.addrs).2 ⟨r, hrm, rfl, rfl⟩]
      dsimp only
      rw [hn]
  obtain ⟨ft, e, hr⟩ := C60_moment_partial hs hdiff d
  refine ⟨ft, e, fun cs hf => ?_⟩
  obtain ⟨a, ea, -, hm, rows, q, w, rr⟩ := hr cs hf
  refine ⟨a, ea, fun pre t s post e1 h1 h hsig hadd hl => ?_, fun h hsig hadd hl => ?_⟩
  · obtain ⟨-, rows, q, w, rr⟩ := hm pre t s post e1 h1
    exact key (hsig ▸ q) rr hadd hl
  · exact key (hsig ▸ q) rr hadd hl

/-! ### Concrete cases and limits -/

/-- Rows 1, 2, 5, 3 and 4 as in `Props/DragDrop.lean`; 2 and 3 are selected, then 4 is moved below 3. -/
def pickHistory : List (PAct Nat) := [.mode true 0, .pick 3, .pick 1, .app (.edit (.moveNode (.str 4) (.str 3)))]

def pickWidget : Picker Nat := Picker.run someDiff byInsertion id pickHistory { scr := dropScreen id }

theorem pickWidget_reached : PickReached someDiff byInsertion id pickWidget :=
  ⟨_, pickHistory, dropScreen_reached id [] trivial, ⟨trivial, trivial, trivial, moveNode_fair (OwnApplied.fewer dropApp_own) _ _, trivial⟩, rfl⟩

example : pickWidget.scr.tm.rows = [⟨0, none, .str 1⟩, ⟨1, some 0, .str 2⟩, ⟨2, some 1, .str 5⟩, ⟨3, some 0, .str 3⟩, ⟨15, some 3, .str 4⟩] ∧
    pickWidget.picked = [3, 1] := by decide

/-- `C72_selected_partial`: GTK gives the rows from top to bottom. -/
example : (∃ ids sel, pickWidget.selectedNodes byInsertion [[0, 0], [0, 1]] = .ok ids ∧ PickedRows pickWidget sel ∧ ids.Perm (sel.map GRow.nid) ∧
    (∀ x ∈ ids, Wanted pickWidget.scr.app x) ∧ (pickWidget.many = false → ids.length ≤ 1)) ∧
    pickWidget.selectedNodes byInsertion [[0, 0], [0, 1]] = .ok [.str 2, .str 3] :=
  ⟨C72_selected_partial someDiff_ok byInsertion_sound Function.injective_id pickWidget_reached [[0, 0], [0, 1]]
    ⟨[1, 3], by decide, .cons (.under (path := [0]) (p := 0) (.top (by decide)) (by decide))
      (.cons (.under (path := [0]) (p := 0) (.top (by decide)) (by decide)) .nil)⟩, by rfl⟩

/-- `C72_edit_partial`: 3 is removed from the tree, and 2 stays selected. -/
example : (⟨1, some 0, .str 2⟩ : GRow) ∈ (pickWidget.step someDiff byInsertion id (.app (.edit (.delNode (.str 3) false)))).scr.tm.rows ∧
    1 ∈ (pickWidget.step someDiff byInsertion id (.app (.edit (.delNode (.str 3) false)))).picked ∧
    3 ∉ (pickWidget.step someDiff byInsertion id (.app (.edit (.delNode (.str 3) false)))).picked := by
  have h := (C72_edit_partial someDiff_ok byInsertion_sound Function.injective_id pickWidget_reached (.edit (.delNode (.str 3) false))
    ⟨⟨show List.length _ ≤ 1 by decide, fun nd p h => (by cases h), fun x h => (by cases h)⟩, .inl dropApp_own⟩).1 trivial (fun _ _ => dropApp_own) ⟨1, some 0, .str 2⟩ (by decide) (by decide) [.str 1, .str 2]
    (.under (r := ⟨1, some 0, .str 2⟩) (l := [.str 1]) (by decide) rfl (.top (r := ⟨0, none, .str 1⟩) (by decide) rfl)) (by unfold IsRow; decide)
  exact ⟨h.1, h.2.1, by decide⟩

/-- **A refilter loses the selection**: `reset_filters` when no filter is applied, although everything is displayed as before. -/
theorem C72_refuted_refilter : ∃ w : Picker Nat, PickReached someDiff byInsertion id w ∧ ViewFair w.scr.app (.reset true) ∧ w.picked = [3, 1] ∧
    (w.step someDiff byInsertion id (.app (.reset true))).picked = [] ∧
    ∀ l, l ∈ [[.str 1], [.str 1, .str 2], [.str 1, .str 3]] → IsRow w.scr.app.ft l ∧
      IsRow (w.step someDiff byInsertion id (.app (.reset true))).scr.app.ft l := by
  refine ⟨_, pickWidget_reached, rfl, by decide, by decide, ?_⟩
  unfold IsRow
  decide

/-- `C72_separator_partial` at the moment of `Props/Sorting.lean`. -/
example : ViewFairRun someDiff sortHistory viewApp ∧ ∃ m, TM.run byInsertion heardThen {} = .ok m ∧ m.rows.map GRow.nid = [.str 1, .str 3] ∧
    m.separator sortMoment.1 (some fun x => decide (x.id = .str 3)) 33 = .ok true ∧ m.separator sortMoment.1 none 33 = .ok false :=
  ⟨sortHistory_fair, _, rfl, rfl, rfl, rfl⟩

/-- 5 gets a second parent, and both of its rows are selected. -/
def twiceHistory : List (PAct Nat) := [.app (.edit (.newRelationship (.str 3) (.str 5))), .mode true 0, .pick 2, .pick 14]

def twiceWidget : Picker Nat := Picker.run someDiff byInsertion id twiceHistory { scr := dropScreen id }

/-- **A node whose two rows are selected is returned twice.** -/
theorem C72_refuted_twice : ∃ (w : Picker Nat) (paths : List (List Nat)), PickReached someDiff byInsertion id w ∧
    PathsOf byInsertion w.scr.tm.rows w.picked paths ∧ w.selectedNodes byInsertion paths = .ok [.str 5, .str 5] := by
  refine ⟨twiceWidget, [[0, 0, 0], [0, 1, 0]], ⟨_, twiceHistory, dropScreen_reached id [] trivial, ⟨⟨⟨Tree.allEnabled_accept (by decide) _ _, ?_, ?_⟩, .inl dropApp_own⟩,
    trivial, trivial, trivial, trivial⟩, rfl⟩, ⟨[2, 14], by decide, .cons ?_ (.cons ?_ .nil)⟩, by rfl⟩
  · intro nd p h; cases h
  · intro x h; cases h
  · exact .under (path := [0, 0]) (p := 1) (.under (path := [0]) (p := 0) (.top (by decide)) (by decide)) (by decide)
  · exact .under (path := [0, 1]) (p := 3) (.under (path := [0]) (p := 0) (.top (by decide)) (by decide)) (by decide)

end Larch
