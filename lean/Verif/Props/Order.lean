import Verif.Proofs.Order
import Verif.Props.ViewReading
import Verif.Props.Suite
import Verif.Props.Leftover

/-!
# C77: observers see siblings in the order of the view
-/

namespace Larch

open Spec
open scoped List

variable {V : Type} {diff : List Id → List Id → List Id}

theorem VState.orderedObserver (hdiff : SetDiff diff) {a : FApp V} (h : VState diff a) : OrderedObserver a := by
  obtain ⟨r, -, hv⟩ := h.fit.inv
  obtain ⟨rows, h1, h2, h3, h4⟩ := hv.rows
  exact ⟨rows, h1, h3, sameOrder_of (h.viewOK hdiff) h2 h3 h4⟩

/-- C77: after every fair history, an observer that puts every announced row below its siblings sees the children of every
displayed node in the order in which `node_all_children` and `node_nth_child` give them. Missing for the literal claim: the
restrictions of `ViewFair`. -/
theorem C77_order_partial {ops : List Op} {bcs : List (Bank.Call (Id → V))} {root : Id} (h : ViewStart ops root)
    (hdiff : SetDiff diff) (d : Id → V) :
    ∃ ft, FT.new diff (Bank.run {} bcs) (runOps St.init ops).t d root true = .ok ft ∧
      ∀ cs, ViewFairRun diff cs ⟨runOps St.init ops, d, Bank.run {} bcs, ft⟩ →
        ∃ a, FApp.run diff cs ⟨runOps St.init ops, d, Bank.run {} bcs, ft⟩ = .ok a ∧ OrderedObserver a := by
  obtain ⟨ft, e, hr⟩ := h.run (bcs := bcs) hdiff d
  refine ⟨ft, e, fun cs hf => ?_⟩
  obtain ⟨a, ea, hv⟩ := hr cs hf
  exact ⟨a, ea, hv.orderedObserver hdiff⟩

/-- C77: `get_current_state` announces siblings in the order of the view, whatever happened before. -/
theorem C77_late_observer (ft : FT) (h : ViewOK ft) :
    ∃ sent rows, ft.currentState = .ok { ft with view := ⟨ft.view.nodes, ft.view.out ++ sent⟩ } ∧
      replay sent [] = some rows ∧ (∀ l, l ∈ rows ↔ IsRow ft l) ∧ SameOrder ft rows := by
  obtain ⟨sent, e, -, rows, h1, h2, h3, h4⟩ := h.announce
  exact ⟨sent, rows, e, h1, h3, sameOrder_of h h2 h3 h4⟩

/-- C77: the rows of the GTK tree store are in the order of the view, below every row. -/
theorem C77_screen_partial {O : GtkOrder} {alloc : Nat → Nat} (hdiff : SetDiff diff) (hO : GtkSound O)
    (ha : Function.Injective alloc) {w : Screen V} (h : Reached diff O alloc w) : StoreOrder w.app.ft w.tm.rows := by
  have hs : SInv diff alloc w := reached_inv hdiff hO ha h
  obtain ⟨rows, P, hi, hr⟩ := hs.rows
  obtain ⟨rows', r1, -, r3⟩ := hs.v.orderedObserver hdiff
  rw [hr] at r1
  cases r1
  exact storeOrder_of hi r3

theorem WState.orderedObserver (hdiff : SetDiff diff) {fresh : Bool} {a : FApp V} (h : WState diff fresh a) : OrderedObserver a := by
  obtain ⟨r, -, hv⟩ := h.slack.inv
  obtain ⟨rows, h1, h2, h3, h4⟩ := hv.rows
  exact ⟨rows, h1, h3, sameOrder_of (h.viewOK hdiff) h2 h3 h4⟩

/-- C77 for any number of views, whether they are up to date or not. -/
theorem C77_suite_partial (hdiff : SetDiff diff) (d : Id → V) (cs : List (SuiteAct V))
    (hf : SuiteFairRun diff (fun _ => true) cs (Suite.init d)) :
    ∃ a, Suite.run diff cs (Suite.init d) = .ok a ∧ ∀ (k : Nat) v, k ≠ 0 → a.objs[k]? = some (Obj.view v) →
      ∃ ft, v.ft = some ft ∧ OrderedObserver (alone a ft) := by
  obtain ⟨a, e, h⟩ := (SState.init diff (fun _ => true) d).run hdiff cs hf
  refine ⟨a, e, fun k v hk hv => ?_⟩
  obtain ⟨-, ft, h2, -, h4⟩ := h.views k v hk hv
  exact ⟨ft, h2, h4.orderedObserver hdiff⟩

theorem VOver.orderedObserver {T : Tree → Prop} (hdiff : SetDiff diff) {a : FApp V} (h : VOver T diff a) : OrderedObserver a := by
  obtain ⟨r, -, hv⟩ := h.fit.inv
  obtain ⟨rows, h1, h2, h3, h4⟩ := hv.rows
  obtain ⟨rank, M, hw⟩ := h.fit.whole hdiff h.good.wf h.rootFree
  exact ⟨rows, h1, h3, sameOrder_of hw.frame.viewOK h2 h3 h4⟩

/-- C77 when nodes with several parents are removed, and no id is used twice (C76). -/
theorem C77_leftover_partial {ops : List Op} {bcs : List (Bank.Call (Id → V))} {root : Id} (h : Along Decent St.init ops)
    (hn : (addedIds ops).Nodup) (hr : (runOps St.init ops).t.has root = false) (hdiff : SetDiff diff) (d : Id → V) :
    ∃ ft, FT.new diff (Bank.run {} bcs) (runOps St.init ops).t d root true = .ok ft ∧
      ∀ cs, NewIdFairRun diff cs ⟨runOps St.init ops, d, Bank.run {} bcs, ft⟩ → (addedIds (ops ++ editsOf cs)).Nodup →
        ∃ a, FApp.run diff cs ⟨runOps St.init ops, d, Bank.run {} bcs, ft⟩ = .ok a ∧ OrderedObserver a := by
  have h0 : BankInv ({} : Bank (Id → V)) := ⟨rfl, by simp [KV.keys]⟩
  obtain ⟨hc, hk⟩ := decent_considerate ops (S := fun _ => False) init_good (Known.init _) (fun _ _ h => h) hn h
  have hg := runOps_considerate ops St.init init_good hc
  obtain ⟨ft, e, hv⟩ := new_vover hdiff hg hk d (Bank.run {} bcs) (bank_run bcs _ h0) root hr
  refine ⟨ft, e, fun cs hf hnd => ?_⟩
  have ea : addedIds (ops ++ editsOf cs) = addedIds ops ++ addedIds (editsOf cs) := List.flatMap_append
  rw [ea, List.nodup_append] at hnd
  have hl := newId_run hdiff cs hv (by
    rintro x hx (hs | hs)
    · exact hs
    · exact hnd.2.2 x hs x hx rfl) hnd.2.1 hf
  obtain ⟨a, ea, ha⟩ := left_run hdiff cs (hv.weaken trivial) hl
  exact ⟨a, ea, ha.orderedObserver hdiff⟩

/-! ### Concrete cases -/

/-- Three nodes below 1; 3 is hidden and shown again. -/
def orderHistory : List (FAct Nat) :=
  [ .apply (.plain 1) none false true, .edit (.addNode (.new (.str 1) .none) .none),
    .edit (.addNode (.new (.str 2) .none) (.str 1)), .edit (.addNode (.new (.str 3) .none) (.str 1)),
    .edit (.addNode (.new (.str 4) .none) (.str 1)), .change (.str 3) 3, .change (.str 3) 4 ]

theorem orderHistory_fair : ViewFairRun someDiff orderHistory (emptyApp fun _ => 0) := by
  refine countBank_fair rfl ⟨⟨rfl, fun h => by cases h⟩, ⟨careful_add (Made.new _ _) (by decide), ?_, ?_⟩,
    ⟨careful_add (Made.new _ _) (by decide), ?_, ?_⟩, ⟨careful_add (Made.new _ _) (by decide), ?_, ?_⟩,
    ⟨careful_add (Made.new _ _) (by decide), ?_, ?_⟩, trivial, trivial, trivial⟩
  all_goals first
    | (intro nd p h; cases h; decide)
    | (intro x h; cases h)

example : ∃ a, FApp.run someDiff orderHistory (emptyApp fun _ => 0) = .ok a ∧ OrderedObserver a ∧
    a.ft.allChildren (.str 1) = .ok [.str 2, .str 4, .str 3] := by
  obtain ⟨ft, e, hr⟩ := C77_order_partial (ops := []) (bcs := countBank) (root := .str 100) ⟨trivial, rfl⟩ someDiff_ok (fun _ => 0)
  cases e
  obtain ⟨a, ea, h⟩ := hr orderHistory orderHistory_fair
  exact ⟨a, ea, h, by cases ea; rfl⟩

/-- C77 is not a claim about the tree: a node that was hidden comes back below its siblings, while the tree lists it where
it was. -/
theorem C77_refuted_tree : ∃ a : FApp Nat, ViewFairRun someDiff orderHistory (emptyApp fun _ => 0) ∧
    FApp.run someDiff orderHistory (emptyApp fun _ => 0) = .ok a ∧
    a.s.t.getChildren (.str 1) = [.str 2, .str 3, .str 4] ∧ a.ft.allChildren (.str 1) = .ok [.str 2, .str 4, .str 3] :=
  ⟨_, orderHistory_fair, rfl, rfl, rfl⟩

/-- `C77_late_observer` for a view with a node in two places. -/
example : ∃ rows, replay (shownApp.ft.currentState.state.view.out.drop shownApp.ft.view.out.length) [] = some rows ∧
    seenBelow rows [.str 2] = [.str 3, .str 4] ∧ shownApp.ft.allChildren (.str 2) = .ok [.str 3, .str 4] ∧ ViewOK shownApp.ft :=
  ⟨_, rfl, by decide, by decide, shownApp_ok⟩

/-- 2 is dropped onto 4 and back onto 1. -/
def thereAndBack : List (SAct Nat) := [.drop [1] (some (4, .into)), .drop [22] (some (0, .into))]

theorem thereAndBack_fair : ScreenFair someDiff byInsertion id thereAndBack (dropScreen id) :=
  ⟨OwnApplied.fewer dropApp_own, FewerApplied.congr (OwnApplied.fewer dropApp_own) (by rfl) (by rfl), trivial⟩

/-- `C77_screen_partial` after that: 2 is below 3 now, in the view and in the store. -/
example : StoreOrder ((dropScreen id).run someDiff byInsertion id thereAndBack).app.ft ((dropScreen id).run someDiff byInsertion id thereAndBack).tm.rows ∧
    storeBelow ((dropScreen id).run someDiff byInsertion id thereAndBack).tm.rows (some 0) = [.str 3, .str 2] :=
  ⟨C77_screen_partial someDiff_ok byInsertion_sound Function.injective_id (dropScreen_reached id thereAndBack thereAndBack_fair), by decide⟩


/-- `C77_suite_partial` for the history of `Props/Suite.lean`. -/
example : ∃ a, Suite.run someDiff suiteHistory (Suite.init fun _ => 0) = .ok a ∧ ∃ ft, viewAt a 1 = some ft ∧ OrderedObserver (alone a ft) ∧
    ft.allChildren .none = .ok [.str 1, .str 3] := by
  obtain ⟨a, e, h⟩ := C77_suite_partial someDiff_ok (fun _ => 0) suiteHistory suiteHistory_fair
  cases e
  obtain ⟨ft, hft, ho⟩ := h 1 _ (by decide) rfl
  exact ⟨_, rfl, ft, hft, ho, by cases hft; rfl⟩

/-- `C77_leftover_partial` for the history of `Props/Leftover.lean`. -/
example : ∃ a, FApp.run someDiff leftHistory leftApp = .ok a ∧ OrderedObserver a := by
  obtain ⟨ft, e, h⟩ := C77_leftover_partial (ops := leftOps.take 5) (bcs := countBank) (root := .str 100)
    ⟨decent_add (Made.new _ _) (by decide), decent_add (Made.new _ _) (by decide), decent_add (Made.new _ _) (by decide),
      trivial, decent_add (Made.new _ _) (by decide), trivial⟩ (by decide) (by decide) someDiff_ok (fun _ => 0)
  have : leftApp = ⟨runOps St.init (leftOps.take 5), fun _ => 0, Bank.run {} countBank, ft⟩ := by
    unfold leftApp; rw [e]; rfl
  obtain ⟨a, ea, ha⟩ := h leftHistory (this ▸ leftHistory_fair) (by decide)
  exact ⟨a, this ▸ ea, ha⟩

end Larch
