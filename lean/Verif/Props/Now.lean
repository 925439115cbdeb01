import Verif.Proofs.Now
import Verif.Proofs.Midway
import Verif.Proofs.Watching
import Verif.Props.Desk
import Verif.Props.Sorting

/-!
# C62: observers are told in the middle of edits
-/

namespace Larch

open Spec Graph

variable {V σ : Type} {diff : List Id → List Id → List Id} {tell : Note → σ → Res σ}

/-- **C62**: whatever the observers do with their own state, whatever the tree is, and whatever edit is made: the observers hear
the notifications that the edit sends without observers, one after the other, and each with the tree as it is at that moment. If
none of them raises, the tree and the outcome are those without observers. If one raises, the edit stops with that exception, and
the tree stays as it was at that notification. -/
theorem C62_interleaved (s : St) (o : σ) (op : Op) : Interleaves tell s o (step s op) (Now.step (Now.quietly tell) ⟨s, o⟩ op) :=
  Now.step_interleaves s o op

/-! ### The application -/

theorem Suite.editNow_ok {a b : Suite V} {op : Op} (h : a.edit diff op = .ok b) :
    (a.editNow diff op).state = b ∧ (a.editNow diff op).isOk = (step a.s op).isOk := by
  obtain ⟨notes, hl, hi⟩ := C62_interleaved (tell := Obj.reactAll diff a.bank a.data) a.s a.objs op
  unfold Suite.edit at h
  dsimp only at h
  rw [hl, List.drop_left] at h
  unfold Suite.editNow
  rcases hi with ⟨o', h1, h2⟩ | ⟨pre, n, post, o1, e, o2, h1, h2, h3, -⟩
  · rw [h1] at h
    cases h
    rw [h2]
    cases step a.s op with
    | ok s' => exact ⟨rfl, rfl⟩
    | err e s' => exact ⟨rfl, rfl⟩
  · exfalso
    have : Res.forEach (Obj.reactAll diff a.bank a.data) notes a.objs = .err e o2 := by
      rw [h1, forEach_append, h2]
      show (Obj.reactAll diff a.bank a.data n o1).andThen _ = _
      rw [h3]; rfl
    rw [this] at h
    cases h

theorem refreshNode_ok (s : St) (x : Id) : (step s (.refreshNode x)).isOk = true := by
  show (modifyNode s x).isOk = true
  unfold modifyNode; split <;> rfl

theorem Suite.editNow_refresh {a b : Suite V} {x : Id} (h : a.edit diff (.refreshNode x) = .ok b) :
    a.editNow diff (.refreshNode x) = .ok b := by
  obtain ⟨h1, h2⟩ := Suite.editNow_ok h
  rw [refreshNode_ok] at h2
  cases e : a.editNow diff (.refreshNode x) with
  | ok c => rw [e] at h1; rw [← h1]; rfl
  | err x c => rw [e] at h2; cases h2

theorem Suite.refreshNow (l : List Id) {a b : Suite V}
    (h : Res.forEach (fun x (w : Suite V) => w.edit diff (.refreshNode x)) l a = .ok b) :
    Res.forEach (fun x (w : Suite V) => w.editNow diff (.refreshNode x)) l a = .ok b := by
  induction l generalizing a with
  | nil => exact h
  | cons x l ih =>
    change (a.edit diff (.refreshNode x)).andThen _ = _ at h
    cases e : a.edit diff (.refreshNode x) with
    | err y c => rw [e] at h; cases h
    | ok c =>
      rw [e] at h
      show (a.editNow diff (.refreshNode x)).andThen _ = _
      rw [Suite.editNow_refresh e]
      exact ih h

theorem Suite.actNow_ok {a b : Suite V} {c : SuiteAct V} (h : a.act diff c = .ok b) : (a.actNow diff c).state = b := by
  cases c with
  | edit op => exact (Suite.editNow_ok h).1
  | change x v => exact (Suite.editNow_ok h).1
  | onView k c =>
    unfold Suite.act at h
    dsimp only at h
    unfold Suite.actNow
    dsimp only
    cases ho : a.objs[k]? with
    | none => rw [ho] at h; cases h; rfl
    | some o =>
      rw [ho] at h
      cases o with
      | count v => cases h; rfl
      | view v =>
        dsimp only at h
        cases c with
        | currentState =>
          dsimp only
          by_cases hs : v.static = true
          · rw [if_pos hs]
            unfold Suite.callView at h
            dsimp only at h
            rw [if_pos hs] at h
            rw [Suite.refreshNow _ h]; rfl
          · rw [if_neg hs, h]; rfl
        | _ => dsimp only; rw [h]; rfl
  | bank c => have h : a.act diff (.bank c) = .ok b := h; show (a.act diff (.bank c)).state = b; rw [h]; rfl
  | getView n r => show (a.act diff (.getView n r)).state = b; rw [h]; rfl
  | getCount n r => show (a.act diff (.getCount n r)).state = b; rw [h]; rfl
  | onCount k c => show (a.act diff (.onCount k c)).state = b; rw [h]; rfl

theorem Suite.runNow_ok (cs : List (SuiteAct V)) {a b : Suite V} (h : Suite.run diff cs a = .ok b) : Suite.runNow diff cs a = b := by
  induction cs generalizing a with
  | nil => cases h; rfl
  | cons c cs ih =>
    change (a.act diff c).andThen _ = _ at h
    cases e : a.act diff c with
    | err y w => rw [e] at h; cases h
    | ok w =>
      rw [e] at h
      show Suite.runNow diff cs (a.actNow diff c).state = b
      rw [Suite.actNow_ok e]
      exact ih h

/-- **C62** (partial), for the application: if its views and counters are told in the middle of the edits, then after every fair
history everything is as if they had been told after each edit, and so everything that is shown is right (as in C54).

Missing: the conditions of `SuiteFair`. -/
theorem C62_application_partial (hdiff : SetDiff diff) (d : Id → V) (cs : List (SuiteAct V))
    (hf : SuiteFairRun diff (fun _ => true) cs (Suite.init d)) :
    Suite.run diff cs (Suite.init d) = .ok (Suite.runNow diff cs (Suite.init d)) ∧
      SuiteRight diff (freshAtEnd diff (fun _ => true) cs (Suite.init d)) (Suite.runNow diff cs (Suite.init d)) := by
  obtain ⟨a, e, h⟩ := C54_all_right_partial hdiff d cs hf
  rw [Suite.runNow_ok cs e]
  exact ⟨e, h⟩

theorem DState.stepNow (hdiff : SetDiff diff) {fresh : Nat → Bool} {d : Desk V} (h : DState diff fresh d) (ev : DeskEv V)
    (hf : DeskFair fresh d ev) : d.stepNow diff ev = d.step diff ev := by
  cases ev with
  | push p op => rfl
  | tick src => rfl
  | done =>
    unfold Desk.stepNow Desk.step
    dsimp only
    cases hr : d.q.running with
    | none => rfl
    | some r =>
      obtain ⟨p, op⟩ := r
      dsimp only
      obtain ⟨⟨h1, h2, h3, h4⟩, h5⟩ := hf p op hr
      obtain ⟨a', e, -⟩ := h.app.edit hdiff op h1 h2 h3 h4
      obtain ⟨k1, k2⟩ := Suite.editNow_ok e
      rw [k1, k2, e, h5]
      rfl
  | main c =>
    unfold Desk.stepNow Desk.step
    dsimp only
    cases hr : d.q.running with
    | some r => rfl
    | none =>
      dsimp only
      obtain ⟨a', e, -⟩ := h.app.act hdiff c (hf hr)
      rw [Suite.actNow_ok e, e]
      rfl

theorem DState.runNow (hdiff : SetDiff diff) : ∀ (evs : List (DeskEv V)) (fresh : Nat → Bool) (d : Desk V), DState diff fresh d →
    DeskFairRun diff fresh evs d → Desk.runNow diff evs d = Desk.run diff evs d := by
  intro evs
  induction evs with
  | nil => intros; rfl
  | cons ev evs ih =>
    intro fresh d h hf
    show Desk.runNow diff evs (d.stepNow diff ev) = Desk.run diff evs (d.step diff ev)
    rw [h.stepNow hdiff ev hf.1]
    exact ih _ _ (h.step hdiff ev hf.1).1 hf.2

/-- **C62** (partial), with other threads: likewise, and so C55 holds for it.

Missing: the conditions of `DeskFair`. -/
theorem C62_threads_partial (hdiff : SetDiff diff) (d : Id → V) (evs : List (DeskEv V))
    (hf : DeskFairRun diff (fun _ => true) evs (Desk.init d)) :
    Desk.runNow diff evs (Desk.init d) = Desk.run diff evs (Desk.init d) ∧
      DeskRight diff (deskFreshEnd diff (fun _ => true) evs (Desk.init d)) (Desk.init d) (Desk.runNow diff evs (Desk.init d)) evs := by
  have e := (DState.init diff d).runNow hdiff evs _ _ hf
  refine ⟨e, ?_⟩
  rw [e]
  exact C55_threads_partial hdiff d evs hf

/-! ### Interrupted edits -/

/-- The tree after an edit with observers is the one of some notification, or the one after the edit. -/
theorem interleaves_tree {s : St} {o : σ} {r : Res St} {q : Res (Now σ)} (h : Interleaves tell s o r q) {P : Tree → Prop}
    (h1 : P r.state.t) (h2 : ∀ l, r.state.log = s.log ++ l → ∀ n ∈ l, P n.snap) : P q.state.s.t := by
  obtain ⟨notes, hl, ⟨o', -, rfl⟩ | ⟨pre, n, post, o1, e, o2, hn, -, -, rfl⟩⟩ := h
  · cases r <;> exact h1
  · exact h2 notes hl n (by rw [hn]; simp)

/-- **C62** (partial), for exceptions: after a history of careful edits, a careful edit is made and the observers do what they
like, and raise when they like. Then in the tree that is left, lists of parents and children agree, and there is no cycle; and if
the edit was not a removal, the top level is right as well.

Missing: the top level after an interrupted removal (`C62_refuted_lost`, `C62_refuted_view`), and the conditions of `Careful`. -/
theorem C62_interrupted_partial (ops : List Op) (hops : Along Careful St.init ops) (op : Op) (hc : Careful (runOps St.init ops) op)
    (o : σ) :
    Agree (Now.step (Now.quietly tell) ⟨runOps St.init ops, o⟩ op).state.s.t ∧ NoCycle (Now.step (Now.quietly tell) ⟨runOps St.init ops, o⟩ op).state.s.t ∧
      ((∀ x r, op ≠ .delNode x r) → TopLevel (Now.step (Now.quietly tell) ⟨runOps St.init ops, o⟩ op).state.s.t) := by
  obtain ⟨h, hn⟩ := runOps_careful ops St.init init_good init_noDangling hops
  have hs := (hc.tidy h hn).safe h hn
  have hi := C62_interleaved (tell := tell) (runOps St.init ops) o op
  have hw : WF (Now.step (Now.quietly tell) ⟨runOps St.init ops, o⟩ op).state.s.t := by
    refine interleaves_tree hi (step_good h op hs).wf ?_
    intro l hl
    obtain ⟨l', h1, h2, -⟩ := step_following (L := (runOps St.init ops).log)
      (R0 := fun p c => p ∈ (runOps St.init ops).t.rawParents c) h hn op hc
      ⟨[], by simp, by simp, fun p c hp => ⟨h.wf.has_parent hp, Tree.has_of_mem_rawParents hp⟩, fun _ _ _ _ => Iff.rfl⟩
    rw [h1] at hl
    rw [← List.append_cancel_left hl]
    exact h2
  refine ⟨hw.agree, fun x hx => hw.acyclic x (ancestor_reach hx), fun hd => ?_⟩
  refine interleaves_tree hi (step_good h op hs).topLevel ?_
  intro l hl
  obtain ⟨-, l', h1, h2⟩ := step_goodSince (L := (runOps St.init ops).log) h hn op hc hd ⟨h, [], by simp, by simp⟩
  rw [h1] at hl
  rw [← List.append_cancel_left hl]
  exact fun n hn => (h2 n hn).topLevel

/-! ### Concrete cases -/

/-- An observer that counts its notifications, and raises at the third. -/
def thirdTooMany (_ : Note) (k : Nat) : Res Nat := if k = 2 then .err .attributeError 3 else .ok (k + 1)

/-- 1 with 2 below it, and 3. -/
def threeOps : List Op := [.addNode (.new (.str 1) .none) .none, .addNode (.new (.str 2) .none) (.str 1), .addNode (.new (.str 3) .none) .none]

theorem threeOps_careful : Along Careful St.init threeOps :=
  ⟨careful_add (Made.new _ _) (by decide), careful_add (Made.new _ _) (by decide), careful_add (Made.new _ _) (by decide), trivial⟩

/-- Moving 2 from 1 to 3 sends four notifications. The observer hears three of them; 2 is below 3 by then. -/
example : ∃ w, Now.step (Now.quietly thirdTooMany) ⟨runOps St.init threeOps, 0⟩ (.moveNode (.str 2) (.str 3)) = .err .attributeError w ∧ w.o = 3 ∧
    w.s.log.length = 6 ∧ (step (runOps St.init threeOps) (.moveNode (.str 2) (.str 3))).state.log.length = 7 ∧
    w.s.t.getParents (.str 2) = [.str 3] ∧ Agree w.s.t ∧ TopLevel w.s.t := by
  have h := C62_interrupted_partial (tell := thirdTooMany) threeOps threeOps_careful (.moveNode (.str 2) (.str 3)) trivial 0
  exact ⟨_, rfl, by decide, by decide, by decide, by decide, h.1, h.2.2 fun _ _ e => by cases e⟩

/-- The observer that is told only two things hears both, and the edit ends as without it. -/
example : ∃ w, Now.step (Now.quietly thirdTooMany) ⟨runOps St.init threeOps, 0⟩ (.removeParent (.str 2) (.str 1)) = .ok w ∧ w.o = 2 ∧
    step (runOps St.init threeOps) (.removeParent (.str 2) (.str 1)) = .ok w.s := ⟨_, rfl, by decide, by decide⟩

example : SuiteRight someDiff (freshAtEnd someDiff (fun _ => true) suiteHistory (Suite.init fun _ => 0))
    (Suite.runNow someDiff suiteHistory (Suite.init fun _ => 0)) ∧
    (Suite.runNow someDiff suiteHistory (Suite.init fun _ => 0)).objs.length = 4 :=
  ⟨(C62_application_partial someDiff_ok _ _ suiteHistory_fair).2, by decide⟩

/-- The schedule of C55, with other threads. -/
example : DeskRight someDiff (deskFreshEnd someDiff (fun _ => true) (deskSchedule ++ rounds someDiff 3 (Desk.run someDiff deskSchedule (Desk.init fun _ => 0))) (Desk.init fun _ => 0))
    (Desk.init fun _ => 0)
    (Desk.runNow someDiff (deskSchedule ++ rounds someDiff 3 (Desk.run someDiff deskSchedule (Desk.init fun _ => 0))) (Desk.init fun _ => 0))
    (deskSchedule ++ rounds someDiff 3 (Desk.run someDiff deskSchedule (Desk.init fun _ => 0))) :=
  (C62_threads_partial someDiff_ok _ _ deskSchedule_fair).2

/-- An observer that raises when it hears of node 2. -/
def dislikes2 (n : Note) (_ : Unit) : Res Unit := if n.nid = .str 2 then .err .attributeError () else .ok ()

/-- **An exception of an observer in a removal loses nodes**: 2 is below 1, and 1 is removed. The observer raises when it hears
that 2 has changed; then 2 has no parents, but it is not at the top level either. -/
theorem C62_refuted_lost : Along Careful St.init threeOps ∧ Careful (runOps St.init threeOps) (.delNode (.str 1) false) ∧
    ∃ w, Now.step (Now.quietly dislikes2) ⟨runOps St.init threeOps, ()⟩ (.delNode (.str 1) false) = .err .attributeError w ∧
      w.s.t.has (.str 1) = true ∧ w.s.t.has (.str 2) = true ∧ w.s.t.getParents (.str 2) = [] ∧ w.s.t.rootChildren = [.str 1, .str 3] ∧
      ¬ TopLevel w.s.t := by
  refine ⟨threeOps_careful, by show _ ≤ 1; decide, _, rfl, by decide, by decide, by decide, by decide, fun h => ?_⟩
  have := (h.exact (.str 2)).2 ⟨by decide, fun p hp => ?_⟩
  · exact absurd this (by decide)
  · exact absurd (show p ∈ ([] : List Id) from hp) (by simp)

/-- An application with one view without filters. -/
def oneView : Suite Nat := ((Suite.init fun _ => 0).actNow someDiff (.getView none true)).state

/-- The careful edits of `manyParents`, and then others. -/
theorem manyParents_now {ops : List Op} (h : CarefulNow someDiff ops (Suite.runNow someDiff (manyParents.map .edit) oneView)) :
    CarefulNow someDiff (manyParents ++ ops) oneView := by
  refine ⟨careful_add (Made.new _ _) (by decide), careful_add (Made.new _ _) (by decide),
    careful_add (Made.new _ _) (by decide), careful_add (Made.new _ _) (by decide),
    careful_add (Made.new _ _) (by decide), careful_add (Made.new _ _) (by decide),
    Tree.allEnabled_accept (by decide) _ _, Tree.allEnabled_accept (by decide) _ _,
    Tree.allEnabled_accept (by decide) _ _, Tree.allEnabled_accept (by decide) _ _,
    Tree.allEnabled_accept (by decide) _ _, Tree.allEnabled_accept (by decide) _ _,
    Tree.allEnabled_accept (by decide) _ _, Tree.allEnabled_accept (by decide) _ _, ⟨by decide, ?_⟩, h⟩
  exact inside_of_listed [.str 8, .str 5, .str 7, .str 6, .str 4] (by decide) (by decide) (by decide)

set_option maxRecDepth 8000 in
/-- **The views of the library do that themselves**: an application with one view without filters, and careful edits. The view
raises while the subtree of node 3 is removed (`C27_refuted_removal`), and the removal is left half done: 5 is gone, 4 is in the
tree without parents and is not at the top level, and 3 is still there. -/
theorem C62_refuted_view : CarefulNow someDiff manyParents oneView ∧
    ∃ b : Suite Nat, (Suite.runNow someDiff (manyParents.dropLast.map .edit) oneView).actNow someDiff (.edit (.delNode (.str 3) true)) =
        .err .keyError b ∧
      b.s.t.has (.str 5) = false ∧ b.s.t.has (.str 4) = true ∧ b.s.t.getParents (.str 4) = [] ∧ b.s.t.rootChildren = [.str 3] :=
  ⟨manyParents_now (ops := []) trivial, _, rfl, by decide, by decide, by decide, by decide⟩

/-- The same removal, asked for by another thread: the main thread makes the view and the edits, then the request is carried out. -/
def halfSchedule : List (DeskEv Nat) :=
  .main (.getView none true) :: manyParents.dropLast.map (fun op => .main (.edit op)) ++
  [.push .normal (.delNode (.str 3) true), .push .low (.addNode (.new (.str 9) .none) .none), .tick 1, .done]

set_option maxRecDepth 8000 in
/-- **A request of another thread can be left half done as well**, and the queue stops: the source of the queue is dropped, as in
`C55_refuted_stuck`. -/
theorem C62_refuted_threads : ∃ d : Desk Nat, Desk.runNow someDiff halfSchedule (Desk.init fun _ => 0) = d ∧
    d.app.s.t.has (.str 5) = false ∧ d.app.s.t.has (.str 4) = true ∧ d.app.s.t.getParents (.str 4) = [] ∧
    d.app.s.t.rootChildren = [.str 3] ∧ Stuck d.q :=
  ⟨_, rfl, by decide, by decide, by decide, by decide, by rfl, by rfl, by rfl⟩

/-- The user of `C62_refuted_view` tries to remove 3 again, twice, and then adds node 9. -/
def removeAgain : List Op := [.delNode (.str 3) true, .delNode (.str 3) true, .addNode (.new (.str 9) .none) .none]

set_option maxRecDepth 8000 in
/-- **C60 is false if a subtree with nodes of many parents is removed**: the edits are careful, but the view raises whenever
somebody tries to remove the subtree of node 3, and at last it keeps the row of 3 when 3 has left the tree. At the next signal, node
9 appears, GTK compares its row with that of 3, and `get_node` raises. -/
theorem C60_refuted_removal : CarefulNow someDiff (manyParents ++ removeAgain) oneView ∧
    ∃ a ft m, Suite.runNow someDiff ((manyParents ++ removeAgain).map .edit) oneView = a ∧ viewAt a 1 = some ft ∧
      ft.view.out.getLast? = some ⟨.added, .str 9, [.str 9]⟩ ∧
      TM.run byInsertion (Screen.heard id 0 ft.view.out) {} = .ok m ∧
      ∃ r1 ∈ m.rows, ∃ r2 ∈ m.rows, r1.nid = .str 9 ∧ r1.parent = r2.parent ∧
        ∀ f, m.sortFunc a.s.t (some f) r1.addr r2.addr = .error .valueError := by
  refine ⟨manyParents_now ⟨⟨by decide, ?_⟩, ⟨by decide, ?_⟩, careful_add (Made.new _ _) (by decide), trivial⟩,
    _, _, _, rfl, rfl, rfl, rfl, ?_⟩
  · exact inside_of_listed [.str 6, .str 7] (by decide) (by decide) (by decide)
  · exact inside_of_listed [] (by decide) (by decide) (by decide)
  · exact ⟨⟨99, none, .str 9⟩, by decide, ⟨0, none, .str 3⟩, by decide, rfl, rfl, fun f => rfl⟩

end Larch
