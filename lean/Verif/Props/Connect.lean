import Verif.Props.Cells
import Verif.Props.ViewReading

/-!
# C48: an observer may connect at any moment
-/

namespace Larch

open Spec TM

variable {V W : Type} {diff : List Id → List Id → List Id}

/-! ### The past of a view does not matter -/

/-- The same application, after more signals in the past. -/
def FApp.pre (o : List Sig) (a : FApp V) : FApp V := { a with ft := { a.ft with view := a.ft.view.pre o } }

/-- The same view, after more signals in the past. -/
def FT.pre (o : List Sig) (ft : FT) : FT := { ft with view := ft.view.pre o }

theorem withView_pre (o : List Sig) (ft : FT) (r : Res View) :
    (ft.pre o).withView (r.onState (View.pre o)) = (ft.withView r).onState (FT.pre o) := by
  cases r <;> rfl

theorem withFT_pre (o : List Sig) (a : FApp V) (r : Res FT) :
    (a.pre o).withFT (r.onState (FT.pre o)) = (a.withFT r).onState (FApp.pre o) := by
  cases r <;> rfl

theorem react_pre (b : Bank (Id → V)) (d : Id → V) (n : Note) (o : List Sig) (ft : FT) :
    FT.react diff b d n (ft.pre o) = (FT.react diff b d n ft).onState (FT.pre o) := by
  show (ft.pre o).withView ((FT.env diff b n.snap d ft).update _ n.nid .both (ft.view.pre o)) = _
  rw [VEnv.update_blind]
  exact withView_pre o ft _

theorem reacts_pre (b : Bank (Id → V)) (d : Id → V) (o : List Sig) (l : List Note) : ∀ ft : FT,
    Res.forEach (FT.react diff b d) l (ft.pre o) = (Res.forEach (FT.react diff b d) l ft).onState (FT.pre o) := by
  induction l with
  | nil => intro ft; rfl
  | cons n l ih =>
    intro ft
    rw [Res.forEach, Res.forEach, react_pre]
    cases FT.react diff b d n ft with
    | err e s => rfl
    | ok ft1 => exact ih ft1

theorem refilter_pre (b : Bank (Id → V)) (t : Tree) (d : Id → V) (o : List Sig) (ft : FT) :
    (ft.pre o).refilter diff b t d = (ft.refilter diff b t d).onState (FT.pre o) := by
  show (FT.pre o { ft with flat := FT.anyFlat b ft.applied }).withView
    ((FT.env diff b t d { ft with flat := FT.anyFlat b ft.applied }).refilter _ _ (ft.view.pre o)) = _
  rw [VEnv.refilter_blind]
  exact withView_pre o { ft with flat := FT.anyFlat b ft.applied } _

theorem edit_pre (o : List Sig) (a : FApp V) (op : Op) :
    (a.pre o).edit diff op = (a.edit diff op).onState (FApp.pre o) := by
  show (FApp.pre o { a with s := (step a.s op).state }).withFT
    (Res.forEach (FT.react diff a.bank a.data) _ (a.ft.pre o)) = _
  rw [reacts_pre]
  exact withFT_pre o { a with s := (step a.s op).state } _

theorem act_pre (o : List Sig) (a : FApp V) (c : FAct V) :
    (a.pre o).act diff c = (a.act diff c).onState (FApp.pre o) := by
  cases c with
  | edit op => exact edit_pre o a op
  | change x v => exact edit_pre o { a with data := fun y => if y = x then v else a.data y } _
  | bank c => rfl
  | setParams n p => rfl
  | apply n p rs rf =>
    have key : ((a.ft.pre o).applyFilter diff a.bank a.s.t a.data n p rs rf).2.1 =
          (a.ft.applyFilter diff a.bank a.s.t a.data n p rs rf).2.1 ∧
        ((a.ft.pre o).applyFilter diff a.bank a.s.t a.data n p rs rf).2.2 =
          (a.ft.applyFilter diff a.bank a.s.t a.data n p rs rf).2.2.onState (FT.pre o) := by
      unfold FT.applyFilter
      dsimp only
      have h1 : (if rs then { a.ft.pre o with applied := [] } else a.ft.pre o : FT) =
          FT.pre o (if rs then { a.ft with applied := [] } else a.ft : FT) := by split <;> rfl
      rw [h1]
      generalize (if rs then { a.ft with applied := [] } else a.ft : FT) = ft1
      have h2 : (if decide (n ∉ (ft1.pre o).applied) = true then
            ({ ft1.pre o with applied := (ft1.pre o).applied ++ [n] } : FT) else ft1.pre o) =
          FT.pre o (if decide (n ∉ ft1.applied) = true then ({ ft1 with applied := ft1.applied ++ [n] } : FT) else ft1) := by
        show (if decide (n ∉ ft1.applied) = true then _ else _) = _
        split <;> rfl
      rw [h2]
      generalize (if decide (n ∉ ft1.applied) = true then ({ ft1 with applied := ft1.applied ++ [n] } : FT) else ft1) = ft2
      show (if _ then _ else (if (rf && (FT.givesParams p || decide (n ∉ ft1.applied))) = true then _ else _) :
        Bool × Bank (Id → V) × Res FT).2.1 = _ ∧ (if _ then _ else (if (rf && (FT.givesParams p || decide (n ∉ ft1.applied))) = true
          then _ else _) : Bool × Bank (Id → V) × Res FT).2.2 = _
      split
      · exact ⟨rfl, rfl⟩
      · split
        · exact ⟨rfl, refilter_pre _ _ _ _ _⟩
        · exact ⟨rfl, rfl⟩
    show FApp.withFT (FApp.pre o { a with bank := ((a.ft.pre o).applyFilter diff a.bank a.s.t a.data n p rs rf).2.1 })
      ((a.ft.pre o).applyFilter diff a.bank a.s.t a.data n p rs rf).2.2 = _
    rw [key.1, key.2, withFT_pre]
    rfl
  | unapply n rf =>
    have key : ((a.ft.pre o).unapplyFilter diff a.bank a.s.t a.data n rf).2 =
        (a.ft.unapplyFilter diff a.bank a.s.t a.data n rf).2.onState (FT.pre o) := by
      unfold FT.unapplyFilter
      show (if n ∈ a.ft.applied then _ else _ : Bool × Res FT).2 = _
      split
      · cases rf
        · rfl
        · exact refilter_pre a.bank a.s.t a.data o { a.ft with applied := a.ft.applied.erase n }
      · rfl
    show (a.pre o).withFT _ = _
    rw [show (a.pre o).ft = a.ft.pre o from rfl]
    show (a.pre o).withFT ((a.ft.pre o).unapplyFilter diff a.bank a.s.t a.data n rf).2 = _
    rw [key, withFT_pre]; rfl
  | reset rf =>
    have key : (a.ft.pre o).resetFilters diff a.bank a.s.t a.data rf =
        (a.ft.resetFilters diff a.bank a.s.t a.data rf).onState (FT.pre o) := by
      cases rf
      · rfl
      · exact refilter_pre a.bank a.s.t a.data o { a.ft with applied := [] }
    show (a.pre o).withFT ((a.ft.pre o).resetFilters diff a.bank a.s.t a.data rf) = _
    rw [key, withFT_pre]; rfl
  | currentState =>
    have key : (a.ft.pre o).currentState = a.ft.currentState.onState (FT.pre o) := by
      show (a.ft.pre o).withView (Res.forEach (fun x v => v.sendAdd a.ft.root x a.ft.root) (a.ft.view.kids a.ft.root) (a.ft.view.pre o)) = _
      have hb := Blind.forEach (fun x => View.sendAdd_blind a.ft.root x a.ft.root) (a.ft.view.kids a.ft.root)
      rw [hb]
      exact withView_pre o a.ft _
    show (a.pre o).withFT (a.ft.pre o).currentState = _
    rw [key, withFT_pre]; rfl

theorem run_pre (o : List Sig) (cs : List (FAct V)) : ∀ a : FApp V,
    FApp.run diff cs (a.pre o) = (FApp.run diff cs a).onState (FApp.pre o) := by
  induction cs with
  | nil => intro a; rfl
  | cons c cs ih =>
    intro a
    rw [FApp.run, FApp.run, act_pre]
    cases a.act diff c with
    | err e s => rfl
    | ok a1 => exact ih a1

theorem onState_state {σ : Type} (f : σ → σ) (r : Res σ) : (r.onState f).state = f r.state := by cases r <;> rfl

theorem sentDuring_pre (o : List Sig) (cs : List (FAct V)) : ∀ a : FApp V, sentDuring diff cs (a.pre o) = sentDuring diff cs a := by
  induction cs with
  | nil => intro a; rfl
  | cons c cs ih =>
    intro a
    rw [sentDuring, sentDuring, act_pre, onState_state, ih]
    congr 2
    show (o ++ (a.act diff c).state.ft.view.out).drop (o ++ a.ft.view.out).length = _
    rw [List.length_append, List.drop_append]
    simp

theorem viewFairRun_pre (o : List Sig) (cs : List (FAct V)) : ∀ a : FApp V,
    ViewFairRun diff cs (a.pre o) ↔ ViewFairRun diff cs a := by
  induction cs with
  | nil => intro a; exact Iff.rfl
  | cons c cs ih =>
    intro a
    have h1 : ViewFair (a.pre o) c ↔ ViewFair a c := by
      cases c with
      | bank c => cases c <;> exact Iff.rfl
      | _ => exact Iff.rfl
    rw [ViewFairRun, ViewFairRun, act_pre, onState_state, ih, h1]

/-! ### A view that is right, whatever it sent long ago -/

/-- Forgetting some of the oldest signals, this is a view that is right. -/
def VOld (diff : List Id → List Id → List Id) (a : FApp V) : Prop := ∃ o b, a = FApp.pre o b ∧ VState diff b

/-- `get_current_state` on a view that is right: after forgetting all signals before it, the view is right again. -/
theorem VState.ask (hdiff : SetDiff diff) {b : FApp V} (h : VState diff b) (o : List Sig) :
    ∃ b' : FApp V, (b.pre o).act diff .currentState = .ok (b'.pre (b.pre o).ft.view.out) ∧ VState diff b' ∧
      b'.data = b.data := by
  obtain ⟨sent, e, -, hr⟩ := (h.viewOK hdiff).announce
  refine ⟨{ b with ft := { b.ft with view := ⟨b.ft.view.nodes, sent⟩ } }, ?_, ?_, rfl⟩
  · rw [act_pre]
    show Res.onState (FApp.pre o) (b.withFT b.ft.currentState) = _
    rw [e]
    show Res.ok (FApp.pre o { b with ft := { b.ft with view := ⟨b.ft.view.nodes, b.ft.view.out ++ sent⟩ } }) = _
    unfold FApp.pre View.pre
    simp [List.append_assoc]
  · obtain ⟨r, ho, hv⟩ := h.fit.inv
    exact ⟨h.good, h.tidy, h.bank, h.rootFree, h.flat,
      ⟨⟨r, ho, hv.keys, hv.rootIn, hv.rootPars, hv.sub, hv.par, hv.kid, hv.ndP, hv.ndK, hv.mirror, hr⟩, h.fit.all, h.fit.settled⟩⟩

theorem VOld.act (hdiff : SetDiff diff) {a : FApp V} (h : VOld diff a) {c : FAct V} (hf : ViewFair a c ∨ c = .currentState) :
    ∃ a', a.act diff c = .ok a' ∧ VOld diff a' := by
  obtain ⟨o, b, rfl, hb⟩ := h
  by_cases hc : c = .currentState
  · subst hc
    obtain ⟨b', e, hb', -⟩ := hb.ask hdiff o
    exact ⟨_, e, _, b', rfl, hb'⟩
  · have hf' : ViewFair b c := ((viewFairRun_pre (diff := diff) o [c] b).1 ⟨hf.resolve_right hc, trivial⟩).1
    obtain ⟨b', e, hb'⟩ := act_vstate hdiff hb c hf'
    exact ⟨b'.pre o, by rw [act_pre, e]; rfl, o, b', rfl, hb'⟩

theorem VOld.run (hdiff : SetDiff diff) (cs : List (FAct V)) : ∀ {a : FApp V}, VOld diff a → FairOrAsks diff cs a →
    ∃ a', FApp.run diff cs a = .ok a' ∧ VOld diff a' := by
  induction cs with
  | nil => intro a h _; exact ⟨a, rfl, h⟩
  | cons c cs ih =>
    intro a h hf
    obtain ⟨a1, e, h1⟩ := h.act hdiff hf.1
    have hf2 := hf.2
    rw [e] at hf2
    obtain ⟨a2, e2, h2⟩ := ih h1 hf2
    exact ⟨a2, by rw [FApp.run, e]; exact e2, h2⟩

/-! ### C48 -/

/-- **C48** (partial): after any fair history, in which others may have connected at any time, an observer connects and
asks for the current state, and the history goes on. Nothing raises; what this observer hears from then on gives it exactly
the rows of the view; and if it is a GTK model, the row of a path is the one that is found for it and every row shows in
every column the value computed from the present data of its node.

Missing: what is missing in C47, and the observers that were connected before: they are told about every row again
(`C48_refuted_earlier`). -/
theorem C48_connect_partial {ops : List Op} {bcs : List (Bank.Call (Id → V))} {root : Id} (hs : ViewStart ops root)
    (hdiff : SetDiff diff) (d : Id → V) {O : GtkOrder} (hO : GtkSound O) (types : List (V → Option W)) :
    ∃ ft, FT.new diff (Bank.run {} bcs) (runOps St.init ops).t d root true = .ok ft ∧
      ∀ before, FairOrAsks diff before ⟨runOps St.init ops, d, Bank.run {} bcs, ft⟩ →
        ∃ a, FApp.run diff before ⟨runOps St.init ops, d, Bank.run {} bcs, ft⟩ = .ok a ∧
        ∃ a1, a.act diff .currentState = .ok a1 ∧
      ∀ after, ViewFairRun diff after a1 →
        ∃ a2, FApp.run diff after a1 = .ok a2 ∧
        (∃ rows, replay (a2.ft.view.out.drop a.ft.view.out.length) [] = some rows ∧ rows.Nodup ∧ ∀ l, l ∈ rows ↔ IsRow a2.ft l) ∧
        ∀ h : List (TM.Act × (Id → V)), told h = sentDuring diff (.currentState :: after) a →
          ShownWhenSent h → (addresses (h.map Prod.fst)).Nodup → Throughout O ParentThere (h.map Prod.fst) {} →
          ∃ m : CModel W, CModel.run O types h {} = .ok m ∧
            (∀ l, IsRow a2.ft l ↔ ∃ r ∈ m.tm.rows, RowPath m.tm.rows r.addr l) ∧
            (∀ path, IsRow a2.ft path → ∀ b, (m.tm.getIter O path).1 = some b ↔ RowPath m.tm.rows b path) ∧
            CellsCurrent types a2.data m := by
  obtain ⟨ft, e, h0⟩ := hs.run hdiff d
  obtain ⟨a0, e0, h0⟩ := h0 [] trivial
  cases e0
  refine ⟨ft, e, fun before hb => ?_⟩
  have hold : VOld diff (⟨runOps St.init ops, d, Bank.run {} bcs, ft⟩ : FApp V) := ⟨[], _, rfl, h0⟩
  obtain ⟨a, ea, o, b, rfl, hb⟩ := hold.run hdiff before hb
  obtain ⟨b1, e1, h1, hd⟩ := hb.ask hdiff o
  refine ⟨_, ea, _, e1, fun after hf => ?_⟩
  rw [viewFairRun_pre] at hf
  obtain ⟨b2, e2, hg⟩ := h1.cells hdiff hO types hf
  obtain ⟨b2', e2', h2⟩ := run_vstate hdiff after _ h1 hf
  rw [e2] at e2'; cases e2'
  refine ⟨b2.pre (b.pre o).ft.view.out, by rw [run_pre, e2]; rfl, ?_, fun h ht => hg h ?_⟩
  · obtain ⟨rows, r1, r2, r3⟩ := h2.observerAgrees
    refine ⟨rows, ?_, r2, r3⟩
    show replay (((b.pre o).ft.view.out ++ b2.ft.view.out).drop _) [] = _
    rw [List.drop_left]; exact r1
  · rw [ht, sentDuring, e1]
    show List.map _ (((b.pre o).ft.view.out ++ b1.ft.view.out).drop _) ++ sentDuring diff after (b1.pre (b.pre o).ft.view.out) = _
    rw [List.drop_left, sentDuring_pre]
    rfl

/-! ### An example, and the limit -/

/-- C48 for a concrete history: others connect, numbers change, the model connects, and a number changes again. -/
example : ∃ a, FApp.run someDiff [.currentState, .change (.str 1) 2, .currentState] viewApp = .ok a ∧
    ∃ a1, a.act someDiff .currentState = .ok a1 ∧ ∃ a2, FApp.run someDiff [.change (.str 2) 4] a1 = .ok a2 ∧
      ∃ m : CModel Nat, CModel.run byInsertion someTypes (feed (sentDuring someDiff [.currentState, .change (.str 2) 4] a) 0) {} = .ok m ∧
        CellsCurrent someTypes a2.data m := by
  obtain ⟨ft, e, h⟩ := C48_connect_partial viewStart someDiff_ok (fun _ => 0) byInsertion_sound someTypes
  rw [viewApp_new] at e
  cases e
  obtain ⟨a, ea, a1, e1, h⟩ := h [.currentState, .change (.str 1) 2, .currentState]
    ⟨Or.inr rfl, Or.inl (.inl (ownBank_run _ countBank_own).2.applied), Or.inr rfl, trivial⟩
  have hb : a1.bank = Bank.run {} countBank := by
    have h1 : a = (FApp.run someDiff [.currentState, .change (.str 1) 2, .currentState] viewApp).state := by
      change FApp.run someDiff _ viewApp = _ at ea
      rw [ea]; rfl
    have h2 : a1 = (a.act someDiff .currentState).state := by rw [e1]; rfl
    subst h1; rw [h2]; rfl
  obtain ⟨a2, e2, -, h⟩ := h [.change (.str 2) 4] (countBank_fair hb ⟨trivial, trivial⟩)
  obtain ⟨h1, h2, ⟨h3, -⟩, h4⟩ := feed_ok byInsertion (sentDuring someDiff [.currentState, .change (.str 2) 4] a) 0 {}
  obtain ⟨m, em, -, -, hm⟩ := h _ h1 h2 h3 h4
  exact ⟨a, ea, a1, e1, a2, e2, m, em, hm⟩


/-- The model at the end: 1 with its number 2, and 2 below it with its number 4. -/
def lateModel : CModel Nat := (CModel.run byInsertion someTypes (feed (sentDuring someDiff [.currentState, .change (.str 2) 4]
  (FApp.run someDiff [.currentState, .change (.str 1) 2, .currentState] viewApp).state) 0) {}).state

example : lateModel.tm.rows.map (fun r => (r.nid, r.parent, lateModel.cells r.addr)) =
    [(.str 1, none, [some 2, some 2]), (.str 2, some 0, [some 4, some 4])] := by decide

/-- **C48 is false for a model that was connected before**: when the second model connects, the first one gets every row a
second time. -/
theorem C48_refuted_earlier : ∃ m : CModel Nat,
    CModel.run byInsertion someTypes (feed (sentInAll someDiff [.currentState] viewApp) 0) {} = .ok m ∧
      (m.tm.rows.filter fun r => r.nid = .str 1 ∧ r.parent = none).length = 2 := by
  refine ⟨_, rfl, by decide⟩

end Larch
