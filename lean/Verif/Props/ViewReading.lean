import Verif.Props.FilteredTree

/-!
# C28–C33: refiltering and reading a view
-/

namespace Larch

open Graph Spec

variable {V : Type} {diff : List Id → List Id → List Id}

/-! ### The view holds together -/

theorem VState.viewOK (hdiff : SetDiff diff) {a : FApp V} (h : VState diff a) : ViewOK a.ft := by
  obtain ⟨rank, M, hw⟩ := h.fit.whole hdiff h.good.wf h.rootFree
  exact hw.frame.viewOK

/-- After every fair history the view holds together, so the theorems below apply. -/
theorem view_holds_together_partial {ops : List Op} {bcs : List (Bank.Call (Id → V))} {root : Id} (h : ViewStart ops root)
    (hdiff : SetDiff diff) (d : Id → V) :
    ∃ ft, FT.new diff (Bank.run {} bcs) (runOps St.init ops).t d root true = .ok ft ∧
      ∀ cs, ViewFairRun diff cs ⟨runOps St.init ops, d, Bank.run {} bcs, ft⟩ →
        ∃ a, FApp.run diff cs ⟨runOps St.init ops, d, Bank.run {} bcs, ft⟩ = .ok a ∧ ViewOK a.ft := by
  obtain ⟨ft, e, hr⟩ := h.run hdiff d
  refine ⟨ft, e, fun cs hf => ?_⟩
  obtain ⟨a, ea, hv⟩ := hr cs hf
  exact ⟨a, ea, hv.viewOK hdiff⟩

theorem new_viewOK (root : Id) : ViewOK ⟨root, [], false, ⟨View.rootOnly root, []⟩⟩ :=
  (whole_rootOnly root).frame.viewOK (ft := ⟨root, [], false, ⟨View.rootOnly root, []⟩⟩)

/-! ### C28 -/

/-- C28: on a consistent tree, for every view that holds together and whatever the filters look at, `refilter` succeeds; the
view shows exactly the accepted nodes in the right shape and holds together again; and an observer that knew the rows before
knows them afterwards. -/
theorem C28_refilter (hdiff : SetDiff diff) (a : FApp V) (hg : Good a.s.t) (hr : a.s.t.has a.ft.root = false)
    (hv : ViewOK a.ft) :
    ∃ ft, a.ft.refilter diff a.bank a.s.t a.data = .ok ft ∧ ft.root = a.ft.root ∧ ft.applied = a.ft.applied ∧
      ShowsExactly { a with ft := ft } ∧ RightShape { a with ft := ft } ∧ ViewOK ft ∧
      (ObserverAgrees a → ObserverAgrees { a with ft := ft }) := by
  obtain ⟨v, o, e, hf, ho⟩ := refilter_any hdiff a.bank hg a.data a.ft hr hv
  have hb : Rebuilt diff { a with ft := { a.ft with flat := FT.anyFlat a.bank a.ft.applied, view := v } } :=
    ⟨hg, hr, rfl, o, hf⟩
  obtain ⟨rank, M, hw⟩ := Fit.whole (ft := { a.ft with flat := FT.anyFlat a.bank a.ft.applied }) hdiff hg.wf hr hf
  refine ⟨_, e, rfl, rfl, hb.showsExactly, hb.rightShape, (hw.frame.reout v.out).viewOK
    (ft := { a.ft with flat := FT.anyFlat a.bank a.ft.applied, view := v }), fun hobs => ?_⟩
  have hrows : RowsSet a.ft.view.out (RowE a.ft.view.edge a.ft.root) (fun _ => []) := RowsSet.of_agrees hobs
  have := hw.rows
  rw [ho hrows] at this
  exact this.agrees

/-- C28: the result depends on the tree, the bank, the data and the applied filters only: two views with the same virtual root
and the same filters have the same nodes, in the same order, after `refilter`, whatever they displayed before. -/
theorem C28_independent (b : Bank (Id → V)) (t : Tree) (d : Id → V) {ft ft' fa fb : FT} (hr : ft.root = ft'.root)
    (ha : ft.applied = ft'.applied) (hv : ViewOK ft) (hv' : ViewOK ft')
    (e1 : ft.refilter diff b t d = .ok fa) (e2 : ft'.refilter diff b t d = .ok fb) : fa.view.nodes = fb.view.nodes :=
  refilter_same b d hr ha hv hv' e1 e2

/-- The list of applied filters after `apply_filter`. -/
def newApplied (l : List FName) (n : FName) (reset : Bool) : List FName :=
  (if reset then [] else l) ++ if n ∈ (if reset then [] else l) then [] else [n]

theorem applyFilter_eq (b : Bank (Id → V)) (t : Tree) (d : Id → V) (ft : FT) (n : FName) (p : Option Params)
    (reset refresh : Bool) (hk : FT.givesParams p = true → (b.getFilter n).isSome = true) :
    ft.applyFilter diff b t d n p reset refresh =
      (decide (reset = true ∨ n ∉ ft.applied), if FT.givesParams p then b.setParameters n p else b,
        if refresh = true ∧ (FT.givesParams p = true ∨ reset = true ∨ n ∉ ft.applied) then
          FT.refilter diff (if FT.givesParams p then b.setParameters n p else b) t d { ft with applied := newApplied ft.applied n reset }
        else .ok { ft with applied := newApplied ft.applied n reset }) := by
  have hc : (FT.givesParams p && (b.getFilter n).isNone) = false := by
    cases h : FT.givesParams p with
    | false => rfl
    | true =>
      have := hk h
      cases hf : b.getFilter n with
      | none => rw [hf] at this; cases this
      | some f => rfl
  unfold FT.applyFilter
  dsimp only
  rw [hc, if_neg (by simp)]
  unfold newApplied
  cases reset with
  | true => cases refresh <;> simp
  | false =>
    by_cases hn : n ∈ ft.applied
    · cases refresh <;> cases hg : FT.givesParams p <;> simp [hn]
    · cases refresh <;> simp [hn]

theorem refilter_applied (b : Bank (Id → V)) (t : Tree) (d : Id → V) (ft : FT) :
    (ft.refilter diff b t d).state.applied = ft.applied := by
  unfold FT.refilter FT.withView
  dsimp only
  split <;> rfl

theorem act_apply (a : FApp V) (n : FName) (p : Option Params) (reset refresh : Bool) :
    a.act diff (.apply n p reset refresh) =
      ({ a with bank := (a.ft.applyFilter diff a.bank a.s.t a.data n p reset refresh).2.1 } : FApp V).withFT
        (a.ft.applyFilter diff a.bank a.s.t a.data n p reset refresh).2.2 := rfl

/-- C28: `apply_filter` with refresh, of a filter that is new or gets parameters and is known if it does. -/
theorem C28_apply (hdiff : SetDiff diff) (a : FApp V) (hg : Good a.s.t) (hr : a.s.t.has a.ft.root = false)
    (hv : ViewOK a.ft) (n : FName) (p : Option Params) (reset : Bool)
    (hp : FT.givesParams p = true → (a.bank.getFilter n).isSome = true)
    (hn : FT.givesParams p = true ∨ n ∉ a.ft.applied ∨ reset = true) :
    ∃ a', a.act diff (.apply n p reset true) = .ok a' ∧ ShowsExactly a' ∧ RightShape a' ∧ ViewOK a'.ft ∧
      (ObserverAgrees a → ObserverAgrees a') := by
  obtain ⟨ft, e, -, -, h1, h2, h3, h4⟩ := C28_refilter hdiff ⟨a.s, a.data, if FT.givesParams p then a.bank.setParameters n p else a.bank,
    { a.ft with applied := newApplied a.ft.applied n reset }⟩ hg hr
    ⟨hv.once, hv.root, hv.top, hv.shown, hv.mirror, hv.parents_once, hv.children_once, hv.noCycle⟩
  refine ⟨⟨a.s, a.data, _, ft⟩, ?_, h1, h2, h3, fun ho => h4 ho⟩
  rw [act_apply, applyFilter_eq _ _ _ _ _ _ _ _ hp]
  dsimp only at e ⊢
  have hcond : true = true ∧ (FT.givesParams p = true ∨ reset = true ∨ n ∉ a.ft.applied) := ⟨rfl, by tauto⟩
  rw [if_pos hcond, e]
  rfl

/-- C28: `unapply_filter` of an applied filter, and `reset_filters`, with refresh. -/
theorem C28_unapply (hdiff : SetDiff diff) (a : FApp V) (hg : Good a.s.t) (hr : a.s.t.has a.ft.root = false)
    (hv : ViewOK a.ft) (n : FName) (hn : n ∈ a.ft.applied) :
    ∃ a', a.act diff (.unapply n true) = .ok a' ∧ ShowsExactly a' ∧ RightShape a' ∧ ViewOK a'.ft ∧
      (ObserverAgrees a → ObserverAgrees a') := by
  obtain ⟨ft, e, -, -, h1, h2, h3, h4⟩ := C28_refilter hdiff
    { a with ft := { a.ft with applied := a.ft.applied.erase n } } hg hr
    ⟨hv.once, hv.root, hv.top, hv.shown, hv.mirror, hv.parents_once, hv.children_once, hv.noCycle⟩
  refine ⟨{ a with ft := ft }, ?_, h1, h2, h3, fun ho => h4 ho⟩
  show FApp.withFT _ (FT.unapplyFilter diff a.bank a.s.t a.data a.ft n true).2 = _
  unfold FT.unapplyFilter
  rw [if_pos hn]
  dsimp only at e ⊢
  rw [if_pos rfl, e]
  rfl

theorem C28_reset (hdiff : SetDiff diff) (a : FApp V) (hg : Good a.s.t) (hr : a.s.t.has a.ft.root = false)
    (hv : ViewOK a.ft) :
    ∃ a', a.act diff (.reset true) = .ok a' ∧ ShowsExactly a' ∧ RightShape a' ∧ ViewOK a'.ft ∧
      (ObserverAgrees a → ObserverAgrees a') := by
  obtain ⟨ft, e, -, -, h1, h2, h3, h4⟩ := C28_refilter hdiff
    { a with ft := { a.ft with applied := [] } } hg hr
    ⟨hv.once, hv.root, hv.top, hv.shown, hv.mirror, hv.parents_once, hv.children_once, hv.noCycle⟩
  refine ⟨{ a with ft := ft }, ?_, h1, h2, h3, fun ho => h4 ho⟩
  show FApp.withFT _ (FT.resetFilters diff a.bank a.s.t a.data a.ft true) = _
  unfold FT.resetFilters
  dsimp only at e ⊢
  rw [if_pos rfl, e]
  rfl

/-! ### C29 -/

theorem newApplied_ok {l : List FName} (hnd : l.Nodup) (n : FName) (reset : Bool) : AppliedNow l (newApplied l n reset) n reset := by
  unfold newApplied
  cases reset with
  | true => exact ⟨by simp, by simp, by simp⟩
  | false =>
    simp only [Bool.false_eq_true, if_false]
    by_cases h : n ∈ l
    · rw [if_pos h, List.append_nil]
      refine ⟨fun m => ⟨fun hm => Or.inr ⟨rfl, hm⟩, ?_⟩, hnd, List.prefix_rfl⟩
      rintro (rfl | ⟨-, hm⟩)
      · exact h
      · exact hm
    · rw [if_neg h]
      refine ⟨fun m => by simp [or_comm], ?_, List.prefix_append _ _⟩
      rw [List.nodup_append]
      refine ⟨hnd, by simp, ?_⟩
      rintro x hx y hy rfl
      rw [List.mem_singleton] at hy
      exact h (hy ▸ hx)

theorem withFT_applied (a : FApp V) (r : Res FT) : (a.withFT r).state.ft = r.state := by cases r <;> rfl

/-- C29: `apply_filter` puts the name into the list once, after emptying it if asked to, and reports whether it was new; the
view is rebuilt exactly if that is requested and the list or the parameters changed. -/
theorem C29_apply (hdiff : SetDiff diff) (a : FApp V) (hnd : a.ft.applied.Nodup) (n : FName) (p : Option Params)
    (reset refresh : Bool) (hk : FT.givesParams p = true → (a.bank.getFilter n).isSome = true) :
    ((a.ft.applyFilter diff a.bank a.s.t a.data n p reset refresh).1 = true ↔ reset = true ∨ n ∉ a.ft.applied) ∧
    AppliedNow a.ft.applied (a.act diff (.apply n p reset refresh)).state.ft.applied n reset ∧
    (¬ (refresh = true ∧ (FT.givesParams p = true ∨ reset = true ∨ n ∉ a.ft.applied)) →
      ∃ a', a.act diff (.apply n p reset refresh) = .ok a' ∧ a'.ft.view = a.ft.view) ∧
    (refresh = true ∧ (FT.givesParams p = true ∨ reset = true ∨ n ∉ a.ft.applied) →
      Good a.s.t → a.s.t.has a.ft.root = false → ViewOK a.ft →
      ∃ a', a.act diff (.apply n p reset refresh) = .ok a' ∧ ShowsExactly a' ∧ RightShape a') := by
  have happ : (a.act diff (.apply n p reset refresh)).state.ft.applied = newApplied a.ft.applied n reset := by
    show (FApp.withFT _ (FT.applyFilter diff a.bank a.s.t a.data a.ft n p reset refresh).2.2).state.ft.applied = _
    rw [withFT_applied, applyFilter_eq _ _ _ _ _ _ _ _ hk]
    dsimp only
    split
    · exact refilter_applied _ _ _ _
    · rfl
  refine ⟨?_, ?_, ?_, ?_⟩
  · rw [applyFilter_eq _ _ _ _ _ _ _ _ hk]; exact decide_eq_true_iff
  · rw [happ]; exact newApplied_ok hnd n reset
  · intro hc
    rw [act_apply, applyFilter_eq _ _ _ _ _ _ _ _ hk]
    dsimp only
    rw [if_neg hc]
    exact ⟨_, rfl, rfl⟩
  · rintro ⟨rfl, h⟩ hg hr hv
    obtain ⟨a', e, h1, h2, -⟩ := C28_apply hdiff a hg hr hv n p reset hk (by tauto)
    exact ⟨a', e, h1, h2⟩

/-- C29: `unapply_filter` takes the name out and reports whether it was there; it rebuilds the view exactly if that is requested
and the name was there. -/
theorem C29_unapply (hdiff : SetDiff diff) (a : FApp V) (hnd : a.ft.applied.Nodup) (n : FName) (refresh : Bool) :
    ((a.ft.unapplyFilter diff a.bank a.s.t a.data n refresh).1 = true ↔ n ∈ a.ft.applied) ∧
    (∀ m, m ∈ (a.act diff (.unapply n refresh)).state.ft.applied ↔ m ∈ a.ft.applied ∧ m ≠ n) ∧
    (a.act diff (.unapply n refresh)).state.ft.applied.Sublist a.ft.applied ∧
    (¬ (refresh = true ∧ n ∈ a.ft.applied) →
      ∃ a', a.act diff (.unapply n refresh) = .ok a' ∧ a'.ft.view = a.ft.view) ∧
    (refresh = true ∧ n ∈ a.ft.applied → Good a.s.t → a.s.t.has a.ft.root = false → ViewOK a.ft →
      ∃ a', a.act diff (.unapply n refresh) = .ok a' ∧ ShowsExactly a' ∧ RightShape a') := by
  have e : (a.act diff (.unapply n refresh)).state.ft.applied = a.ft.applied.erase n := by
    show (FApp.withFT _ (FT.unapplyFilter diff a.bank a.s.t a.data a.ft n refresh).2).state.ft.applied = _
    unfold FT.unapplyFilter
    by_cases h : n ∈ a.ft.applied
    · rw [if_pos h]
      dsimp only
      split
      · have := refilter_applied (diff := diff) a.bank a.s.t a.data { a.ft with applied := a.ft.applied.erase n }
        revert this
        cases FT.refilter diff a.bank a.s.t a.data { a.ft with applied := a.ft.applied.erase n } <;> exact id
      · rfl
    · rw [if_neg h, List.erase_of_not_mem h]; rfl
  refine ⟨?_, fun m => ?_, ?_, ?_, ?_⟩
  · unfold FT.unapplyFilter
    by_cases h : n ∈ a.ft.applied <;> simp [h]
  · rw [e, hnd.mem_erase_iff, and_comm]
  · rw [e]; exact List.erase_sublist
  · intro hc
    show ∃ a', FApp.withFT a (FT.unapplyFilter diff a.bank a.s.t a.data a.ft n refresh).2 = .ok a' ∧ _
    unfold FT.unapplyFilter
    by_cases h : n ∈ a.ft.applied
    · rw [if_pos h]
      have : ¬ refresh = true := fun hr => hc ⟨hr, h⟩
      dsimp only
      rw [if_neg this]
      exact ⟨_, rfl, rfl⟩
    · rw [if_neg h]; exact ⟨_, rfl, rfl⟩
  · rintro ⟨rfl, h⟩ hg hr hv
    obtain ⟨a', e, h1, h2, -⟩ := C28_unapply hdiff a hg hr hv n h
    exact ⟨a', e, h1, h2⟩

/-- C29: `reset_filters` empties the list, and rebuilds the view exactly if that is requested. -/
theorem C29_reset (hdiff : SetDiff diff) (a : FApp V) (refresh : Bool) :
    (a.act diff (.reset refresh)).state.ft.applied = [] ∧
    (refresh = false → ∃ a', a.act diff (.reset refresh) = .ok a' ∧ a'.ft.view = a.ft.view) ∧
    (refresh = true → Good a.s.t → a.s.t.has a.ft.root = false → ViewOK a.ft →
      ∃ a', a.act diff (.reset refresh) = .ok a' ∧ ShowsExactly a' ∧ RightShape a') := by
  refine ⟨?_, ?_, ?_⟩
  · show (FApp.withFT _ (FT.resetFilters diff a.bank a.s.t a.data a.ft refresh)).state.ft.applied = _
    unfold FT.resetFilters
    dsimp only
    split
    · have := refilter_applied (diff := diff) a.bank a.s.t a.data { a.ft with applied := [] }
      revert this
      cases FT.refilter diff a.bank a.s.t a.data { a.ft with applied := [] } <;> exact id
    · rfl
  · rintro rfl
    exact ⟨_, rfl, rfl⟩
  · rintro rfl hg hr hv
    obtain ⟨a', e, h1, h2, -⟩ := C28_reset hdiff a hg hr hv
    exact ⟨a', e, h1, h2⟩

theorem act_applied_nodup (a : FApp V) (c : FAct V) (h : a.ft.applied.Nodup) : (a.act diff c).state.ft.applied.Nodup := by
  have hedit : ∀ (a : FApp V) op, a.ft.applied.Nodup → (a.edit diff op).state.ft.applied.Nodup := by
    intro a op h
    unfold FApp.edit
    dsimp only
    rw [withFT_applied]
    generalize List.drop _ _ = l
    generalize a.ft = ft at h
    induction l generalizing ft with
    | nil => exact h
    | cons n l ih =>
      rw [Res.forEach]
      have key : (FT.react diff a.bank a.data n ft).state.applied = ft.applied := by
        unfold FT.react FT.withView; split <;> rfl
      cases e : FT.react diff a.bank a.data n ft with
      | err e' s => rw [e] at key; simp only [Res.andThen_err, Res.state_err] at key ⊢; rw [key]; exact h
      | ok s => rw [e] at key; simp only [Res.andThen_ok, Res.state_ok] at key ⊢; exact ih s (by rw [key]; exact h)
  cases c with
  | edit op => exact hedit a op h
  | change x v => exact hedit _ _ h
  | bank c => exact h
  | setParams n p => exact h
  | apply n p rs rf =>
    show (FApp.withFT _ (FT.applyFilter diff a.bank a.s.t a.data a.ft n p rs rf).2.2).state.ft.applied.Nodup
    rw [withFT_applied]
    by_cases hk : FT.givesParams p = true → (a.bank.getFilter n).isSome = true
    · rw [applyFilter_eq _ _ _ _ _ _ _ _ hk]
      dsimp only
      split
      · rw [refilter_applied]; exact (newApplied_ok h n rs).once
      · exact (newApplied_ok h n rs).once
    · rw [Classical.not_imp] at hk
      have hc : (FT.givesParams p && (a.bank.getFilter n).isNone) = true := by
        rw [hk.1]; simpa using hk.2
      unfold FT.applyFilter
      dsimp only
      rw [if_pos hc]
      dsimp only [Res.state_err]
      split
      · simp
      · exact h
  | unapply n rf =>
    show (FApp.withFT _ (FT.unapplyFilter diff a.bank a.s.t a.data a.ft n rf).2).state.ft.applied.Nodup
    rw [withFT_applied]
    unfold FT.unapplyFilter
    split
    · dsimp only
      split
      · rw [refilter_applied]; exact h.erase _
      · exact h.erase _
    · exact h
  | reset rf =>
    show (FApp.withFT _ (FT.resetFilters diff a.bank a.s.t a.data a.ft rf)).state.ft.applied.Nodup
    rw [withFT_applied]
    unfold FT.resetFilters
    dsimp only
    split
    · rw [refilter_applied]; simp
    · simp
  | currentState =>
    show (FApp.withFT _ a.ft.currentState).state.ft.applied.Nodup
    rw [withFT_applied]
    unfold FT.currentState FT.withView
    split <;> exact h

/-- C29: whatever the application does, also after an exception, no filter is in the list twice. -/
theorem C29_history (cs : List (FAct V)) (a : FApp V) (h : a.ft.applied.Nodup) :
    (FApp.run diff cs a).state.ft.applied.Nodup := by
  induction cs generalizing a with
  | nil => exact h
  | cons c cs ih =>
    rw [FApp.run]
    have := act_applied_nodup (diff := diff) a c h
    cases e : a.act diff c with
    | err e' s => rw [e] at this; exact this
    | ok s => rw [e] at this; exact ih s this

/-- C29 is not literally true when parameters are given for an unknown filter: `reset` empties the list although the call
raises, and the name is not applied. -/
theorem C29_refuted_unknown :
    ∃ a, FApp.run someDiff [ .apply (.plain 1) none false true, .apply (.plain 9) (some { negate := some true }) true true ]
      viewApp = .err .valueError a ∧ a.ft.applied = [] := ⟨_, rfl, rfl⟩

/-! ### C30 -/

/-- C30: `get_current_state` announces every row once, parents first, sends nothing else and does not change the view. -/
theorem C30_current_state (ft : FT) (h : ViewOK ft) :
    ∃ sent, ft.currentState = .ok { ft with view := ⟨ft.view.nodes, ft.view.out ++ sent⟩ } ∧ Announces ft sent := by
  obtain ⟨sent, e, ha, -⟩ := h.announce
  exact ⟨sent, e, ha⟩

/-- C30: an observer that connects now and listens to it has exactly the rows of the view. -/
theorem C30_late_observer (ft : FT) (h : ViewOK ft) :
    ∃ sent rows, ft.currentState = .ok { ft with view := ⟨ft.view.nodes, ft.view.out ++ sent⟩ } ∧
      replay sent [] = some rows ∧ rows.Nodup ∧ ∀ l, l ∈ rows ↔ IsRow ft l := by
  obtain ⟨sent, e, -, rows, h1, h2, h3, -⟩ := h.announce
  exact ⟨sent, rows, e, h1, h2, h3⟩

/-! ### C31 -/

/-- C31: the paths of a displayed node are its rows, once each. -/
theorem C31_paths (ft : FT) (h : ViewOK ft) (x : Id) (hx : ft.view.has x = true) (hr : x ≠ ft.root) :
    ∃ ps, ft.pathsFor x = .ok ps ∧ ps.Nodup ∧ ∀ l, l ∈ ps ↔ IsRow ft l ∧ l.getLast? = some x := h.paths hx hr

/-- C31: for a node that is not displayed, and for the virtual root, the answer is the empty path. -/
theorem C31_paths_other (ft : FT) (x : Id) (hx : x = ft.root ∨ ft.view.has x = false) : ft.pathsFor x = .ok [[]] :=
  paths_other ft x hx

/-- C31: `get_node_for_path` finds the node at the end of a row, and nothing for anything else. -/
theorem C31_node_for_path (ft : FT) (h : ViewOK ft) (l : List Id) :
    (IsRow ft l → ft.nodeForPath l = .ok l.getLast?) ∧ (¬ IsRow ft l → ft.nodeForPath l = .ok none) := h.nodeForPath l

/-! ### C32 -/

/-- C32: `node_n_children(recursive=True)` is the number of rows below any row `l` of the node. -/
theorem C32_recursive (ft : FT) (h : ViewOK ft) (l : List Id) (hl : IsRow ft l) (x : Id) (hx : l.getLast? = some x)
    (hn : x ≠ .none) :
    ∃ rows : List (List Id), ft.nChildren x true = .ok rows.length ∧ rows.Nodup ∧ ∀ r, r ∈ rows ↔ IsRow ft r ∧ l <+: r ∧ r ≠ l := by
  obtain ⟨y, hy, hh, -⟩ := h.row_last hl
  rw [hx] at hy; cases hy
  obtain ⟨exts, e, hnd, hm⟩ := h.count hh
  refine ⟨exts.map (l ++ ·), ?_, hnd.map (fun a b hab => List.append_cancel_left hab), fun r => ?_⟩
  · unfold FT.nChildren FT.orRoot
    dsimp only
    rw [if_neg hn, if_neg (by simp [hh]), if_pos rfl, List.length_map]
    exact e
  · have hsplit : ∀ ext, List.IsChain (fun p c => c ∈ ft.view.kids p) (ft.root :: (l ++ ext)) ↔
        List.IsChain (fun p c => c ∈ ft.view.kids p) (x :: ext) := by
      intro ext
      have hlast : (ft.root :: l).getLast? = some x := by
        cases l with
        | nil => cases hx
        | cons b l => rw [List.getLast?_cons_cons]; exact hx
      rw [show ft.root :: (l ++ ext) = (ft.root :: l) ++ ext from rfl, List.isChain_append]
      constructor
      · rintro ⟨-, h2, h3⟩
        cases ext with
        | nil => exact List.isChain_singleton _
        | cons b ext => exact List.isChain_cons_cons.2 ⟨h3 x hlast b rfl, h2⟩
      · intro hc
        refine ⟨hl.2, hc.tail, ?_⟩
        rintro a ha b hb
        rw [hlast] at ha; cases ha
        cases ext with
        | nil => cases hb
        | cons d ext => cases hb; exact (List.isChain_cons_cons.1 hc).1
    rw [List.mem_map]
    constructor
    · rintro ⟨ext, hext, rfl⟩
      obtain ⟨h1, h2⟩ := (hm ext).1 hext
      exact ⟨⟨by simp [h1], (hsplit ext).2 h2⟩, List.prefix_append _ _, by simpa using h1⟩
    · rintro ⟨⟨h1, h2⟩, ⟨ext, rfl⟩, h3⟩
      exact ⟨ext, (hm ext).2 ⟨by simpa using h3, (hsplit ext).1 h2⟩, rfl⟩

/-- C32: for `None`, which stands for the virtual root, it is the number of all rows. -/
theorem C32_recursive_all (ft : FT) (h : ViewOK ft) :
    ∃ rows : List (List Id), ft.nChildren .none true = .ok rows.length ∧ rows.Nodup ∧ ∀ r, r ∈ rows ↔ IsRow ft r := by
  obtain ⟨exts, e, hnd, hm⟩ := h.count h.root
  refine ⟨exts, ?_, hnd, hm⟩
  unfold FT.nChildren FT.orRoot
  dsimp only
  rw [if_pos rfl, if_neg (by simp [h.root]), if_pos rfl]
  exact e

/-- C32: without `recursive` it is the number of children, which are listed once; 0 for a node that is not displayed. -/
theorem C32_direct (ft : FT) (h : ViewOK ft) (x : Id) (hn : x ≠ .none) :
    ft.nChildren x false = .ok (ft.view.kids x).length ∧ (ft.view.kids x).Nodup ∧
      (∀ c, c ∈ ft.view.kids x ↔ x ∈ ft.view.pars c) ∧
      (ft.view.has x = false → ft.nChildren x true = .ok 0 ∧ ft.nChildren x false = .ok 0) := by
  refine ⟨?_, h.children_once x, fun c => h.mirror x c, fun hx => ?_⟩
  · unfold FT.nChildren FT.orRoot
    dsimp only
    rw [if_neg hn]
    by_cases hx : ft.view.has x = false
    · rw [if_pos hx]
      have : ft.view.kids x = [] := by
        by_contra hne
        obtain ⟨c, hc⟩ := List.exists_mem_of_ne_nil _ hne
        rw [View.has_of_kids hc] at hx; cases hx
      rw [this]; rfl
    · rw [if_neg hx, if_neg (by simp)]
  · unfold FT.nChildren FT.orRoot
    dsimp only
    rw [if_neg hn, if_pos hx, if_pos hx]
    exact ⟨rfl, rfl⟩

/-! ### C33 -/

/-- C33: `get_nodes` lists the displayed nodes accepted by all known extra filters, once each, and `get_n_nodes` counts them; the
answer depends on the present state only. -/
theorem C33_nodes (a : FApp V) (h : ViewOK a.ft) (names : List FName) :
    ∃ l, a.ft.getNodes a.bank a.s.t a.data names = .ok l ∧ a.ft.nNodes a.bank a.s.t a.data names = .ok l.length ∧
      l.Nodup ∧ ∀ x, x ∈ l ↔ Accepted a names x := by
  have hk : ∀ x, x ∈ a.ft.view.nodes.keys ↔ a.ft.view.has x = true := fun x => Dict.mem_keys _ _
  by_cases hn : names = []
  · subst hn
    have hroot : a.ft.root ∈ a.ft.view.nodes.keys := (hk _).2 h.root
    have e : a.ft.getNodes a.bank a.s.t a.data [] = .ok (a.ft.view.nodes.keys.erase a.ft.root) := by
      unfold FT.getNodes FT.allNodes
      rw [if_pos rfl, if_pos hroot]
    refine ⟨_, e, by unfold FT.nNodes; rw [e], h.once.erase _, fun x => ?_⟩
    rw [h.once.mem_erase_iff, hk]
    unfold Accepted
    simp
  · refine ⟨_, by unfold FT.getNodes; rw [if_neg hn], by unfold FT.nNodes FT.getNodes; rw [if_neg hn], h.once.filter _, fun x => ?_⟩
    unfold Accepted
    simp only [List.mem_filter, hk, Bool.and_eq_true, decide_eq_true_eq, List.all_eq_true, List.mem_filterMap]
    constructor
    · rintro ⟨h1, h2, h3⟩
      exact ⟨h2, h1, fun n hn f hf => h3 f ⟨n, hn, hf⟩⟩
    · rintro ⟨h1, h2, h3⟩
      exact ⟨h2, h1, fun f ⟨n, hn, hf⟩ => h3 n hn f hf⟩

/-! ### A concrete case for all of these -/

/-- In the middle of the history of `Props/FilteredTree.lean`: 2 > 3 > 4 is displayed, 1 is hidden; with one more relation node 4
has two rows. -/
def shownApp : FApp Nat := (FApp.run someDiff (viewHistory.take 5 ++ [.edit (.newRelationship (.str 2) (.str 4))]) viewApp).state

theorem shownApp_state : VState someDiff shownApp := by
  have h0 : ViewFairRun someDiff (viewHistory.take 5 ++ [.edit (.newRelationship (.str 2) (.str 4))]) viewApp := by
    obtain ⟨a1, a2, a3, a4, a5, -⟩ := viewHistory_fair
    refine ⟨a1, a2, a3, a4, a5, ⟨⟨Tree.allEnabled_accept (by decide) _ _, ?_, ?_⟩, .inl (ownBank_run _ countBank_own).2.applied⟩, trivial⟩
    · intro nd p h; cases h
    · intro x h; cases h
  obtain ⟨ft, e, h⟩ := viewStart.run someDiff_ok (fun _ => 0)
  have hv : viewApp = ⟨runOps St.init viewOps, fun _ => 0, Bank.run {} countBank, ft⟩ := by
    unfold viewApp; rw [e]; rfl
  obtain ⟨a, ea, hs⟩ := h _ (hv ▸ h0)
  rw [← hv] at ea
  unfold shownApp
  rw [ea]
  exact hs

theorem shownApp_ok : ViewOK shownApp.ft := shownApp_state.viewOK someDiff_ok

example : ViewOK shownApp.ft ∧ Good shownApp.s.t ∧ shownApp.s.t.has shownApp.ft.root = false ∧
    shownApp.ft.applied = [.plain 1] ∧ shownApp.ft.view.has (.str 1) = false ∧
    shownApp.ft.pathsFor (.str 4) = .ok [[.str 2, .str 3, .str 4], [.str 2, .str 4]] ∧
    shownApp.ft.nodeForPath [.str 2, .str 4] = .ok (some (.str 4)) ∧
    shownApp.ft.nodeForPath [.str 3, .str 4] = .ok none ∧
    shownApp.ft.nChildren (.str 2) true = .ok 3 ∧ shownApp.ft.nChildren (.str 2) false = .ok 2 ∧
    shownApp.ft.nChildren .none true = .ok 4 ∧
    shownApp.ft.nNodes shownApp.bank shownApp.s.t shownApp.data [.plain 1, .plain 7] = .ok 3 ∧
    (shownApp.ft.currentState.state.view.out.drop shownApp.ft.view.out.length).length = 4 ∧
    (shownApp.act someDiff (.apply (.plain 2) none false true)).state.ft.applied = [.plain 1, .plain 2] ∧
    (shownApp.act someDiff (.unapply (.plain 1) true)).state.ft.view.has (.str 1) = true :=
  ⟨shownApp_ok, shownApp_state.good, shownApp_state.rootFree, by decide, by decide, by decide, by decide, by decide, by decide,
    by decide, by decide, by decide, by decide, by decide, by decide⟩

end Larch
