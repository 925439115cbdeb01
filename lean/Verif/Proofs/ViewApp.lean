import Verif.Proofs.DeepRemove
import Verif.Proofs.SpecTree
import Verif.Spec.FilteredTree

/-!
# A view of an application is right after every fair history
-/

namespace Larch

open Graph Spec

variable {V D : Type} {diff : List Id → List Id → List Id}

/-! ### A node's data change -/

theorem change_fitD {b : Bank (Id → V)} (hdiff : SetDiff diff) {t : Tree} (hw : WF t) {d d' : Id → V} {ft : FT}
    (hroot : t.has ft.root = false) {x : Id} (hx : t.has x = true)
    (hdisp : ∀ y, y ≠ x → (FT.env diff b t d' ft).disp y = (FT.env diff b t d ft).disp y)
    (h : Fit (FT.env diff b t d ft) (fun _ => False) ft.view) (ev : Ev) :
    ∃ v', FT.react diff b d' ⟨t, ev, x⟩ ft = .ok { ft with view := v' } ∧ Fit (FT.env diff b t d' ft) (fun _ => False) v' := by
  obtain ⟨r, ho, hv⟩ := h.inv
  have hxr : x ≠ ft.root := by rintro rfl; rw [hroot] at hx; cases hx
  have hE := env_ok hdiff b hw d' ft hroot
  suffices hs : ∃ v', (FT.env diff b t d' ft).update (2 * (t.nodes.keys.length + ft.view.nodes.entries.length) + 8) x .both ft.view = .ok v' ∧
      Fit (FT.env diff b t d' ft) (fun _ => False) v' by
    obtain ⟨v', a1, a2⟩ := hs
    exact ⟨v', react_eq (n := ⟨t, ev, x⟩) (ft := ft) a1, a2⟩
  have ho' : Orders (FT.env diff b t d' ft) ft.view r := ho
  by_cases hsame : (FT.env diff b t d' ft).disp x = (FT.env diff b t d ft).disp x
  · have he : FT.env diff b t d' ft = FT.env diff b t d ft := by
      have : FT.accepts b t d' ft.applied = FT.accepts b t d ft.applied := by
        funext y
        by_cases hy : y = x
        · subst hy; exact hsame
        · exact hdisp y hy
      unfold FT.env; rw [this]
    rw [← he] at h
    obtain ⟨v', a1, a2⟩ := h.update hE t.nodes.keys (env_keys hw)
      (f := 2 * (t.nodes.keys.length + ft.view.nodes.entries.length) + 8) (by omega) (x := x) hxr
    exact ⟨v', a1, a2.mono fun _ h => h.1⟩
  · by_cases hdx : (FT.env diff b t d ft).disp x = true
    · -- the node disappears
      have hdx' : (FT.env diff b t d' ft).disp x = false := by
        by_contra hc; rw [hdx] at hsame; exact hsame (by simpa using hc)
      have hcand : ∀ y p, p ≠ x → (p ∈ candAll (FT.env diff b t d' ft) y ↔ p ∈ candAll (FT.env diff b t d ft) y) := by
        intro y p hp
        rw [mem_npCand, mem_npCand, hdisp p hp]
        exact Iff.rfl
      have hnc : ∀ y, x ∉ candAll (FT.env diff b t d' ft) y := by
        intro y hy
        have := (mem_npCand.1 hy).2.2.2
        rw [hdx'] at this; cases this
      refine Fit.hide hE ho' t.nodes.keys (env_keys hw) (by omega) ?_
      intro rank hrk
      refine Hiding.of hv rfl hrk (h.all x hdx) hdx' hxr ?_ ?_ ?_ ?_
      · intro y hy hyr hyx; rw [hdisp y hyx]; exact hv.sub y hy hyr
      · intro y hy
        have hyx : y ≠ x := by rintro rfl; rw [hdx'] at hy; cases hy
        exact h.all y (by rw [← hdisp y hyx]; exact hy)
      · intro y hy hxy p
        have hyx : y ≠ x := by rintro rfl; rw [hdx'] at hy; cases hy
        have hset := h.settled y (by rw [← hdisp y hyx]; exact hy) (fun h => h)
        have hnx : x ∉ candAll (FT.env diff b t d ft) y :=
          fun hc => hxy ((hset x).2 (mem_npAll.2 (Or.inl hc)))
        have hc : ∀ q, q ∈ candAll (FT.env diff b t d' ft) y ↔ q ∈ candAll (FT.env diff b t d ft) y := by
          intro q
          by_cases hq : q = x
          · subst hq; exact iff_of_false (hnc y) hnx
          · exact hcand y q hq
        rw [hset p, mem_npAll, mem_npAll, hc]
        have : candAll (FT.env diff b t d' ft) y = [] ↔ candAll (FT.env diff b t d ft) y = [] := by
          rw [List.eq_nil_iff_forall_not_mem, List.eq_nil_iff_forall_not_mem]
          exact ⟨fun h q hq => h q ((hc q).2 hq), fun h q hq => h q ((hc q).1 hq)⟩
        rw [this]; rfl
      · intro y hxy p
        have hyv := View.has_of_par hxy
        have hyr : y ≠ ft.root := by
          rintro rfl
          have : ft.view.pars ft.root = [] := hv.rootPars
          rw [this] at hxy; cases hxy
        have hset := h.settled y (hv.sub y hyv hyr) (fun h => h)
        have hxc : x ∈ candAll (FT.env diff b t d ft) y := by
          rcases mem_npAll.1 ((hset x).1 hxy) with e | e
          · exact e
          · exact absurd e.1 hxr
        rw [hset p, mem_npAll]
        by_cases hp : p = x
        · subst hp; simp [hxc]
        · rw [hcand y p hp]
          constructor
          · rintro (e | e)
            · exact Or.inr e
            · rw [e.2] at hxc; cases hxc
          · rintro (e | e)
            · exact absurd e hp
            · exact Or.inl e
    · -- the node appears
      have hdx0 : (FT.env diff b t d ft).disp x = false := by simpa using hdx
      have hvx : ft.view.has x = false := by
        by_contra hc
        exact hdx (hv.sub x (by simpa using hc) hxr)
      obtain ⟨rank, e1, e2⟩ := hE.rank hv.rootPars ho' t.nodes.keys (env_keys hw)
      obtain ⟨v', a1, a2, a3, a4⟩ := update_settles e1
        (f := 2 * (t.nodes.keys.length + ft.view.nodes.entries.length) + 8) (x := x) (dir := .both) (v := ft.view) (by omega) rfl
        ((hv.rerank e2).congrE rfl (fun y hy hn => by
          rw [hdisp y (by rintro rfl; rw [hvx] at hy; cases hy)]; exact hv.sub y hy hn))
        (fun y hy hyx => h.all y (by rw [← hdisp y hyx]; exact hy)) hxr (fun _ => False) (by
          intro y hy hyx _ hcase p
          rw [h.settled y (by rw [← hdisp y hyx]; exact hy) (fun h => h) p]
          symm
          refine npAll_congr (E := FT.env diff b t d ft) (E' := FT.env diff b t d' ft) rfl rfl rfl (fun hflat q => ?_) p
          by_cases hqx : q = x
          · subst hqx
            rw [hdx0]
            constructor
            · rintro ⟨m1, m2⟩
              rcases hcase with c | c | c | c
              · have c' : ft.flat = true := c
                have hflat' : ft.flat = false := hflat
                rw [hflat'] at c'; cases c'
              · rw [hvx] at c; cases c
              · rw [c] at m1; cases m1
              · exact absurd m2 c
            · rintro ⟨m1, -⟩; cases m1
          · rw [hdisp q hqx]; exact Iff.rfl)
      exact ⟨v', a1, ⟨rank, ⟨e1.parRank, fun y p hp => (a2.par y p hp).2⟩, a2⟩, a3, fun y hy _ => a4 y hy fun _ h => h⟩

theorem change_fit {b : Bank (Id → V)} {ft : FT} (hb : OwnOn b ft.applied) (hdiff : SetDiff diff) {t : Tree} (hw : WF t) {d d' : Id → V}
    (hroot : t.has ft.root = false) {x : Id} (hx : t.has x = true) (hd : ∀ y, y ≠ x → d' y = d y)
    (h : Fit (FT.env diff b t d ft) (fun _ => False) ft.view) (ev : Ev) :
    ∃ v', FT.react diff b d' ⟨t, ev, x⟩ ft = .ok { ft with view := v' } ∧ Fit (FT.env diff b t d' ft) (fun _ => False) v' :=
  change_fitD hdiff hw hroot hx (fun y hy => accepts_own hb rfl (hd y hy)) h ev

/-! ### Refiltering -/

theorem treeWalks_eq (t : Tree) (k : Nat) (x : Id) : FT.treeWalks t k x = walks t.getChildren k x := by
  induction k generalizing x with
  | zero => rfl
  | succ k ih =>
    rw [FT.treeWalks, walks]
    have : FT.treeWalks t k = walks t.getChildren k := funext ih
    rw [this]

theorem getChildren_sub {t : Tree} (h : WF t) {p c : Id} (hc : c ∈ t.getChildren p) : p ∈ t.rawParents c := (h.mem_getChildren p c).1 hc

theorem fill_ok (b : Bank D) {t : Tree} (h : Good t) (d : D) (ft : FT) :
    FillOK (FT.env diff b t d ft) (FT.treeWalks t (t.nodes.entries.length + 2)) := by
  obtain ⟨ht, h1, h2⟩ := exists_height t.getChildren t.nodes.keys (by
      intro x hx
      refine t.rawChildren_keys x fun hn => hx ?_
      rw [List.eq_nil_iff_forall_not_mem]
      intro c hc
      have := h.wf.up x c (getChildren_sub h.wf hc)
      rw [hn] at this; cases this)
    (h.wf.acyclicC.mono fun x c hc => h.wf.up x c (getChildren_sub h.wf hc))
  have hdown : ∀ x, FromRoot t x → ∃ y ∈ t.rootChildren, ReachEq t.getChildren y x := by
    intro x hx
    induction hx with
    | top hm => exact ⟨_, hm, Or.inl rfl⟩
    | child _ hc ih =>
      obtain ⟨y, hy, hr⟩ := ih
      exact ⟨y, hy, hr.trans (Or.inr (Reach.single hc))⟩
  refine ⟨?_, ?_, ?_, fun x hx => hdown x (h.fromRoot x hx)⟩
  · intro x c hc; exact Tree.has_of_mem_rawParents (getChildren_sub h.wf hc)
  · intro x hx; exact ((h.topLevel.exact x).1 hx).1
  · intro x
    rw [treeWalks_eq, funext (treeWalks_eq t _)]
    exact walks_eq t.getChildren ht h2 _ x (by have := h1 x; rw [Dict.keys_length] at this; omega)

/-- `refilter` of any view that holds together, with any filters. -/
theorem refilter_fit (hdiff : SetDiff diff) (b : Bank D) {t : Tree} (h : Good t) (d : D) (ft : FT) (hr : t.has ft.root = false)
    {rank' : Id → Nat} {M' : Nat} (hv : Husk ft.root rank' M' ft.view) :
    ∃ v, ft.refilter diff b t d = .ok { ft with flat := FT.anyFlat b ft.applied, view := v } ∧
      Fit (FT.env diff b t d { ft with flat := FT.anyFlat b ft.applied }) (fun _ => False) v := by
  generalize hft : ({ ft with flat := FT.anyFlat b ft.applied } : FT) = ft1
  have hroot : ft1.root = ft.root := by rw [← hft]
  have hE := env_ok hdiff b h.wf d ft1 (by rw [hroot]; exact hr)
  obtain ⟨ht, -, hac⟩ := exists_height t.rawParents t.nodes.keys t.rawParents_keys h.wf.acyclic
  have hg : ∀ y, (View.rootOnly ft.root).get? y = if y = ft.root then some {} else none := by
    intro y; rw [View.rootOnly, Dict.get?_set]; rfl
  have hp : ∀ y, (⟨View.rootOnly ft.root, []⟩ : View).pars y = [] := by
    intro y; unfold View.pars; dsimp only; rw [hg]; split <;> rfl
  obtain ⟨rank, e1, -⟩ := hE.rank (v := ⟨View.rootOnly ft.root, []⟩) (hp _) (r := ht)
    ⟨by rw [env_par h.wf]; exact hac, fun y p hpy => by rw [hp] at hpy; cases hpy⟩ t.nodes.keys (env_keys h.wf)
  have hlen : (View.rootOnly ft.root).entries.length = 1 := rfl
  obtain ⟨v, a1, a2, a3, a4⟩ := refilter_ok e1 (fill_ok b h d ft1) (depth := FT.depth t ft.view) (rounds := FT.rounds t) (v := ft.view)
    (rank' := rank') (M' := M')
    (by unfold FT.depth; simp only [Dict.keys_length] ; rw [hlen]; omega) (le_refl _) (by show Husk ft1.root _ _ _; rw [hroot]; exact hv)
  refine ⟨v, ?_, ⟨rank, ⟨e1.parRank, fun y p hp => (a2.par y p hp).2⟩, a2⟩, a3, fun y hy _ => a4 y hy⟩
  unfold FT.refilter
  dsimp only
  rw [hft]
  rw [a1]
  unfold FT.withView
  rw [← hft]

theorem Fit.whole {b : Bank D} (hdiff : SetDiff diff) {t : Tree} (hw : WF t) {d : D} {ft : FT} (hr : t.has ft.root = false) {v : View}
    (h : Fit (FT.env diff b t d ft) (fun _ => False) v) : ∃ rank M, Whole ft.root rank M v := by
  have hE := env_ok hdiff b hw d ft hr
  obtain ⟨r, ho, hv⟩ := h.inv
  obtain ⟨rank, e1, e2⟩ := hE.rank hv.rootPars ho t.nodes.keys (env_keys hw)
  exact ⟨rank, _, (hv.rerank e2).whole e1⟩

/-! ### The invariant -/

/-- The view of the application is right, and `T` holds for the tree. -/
structure VOver (T : Tree → Prop) (diff : List Id → List Id → List Id) (a : FApp V) : Prop where
  good : Good a.s.t
  tidy : T a.s.t
  bank : BankInv a.bank
  rootFree : a.s.t.has a.ft.root = false
  flat : a.ft.flat = FT.anyFlat a.bank a.ft.applied
  fit : Fit (FT.env diff a.bank a.s.t a.data a.ft) (fun _ => False) a.ft.view

/-- The view of the application is right, and no children list mentions a removed node. -/
structure VState (diff : List Id → List Id → List Id) (a : FApp V) : Prop where
  good : Good a.s.t
  tidy : NoDangling a.s.t
  bank : BankInv a.bank
  rootFree : a.s.t.has a.ft.root = false
  flat : a.ft.flat = FT.anyFlat a.bank a.ft.applied
  fit : Fit (FT.env diff a.bank a.s.t a.data a.ft) (fun _ => False) a.ft.view

theorem VState.over {a : FApp V} (h : VState diff a) : VOver NoDangling diff a := ⟨h.good, h.tidy, h.bank, h.rootFree, h.flat, h.fit⟩

theorem VOver.state {a : FApp V} (h : VOver NoDangling diff a) : VState diff a := ⟨h.good, h.tidy, h.bank, h.rootFree, h.flat, h.fit⟩

theorem watch_startOver {a : FApp V} {T : Tree → Prop} (h : VOver T diff a) : Watch diff a.bank a.data a.s a.ft (fun _ => False) a.s :=
  ⟨h.rootFree, fun l1 n l2 v e _ => by
    have := congrArg List.length e
    simp only [List.length_append, List.length_cons] at this
    omega, a.ft.view, [], by simp, rfl, h.fit⟩

theorem watch_start {a : FApp V} (h : VState diff a) : Watch diff a.bank a.data a.s a.ft (fun _ => False) a.s := watch_startOver h.over

/-- An edit, seen by a view with filters on the nodes' own data. -/
theorem edit_watchSafe (hdiff : SetDiff diff) {a : FApp V} {T : Tree → Prop} (h : VOver T diff a) (own : OwnApplied a) (op : Op) (hs : Safe a.s op)
    (hadd : ∀ nd p, op = .addNode nd p → nd.id ≠ a.ft.root)
    (hkids : ∀ x, op = .delNode x false → a.s.t.has x = true → ∀ c ∈ a.s.t.rawChildren x, a.s.t.has c = true)
    (hone : ∀ x, op = .delNode x true → ∀ y, Reach a.s.t.rawChildren x y → (a.s.t.rawParents y).length ≤ 3) :
    Watch diff a.bank a.data a.s a.ft (fun _ => False) (step a.s op).state := by
  have w0 := watch_startOver h
  by_cases hl : op.isLocal = true
  · exact (step_keepsGood (watch_keeps own hdiff) h.good op hl hs (fun _ _ _ => trivial) (fun _ _ _ => trivial) ⟨h.good, w0⟩).2
  · cases op with
    | addNode nd p =>
      show Watch _ _ _ _ _ _ (addNode a.s nd p).state
      by_cases hx : a.s.t.has nd.id = true
      · rw [addNode_existing hx]; exact w0
      · have hg := step_good h.good (.addNode nd p) hs
        change Good (addNode a.s nd p).state.t at hg
        obtain ⟨hm, hc⟩ := hs
        obtain ⟨-, -, -, hok⟩ := hc.resolve_left hx
        cases hr : addNode a.s nd p with
        | err e s' => rw [hr] at hok; cases hok
        | ok s' =>
          obtain ⟨t', rfl, har⟩ := addNode_arrived h.good hm (by simpa using hx) hr
          rw [hr] at hg
          exact w0.added own hdiff h.good.wf hg.wf har (by simpa using hx) (hadd nd p rfl)
    | delNode x r =>
      by_cases hx : a.s.t.has x = true
      · cases r with
        | true =>
          show Watch _ _ _ _ _ _ (removeNode (removeFuel a.s.t) a.s x true).state
          exact watch_removeThree own hdiff h.good.wf hx (hone x rfl) w0
        | false =>
          show Watch _ _ _ _ _ _ (removeNode (a.s.t.nodes.entries.length + 1) a.s x false).state
          exact watch_removeOrphan own hdiff h.good hx (hkids x rfl hx) _ w0
      · have : (step a.s (.delNode x r)).state = a.s := by
          show (removeNode (a.s.t.nodes.entries.length + 1) a.s x r).state = a.s
          unfold removeNode; rw [if_pos (by simp [hx])]; rfl
        rw [this]; exact w0
    | _ => exact absurd rfl hl

theorem edit_watchOwn (hdiff : SetDiff diff) {a : FApp V} (h : VState diff a) (own : OwnApplied a) (op : Op) (hf : EditFair a op) :
    Watch diff a.bank a.data a.s a.ft (fun _ => False) (step a.s op).state := by
  obtain ⟨hc, hadd, hdel⟩ := hf
  refine edit_watchSafe hdiff h.over own op ((hc.tidy h.good h.tidy).safe h.good h.tidy) hadd (fun x _ _ c hcx => h.tidy x c hcx) ?_
  intro x e y hy
  rw [← h.good.wf.getParents_eq]
  exact hdel x e y ((h.good.descendant_down h.tidy y x).2 hy)

theorem vover_of_watch {a : FApp V} {T T' : Tree → Prop} (h : VOver T diff a) {op : Op} (hs : Safe a.s op) (ht : T' (step a.s op).state.t)
    (w : Watch diff a.bank a.data a.s a.ft (fun _ => False) (step a.s op).state) :
    ∃ a', a.edit diff op = .ok a' ∧ VOver T' diff a' := by
  obtain ⟨hroot, -, v, l, h1, h2, h3⟩ := w
  unfold FApp.edit
  dsimp only
  rw [h1, List.drop_left, h2]
  exact ⟨_, rfl, step_good h.good op hs, ht, h.bank, hroot, h.flat, h3⟩

theorem vstate_of_watch {a : FApp V} (h : VState diff a) {op : Op} (hc : Careful a.s op)
    (w : Watch diff a.bank a.data a.s a.ft (fun _ => False) (step a.s op).state) :
    ∃ a', a.edit diff op = .ok a' ∧ VState diff a' := by
  have ht := hc.tidy h.good h.tidy
  obtain ⟨a', e, h'⟩ := vover_of_watch h.over (ht.safe h.good h.tidy) (step_noDangling h.good h.tidy op ht) w
  exact ⟨a', e, h'.state⟩

/-- The data of `x` change, and the filters are fine with that. -/
theorem vover_of_change {a : FApp V} {T : Tree → Prop} (h : VOver T diff a) (x : Id) (v : V)
    (hin : a.s.t.has x = true → ∃ v', FT.react diff a.bank (fun y => if y = x then v else a.data y) ⟨a.s.t, .modified, x⟩ a.ft = .ok { a.ft with view := v' } ∧
      Fit (FT.env diff a.bank a.s.t (fun y => if y = x then v else a.data y) a.ft) (fun _ => False) v')
    (hout : a.s.t.has x = false → ∀ y, y ≠ x → FT.accepts a.bank a.s.t (fun y => if y = x then v else a.data y) a.ft.applied y =
      FT.accepts a.bank a.s.t a.data a.ft.applied y) :
    ∃ a', a.act diff (.change x v) = .ok a' ∧ VOver T diff a' := by
  show ∃ a', FApp.edit diff _ _ = _ ∧ _
  unfold FApp.edit
  dsimp only
  by_cases hx : x ≠ rootId ∧ a.s.t.has x = true
  · have es : (step a.s (.refreshNode x)).state = a.s.emit .modified x := by
      show (modifyNode a.s x).state = _
      unfold modifyNode; rw [if_pos hx]; rfl
    obtain ⟨v', a1, a2⟩ := hin hx.2
    rw [es]
    have el : (a.s.emit .modified x).log = a.s.log ++ [⟨a.s.t, .modified, x⟩] := rfl
    rw [el, List.drop_left, Res.forEach, a1]
    exact ⟨_, rfl, h.good, h.tidy, h.bank, h.rootFree, h.flat, a2⟩
  · have es : (step a.s (.refreshNode x)).state = a.s := by
      show (modifyNode a.s x).state = _
      unfold modifyNode; rw [if_neg hx]; rfl
    rw [es, List.drop_length]
    refine ⟨_, rfl, h.good, h.tidy, h.bank, h.rootFree, h.flat, ?_⟩
    have hxf : a.s.t.has x = false := by
      by_contra hc
      have hc' : a.s.t.has x = true := by simpa using hc
      exact hx ⟨(h.good.wf.ids x hc').2, hc'⟩
    have : FT.env diff a.bank a.s.t (fun y => if y = x then v else a.data y) a.ft = FT.env diff a.bank a.s.t a.data a.ft := by
      have : FT.accepts a.bank a.s.t (fun y => if y = x then v else a.data y) a.ft.applied = FT.accepts a.bank a.s.t a.data a.ft.applied := by
        funext y
        by_cases hy : y = x
        · subst hy
          unfold FT.accepts
          rw [hxf]; simp
        · exact hout hxf y hy
      unfold FT.env; rw [this]
    show Fit (FT.env diff a.bank a.s.t (fun y => if y = x then v else a.data y) a.ft) _ _
    rw [this]; exact h.fit

theorem vstate_of_change {a : FApp V} (h : VState diff a) (x : Id) (v : V)
    (hin : a.s.t.has x = true → ∃ v', FT.react diff a.bank (fun y => if y = x then v else a.data y) ⟨a.s.t, .modified, x⟩ a.ft = .ok { a.ft with view := v' } ∧
      Fit (FT.env diff a.bank a.s.t (fun y => if y = x then v else a.data y) a.ft) (fun _ => False) v')
    (hout : a.s.t.has x = false → ∀ y, y ≠ x → FT.accepts a.bank a.s.t (fun y => if y = x then v else a.data y) a.ft.applied y =
      FT.accepts a.bank a.s.t a.data a.ft.applied y) :
    ∃ a', a.act diff (.change x v) = .ok a' ∧ VState diff a' := by
  obtain ⟨r, e, h'⟩ := vover_of_change h.over x v hin hout
  exact ⟨r, e, h'.state⟩

theorem change_ownOver (hdiff : SetDiff diff) {a : FApp V} {T : Tree → Prop} (h : VOver T diff a) (own : OwnApplied a) (x : Id) (v : V) :
    ∃ a', a.act diff (.change x v) = .ok a' ∧ VOver T diff a' :=
  vover_of_change h x v (fun hx => change_fit own hdiff h.good.wf h.rootFree hx (fun y hy => if_neg hy) h.fit .modified)
    fun _ y hy => accepts_own own rfl (if_neg hy)

theorem change_own (hdiff : SetDiff diff) {a : FApp V} (h : VState diff a) (own : OwnApplied a) (x : Id) (v : V) :
    ∃ a', a.act diff (.change x v) = .ok a' ∧ VState diff a' := by
  obtain ⟨r, e, h'⟩ := change_ownOver hdiff h.over own x v
  exact ⟨r, e, h'.state⟩

/-- The bank changes, but not as far as the view is concerned. -/
theorem bank_vover {a : FApp V} {T : Tree → Prop} (h : VOver T diff a) (b : Bank (Id → V)) (hb : BankInv b)
    (same : ∀ n ∈ a.ft.applied, b.getFilter n = a.bank.getFilter n) : VOver T diff { a with bank := b } := by
  have hacc : FT.accepts b a.s.t a.data a.ft.applied = FT.accepts a.bank a.s.t a.data a.ft.applied := by
    funext x
    unfold FT.accepts
    congr 1
    rw [Bool.eq_iff_iff, List.all_eq_true, List.all_eq_true]
    exact forall_congr' fun n => forall_congr' fun hn => by rw [same n hn]
  refine ⟨h.good, h.tidy, hb, h.rootFree, ?_, ?_⟩
  · show a.ft.flat = FT.anyFlat b a.ft.applied
    rw [h.flat]
    unfold FT.anyFlat
    rw [Bool.eq_iff_iff, List.any_eq_true, List.any_eq_true]
    constructor
    · rintro ⟨n, hn, e⟩; exact ⟨n, hn, by rw [same n hn]; exact e⟩
    · rintro ⟨n, hn, e⟩; exact ⟨n, hn, by rw [same n hn] at e; exact e⟩
  · have : FT.env diff b a.s.t a.data a.ft = FT.env diff a.bank a.s.t a.data a.ft := by
      unfold FT.env; rw [hacc]
    show Fit (FT.env diff b a.s.t a.data a.ft) _ _
    rw [this]; exact h.fit

theorem bank_vstate {a : FApp V} (h : VState diff a) (b : Bank (Id → V)) (hb : BankInv b)
    (same : ∀ n ∈ a.ft.applied, b.getFilter n = a.bank.getFilter n) : VState diff { a with bank := b } :=
  (bank_vover h.over b hb same).state

/-- The filters of the view change, and it is refiltered. -/
theorem refilter_vover (hdiff : SetDiff diff) {a : FApp V} {T : Tree → Prop} (h : VOver T diff a) (b : Bank (Id → V)) (hb : BankInv b)
    (ap : List FName) : ∃ ft', ({ a.ft with applied := ap } : FT).refilter diff b a.s.t a.data = .ok ft' ∧
      VOver T diff { a with bank := b, ft := ft' } := by
  obtain ⟨rank, M, hw⟩ := h.fit.whole hdiff h.good.wf h.rootFree
  obtain ⟨v, e, hfit⟩ := refilter_fit hdiff b h.good a.data { a.ft with applied := ap } h.rootFree hw.husk
  exact ⟨_, e, h.good, h.tidy, hb, h.rootFree, rfl, hfit⟩

theorem refilter_vstate (hdiff : SetDiff diff) {a : FApp V} (h : VState diff a) (b : Bank (Id → V)) (hb : BankInv b)
    (ap : List FName) : ∃ ft', ({ a.ft with applied := ap } : FT).refilter diff b a.s.t a.data = .ok ft' ∧
      VState diff { a with bank := b, ft := ft' } := by
  obtain ⟨r, e, h'⟩ := refilter_vover hdiff h.over b hb ap
  exact ⟨r, e, h'.state⟩

theorem setParameters_own {b : Bank (Id → V)} (hb : BankInv b) (own : OwnBank b) (n : FName) (p : Option Params) :
    OwnBank (b.setParameters n p) := by
  intro m f hm
  rw [getFilter_setParameters hb] at hm
  split at hm
  · cases hg : b.getFilter n with
    | none => rw [hg] at hm; cases hm
    | some g =>
      rw [hg] at hm
      simp only [Option.map_some, Option.some.injEq] at hm
      subst hm
      have : (g.setParameters p).func = g.func := by
        unfold Filter.setParameters; split
        · split <;> rfl
        · rfl
      rw [this]; exact own n g hg
  · exact own m f hm

/-- The actions that leave the tree and the data alone. -/
theorem act_quietOver (hdiff : SetDiff diff) {a : FApp V} {T : Tree → Prop} (h : VOver T diff a) (c : FAct V) (hq : ∀ op, c ≠ .edit op) (hq' : ∀ x v, c ≠ .change x v) (hf : ViewFair a c) :
    ∃ a', a.act diff c = .ok a' ∧ VOver T diff a' := by
  cases c with
  | edit op => exact absurd rfl (hq op)
  | change x v => exact absurd rfl (hq' x v)
  | bank c =>
    refine ⟨_, rfl, bank_vover h _ (bank_call _ h.bank c) ?_⟩
    · intro m hm
      cases c with
      | add n func p =>
        show (a.bank.addFilter n func p).2.getFilter m = _
        by_cases hk : a.bank.getFilter m = none
        · by_cases hmn : m = n
          · subst hmn
            have := hf hm
            rw [hk] at this; cases this
          · rcases getFilter_add h.bank n m func p with e | ⟨-, dic, e⟩
            · exact e
            · exfalso
              have hi : BankInv (a.bank.addFilter n func p).2 := bank_call a.bank h.bank (.add n func p)
              rw [bank_get _ hi] at e
              rw [bank_get _ h.bank] at hk
              unfold Bank.addFilter at e
              split at e
              · cases n with
                | bang k => rw [hk] at e; cases e
                | plain k =>
                  dsimp only at e
                  rw [KV.get?_set, if_neg hmn, hk] at e; cases e
              · rw [hk] at e; cases e
        · rcases getFilter_add h.bank n m func p with e | ⟨e, -⟩
          · exact e
          · exact absurd e hk
      | remove n =>
        show (a.bank.removeFilter n).2.getFilter m = _
        rw [getFilter_remove h.bank, if_neg (by rintro rfl; exact hf hm)]
  | setParams n p =>
    refine ⟨_, rfl, bank_vover h _ (setParameters_inv h.bank n _) ?_⟩
    intro m hm
    rw [getFilter_setParameters h.bank, if_neg (by rintro rfl; exact hf hm)]
  | apply n p rs rf =>
    obtain ⟨rfl, hk⟩ := hf
    show ∃ a', FApp.withFT { a with bank := (a.ft.applyFilter diff a.bank a.s.t a.data n p rs true).2.1 }
      (a.ft.applyFilter diff a.bank a.s.t a.data n p rs true).2.2 = .ok a' ∧ _
    unfold FT.applyFilter
    dsimp only
    rw [if_neg (by
      rw [Bool.and_eq_true]
      rintro ⟨g1, g2⟩
      have := hk g1
      cases hg : a.bank.getFilter n with
      | none => rw [hg] at this; cases this
      | some f => rw [hg] at g2; cases g2)]
    generalize hb1 : (if FT.givesParams p then a.bank.setParameters n p else a.bank) = b1
    have hbi : BankInv b1 := by rw [← hb1]; split; exacts [setParameters_inv h.bank n p, h.bank]
    generalize hft1 : (if rs then { a.ft with applied := [] } else a.ft : FT) = ft1
    have e1 : ∃ ap, ft1 = { a.ft with applied := ap } := by rw [← hft1]; split; exacts [⟨_, rfl⟩, ⟨a.ft.applied, rfl⟩]
    obtain ⟨ap1, rfl⟩ := e1
    dsimp only
    by_cases hc : FT.givesParams p = true ∨ n ∉ ap1
    · rw [if_pos (by simpa using hc)]
      have e2 : ∃ ap, (if decide (n ∉ ap1) = true then ({ a.ft with applied := ap1 ++ [n] } : FT) else { a.ft with applied := ap1 }) =
          { a.ft with applied := ap } := by
        split; exacts [⟨_, rfl⟩, ⟨_, rfl⟩]
      obtain ⟨ap2, e2⟩ := e2
      obtain ⟨ft', r1, r2⟩ := refilter_vover hdiff h b1 hbi ap2
      rw [e2, r1]
      exact ⟨_, rfl, r2⟩
    · push Not at hc
      rw [if_neg (by simpa using hc)]
      have hg : FT.givesParams p = false := by simpa using hc.1
      have hb1' : b1 = a.bank := by rw [← hb1, hg]; rfl
      have hrs : rs = false := by
        cases rs with
        | false => rfl
        | true =>
          exfalso
          have : ap1 = [] := by
            have := congrArg FT.applied hft1
            exact this.symm
          rw [this] at hc; exact absurd hc.2 (by simp)
      subst hrs
      have hap : ap1 = a.ft.applied := (congrArg FT.applied hft1).symm
      subst hap
      refine ⟨_, rfl, ?_⟩
      rw [if_neg (by simpa using hc.2), hb1']
      exact h
  | unapply n rf =>
    change rf = true at hf; subst hf
    show ∃ a', a.withFT (a.ft.unapplyFilter diff a.bank a.s.t a.data n true).2 = .ok a' ∧ _
    unfold FT.unapplyFilter
    by_cases hn : n ∈ a.ft.applied
    · rw [if_pos hn]
      dsimp only
      obtain ⟨ft', r1, r2⟩ := refilter_vover hdiff h a.bank h.bank (a.ft.applied.erase n)
      rw [if_pos rfl, r1]
      exact ⟨_, rfl, r2⟩
    · rw [if_neg hn]
      exact ⟨_, rfl, h⟩
  | reset rf =>
    change rf = true at hf; subst hf
    show ∃ a', a.withFT (a.ft.resetFilters diff a.bank a.s.t a.data true) = .ok a' ∧ _
    unfold FT.resetFilters
    dsimp only
    obtain ⟨ft', r1, r2⟩ := refilter_vover hdiff h a.bank h.bank []
    rw [if_pos rfl, r1]
    exact ⟨_, rfl, r2⟩
  | currentState => exact hf.elim

theorem act_quiet (hdiff : SetDiff diff) {a : FApp V} (h : VState diff a) (c : FAct V) (hq : ∀ op, c ≠ .edit op) (hq' : ∀ x v, c ≠ .change x v) (hf : ViewFair a c) :
    ∃ a', a.act diff c = .ok a' ∧ VState diff a' := by
  obtain ⟨r, e, h'⟩ := act_quietOver hdiff h.over c hq hq' hf
  exact ⟨r, e, h'.state⟩

theorem accepts_iff {a : FApp V} (hw : WF a.s.t) (x : Id) :
    FT.accepts a.bank a.s.t a.data a.ft.applied x = true ↔ Wanted a x := by
  unfold FT.accepts Wanted
  simp only [Bool.and_eq_true, List.all_eq_true]
  constructor
  · rintro ⟨⟨-, h2⟩, h3⟩
    refine ⟨h2, fun n hn => ?_⟩
    have := h3 n hn
    cases hg : a.bank.getFilter n with
    | none => rw [hg] at this; cases this
    | some f => rw [hg] at this; exact ⟨f, rfl, this⟩
  · rintro ⟨h1, h2⟩
    refine ⟨⟨by have := (hw.ids x h1).1; simp [this], h1⟩, fun n hn => ?_⟩
    obtain ⟨f, hf, hd⟩ := h2 n hn
    rw [hf]; exact hd

theorem flatView_iff {a : FApp V} : FT.anyFlat a.bank a.ft.applied = true ↔ FlatView a := by
  unfold FT.anyFlat FlatView
  rw [List.any_eq_true]
  refine exists_congr fun n => and_congr_right fun _ => ?_
  cases hg : a.bank.getFilter n with
  | none => simp
  | some f => simp

theorem VState.notFlat {a : FApp V} (h : VState diff a) (hf : ¬ FlatView a) : a.ft.flat = false := by
  rw [h.flat, Bool.eq_false_iff]
  exact fun hc => hf (flatView_iff.1 hc)

theorem whole_rootOnly (root : Id) : Whole root (fun x => if x = root then 0 else 1) 1 ⟨View.rootOnly root, []⟩ := by
  have hg : ∀ y, (View.rootOnly root).get? y = if y = root then some {} else none := by
    intro y; rw [View.rootOnly, Dict.get?_set]; rfl
  have hp : ∀ y, (⟨View.rootOnly root, []⟩ : View).pars y = [] := by
    intro y; unfold View.pars; dsimp only; rw [hg]; split <;> rfl
  have hk : ∀ y, (⟨View.rootOnly root, []⟩ : View).kids y = [] := by
    intro y; unfold View.kids; dsimp only; rw [hg]; split <;> rfl
  refine ⟨?_, by simp, ?_, ?_, ?_, hp _, ?_, ?_, ?_, ?_, ?_, ?_⟩
  · intro x; split <;> omega
  · intro x hx; simp [hx]
  · rw [View.rootOnly, Dict.keys_set]; simp [Dict.keys, Dict.empty, Dict.has, Dict.get?, Dict.lookup]
  · unfold View.has Dict.has; dsimp only; rw [hg]; simp
  · intro y p h; rw [hp] at h; cases h
  · intro p c h; rw [hk] at h; cases h
  · intro y; rw [hp]; simp
  · intro y; rw [hk]; simp
  · intro y p; rw [hp, hk]; simp
  · refine RowsSet.nil.congr fun l => ?_
    constructor
    · exact False.elim
    · rintro ⟨h1, h2⟩
      cases l with
      | nil => exact h1 rfl
      | cons c l =>
        have := (List.isChain_cons_cons.1 h2).1
        change c ∈ View.kids _ root at this
        rw [hk] at this; cases this

theorem new_vover (hdiff : SetDiff diff) {s : St} (h : Good s.t) {T : Tree → Prop} (hn : T s.t) (d : Id → V) (b : Bank (Id → V)) (hb : BankInv b)
    (root : Id) (hr : s.t.has root = false) :
    ∃ ft, FT.new diff b s.t d root true = .ok ft ∧ VOver T diff ⟨s, d, b, ft⟩ := by
  obtain ⟨v, e, hfit⟩ := refilter_fit hdiff b h d { root := root, view := ⟨View.rootOnly root, []⟩ } hr (whole_rootOnly root).husk
  exact ⟨_, e, h, hn, hb, hr, rfl, hfit⟩

theorem new_vstate (hdiff : SetDiff diff) {s : St} (h : Good s.t) (hn : NoDangling s.t) (d : Id → V) (b : Bank (Id → V)) (hb : BankInv b)
    (root : Id) (hr : s.t.has root = false) :
    ∃ ft, FT.new diff b s.t d root true = .ok ft ∧ VState diff ⟨s, d, b, ft⟩ := by
  obtain ⟨ft, e, h'⟩ := new_vover hdiff h hn d b hb root hr
  exact ⟨ft, e, h'.state⟩

end Larch
