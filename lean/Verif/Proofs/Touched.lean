import Verif.Proofs.Cells
import Verif.Proofs.Minimal
import Verif.Proofs.ViewPrefix

/-!
# A node whose data change: all of its rows are announced
-/

namespace Larch

open Spec Graph

variable {V W : Type} {diff : List Id → List Id → List Id}

/-! ### Signals are only appended -/

theorem Blind.split {g : View → Res View} (hg : Blind g) {v v' : View} (h : g v = .ok v') :
    ∃ w, g { v with out := [] } = .ok w ∧ v' = w.pre v.out := by
  have e : v = ({ v with out := [] } : View).pre v.out := by
    unfold View.pre; simp
  rw [e, hg] at h
  cases hw : g { v with out := [] } with
  | err e s => rw [hw] at h; cases h
  | ok w =>
    rw [hw] at h
    exact ⟨w, rfl, (Res.ok.inj h).symm⟩

theorem Blind.appends {g : View → Res View} (hg : Blind g) {v v' : View} (h : g v = .ok v') :
    v.out <+: v'.out := by
  obtain ⟨w, -, rfl⟩ := hg.split h
  exact List.prefix_append _ _

theorem withView_inv {ft ft' : FT} {r : Res View} (h : ft.withView r = .ok ft') :
    ∃ v, r = .ok v ∧ ft' = { ft with view := v } := by
  cases r with
  | err e s => cases h
  | ok v => exact ⟨v, rfl, (Res.ok.inj h).symm⟩

theorem react_appends {b : Bank (Id → V)} {d : Id → V} {n : Note} {ft ft' : FT} (h : FT.react diff b d n ft = .ok ft') :
    ft.view.out <+: ft'.view.out := by
  obtain ⟨v, e, rfl⟩ := withView_inv h
  exact (VEnv.update_blind _ _ _ _).appends e

theorem reacts_appends {b : Bank (Id → V)} {d : Id → V} (l : List Note) : ∀ {ft ft' : FT},
    Res.forEach (FT.react diff b d) l ft = .ok ft' → ft.view.out <+: ft'.view.out := by
  induction l with
  | nil => intro ft ft' h; cases h; exact List.prefix_refl _
  | cons n l ih =>
    intro ft ft' h
    cases hr : FT.react diff b d n ft with
    | err e s => rw [Res.forEach, hr] at h; cases h
    | ok f1 =>
      rw [Res.forEach, hr] at h
      exact (react_appends hr).trans (ih h)

theorem refilter_appends {b : Bank (Id → V)} {t : Tree} {d : Id → V} {ft ft' : FT} (h : ft.refilter diff b t d = .ok ft') :
    ft.view.out <+: ft'.view.out := by
  obtain ⟨v, e, rfl⟩ := withView_inv h
  exact (VEnv.refilter_blind _ _ _).appends e

theorem edit_appends {a a' : FApp V} {op : Op} (h : a.edit diff op = .ok a') : a.ft.view.out <+: a'.ft.view.out := by
  unfold FApp.edit at h
  dsimp only at h
  cases hr : Res.forEach (FT.react diff a.bank a.data) ((step a.s op).state.log.drop a.s.log.length) a.ft with
  | err e s => rw [hr] at h; cases h
  | ok ft =>
    rw [hr] at h
    cases h
    exact reacts_appends _ hr

theorem act_appends {a a' : FApp V} (c : FAct V) (hc : c ≠ .currentState) (h : a.act diff c = .ok a') :
    a.ft.view.out <+: a'.ft.view.out := by
  cases c with
  | edit op => exact edit_appends h
  | change x v => exact edit_appends (a := { a with data := fun y => if y = x then v else a.data y }) h
  | bank c => cases h; exact List.prefix_refl _
  | setParams n p => cases h; exact List.prefix_refl _
  | apply n p rs rf =>
    change FApp.withFT { a with bank := (a.ft.applyFilter diff a.bank a.s.t a.data n p rs rf).2.1 }
      (a.ft.applyFilter diff a.bank a.s.t a.data n p rs rf).2.2 = .ok a' at h
    obtain ⟨ft, e, rfl⟩ := withFT_ok h
    show a.ft.view.out <+: ft.view.out
    unfold FT.applyFilter at e
    dsimp only at e
    have h1 : (if rs then { a.ft with applied := [] } else a.ft : FT).view = a.ft.view := by split <;> rfl
    generalize (if rs then { a.ft with applied := [] } else a.ft : FT) = ft1 at e h1
    have h2 : (if decide (n ∉ ft1.applied) = true then ({ ft1 with applied := ft1.applied ++ [n] } : FT) else ft1).view = a.ft.view := by
      split <;> exact h1
    generalize (if decide (n ∉ ft1.applied) = true then ({ ft1 with applied := ft1.applied ++ [n] } : FT) else ft1) = ft2 at e h2
    split at e
    · cases e
    · split at e
      · have := refilter_appends e
        rwa [h2] at this
      · cases e; rw [h2]
  | unapply n rf =>
    obtain ⟨ft, e, rfl⟩ := withFT_ok h
    show a.ft.view.out <+: ft.view.out
    unfold FT.unapplyFilter at e
    split at e
    · dsimp only at e
      split at e
      · exact refilter_appends (ft := { a.ft with applied := a.ft.applied.erase n }) e
      · cases e; exact List.prefix_refl _
    · cases e; exact List.prefix_refl _
  | reset rf =>
    obtain ⟨ft, e, rfl⟩ := withFT_ok h
    show a.ft.view.out <+: ft.view.out
    unfold FT.resetFilters at e
    dsimp only at e
    split at e
    · exact refilter_appends (ft := { a.ft with applied := [] }) e
    · cases e; exact List.prefix_refl _
  | currentState => exact absurd rfl hc

/-! ### The data of an action -/

theorem act_data {a a' : FApp V} {c : FAct V} (h : a.act diff c = .ok a') (y : Id) (hy : ∀ v, c ≠ .change y v) :
    a'.data y = a.data y := by
  cases c with
  | edit op =>
    obtain ⟨ft, -, rfl⟩ := withFT_ok h
    rfl
  | change x v =>
    obtain ⟨ft, -, rfl⟩ := withFT_ok h
    exact if_neg (fun e => hy v (by rw [e]))
  | bank c => cases h; rfl
  | setParams n p => cases h; rfl
  | apply n p rs rf => obtain ⟨ft, -, rfl⟩ := withFT_ok h; rfl
  | unapply n rf => obtain ⟨ft, -, rfl⟩ := withFT_ok h; rfl
  | reset rf => obtain ⟨ft, -, rfl⟩ := withFT_ok h; rfl
  | currentState => obtain ⟨ft, -, rfl⟩ := withFT_ok h; rfl

/-! ### An update touches all rows of its node -/

/-- The last thing the first half of an update does for a node that was displayed before is to announce its paths. -/
theorem settle_modified {E : VEnv} {up : Id → View → Res View} {x : Id} {dir : Dir} {v v' : View}
    (hin : v.has x = true) (h : E.settle up x dir v = .ok v') :
    ∃ (w : View) (ps : List (List Id)), w.paths E.root x = .ok ps ∧ v' = w.send .modified x ps := by
  unfold VEnv.settle at h
  dsimp only at h
  rw [hin] at h
  obtain ⟨v2, -, h⟩ := andThen_eq_ok h
  split at h
  · cases h
  · obtain ⟨v4, -, h⟩ := andThen_eq_ok h
    obtain ⟨v5, -, h⟩ := andThen_eq_ok h
    obtain ⟨v6, -, h⟩ := andThen_eq_ok h
    rw [if_neg (by simp)] at h
    split at h
    · cases h
    · next ps hps =>
      exact ⟨v6, ps, hps, (Res.ok.inj h).symm⟩

section
variable {E : VEnv} {rank : Id → Nat} {M : Nat}

theorem paths_out {root x : Id} {v w : View} (h : v.nodes = w.nodes) : v.paths root x = w.paths root x := by
  have e1 : v = ({ v with out := [] } : View).pre v.out := by unfold View.pre; simp
  have e2 : w = ({ v with out := [] } : View).pre w.out := by unfold View.pre; simp [h]
  rw [e1, e2, View.paths_pre, View.paths_pre]

theorem update_touches (hE : EOK E rank M) {f : Nat} {x : Id} {dir : Dir} {v v' : View} (hf : 2 * M + 2 ≤ f + rank x)
    (hdir : dir.goesDown = true) (hv : VInv E rank (fun _ => False) v) (hr : x ≠ E.root) (hd : E.disp x = true)
    (hin : v.has x = true) (he : E.update f x dir v = .ok v') (l : List Id) (hl : RowE v'.edge E.root l)
    (hlast : l.getLast? = some x) :
    ∃ s ∈ v'.out.drop v.out.length, s.path = l ∧ s.ev ≠ .deleted := by
  have hxM := hE.bound x
  obtain ⟨f, rfl⟩ : ∃ k, f = k + 1 := ⟨f - 1, by omega⟩
  obtain ⟨v'', a1, a2, -⟩ := update_down_ok hE (f + 1) x dir v hf hdir hv
  rw [he] at a1
  cases a1
  have hup : UpSpec E rank (rank x) (fun p v => E.update f p .up v) := hE.upSpec (by omega)
  obtain ⟨v1, b1, b2, -, -, b5, -⟩ := settle_ok hE hup (fun _ _ h => h) hv dir hr hd
  have hbl : Blind (E.settle (fun p v => E.update f p .up v) x dir) := E.settle_blind (fun p => E.update_blind f p .up) x dir
  obtain ⟨w1, c1, rfl⟩ := hbl.split b1
  obtain ⟨w, ps, c2, rfl⟩ := settle_modified (v := { v with out := [] }) hin c1
  unfold VEnv.update at he
  rw [if_neg hr, if_neg (by simp [hd]), if_pos hd, b1, Res.andThen_ok, if_neg (by simp [b5]), if_pos hdir] at he
  have hbl2 : Blind (Res.forEach (fun (c : Id) (v : View) => if c ∉ v.kids x then E.update f c .down v else Res.ok v) (E.newKids x)) :=
    Blind.forEach (fun c => Blind.ite (c := fun v => c ∉ v.kids x) (fun _ _ => Iff.rfl) (E.update_blind f c .down) Blind.ok) _
  obtain ⟨rest, hrest⟩ := hbl2.appends he
  obtain ⟨rows', r1, -, r3, -⟩ := a2.rows
  obtain ⟨rows1, q1, -, q3, -⟩ := b2.rows
  rw [← hrest, replay_append, q1] at r1
  have hout : ((w.send .modified x ps).pre v.out).out = v.out ++ (w.send .modified x ps).out := rfl
  have hdrop : v'.out.drop v.out.length = (w.send .modified x ps).out ++ rest := by
    rw [← hrest, hout, List.append_assoc, List.drop_left]
  rw [hdrop]
  rcases replay_mem rest r1 l ((r3 l).2 hl) with e | ⟨s, hs, e1, e2⟩
  · obtain ⟨ps', p1, -, p3⟩ := paths_spec (b2.pathsOK (k := rank x) (fun _ _ h => h)) (y := x) (le_refl _) b5
    have hp : ((w.send .modified x ps).pre v.out).paths E.root x = .ok ps := by
      rw [← c2]; exact paths_out rfl
    rw [hp] at p1
    cases p1
    have hmem := (p3 l).2 (((q3 l).1 e).pathTo hlast)
    refine ⟨⟨.modified, x, l⟩, List.mem_append_left _ ?_, rfl, by simp⟩
    show _ ∈ w.out ++ ps.map _
    exact List.mem_append_right _ (List.mem_map.2 ⟨l, hmem, rfl⟩)
  · exact ⟨s, List.mem_append_right _ hs, e2, by rw [e1]; simp⟩

end

/-! ### Actions of the application -/

/-- A row of a right view ends in a displayed node of the tree. -/
theorem VState.row_wanted {a : FApp V} (h : VState diff a) {l : List Id} {x : Id} (hl : IsRow a.ft l) (hx : l.getLast? = some x) :
    a.ft.view.has x = true ∧ x ≠ a.ft.root ∧ FT.accepts a.bank a.s.t a.data a.ft.applied x = true ∧ a.s.t.has x = true := by
  obtain ⟨r, -, hv⟩ := h.fit.inv
  have hchain := hl.2
  obtain ⟨l', rfl⟩ := List.getLast?_eq_some_iff.1 hx
  obtain ⟨p, hp⟩ : ∃ p, x ∈ a.ft.view.kids p := by
    rcases List.eq_nil_or_concat l' with rfl | ⟨k, y, rfl⟩
    · exact ⟨a.ft.root, (List.isChain_cons_cons.1 hchain).1⟩
    · refine ⟨y, ?_⟩
      rw [show a.ft.root :: (k.concat y ++ [x]) = (a.ft.root :: k) ++ (y :: [x]) by simp] at hchain
      exact (List.isChain_cons_cons.1 (List.isChain_append.1 hchain).2.1).1
  have h1 := (hv.kid p x hp).1
  have h2 : x ≠ a.ft.root := by
    rintro rfl
    have := (hv.mirror _ (fun h => h) p).2 hp
    have e : a.ft.view.pars a.ft.root = [] := hv.rootPars
    rw [e] at this; cases this
  have h3 : FT.accepts a.bank a.s.t a.data a.ft.applied x = true := hv.sub x h1 h2
  refine ⟨h1, h2, h3, ?_⟩
  unfold FT.accepts at h3
  simp only [Bool.and_eq_true] at h3
  exact h3.1.2

/-- If the data of a node change, every row of it that is there afterwards was added or announced as modified. -/
theorem change_touches (hdiff : SetDiff diff) {a a' : FApp V} (h : VState diff a) (h' : VState diff a') {x : Id} {v : V}
    (hd : FollowsData a) (e : a.act diff (.change x v) = .ok a') {l : List Id} (hl : IsRow a'.ft l) (hlast : l.getLast? = some x) :
    ∃ s ∈ a'.ft.view.out.drop a.ft.view.out.length, s.path = l ∧ s.ev ≠ .deleted := by
  obtain ⟨w1, w2, w3, w4⟩ := h'.row_wanted hl hlast
  by_cases hin : a.ft.view.has x = true
  · change FApp.edit diff _ _ = _ at e
    unfold FApp.edit at e
    dsimp only at e
    obtain ⟨ft, e1, rfl⟩ := withFT_ok e
    have hxt : a.s.t.has x = true := by
      have hs : (step a.s (.refreshNode x)).state.t = a.s.t := by
        show (modifyNode a.s x).state.t = _
        unfold modifyNode; split <;> rfl
      rw [← hs]; exact w4
    have hx : x ≠ rootId ∧ a.s.t.has x = true := ⟨(h.good.wf.ids x hxt).2, hxt⟩
    have es : (step a.s (.refreshNode x)).state = a.s.emit .modified x := by
      show (modifyNode a.s x).state = _
      unfold modifyNode; rw [if_pos hx]; rfl
    have el : (a.s.emit .modified x).log = a.s.log ++ [⟨a.s.t, .modified, x⟩] := rfl
    rw [es] at e1 w3 w4 h'
    rw [el, List.drop_left, Res.forEach] at e1
    cases hr : FT.react diff a.bank (fun y => if y = x then v else a.data y) ⟨a.s.t, .modified, x⟩ a.ft with
    | err er s => rw [hr] at e1; cases e1
    | ok ft1 =>
      rw [hr] at e1
      cases e1
      obtain ⟨v', e2, rfl⟩ := withView_inv hr
      obtain ⟨r, ho, hv⟩ := h.fit.inv
      have hE := env_ok hdiff a.bank h.good.wf (fun y => if y = x then v else a.data y) a.ft h.rootFree
      have ho' : Orders (FT.env diff a.bank a.s.t (fun y => if y = x then v else a.data y) a.ft) a.ft.view r := ho
      obtain ⟨rank, q1, q2⟩ := hE.rank hv.rootPars ho' a.s.t.nodes.keys (env_keys h.good.wf)
      refine update_touches q1 (dir := .both) ?_ rfl ((hv.rerank q2).congrE rfl ?_) w2 w3 hin e2 l hl hlast
      · unfold FT.depth
        simp only [Dict.keys_length]
        omega
      · intro y hy hyr
        by_cases hyx : y = x
        · subst hyx; exact w3
        · exact change_keeps h.good.wf hd (d' := fun y => if y = x then v else a.data y) (fun z hz => (if_neg hz).symm) w3 hyx (hv.sub y hy hyr)
  · obtain ⟨new, hnew⟩ := act_appends _ (by simp) e
    obtain ⟨rows, r1, -, r3⟩ := h.observerAgrees
    obtain ⟨rows', r1', -, r3'⟩ := h'.observerAgrees
    rw [← hnew, replay_append, r1] at r1'
    rw [← hnew, List.drop_left]
    rcases replay_mem new r1' l ((r3' l).2 hl) with e | ⟨s, hs, e1, e2⟩
    · exact absurd (h.row_wanted ((r3 l).1 e) hlast).1 hin
    · exact ⟨s, hs, e2, by rw [e1]; simp⟩

/-- The values kept for the rows stay up to date during a fair history. -/
theorem run_current (hdiff : SetDiff diff) (types : List (V → Option W)) (cs : List (FAct V)) : ∀ {a : FApp V}
    {rows : List (List Id)} {C : List Id → List (Option W)}, VState diff a → ViewFairRun diff cs a →
    replay a.ft.view.out [] = some rows → AllCurrent types a.data rows C →
    ∃ a' rows', FApp.run diff cs a = .ok a' ∧ VState diff a' ∧ replay a'.ft.view.out [] = some rows' ∧
      a'.ft.view.out = a.ft.view.out ++ (sentDuring diff cs a).map Prod.fst ∧
      AllCurrent types a'.data rows' (paintAll types (sentDuring diff cs a) C) := by
  induction cs with
  | nil =>
    intro a rows C h _ hr hC
    exact ⟨a, rows, rfl, h, hr, by simp [sentDuring], hC⟩
  | cons c cs ih =>
    intro a rows C h hf hr hC
    obtain ⟨a1, e1, h1⟩ := act_vstate hdiff h c hf.1
    have hf2 := hf.2
    have est : (a.act diff c).state = a1 := by rw [e1]; rfl
    rw [est] at hf2
    have hcs : c ≠ .currentState := by rintro rfl; exact hf.1
    obtain ⟨new, hnew⟩ := act_appends c hcs e1
    have hlast : ∀ l ∈ rows, ∃ x, l.getLast? = some x := by
      intro l hl
      obtain ⟨rows0, r1, -, r3⟩ := h.observerAgrees
      rw [hr] at r1; cases r1
      cases hx : l.getLast? with
      | none => exact absurd (List.getLast?_eq_none_iff.1 hx) ((r3 l).1 hl).1
      | some x => exact ⟨x, rfl⟩
    obtain ⟨rows1, r1, -, r3⟩ := h1.observerAgrees
    have hrep : replay new rows = some rows1 := by
      rw [← hnew, replay_append, hr] at r1; exact r1
    have hdrop : a1.ft.view.out.drop a.ft.view.out.length = new := by rw [← hnew, List.drop_left]
    have hC1 : AllCurrent types a1.data rows1 (paintAll types (new.map fun s => (s, a1.data)) C) := by
      intro l hl x hx
      obtain ⟨i1, i2, i3⟩ := paint_batch types a1.data new hrep
        (fun l hl => by obtain ⟨x, hx⟩ := hlast l hl; exact (hC l hl x hx).len) l hl
      by_cases ht : ∃ s ∈ new, s.path = l ∧ s.ev ≠ .deleted
      · exact i2 ht x hx
      · have hno : ∀ s ∈ new, s.path = l → s.ev = .deleted := by
          intro s hs hp
          by_contra hne
          exact ht ⟨s, hs, hp, hne⟩
        obtain ⟨j1, j2⟩ := i3 hno
        have hd : a1.data x = a.data x := by
          refine act_data e1 x ?_
          rintro v rfl
          have := change_touches hdiff h h1 hf.1 e1 ((r3 l).1 hl) hx
          rw [hdrop] at this
          exact ht this
        rw [j2, hd]
        exact hC l j1 x hx
    obtain ⟨a2, rows2, k1, k2, k3, k4, k5⟩ := ih h1 hf2 r1 hC1
    refine ⟨a2, rows2, by rw [FApp.run, e1]; exact k1, k2, k3, ?_, ?_⟩
    · rw [k4, sentDuring]
      rw [est, hdrop, ← hnew]
      simp [Function.comp_def]
    · rw [sentDuring]
      rw [est, hdrop, paintAll_append]
      exact k5

/-- The values are up to date after the signals sent while the view was made. -/
theorem new_current (types : List (V → Option W)) {a : FApp V} {rows : List (List Id)}
    (hr : replay a.ft.view.out [] = some rows) (C : List Id → List (Option W)) :
    AllCurrent types a.data rows (paintAll types (a.ft.view.out.map fun s => (s, a.data)) C) := by
  intro l hl x hx
  obtain ⟨-, i2, i3⟩ := paint_batch types a.data a.ft.view.out hr (C := C) (fun l hl => by cases hl) l hl
  by_cases ht : ∃ s ∈ a.ft.view.out, s.path = l ∧ s.ev ≠ .deleted
  · exact i2 ht x hx
  · have := (i3 fun s hs hp => by by_contra hne; exact ht ⟨s, hs, hp, hne⟩).1
    cases this

end Larch
