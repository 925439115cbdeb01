import Verif.Proofs.LiveApp
import Verif.Proofs.ViewRead
import Verif.Proofs.BelowApp
import Verif.Spec.Moments

/-!
# At every signal the rows stand for nodes of the tree
-/

namespace Larch

open Spec

variable {V : Type} {diff : List Id → List Id → List Id} {b : Bank (Id → V)} {d : Id → V}

/-- An observer hears the signals; except for deletions, the node of the signal and all rows are in the tree. -/
inductive Real : List (List Id) → List (Tree × Sig) → List (List Id) → Prop
  | nil {rows} : Real rows [] rows
  | cons {rows rows1 rows' : List (List Id)} {t : Tree} {s : Sig} {ms : List (Tree × Sig)} : applySig rows s = some rows1 →
    (s.ev ≠ .deleted → WF t ∧ t.has s.nid = true ∧ RowsReal t rows1) → Real rows1 ms rows' → Real rows ((t, s) :: ms) rows'

namespace Real

theorem append {rows rows1 rows' : List (List Id)} {l1 l2 : List (Tree × Sig)} (h1 : Real rows l1 rows1) (h2 : Real rows1 l2 rows') :
    Real rows (l1 ++ l2) rows' := by
  induction h1 with
  | nil => exact h2
  | cons a b _ ih => exact .cons a b (ih h2)

theorem heard {rows rows' : List (List Id)} {l : List (Tree × Sig)} (h : Real rows l rows') : replay (l.map Prod.snd) rows = some rows' := by
  induction h with
  | nil => rfl
  | cons a b _ ih => show (applySig _ _).bind _ = _; rw [a]; exact ih

theorem moment {rows rows' : List (List Id)} {l : List (Tree × Sig)} (h : Real rows l rows') :
    ∀ {pre : List (Tree × Sig)} {t : Tree} {s : Sig} {post : List (Tree × Sig)}, l = pre ++ (t, s) :: post → s.ev ≠ .deleted →
    ∃ rows1, replay (pre.map Prod.snd ++ [s]) rows = some rows1 ∧ WF t ∧ t.has s.nid = true ∧ RowsReal t rows1 := by
  induction h with
  | nil => intro pre t s post e; cases pre <;> cases e
  | @cons rows rows1 rows' t0 s0 ms a b r ih =>
    intro pre t s post e hs
    cases pre with
    | nil =>
      cases e
      exact ⟨rows1, by show (applySig _ _).bind _ = _; rw [a]; rfl, b hs⟩
    | cons p pre =>
      cases e
      obtain ⟨rows2, e2, h2⟩ := ih rfl hs
      exact ⟨rows2, by show (applySig _ _).bind _ = _; rw [a]; exact e2, h2⟩

theorem applySig_real {t : Tree} {rows rows' : List (List Id)} {s : Sig} (h : applySig rows s = some rows') (hr : RowsReal t rows)
    (hs : t.has s.nid = true) : RowsReal t rows' := by
  unfold applySig at h
  by_cases e : s.path.getLast? = some s.nid
  · rw [if_pos e] at h
    split at h
    · split at h
      · cases h
        intro l hl
        rcases List.mem_cons.1 hl with rfl | hl
        · exact ⟨_, e, hs⟩
        · exact hr l hl
      · cases h
    · split at h
      · cases h; exact hr
      · cases h
    · split at h
      · cases h
        exact fun l hl => hr l (List.mem_of_mem_erase hl)
      · cases h
  · rw [if_neg e] at h; cases h

/-- All signals are about nodes of the tree. -/
theorem of_good {t : Tree} (hw : WF t) : ∀ {sigs : List Sig} {rows rows' : List (List Id)}, replay sigs rows = some rows' → RowsReal t rows →
    (∀ s ∈ sigs, t.has s.nid = true) → Real rows (sigs.map fun s => (t, s)) rows' ∧ RowsReal t rows' := by
  intro sigs
  induction sigs with
  | nil => intro rows rows' h hr _; cases h; exact ⟨.nil, hr⟩
  | cons s sigs ih =>
    intro rows rows' h hr hs
    obtain ⟨rows1, h1, h2⟩ := Option.bind_eq_some_iff.1 h
    have r1 := applySig_real h1 hr (hs s (by simp))
    obtain ⟨i1, i2⟩ := ih h2 r1 (fun s hs' => hs s (by simp [hs']))
    exact ⟨.cons h1 (fun _ => ⟨hw, hs s (by simp), r1⟩) i1, i2⟩

/-- All signals are deletions. -/
theorem of_deleted {t : Tree} : ∀ {sigs : List Sig} {rows rows' : List (List Id)}, replay sigs rows = some rows' →
    (∀ s ∈ sigs, s.ev = .deleted) → Real rows (sigs.map fun s => (t, s)) rows' := by
  intro sigs
  induction sigs with
  | nil => intro rows rows' h _; cases h; exact .nil
  | cons s sigs ih =>
    intro rows rows' h hs
    obtain ⟨rows1, h1, h2⟩ := Option.bind_eq_some_iff.1 h
    exact .cons h1 (fun hd => absurd (hs s (by simp)) hd) (ih h2 (fun s hs' => hs s (by simp [hs'])))

end Real

/-! ### One notification -/

theorem rowE_last {v : View} {root : Id} {l : List Id} (h : RowE v.edge root l) : ∃ x p, l.getLast? = some x ∧ x ∈ v.kids p := by
  obtain ⟨hn, hc⟩ := h
  induction l using List.reverseRecOn with
  | nil => exact absurd rfl hn
  | append_singleton l x =>
    rw [show root :: (l ++ [x]) = (root :: l) ++ [x] from rfl, List.isChain_append] at hc
    obtain ⟨y, hy⟩ : ∃ y, (root :: l).getLast? = some y := by
      cases hz : (root :: l).getLast? with
      | none => simp at hz
      | some y => exact ⟨y, rfl⟩
    exact ⟨x, y, by simp, hc.2.2 y hy x (by simp)⟩

theorem leaf_prefix {root : Id} {n : Note} {v : View} {l : List Id} (hk : v.kids n.nid = [])
    (hl : l.getLast? = some n.nid) {r : List Id} (hr : RowE v.edge root r) (hp : l <+: r) : r = l := by
  obtain ⟨ext, rfl⟩ := hp
  cases ext with
  | nil => simp
  | cons c ext =>
    exfalso
    have := hr.2
    rw [show root :: (l ++ c :: ext) = (root :: l) ++ (c :: ext) from rfl, List.isChain_append] at this
    have hl' : (root :: l).getLast? = some n.nid := by
      cases l with
      | nil => cases hl
      | cons a l => rw [List.getLast?_cons_cons]; exact hl
    have hc : c ∈ v.kids n.nid := this.2.2 _ hl' c (by simp)
    rw [hk] at hc; cases hc

/-- What the view sends while it reacts to one notification. -/
theorem note_real {n : Note} {ft ft' : FT} (hm : Moment ft.root n ft.view) (h : FT.react diff b d n ft = .ok ft') {rows' : List (List Id)}
    (hr : replay ft'.view.out [] = some rows') :
    ft.view.out <+: ft'.view.out ∧
    ∃ rows, replay ft.view.out [] = some rows ∧
      Real rows ((ft'.view.out.drop ft.view.out.length).map fun s => (n.snap, s)) rows' := by
  obtain ⟨v', h1, rfl⟩ := withView_eq h
  obtain ⟨E0, r, hE0, -, hv⟩ := hm.inv
  obtain ⟨rows, q1, q2, q3, -⟩ := hv.rows
  rw [hE0] at q3
  have hroot : ft.view.pars ft.root = [] := by rw [← hE0]; exact hv.rootPars
  have hkids : ∀ p, ft.root ∉ ft.view.kids p := by rw [← hE0]; exact hv.rootKids
  set E := FT.env diff b n.snap d ft with hE
  have hG : ∀ y, E.disp y = true → n.snap.has y = true := fun y hy => accepts_has hy
  have hlast : ∀ l ∈ rows, ∃ x, l.getLast? = some x ∧ ft.view.has x = true ∧ x ≠ ft.root := by
    intro l hl
    obtain ⟨x, p, e, hx⟩ := rowE_last ((q3 l).1 hl)
    exact ⟨x, e, (hv.kid p x hx).1, by rintro rfl; exact hkids p hx⟩
  have finish : ∀ {sigs : List Sig}, v'.out = ft.view.out ++ sigs → Real rows (sigs.map fun s => (n.snap, s)) rows' →
      ft.view.out <+: v'.out ∧ ∃ rows, replay ft.view.out [] = some rows ∧
        Real rows ((v'.out.drop ft.view.out.length).map fun s => (n.snap, s)) rows' := by
    intro sigs e hR
    exact ⟨⟨sigs, e.symm⟩, rows, q1, by rw [e, List.drop_left]; exact hR⟩
  have later : ∀ {sigs : List Sig}, v'.out = ft.view.out ++ sigs → replay sigs rows = some rows' := by
    intro sigs e
    have hr' : replay v'.out [] = some rows' := hr
    rw [e, replay_append, q1] at hr'
    exact hr'
  by_cases hx : n.snap.has n.nid = true
  · obtain ⟨tr, -, o, k, -⟩ := update_follows (G := fun y => n.snap.has y = true) hG _ _ _ _ _ h1
    obtain ⟨-, hs⟩ := k ⟨fun y hy hyr => by
      by_cases e : y = n.nid
      · rw [e]; exact hx
      · exact hm.has y hy hyr e, hkids, hroot⟩
    refine finish o (Real.of_good hm.wf (later o) ?_ ?_).1
    · intro l hl
      obtain ⟨x, e, hx', hxr⟩ := hlast l hl
      by_cases ex : x = n.nid
      · exact ⟨x, e, by rw [ex]; exact hx⟩
      · exact ⟨x, e, hm.has x hx' hxr ex⟩
    · intro s hs'
      obtain ⟨c, hc, rfl⟩ := List.mem_map.1 hs'
      exact hs c hc
  · have hx : n.snap.has n.nid = false := by simpa using hx
    have hd : E.disp n.nid = false := by
      by_contra hc
      rw [hG n.nid (by simpa using hc)] at hx; cases hx
    have hh : E.has n.nid = false := hx
    have hk := hm.leaf hx
    obtain ⟨f, hf⟩ : ∃ f, FT.depth n.snap ft.view = f + 1 := ⟨_, rfl⟩
    rw [hf] at h1
    unfold VEnv.update at h1
    rw [if_neg (show ¬ n.nid = E.root from hm.ne)] at h1
    by_cases hvx : ft.view.has n.nid = true
    · rw [if_neg (by simp [hvx]), if_neg (by simp [hd])] at h1
      unfold VEnv.vanish at h1
      obtain ⟨ps, p1, p2, p3⟩ := paths_spec (hv.pathsOK (k := r n.nid) (fun _ _ h => h)) (le_refl _) hvx
      have hroot' : E0.root = E.root := hE0
      rw [hroot'] at p1 p3
      rw [p1, hk] at h1
      simp only [List.reverse_nil, Res.forEach, Res.andThen_ok] at h1
      obtain ⟨nd, hnd⟩ := View.get_of_has hvx
      rw [hnd] at h1
      simp only at h1
      obtain ⟨v3, h3, h4⟩ := andThen_eq_ok h1
      rw [if_neg (by simp [hh])] at h4
      cases h4
      have f4 := Follows.forEach (G := fun y => n.snap.has y = true) (root := E.root) (P := Seen E.root)
        (bodyL := fun σ cb p (w : LView σ) => (w.dropKid p n.nid).andThen (E.updateL cb f p .up))
        (fun p _ u u' hu => by
          obtain ⟨u1, g1, g2⟩ := andThen_eq_ok hu
          exact (dropKid_follows g1).andThen (update_follows hG f p .up u1 u' g2)) h3
      obtain ⟨tr, -, o, k, -⟩ := f4
      obtain ⟨-, hs⟩ := k ⟨fun y hy hyr => by
          have hy' : (ft.view.nodes.del n.nid).has y = true := hy
          rw [Dict.has_del] at hy'
          simp only [Bool.and_eq_true, decide_eq_true_eq] at hy'
          exact hm.has y hy'.2 hyr hy'.1, fun q hc => by
          have hc' : ft.root ∈ ({ nodes := ft.view.nodes.del n.nid, out := ft.view.out } : View).kids q := hc
          rw [View.kids_gone] at hc'
          split at hc'
          · cases hc'
          · exact hkids q hc', by
          show ({ nodes := ft.view.nodes.del n.nid, out := ft.view.out } : View).pars ft.root = []
          rw [View.pars_gone, if_neg hm.ne.symm]; exact hroot⟩
      have o' : v'.out = ft.view.out ++ (ps.map (fun l => (⟨.deleted, n.nid, l⟩ : Sig)) ++ tr.map Prod.snd) := by
        rw [o, ← List.append_assoc]; rfl
      have rs := hv.rows
      rw [hroot'] at rs
      have hps : ∀ l, l ∈ ps ↔ RowE ft.view.edge E.root l ∧ l.getLast? = some n.nid := by
        intro l
        rw [p3 l]
        constructor
        · rintro ⟨c1, c2⟩
          have hl0 : l ≠ [] := by
            rintro rfl
            have : E.root = n.nid := by simpa using c2
            exact hm.ne this.symm
          rw [List.getLast?_cons_of_ne_nil hl0] at c2
          exact ⟨⟨hl0, c1⟩, c2⟩
        · rintro ⟨c1, c2⟩
          exact c1.pathTo c2
      obtain ⟨rows2, w1, w2, w3, -⟩ := rs.deletedMany (x := n.nid) ps (fun l hl => ((hps l).1 hl).2) p2 (fun l hl => ((hps l).1 hl).1)
        (fun l hl r' hr' hp => leaf_prefix hk ((hps l).1 hl).2 hr' hp)
      rw [replay_append, q1] at w1
      have L := later o'
      rw [replay_append, show replay _ rows = some rows2 from w1] at L
      refine finish o' ?_
      rw [List.map_append]
      refine Real.append (Real.of_deleted w1 ?_) (Real.of_good hm.wf L ?_ ?_).1
      · intro s hs'
        obtain ⟨l, -, rfl⟩ := List.mem_map.1 hs'
        rfl
      · intro l hl
        obtain ⟨m1, m2⟩ := (w3 l).1 hl
        obtain ⟨x, e, hx', hxr⟩ := hlast l ((q3 l).2 m1)
        refine ⟨x, e, hm.has x hx' hxr ?_⟩
        rintro rfl
        exact m2 ((hps l).2 ⟨m1, e⟩)
      · intro s hs'
        obtain ⟨c, hc, rfl⟩ := List.mem_map.1 hs'
        exact hs c hc
    · rw [if_pos ⟨by simpa using hvx, hd⟩, if_neg (by simp [hh])] at h1
      cases h1
      have o : ft.view.out = ft.view.out ++ [] := by simp
      refine finish o ?_
      have := later o
      cases this
      exact .nil

/-! ### All notifications of an edit -/

theorem reacts_real {l : List Note} : ∀ {ft ft' : FT},
    (∀ l1 n l2 v, l = l1 ++ n :: l2 → Res.forEach (FT.react diff b d) l1 ft = .ok { ft with view := v } → Moment ft.root n v) →
    Res.forEach (FT.react diff b d) l ft = .ok ft' → ∀ {rows' : List (List Id)}, replay ft'.view.out [] = some rows' →
    ft'.view.out = ft.view.out ++ (reactMoments diff b d l ft).map Prod.snd ∧
    ∃ rows, replay ft.view.out [] = some rows ∧ Real rows (reactMoments diff b d l ft) rows' := by
  induction l with
  | nil => intro ft ft' _ h rows' hr; cases h; exact ⟨by simp [reactMoments], rows', hr, .nil⟩
  | cons n l ih =>
    intro ft ft' hm h rows' hr
    unfold Res.forEach at h
    cases hn : FT.react diff b d n ft with
    | err e u => rw [hn] at h; cases h
    | ok ft1 =>
      rw [hn] at h
      obtain ⟨v1, h1, e1⟩ := withView_eq hn
      subst e1
      obtain ⟨i1, rows1, i2, i3⟩ := ih (ft := { ft with view := v1 }) (fun l1 m l2 v e hv => hm (n :: l1) m l2 v (by rw [e]; rfl) (by
        unfold Res.forEach
        rw [hn]; exact hv)) h hr
      obtain ⟨j1, rows, j2, j3⟩ := note_real (hm [] n l ft.view rfl rfl) hn i2
      have es : (FT.react diff b d n ft).state = { ft with view := v1 } := by rw [hn]; rfl
      have er : reactMoments diff b d (n :: l) ft =
          ((v1.out.drop ft.view.out.length).map fun s => (n.snap, s)) ++ reactMoments diff b d l { ft with view := v1 } := by
        rw [reactMoments, es, hn]; rfl
      refine ⟨?_, rows, j2, ?_⟩
      · rw [i1, er]
        obtain ⟨ext, hext⟩ := j1
        have hext' : ft.view.out ++ ext = v1.out := hext
        have em : ((v1.out.drop ft.view.out.length).map fun s => (n.snap, s)).map Prod.snd = ext := by
          rw [← hext', List.drop_left]; simp [Function.comp_def]
        rw [List.map_append, em, ← List.append_assoc, hext']
      · rw [er]
        exact j3.append i3

/-! ### Every action -/

theorem VState.replay {a : FApp V} (h : VState diff a) : ∃ rows, Spec.replay a.ft.view.out [] = some rows ∧ RowsReal a.s.t rows := by
  obtain ⟨r, -, hv⟩ := h.fit.inv
  obtain ⟨rows, q1, q2, q3, -⟩ := hv.rows
  refine ⟨rows, q1, fun l hl => ?_⟩
  obtain ⟨x, p, e, hx⟩ := rowE_last ((q3 l).1 hl)
  exact ⟨x, e, accepts_has (hv.sub x (hv.kid p x hx).1 (by rintro rfl; exact hv.rootKids p hx))⟩

theorem VState.all {a : FApp V} (h : VState diff a) : All (fun y => a.s.t.has y = true) a.ft.root a.ft.view := by
  obtain ⟨r, -, hv⟩ := h.fit.inv
  exact ⟨fun y hy hyr => accepts_has (hv.sub y hy hyr), hv.rootKids, hv.rootPars⟩

/-- An action that leaves the tree alone. -/
theorem still_real {a a' : FApp V} (h : VState diff a) {c : FAct V}
    (hc : AllNow (fun y => a.s.t.has y = true) a c) (e : a.act diff c = .ok a') :
    a'.ft.view.out = a.ft.view.out ++ (((a.act diff c).state.ft.view.out.drop a.ft.view.out.length).map fun s => (a.s.t, s)).map Prod.snd ∧
    ∀ {rows rows' : List (List Id)}, Spec.replay a.ft.view.out [] = some rows → Spec.replay a'.ft.view.out [] = some rows' →
      Real rows (((a.act diff c).state.ft.view.out.drop a.ft.view.out.length).map fun s => (a.s.t, s)) rows' := by
  obtain ⟨tr, -, o, k, -⟩ := act_follows hc e
  obtain ⟨-, hs⟩ := k h.all
  have es : (a.act diff c).state = a' := by rw [e]; rfl
  rw [es, o, List.drop_left]
  refine ⟨by simp [Function.comp_def], fun {rows rows'} q1 q2 => ?_⟩
  obtain ⟨rows0, z1, z2⟩ := h.replay
  rw [q1] at z1
  cases z1
  rw [replay_append, q1] at q2
  refine (Real.of_good h.good.wf q2 z2 ?_).1
  intro s hs'
  obtain ⟨c, hc, rfl⟩ := List.mem_map.1 hs'
  exact hs c hc

theorem act_real (hdiff : SetDiff diff) {a a' : FApp V} (h : VState diff a) (h' : VState diff a') {c : FAct V} (hf : ViewFair a c)
    (e : a.act diff c = .ok a') :
    a'.ft.view.out = a.ft.view.out ++ (actMoments diff a c).map Prod.snd ∧
    ∀ {rows rows' : List (List Id)}, Spec.replay a.ft.view.out [] = some rows → Spec.replay a'.ft.view.out [] = some rows' →
      Real rows (actMoments diff a c) rows' := by
  cases c with
  | edit op =>
    obtain ⟨ft', h1, rfl⟩ := withFT_ok e
    obtain ⟨-, hm, v, l, w1, -, -⟩ := edit_watch hdiff h op hf
    obtain ⟨rows', z1, -⟩ := h'.replay
    have hm' : ∀ l1 n l2 v, (step a.s op).state.log.drop a.s.log.length = l1 ++ n :: l2 →
        Res.forEach (FT.react diff a.bank a.data) l1 a.ft = .ok { a.ft with view := v } → Moment a.ft.root n v := by
      intro l1 n l2 v e' hv
      rw [w1, List.drop_left] at e'
      exact hm l1 n l2 v (by rw [w1, e']) hv
    obtain ⟨i1, -⟩ := reacts_real hm' h1 z1
    refine ⟨i1, fun {rows rows'} q1 q2 => ?_⟩
    obtain ⟨-, rows0, i2, i3⟩ := reacts_real hm' h1 q2
    rw [q1] at i2
    cases i2
    exact i3
  | change x v =>
    have e2 : FApp.edit diff { a with data := fun y => if y = x then v else a.data y } (.refreshNode x) = .ok a' := e
    obtain ⟨ft', h1, rfl⟩ := withFT_ok e2
    obtain ⟨rows', z1, -⟩ := h'.replay
    have hm' : ∀ l1 n l2 u, (step a.s (.refreshNode x)).state.log.drop a.s.log.length = l1 ++ n :: l2 →
        Res.forEach (FT.react diff a.bank (fun y => if y = x then v else a.data y)) l1 a.ft = .ok { a.ft with view := u } →
        Moment a.ft.root n u := by
      intro l1 n l2 u e' hu
      have es : (step a.s (.refreshNode x)).state = if x ≠ rootId ∧ a.s.t.has x = true then a.s.emit .modified x else a.s := by
        show (modifyNode a.s x).state = _
        unfold modifyNode; split <;> rfl
      rw [es] at e'
      split at e'
      · next hx =>
        have el : (a.s.emit .modified x).log = a.s.log ++ [⟨a.s.t, .modified, x⟩] := rfl
        rw [el, List.drop_left] at e'
        cases l1 with
        | cons m l1 => have := congrArg List.length e'; simp at this
        | nil =>
          cases e'
          have hu' : a.ft = { a.ft with view := u } := Res.ok.inj hu
          have hu2 : a.ft.view = u := congrArg FT.view hu'
          subst hu2
          obtain ⟨r, ho, hv⟩ := h.fit.inv
          refine ⟨fun y hy hyr _ => accepts_has (hv.sub y hy hyr), fun hf => ?_, ?_, h.good.wf, h.rootFree, _, r, rfl,
            by have := ho.1; rw [env_par h.good.wf] at this; exact this, hv⟩
          · rw [show a.s.t.has x = false from hf] at hx; cases hx.2
          · intro hxr
            have hx2 := hx.2
            rw [show x = a.ft.root from hxr, h.rootFree] at hx2; cases hx2
      · rw [List.drop_length] at e'
        cases l1 <;> cases e'
    obtain ⟨i1, -⟩ := reacts_real hm' h1 z1
    refine ⟨i1, fun {rows rows'} q1 q2 => ?_⟩
    obtain ⟨-, rows0, i2, i3⟩ := reacts_real hm' h1 q2
    rw [q1] at i2
    cases i2
    exact i3
  | bank c => exact still_real h (fun _ hy => hy) e
  | setParams n p => exact still_real h (fun _ hy => hy) e
  | apply n p rs rf => exact still_real h (fun _ hy => hy) e
  | unapply n rf => exact still_real h (fun _ hy => hy) e
  | reset rf => exact still_real h (fun _ hy => hy) e
  | currentState => exact still_real h (fun _ hy => hy) e

theorem run_real (hdiff : SetDiff diff) : ∀ (cs : List (FAct V)) {a : FApp V}, VState diff a → ViewFairRun diff cs a →
    ∃ a', FApp.run diff cs a = .ok a' ∧ VState diff a' ∧ a'.ft.view.out = a.ft.view.out ++ (runMoments diff cs a).map Prod.snd ∧
      ∀ {rows : List (List Id)}, Spec.replay a.ft.view.out [] = some rows → ∃ rows', Real rows (runMoments diff cs a) rows' := by
  intro cs
  induction cs with
  | nil => intro a h _; exact ⟨a, rfl, h, by simp [runMoments], fun {rows} _ => ⟨rows, .nil⟩⟩
  | cons c cs ih =>
    intro a h hf
    obtain ⟨a1, e1, v1⟩ := act_vstate hdiff h c hf.1
    have es : (a.act diff c).state = a1 := by rw [e1]; rfl
    have hf2 := hf.2
    rw [es] at hf2
    obtain ⟨a', i1, i2, i3, i4⟩ := ih v1 hf2
    obtain ⟨j1, j2⟩ := act_real hdiff h v1 hf.1 e1
    refine ⟨a', ?_, i2, ?_, fun {rows} hr => ?_⟩
    · unfold FApp.run; rw [e1]; exact i1
    · unfold runMoments
      rw [es, i3, j1]; simp
    · obtain ⟨rows1, z1, -⟩ := v1.replay
      obtain ⟨rows', r'⟩ := i4 z1
      refine ⟨rows', ?_⟩
      unfold runMoments
      rw [es]
      exact (j2 hr z1).append r'

end Larch
