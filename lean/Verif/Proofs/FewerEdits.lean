import Verif.Proofs.Fewer

/-!
# Views with filters that look at the children of a node: nodes added and removed
-/

namespace Larch

open Graph Spec

variable {V : Type} {diff : List Id → List Id → List Id} {b : Bank (Id → V)} {d : Id → V} {s0 : St} {ft0 : FT} {X : Id → Prop}

/-! ### Adding a node whose parent disappears -/

theorem RowsSet.of_modified {out : List Sig} {S : List Id → Prop} {K : List Id → List Id} {x : Id} (ps : List (List Id))
    (h : RowsSet (out ++ ps.map fun p => ⟨.modified, x, p⟩) S K) : RowsSet out S K := by
  obtain ⟨rows, h1, h2, h3, h4⟩ := h
  rw [replay_append] at h1
  cases hr : replay out [] with
  | none => rw [hr] at h1; cases h1
  | some rs =>
    rw [hr, Option.bind_some] at h1
    have key : ∀ (ps : List (List Id)), replay (ps.map fun p => (⟨.modified, x, p⟩ : Sig)) rs = some rows → rs = rows := by
      intro ps
      induction ps with
      | nil => intro h; exact Option.some.inj h
      | cons a ps ih =>
        intro h
        rw [List.map_cons, replay] at h
        unfold applySig at h
        split at h
        · dsimp only at h
          split at h
          · exact ih h
          · cases h
        · cases h
    rw [← key ps h1] at h2 h3 h4
    exact ⟨rs, hr, h2, h3, h4⟩

theorem VInv.unsend {E : VEnv} {rank : Id → Nat} {v : View} {x : Id} {ps : List (List Id)}
    (h : VInv E rank (fun _ => False) (v.send .modified x ps)) : VInv E rank (fun _ => False) v :=
  ⟨h.keys, h.rootIn, h.rootPars, h.sub, h.par, h.kid, h.ndP, h.ndK, h.mirror, RowsSet.of_modified ps h.rows⟩

/-- A new node settles like one that has been there before, apart from the last signal. -/
theorem settle_fresh {E : VEnv} {up : Id → View → Res View} {x : Id} {dir : Dir} {v v2 w : View} (hx : v.has x = false)
    (h2 : Res.forEach up ((E.par x).filter fun p => decide (p ∉ E.newPars { v with nodes := v.nodes.set x {} } x ∧
      p ∉ View.pars { v with nodes := v.nodes.set x {} } x)) { v with nodes := v.nodes.set x {} } = .ok v2)
    (hx2 : v2.has x = true) (hw : E.settle up x dir v2 = .ok w) :
    ∃ v6 ps, E.settle up x dir v = .ok v6 ∧ w = v6.send .modified x ps := by
  obtain ⟨n, hn⟩ := View.get_of_has hx2
  unfold VEnv.settle at hw ⊢
  dsimp only at hw ⊢
  simp only [hx2, Bool.not_true, Bool.false_eq_true, if_false, Res.andThen_ok, hn] at hw
  simp only [hx, Bool.not_false, if_true]
  rw [h2, Res.andThen_ok, hn]
  dsimp only
  generalize (if dir = Dir.down ∧ E.root ∈ E.diff (E.newPars v2 x) n.parents then Dir.both else dir) = dir' at hw ⊢
  cases h4 : Res.forEach (E.leave up dir'.goesUp x) (E.diff n.parents (E.newPars v2 x))
      (v2.upd x fun n => { n with parents := (E.newPars v2 x).filter v2.has }) with
  | err e s => rw [h4] at hw; cases hw
  | ok v4 =>
    rw [h4, Res.andThen_ok] at hw
    rw [Res.andThen_ok]
    cases h5 : Res.forEach (E.join up dir'.goesUp x) (E.diff (E.newPars v2 x) n.parents) v4 with
    | err e s => rw [h5] at hw; cases hw
    | ok v5 =>
      rw [h5, Res.andThen_ok] at hw
      rw [Res.andThen_ok]
      cases h6 : (if dir'.goesUp = true then
          Res.forEach up (E.diff (E.newPars v2 x) (E.diff (E.newPars v2 x) n.parents)) v5 else .ok v5) with
      | err e s => rw [h6] at hw; cases hw
      | ok v6 =>
        rw [h6, Res.andThen_ok] at hw
        rw [Res.andThen_ok]
        cases hp : v6.paths E.root x with
        | error e => rw [hp] at hw; cases hw
        | ok ps =>
          rw [hp] at hw
          cases hw
          exact ⟨v6, ps, rfl, rfl⟩

theorem Watch.addedFew (hb : FewBank b ft0.applied) (hdiff : SetDiff diff) {s : St}
    (h : Watch diff b d s0 ft0 (fun _ => False) s) (hw : WF s.t) {t' : Tree} (hw' : WF t') {x : Id} (ha : Arrived s.t t' x)
    (hx : s.t.has x = false) (hxr : x ≠ ft0.root)
    (hcase : t'.rawParents x = [] ∨ (((FT.env diff b t' d ft0).disp x = true → ∀ c, x ∉ t'.rawParents c) ∧ (t'.rawParents x).length ≤ 1)) :
    Watch diff b d s0 ft0 (fun _ => False) ((⟨t', s.log⟩ : St).emit .added x) := by
  have hxp : ∀ y, x ∉ s.t.rawParents y := by
    intro y hy
    have := hw.has_parent hy
    rw [hx] at this; cases this
  have hxs : s.t.rawParents x = [] := by
    rw [List.eq_nil_iff_forall_not_mem]
    intro q hq
    have := Tree.has_of_mem_rawParents hq
    rw [hx] at this; cases this
  have hho : ∀ y, y ≠ x → t'.has y = s.t.has y := fun y hy => by rw [ha.has]; simp [hy]
  have hdo : ∀ y, y ≠ x → y ∉ t'.rawParents x → (FT.env diff b t' d ft0).disp y = (FT.env diff b s.t d ft0).disp y := by
    intro y hy hyx
    refine accepts_kids hb hw hw' (hho y hy) rfl fun z => ?_
    rw [hw.getParents_eq, hw'.getParents_eq]
    by_cases hz : z = x
    · subst hz; rw [hxs]; simp [hyx]
    · exact (ha.parents z y hz hy).symm
  by_cases hall : ∀ y, y ≠ x → (FT.env diff b t' d ft0).disp y = (FT.env diff b s.t d ft0).disp y
  · exact h.addedD hdiff hw hw' hall ha hx hxr
  push Not at hall
  obtain ⟨p, hpx, hflip⟩ := hall
  have hpm : p ∈ t'.rawParents x := by
    by_contra hc; exact hflip (hdo p hpx hc)
  obtain ⟨hnk, hlen⟩ := hcase.resolve_left (by intro hc; rw [hc] at hpm; cases hpm)
  have hpx1 : t'.rawParents x = [p] := by
    match hl : t'.rawParents x with
    | [] => rw [hl] at hpm; cases hpm
    | [q] => rw [hl] at hpm; rw [List.mem_singleton.1 hpm]
    | q :: q' :: l => rw [hl] at hlen; simp at hlen
  have hdo' : ∀ y, y ≠ x → y ≠ p → (FT.env diff b t' d ft0).disp y = (FT.env diff b s.t d ft0).disp y :=
    fun y hy hyp => hdo y hy (by rw [hpx1]; simpa using hyp)
  have hdp : (FT.env diff b t' d ft0).disp p = true → (FT.env diff b s.t d ft0).disp p = true := by
    refine accepts_fewer hb hw hw' (hho p hpx) rfl fun z hz => ?_
    rw [hw.getParents_eq] at hz
    rw [hw'.getParents_eq]
    have hzx : z ≠ x := by rintro rfl; rw [hxs] at hz; cases hz
    exact (ha.parents z p hzx hpx).2 hz
  have d1 : (FT.env diff b t' d ft0).disp p = false := by
    by_contra hc
    have hc : (FT.env diff b t' d ft0).disp p = true := by simpa using hc
    rw [hc, hdp hc] at hflip; exact hflip rfl
  have d0 : (FT.env diff b s.t d ft0).disp p = true := by
    by_contra hc
    have hc : (FT.env diff b s.t d ft0).disp p = false := by simpa using hc
    rw [d1, hc] at hflip; exact hflip rfl
  have hroot : t'.has ft0.root = false := by
    rw [ha.has, h.rootFree]; simp [Ne.symm hxr]
  have hxt : t'.has x = true := by rw [ha.has]; simp
  have hpr : p ≠ ft0.root := by
    rintro rfl
    have := hw'.has_parent hpm
    rw [hroot] at this; cases this
  generalize hEd : FT.env diff b t' d ft0 = E at hdo' d1 hnk
  have hE : EB E := by rw [← hEd]; exact env_ok hdiff b hw' d ft0 hroot
  have hEp : E.par = t'.rawParents := by rw [← hEd]; exact env_par hw'
  have hEr : E.root = ft0.root := by rw [← hEd]; rfl
  have hEk : ∀ z, E.par z ≠ [] → z ∈ t'.nodes.keys := by rw [← hEd]; exact env_keys hw'
  refine (Sees.say (s := ⟨t', s.log⟩) (h.sees.mono rfl hroot fun _ h => h) hw' .added hxt fun v h3 => ?_).watch
  obtain ⟨r0, -, hv⟩ := h3.inv
  have hvx : v.has x = false := by
    by_contra hc
    have := hv.sub x (by simpa using hc) hxr
    have := accepts_has this
    rw [hx] at this; cases this
  obtain ⟨r, ho⟩ := orders_of_super hE (v := v) (by rw [hEr]; exact hv.rootPars) (by rw [hEp]; exact hw'.acyclic) t'.nodes.keys hEk (by
    intro y q hq
    have hyv : v.has y = true := View.has_of_par hq
    have hyx : y ≠ x := by rintro rfl; rw [hvx] at hyv; cases hyv
    rcases h3.parSub (fun _ h => h) hq with e | e
    · exact Or.inl (by rw [hEr]; exact e)
    · refine Or.inr ?_
      rw [env_par hw] at e
      rw [hEp, ha.parents y q hyx (by rintro rfl; exact hxp y e)]
      exact e)
  refine ⟨fun y hy hyr hyx => h3.hasIn (t' := t') (fun z hz => by rw [ha.has, hz]; simp) y hy hyr,
    ⟨_, r, rfl, by rw [← hEp]; exact ho.1, hv.rerank ho.2⟩, ?_⟩
  show ∃ v', (FT.env diff b t' d ft0).update _ x .both v = .ok v' ∧ Fit (FT.env diff b t' d ft0) _ v'
  rw [hEd]
  obtain ⟨rank, e1, e2⟩ := hE.rank (by rw [hEr]; exact hv.rootPars) ho t'.nodes.keys hEk
  have hcand : ∀ y q, y ≠ x → q ≠ x → q ≠ p → (q ∈ candAll E y ↔ q ∈ candAll (FT.env diff b s.t d ft0) y) := by
    intro y q hy hqx hqp
    rw [mem_npCand, mem_npCand, hdo' q hqx hqp, env_par hw, hEp, ha.parents y q hy hqx, ← hEd]
    show (ft0.flat = false ∧ t'.has y = true) ∧ _ ↔ (ft0.flat = false ∧ s.t.has y = true) ∧ _
    rw [hho y hy]
  have hcx : ∀ y, x ∉ candAll E y := fun y hc => hnk (mem_npCand.1 hc).2.2.2 y (by rw [← hEp]; exact parOfCand hc)
  have hcx0 : ∀ y, x ∉ candAll (FT.env diff b s.t d ft0) y := fun y hc => hxp y (by rw [← env_par hw (diff := diff) (b := b) (d := d) (ft := ft0)]; exact parOfCand hc)
  have hpv : v.has p = true := h3.all p d0
  have hpx' : ∀ y, E.par y = [] ∨ True := fun _ => Or.inr trivial
  have hxrank : rank p < rank x := e1.parRank x p (by rw [hEp]; exact hpm)
  -- the parent disappears, whether or not the new node is there already
  have hide : ∀ u : View, (∀ y, u.has y = true ↔ v.has y = true ∨ (E.disp x = true ∧ y = x)) → u.pars = v.pars → u.kids = v.kids →
      u.out = v.out → u.nodes.keys.Nodup → Hiding E rank (fun y => y = x) p u := by
    intro u c1 p1 k1 o1 hk
    have hb0 := (hv.rerank e2).base
    refine ⟨⟨hk, ?_, ?_, ?_, ?_, ?_, ?_, ?_, ?_⟩, ?_, ?_, ?_, by rw [hEr]; exact hpr, d1, ?_, ?_, ?_, ?_, ?_⟩
    · rw [hEr]; exact (c1 _).2 (Or.inl hb0.rootIn)
    · rw [p1, hEr]; exact hb0.rootPars
    · intro y q hq; rw [p1] at hq; exact ⟨(c1 q).2 (Or.inl (hb0.par y q hq).1), (hb0.par y q hq).2⟩
    · rw [k1]; exact hb0.kid
    · rw [p1]; exact hb0.ndP
    · rw [k1]; exact hb0.ndK
    · rw [p1, k1]; exact hb0.up
    · rw [o1, hEr]
      unfold View.pedge
      rw [p1]
      exact RowsSet.sameKids (v' := u) hb0.rows fun y => congrFun k1 y
    · intro q c hc; rw [k1] at hc; exact (c1 c).2 (Or.inl (hv.kid q c hc).1)
    · intro y q; rw [p1, k1]; exact hv.mirror y (fun h => h) q
    · exact (c1 p).2 (Or.inl hpv)
    · intro y hy hyr hyp
      rcases (c1 y).1 hy with hy | ⟨hy, rfl⟩
      · rw [hdo' y (by rintro rfl; rw [hvx] at hy; cases hy) hyp]; exact hv.sub y hy (by rw [hEr] at hyr; exact hyr)
      · exact hy
    · intro y hy
      by_cases hyx : y = x
      · subst hyx; exact (c1 y).2 (Or.inr ⟨hy, rfl⟩)
      · have hyp : y ≠ p := by rintro rfl; rw [d1] at hy; cases hy
        exact (c1 y).2 (Or.inl (h3.all y (by rw [← hdo' y hyx hyp]; exact hy)))
    · intro y hy hyx hpy q
      have hyp : y ≠ p := by rintro rfl; rw [d1] at hy; cases hy
      have hset := h3.settled y (by rw [← hdo' y hyx hyp]; exact hy) (fun h => h)
      rw [p1] at hpy ⊢
      have hnp : p ∉ candAll (FT.env diff b s.t d ft0) y :=
        fun hc => hpy ((hset p).2 (mem_npAll.2 (Or.inl hc)))
      have hca : ∀ z, z ∈ candAll E y ↔ z ∈ candAll (FT.env diff b s.t d ft0) y := by
        intro z
        by_cases hz : z = p
        · subst hz; exact iff_of_false (not_mem_candAll_hidden d1) hnp
        · by_cases hzx : z = x
          · subst hzx; exact iff_of_false (hcx y) (hcx0 y)
          · exact hcand y z hyx hzx hz
      rw [hset q, mem_npAll, mem_npAll, hca, hEr]
      have : candAll E y = [] ↔ candAll (FT.env diff b s.t d ft0) y = [] := by
        rw [List.eq_nil_iff_forall_not_mem, List.eq_nil_iff_forall_not_mem]
        exact ⟨fun h z hz => h z ((hca z).2 hz), fun h z hz => h z ((hca z).1 hz)⟩
      rw [this]; rfl
    · intro y hpy q
      rw [p1] at hpy ⊢
      have hyv := View.has_of_par hpy
      have hyx : y ≠ x := by rintro rfl; rw [hvx] at hyv; cases hyv
      have hyr : y ≠ ft0.root := by
        rintro rfl
        have : v.pars ft0.root = [] := hv.rootPars
        rw [this] at hpy; cases hpy
      have hset := h3.settled y (hv.sub y hyv hyr) (fun h => h)
      have hpc : p ∈ candAll (FT.env diff b s.t d ft0) y := by
        rcases mem_npAll.1 ((hset p).1 hpy) with e | e
        · exact e
        · exact absurd e.1 hpr
      rw [hset q, mem_npAll]
      by_cases hq : q = p
      · subst hq; simp [hpc]
      · by_cases hqx : q = x
        · subst hqx
          refine iff_of_false ?_ ?_
          · rintro (e | e)
            · exact hcx0 y e
            · rw [e.2] at hpc; cases hpc
          · rintro (e | e)
            · exact hq e
            · exact hcx y e
        · rw [hcand y q hyx hqx hq]
          constructor
          · rintro (e | e)
            · exact Or.inr e
            · rw [e.2] at hpc; cases hpc
          · rintro (e | e)
            · exact absurd e hq
            · exact Or.inl e
    · rintro y rfl
      exact ⟨hxrank, fun q hq => by rw [hEp, hpx1] at hq; exact List.mem_singleton.1 hq⟩
  have hparx : E.par x = [p] := by rw [hEp]; exact hpx1
  have hEh : E.has x = true := by rw [← hEd]; exact hxt
  obtain ⟨f, hf⟩ : ∃ f, 2 * (t'.nodes.keys.length + v.nodes.entries.length) + 8 = f + 2 := ⟨_, rfl⟩
  show ∃ v', E.update (2 * (t'.nodes.keys.length + v.nodes.entries.length) + 8) x .both v = .ok v' ∧ _
  rw [hf]
  have gone : ∀ u : View, u.has p = true → ∀ g, E.update (g + 1) p .up u =
      E.vanish (fun p v => E.update g p .up v) (fun c v => E.update g c .down v) p u := by
    intro u hu g
    rw [VEnv.update, if_neg (by rw [hEr]; exact hpr), if_neg (by rw [hu]; simp), if_neg (by rw [d1]; simp)]
  cases hdx : E.disp x with
  | false =>
    have H := hide v (fun y => by rw [hdx]; simp) rfl rfl rfl hv.keys
    obtain ⟨v', a1, a2⟩ := vanish_ok e1 H (f := f) (by omega) (by omega)
    refine ⟨v', ?_, ⟨rank, ⟨e1.parRank, fun y q hq => (a2.base.par y q hq).2⟩, a2.vinv⟩, a2.all, fun y hy _ => a2.settled y hy ?_⟩
    · rw [VEnv.update, if_neg (by rw [hEr]; exact hxr), if_pos ⟨hvx, hdx⟩, if_pos hEh, hparx, Res.forEach, gone v hpv, a1]
      rfl
    · rintro rfl; rw [hdx] at hy; cases hy
  | true =>
    have H := hide { v with nodes := v.nodes.set x {} } (fun y => by rw [View.has_insert, hdx]; simp [or_comm])
      (funext (View.pars_insert hvx)) (funext (View.kids_insert hvx)) rfl (by
        show (v.nodes.set x {}).keys.Nodup
        rw [Dict.keys_set]
        have : v.nodes.has x = false := hvx
        rw [this]
        simp only [Bool.false_eq_true, if_false]
        refine List.nodup_append.2 ⟨hv.keys, by simp, ?_⟩
        rintro y hy z hz rfl
        rw [List.mem_singleton.1 hz, Dict.mem_keys] at hy
        rw [this] at hy; cases hy)
    obtain ⟨v2, a1, a2⟩ := vanish_ok e1 H (f := f) (by omega) (by omega)
    have hx2 := a2.all x hdx
    obtain ⟨w, b1, b2, b3, b4⟩ := update_settles e1 (f := f + 2) (x := x) (dir := .both) (v := v2) (by omega) rfl a2.vinv
      (fun y hy _ => a2.all y hy) (by rw [hEr]; exact hxr) (fun _ => False) (fun y hy hyx _ _ => a2.settled y hy hyx)
    have hnokids : E.newKids x = [] := by
      rw [List.eq_nil_iff_forall_not_mem]
      intro c hc
      have := ((mem_newKids e1).1 hc).2.1
      rw [hEp] at this; exact hnk hdx c this
    rw [VEnv.update, if_neg (by rw [hEr]; exact hxr), if_neg (by rw [hdx]; simp), if_pos hdx] at b1
    cases hs : E.settle (fun p v => E.update (f + 1) p .up v) x .both v2 with
    | err e u => rw [hs] at b1; cases b1
    | ok u =>
      rw [hs, Res.andThen_ok, hnokids] at b1
      have hu : u.has x = true := by
        by_contra hc
        rw [if_pos (by simpa using hc)] at b1; cases b1
      rw [if_neg (by rw [hu]; simp)] at b1
      have hwu : w = u := by
        cases b1; rfl
      subst hwu
      have hnp : p ∉ E.newPars { v with nodes := v.nodes.set x {} } x := by
        intro hc
        rcases mem_npOf (W := View.has { v with nodes := v.nodes.set x {} }) hc with e | e
        · rw [hEr] at e; exact hpr e
        · rw [d1] at e; exact absurd e.2.2.2 (by simp)
      have hpp : p ∉ View.pars { v with nodes := v.nodes.set x {} } x := by
        rw [View.pars_insert hvx, View.pars_of_not_has hvx]; simp
      obtain ⟨v6, ps, c1, rfl⟩ := settle_fresh (dir := .both) hvx (v2 := v2) (by
          rw [hparx, List.filter_cons_of_pos (by simp [hnp, hpp]), List.filter_nil, Res.forEach,
            gone _ ((View.has_insert v x p).trans (by rw [hpv]; simp)), a1]
          rfl) hx2 hs
      refine ⟨v6, ?_, ⟨rank, ⟨e1.parRank, fun y q hq => (b2.par y q hq).2⟩, b2.unsend⟩, b3, fun y hy _ => b4 y hy fun _ h => h⟩
      rw [VEnv.update, if_neg (by rw [hEr]; exact hxr), if_neg (by rw [hdx]; simp), if_pos hdx, c1, Res.andThen_ok, hnokids,
        if_neg (by have : v6.has x = true := hu; rw [this]; simp)]
      rfl

end Larch
