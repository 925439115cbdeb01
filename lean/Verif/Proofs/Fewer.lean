import Verif.Proofs.Announce
import Verif.Proofs.Untouched
import Verif.Spec.Fewer

/-!
# Views with filters that look at the children of a node

Adding a child may hide the parent, taking a child away may show it; nothing else changes for the filters.
-/

namespace Larch

open Graph Spec

variable {V : Type} {diff : List Id → List Id → List Id} {b : Bank (Id → V)} {d : Id → V} {s0 : St} {ft0 : FT} {X : Id → Prop}

/-- All filters in the list look at a node's data and children, and accept more nodes when there are fewer children. -/
def FewBank (b : Bank (Id → V)) (ap : List FName) : Prop := ∀ n ∈ ap, ∀ f, b.getFilter n = some f → FewerIsMore f

theorem WF.nodup_getChildren {t : Tree} (h : WF t) (x : Id) : (t.getChildren x).Nodup := by
  rw [h.getChildren_eq]
  exact (h.ndC x).filter _

theorem accepts_fewer {ap : List FName} (hb : FewBank b ap) {t t' : Tree} {d d' : Id → V} {x : Id} (hw : WF t) (hw' : WF t')
    (hh : t'.has x = t.has x) (hd : d x = d' x) (hc : ∀ c, x ∈ t.getParents c → x ∈ t'.getParents c)
    (h : FT.accepts b t' d' ap x = true) : FT.accepts b t d ap x = true := by
  have hx' := accepts_has h
  have hx : t.has x = true := by rw [← hh]; exact hx'
  unfold FT.accepts at h ⊢
  simp only [Bool.and_eq_true, List.all_eq_true] at h ⊢
  refine ⟨⟨h.1.1, hx⟩, fun n hn => ?_⟩
  have := h.2 n hn
  cases hg : b.getFilter n with
  | none => rw [hg] at this; cases this
  | some f =>
    rw [hg] at this
    refine hb n hn f hg t t' d d' x hx hx' hd (hw.nodup_getChildren x) (hw'.nodup_getChildren x) (fun c hxc => ?_) this
    have h1 := hc c
    rw [hw.getParents_eq, hw'.getParents_eq, ← hw.mem_getChildren, ← hw'.mem_getChildren] at h1
    exact h1 hxc

theorem accepts_kids {ap : List FName} (hb : FewBank b ap) {t t' : Tree} {d d' : Id → V} {x : Id} (hw : WF t) (hw' : WF t')
    (hh : t'.has x = t.has x) (hd : d x = d' x) (hc : ∀ c, x ∈ t.getParents c ↔ x ∈ t'.getParents c) :
    FT.accepts b t' d' ap x = FT.accepts b t d ap x := by
  rw [Bool.eq_iff_iff]
  exact ⟨accepts_fewer hb hw hw' hh hd fun c => (hc c).1, accepts_fewer hb hw' hw hh.symm hd.symm fun c => (hc c).2⟩

/-! ### Notifications -/

theorem Watch.sees {s : St} (h : Watch diff b d s0 ft0 X s) : Sees diff b d s0 ft0 (Fit (FT.env diff b s.t d ft0) X) s :=
  ⟨h.rootFree, h.moments, h.seen⟩

theorem Sees.watch {s : St} (h : Sees diff b d s0 ft0 (Fit (FT.env diff b s.t d ft0) X) s) : Watch diff b d s0 ft0 X s :=
  ⟨h.rootFree, h.moments, h.seen⟩

theorem Sees.mono {Q Q' : View → Prop} {s s' : St} (h : Sees diff b d s0 ft0 Q s) (hl : s'.log = s.log)
    (hr : s'.t.has ft0.root = false) (hq : ∀ v, Q v → Q' v) : Sees diff b d s0 ft0 Q' s' := by
  obtain ⟨v, l, h1, h2, h3⟩ := h.seen
  exact ⟨hr, by rw [hl]; exact h.moments, v, l, hl.trans h1, h2, hq v h3⟩

/-- A notification about a node of the tree. -/
theorem Sees.say {Q Q' : View → Prop} {s : St} (h : Sees diff b d s0 ft0 Q s) (hw : WF s.t) (ev : Ev) {x : Id}
    (hx : s.t.has x = true)
    (hq : ∀ v, Q v → (∀ y, v.has y = true → y ≠ ft0.root → y ≠ x → s.t.has y = true) ∧
      (∃ E r, E.root = ft0.root ∧ (∀ z, ∀ p ∈ s.t.rawParents z, r p < r z) ∧ VInv E r (fun _ => False) v) ∧
      ∃ v', (FT.env diff b s.t d ft0).update (2 * (s.t.nodes.keys.length + v.nodes.entries.length) + 8) x .both v = .ok v' ∧ Q' v') :
    Sees diff b d s0 ft0 Q' (s.emit ev x) := by
  obtain ⟨v, l, h1, h2, h3⟩ := h.seen
  obtain ⟨q1, q2, v', a1, a2⟩ := hq v h3
  have hne : x ≠ ft0.root := by rintro rfl; rw [h.rootFree] at hx; cases hx
  refine ⟨h.rootFree, h.moments.snoc h1 h2 ⟨q1, fun hf => absurd hx (by rw [show s.t.has x = false from hf]; simp), hne, hw, h.rootFree, q2⟩,
    v', l ++ [⟨s.t, ev, x⟩], ?_, ?_, a2⟩
  · show s.log ++ [_] = _
    rw [h1, List.append_assoc]
  · rw [forEach_snoc h2]
    exact react_eq (n := ⟨s.t, ev, x⟩) (ft := { ft0 with view := v }) a1

/-- In a view of the tree `t`, the same nodes are nodes of the tree `t'`. -/
theorem Fit.hasIn {t t' : Tree} {v : View} (h : Fit (FT.env diff b t d ft0) X v) (hh : ∀ y, t.has y = true → t'.has y = true)
    (y : Id) (hy : v.has y = true) (hr : y ≠ ft0.root) : t'.has y = true := by
  obtain ⟨r, -, hv⟩ := h.inv
  exact hh y (accepts_has (hv.sub y hy hr))

/-! ### Relations -/

/-- The filters are asked again after the relation from `p` to `c` was broken; `p` is told. -/
theorem Watch.cutFew (hb : FewBank b ft0.applied) (hdiff : SetDiff diff) {s : St} {p c : Id} {t' : Tree}
    (h : Watch diff b d s0 ft0 X s) (hw : WF s.t) (hw' : WF t') (hh : ∀ y, t'.has y = s.t.has y)
    (hp : ∀ y, y ≠ c → t'.rawParents y = s.t.rawParents y)
    (hc : ∀ q, q ∈ t'.rawParents c ↔ q ∈ s.t.rawParents c ∧ q ≠ p) (hpt : s.t.has p = true) :
    Watch diff b d s0 ft0 (fun y => (X y ∨ y = c) ∧ y ≠ p) ((⟨t', s.log⟩ : St).emit .modified p) := by
  have hpar : ∀ y q, q ∈ t'.rawParents y ↔ q ∈ s.t.rawParents y ∧ ¬ (q = p ∧ y = c) := by
    intro y q
    by_cases hy : y = c
    · subst hy; rw [hc]; simp
    · rw [hp y hy]; simp [hy]
  have hdo : ∀ y, y ≠ p → (FT.env diff b t' d ft0).disp y = (FT.env diff b s.t d ft0).disp y := by
    intro y hy
    refine accepts_kids hb hw hw' (hh y) rfl fun z => ?_
    rw [hw.getParents_eq, hw'.getParents_eq, hpar]; simp [hy]
  have hdp : (FT.env diff b s.t d ft0).disp p = true → (FT.env diff b t' d ft0).disp p = true := by
    refine accepts_fewer hb hw' hw (hh p).symm rfl fun z hz => ?_
    rw [hw'.getParents_eq, hpar] at hz
    rw [hw.getParents_eq]; exact hz.1
  have hpt' : t'.has p = true := by rw [hh]; exact hpt
  by_cases hsame : (FT.env diff b t' d ft0).disp p = (FT.env diff b s.t d ft0).disp p
  · have h1 := h.cutD (s' := ⟨t', s.log⟩) (fun y => by
        by_cases hy : y = p
        · subst hy; exact hsame
        · exact hdo y hy) hw hw' rfl hh (c := c) hp (fun q hq => ((hc q).1 hq).1)
    exact h1.note hdiff hw' .modified (x := p) hpt'
  · have d0 : (FT.env diff b s.t d ft0).disp p = false := by
      by_contra hx
      have hx : (FT.env diff b s.t d ft0).disp p = true := by simpa using hx
      rw [hx, hdp hx] at hsame; exact hsame rfl
    have hroot : t'.has ft0.root = false := by rw [hh]; exact h.rootFree
    have hpr : p ≠ ft0.root := by rintro rfl; rw [h.rootFree] at hpt; cases hpt
    have hE := env_ok hdiff b hw' d ft0 hroot
    refine (Sees.say (s := ⟨t', s.log⟩) (h.sees.mono rfl hroot fun _ h => h) hw' .modified hpt' fun v h3 => ?_).watch
    obtain ⟨r, ho, hv⟩ := h3.inv
    refine ⟨fun y hy hyr _ => h3.hasIn (fun z hz => by rw [hh]; exact hz) y hy hyr, ⟨_, r, rfl, fun z q hq => by
      have := ho.1
      rw [env_par hw] at this
      exact this z q ((hpar z q).1 hq).1, hv⟩, ?_⟩
    have hvp : v.has p = false := by
      by_contra hx
      have := hv.sub p (by simpa using hx) hpr
      rw [d0] at this; cases this
    have ho' : Orders (FT.env diff b t' d ft0) v r := by
      refine ⟨?_, ho.2⟩
      have := ho.1
      rw [env_par hw] at this
      rw [env_par hw']
      exact fun x q hq => this x q ((hpar x q).1 hq).1
    obtain ⟨rank, e1, e2⟩ := hE.rank hv.rootPars ho' t'.nodes.keys (env_keys hw')
    obtain ⟨v', a1, a2, a3, a4⟩ := update_settles e1
      (f := 2 * (t'.nodes.keys.length + v.nodes.entries.length) + 8) (x := p) (dir := .both) (v := v) (by omega) rfl
      ((hv.rerank e2).congrE rfl (fun y hy hn => by
        rw [hdo y (by rintro rfl; rw [hvp] at hy; cases hy)]; exact hv.sub y hy hn))
      (fun y hy hyp => h3.all y (by rw [← hdo y hyp]; exact hy)) hpr (fun y => X y ∨ y = c) (by
        intro y hy hyp hD hcase q
        rw [h3.settled y (by rw [← hdo y hyp]; exact hy) (fun hx => hD (Or.inl hx)) q]
        symm
        refine npAll_congr (E := FT.env diff b s.t d ft0) (E' := FT.env diff b t' d ft0) rfl rfl (hh y) (fun hflat z => ?_) q
        rw [env_par hw, env_par hw', hp y (fun hx => hD (Or.inr hx))]
        by_cases hz : z = p
        · subst hz
          constructor
          · rintro ⟨m1, m2⟩
            exfalso
            rcases hcase with c1 | c1 | c1 | c1
            · have c' : ft0.flat = true := c1
              have hflat' : ft0.flat = false := hflat
              rw [hflat'] at c'; cases c'
            · rw [hvp] at c1; cases c1
            · rw [c1] at m1; cases m1
            · rw [env_par hw', hp y (fun hx => hD (Or.inr hx))] at c1; exact c1 m2
          · rintro ⟨m1, -⟩; rw [d0] at m1; cases m1
        · rw [hdo z hz])
    exact ⟨v', a1, ⟨rank, ⟨e1.parRank, fun y q hq => (a2.par y q hq).2⟩, a2⟩, a3,
      fun y hy hn => a4 y hy fun hyp hD => hn ⟨hD, hyp⟩⟩

/-- The filters are asked again after `p` became a parent of `c`; `p` is told. -/
theorem Watch.linkFew (hb : FewBank b ft0.applied) (hdiff : SetDiff diff) {s : St} {p c : Id} {t' : Tree}
    (h : Watch diff b d s0 ft0 (fun _ => False) s) (hw : WF s.t) (hw' : WF t') (hh : ∀ y, t'.has y = s.t.has y)
    (hp : ∀ y, y ≠ c → t'.rawParents y = s.t.rawParents y)
    (hc : ∀ q, q ∈ t'.rawParents c ↔ q ∈ s.t.rawParents c ∨ q = p) (hpt : s.t.has p = true) :
    Watch diff b d s0 ft0 (fun y => y = c) ((⟨t', s.log⟩ : St).emit .modified p) := by
  have hpar : ∀ y q, q ∈ t'.rawParents y ↔ q ∈ s.t.rawParents y ∨ (q = p ∧ y = c) := by
    intro y q
    by_cases hy : y = c
    · subst hy; rw [hc]; simp
    · rw [hp y hy]; simp [hy]
  have hdo : ∀ y, y ≠ p → (FT.env diff b t' d ft0).disp y = (FT.env diff b s.t d ft0).disp y := by
    intro y hy
    refine accepts_kids hb hw hw' (hh y) rfl fun z => ?_
    rw [hw.getParents_eq, hw'.getParents_eq, hpar]; simp [hy]
  have hdp : (FT.env diff b t' d ft0).disp p = true → (FT.env diff b s.t d ft0).disp p = true := by
    refine accepts_fewer hb hw hw' (hh p) rfl fun z hz => ?_
    rw [hw.getParents_eq] at hz
    rw [hw'.getParents_eq, hpar]; exact Or.inl hz
  have hpt' : t'.has p = true := by rw [hh]; exact hpt
  by_cases hsame : (FT.env diff b t' d ft0).disp p = (FT.env diff b s.t d ft0).disp p
  · have h1 := h.linkD (s' := ⟨t', s.log⟩) hdiff (fun y => by
        by_cases hy : y = p
        · subst hy; exact hsame
        · exact hdo y hy) hw hw' rfl hh (c := c) hp (fun q hq => (hc q).2 (Or.inl hq))
    exact (h1.note hdiff hw' .modified (x := p) hpt').mono fun y hy => hy.1
  · have d1 : (FT.env diff b t' d ft0).disp p = false := by
      by_contra hx
      have hx : (FT.env diff b t' d ft0).disp p = true := by simpa using hx
      rw [hx, hdp hx] at hsame; exact hsame rfl
    have d0 : (FT.env diff b s.t d ft0).disp p = true := by
      by_contra hx
      have hx : (FT.env diff b s.t d ft0).disp p = false := by simpa using hx
      rw [d1, hx] at hsame; exact hsame rfl
    have hroot : t'.has ft0.root = false := by rw [hh]; exact h.rootFree
    have hpr : p ≠ ft0.root := by rintro rfl; rw [h.rootFree] at hpt; cases hpt
    have hE := env_ok hdiff b hw' d ft0 hroot
    refine Watch.mono (X := fun _ => False) ?_ (fun _ h => h.elim)
    refine (Sees.say (s := ⟨t', s.log⟩) (h.sees.mono rfl hroot fun _ h => h) hw' .modified hpt' fun v h3 => ?_).watch
    obtain ⟨r, -, hv⟩ := h3.inv
    obtain ⟨r1, ho'⟩ := orders_of_super hE (v := v) hv.rootPars (by rw [env_par hw']; exact hw'.acyclic) t'.nodes.keys
      (env_keys hw') (by
        intro y q hq
        rcases h3.parSub (fun _ h => h) hq with e | e
        · exact Or.inl e
        · refine Or.inr ?_
          rw [env_par hw] at e
          rw [env_par hw', hpar]; exact Or.inl e)
    refine ⟨fun y hy hyr _ => h3.hasIn (fun z hz => by rw [hh]; exact hz) y hy hyr, ⟨_, r1, rfl, by
      have := ho'.1
      rw [env_par hw'] at this
      exact this, hv.rerank ho'.2⟩, ?_⟩
    have hcand : ∀ y q, q ≠ p → (q ∈ candAll (FT.env diff b t' d ft0) y ↔ q ∈ candAll (FT.env diff b s.t d ft0) y) := by
      intro y q hq
      rw [mem_npCand, mem_npCand, hdo q hq, env_par hw, env_par hw', hpar]
      show (ft0.flat = false ∧ t'.has y = true) ∧ _ ↔ (ft0.flat = false ∧ s.t.has y = true) ∧ _
      rw [hh y]; simp [hq]
    refine Fit.hide hE ho' t'.nodes.keys (env_keys hw') (f := 2 * (t'.nodes.keys.length + v.nodes.entries.length) + 8) (by omega) ?_
    intro rank hrk
    refine Hiding.of hv rfl hrk (h3.all p d0) d1 hpr ?_ ?_ ?_ ?_
    · intro y hy hyr hyp; rw [hdo y hyp]; exact hv.sub y hy hyr
    · intro y hy
      have hyp : y ≠ p := by rintro rfl; rw [d1] at hy; cases hy
      exact h3.all y (by rw [← hdo y hyp]; exact hy)
    · intro y hy hpy q
      have hyp : y ≠ p := by rintro rfl; rw [d1] at hy; cases hy
      have hset := h3.settled y (by rw [← hdo y hyp]; exact hy) (fun h => h)
      have hnp : p ∉ candAll (FT.env diff b s.t d ft0) y :=
        fun hc => hpy ((hset p).2 (mem_npAll.2 (Or.inl hc)))
      have hca : ∀ z, z ∈ candAll (FT.env diff b t' d ft0) y ↔ z ∈ candAll (FT.env diff b s.t d ft0) y := by
        intro z
        by_cases hz : z = p
        · subst hz; exact iff_of_false (not_mem_candAll_hidden d1) hnp
        · exact hcand y z hz
      rw [hset q, mem_npAll, mem_npAll, hca]
      have : candAll (FT.env diff b t' d ft0) y = [] ↔ candAll (FT.env diff b s.t d ft0) y = [] := by
        rw [List.eq_nil_iff_forall_not_mem, List.eq_nil_iff_forall_not_mem]
        exact ⟨fun h z hz => h z ((hca z).2 hz), fun h z hz => h z ((hca z).1 hz)⟩
      rw [this]; rfl
    · intro y hpy q
      have hyv := View.has_of_par hpy
      have hyr : y ≠ ft0.root := by
        rintro rfl
        have : v.pars ft0.root = [] := hv.rootPars
        rw [this] at hpy; cases hpy
      have hset := h3.settled y (hv.sub y hyv hyr) (fun h => h)
      have hpc : p ∈ candAll (FT.env diff b s.t d ft0) y := by
        rcases mem_npAll.1 ((hset p).1 hpy) with e | e
        · exact e
        · exact absurd e.1 hpr
      rw [hset q, mem_npAll]
      by_cases hq : q = p
      · subst hq; simp [hpc]
      · rw [hcand y q hq]
        constructor
        · rintro (e | e)
          · exact Or.inr e
          · rw [e.2] at hpc; cases hpc
        · rintro (e | e)
          · exact absurd e hq
          · exact Or.inl e

theorem Watch.sameFew (hb : FewBank b ft0.applied) {s s' : St} (h : Watch diff b d s0 ft0 X s) (hw : WF s.t) (hw' : WF s'.t)
    (hl : s'.log = s.log) (hh : ∀ y, s'.t.has y = s.t.has y) (hp : s'.t.rawParents = s.t.rawParents) :
    Watch diff b d s0 ft0 X s' := by
  refine h.moveD (fun y => accepts_kids hb hw hw' (hh y) rfl fun z => by rw [hw.getParents_eq, hw'.getParents_eq, hp]) hw hw' hl hh
    (fun _ h => h) (fun y _ => by rw [hp]) ?_
  intro v hf
  obtain ⟨r, ho, -⟩ := hf.inv
  refine ⟨r, ?_, ho.2⟩
  rw [env_par hw', hp, ← env_par hw (diff := diff) (b := b) (d := d) (ft := ft0)]
  exact ho.1

/-- The view follows every edit of relations. -/
theorem few_keeps (hb : FewBank b ft0.applied) (hdiff : SetDiff diff) :
    KeepsGood (fun _ _ => True) (fun _ _ => True) (fun s => Good s.t ∧ Watch diff b d s0 ft0 (fun _ => False) s) where
  same := fun {s s'} h hl hh hp hg => ⟨hg, h.2.sameFew hb h.1.wf hg.wf hl hh hp⟩
  link := fun {s p c t'} h hg hc hn hg' _ => by
    obtain ⟨hp, hcc, ef⟩ := Tree.create_eq_some hc
    refine ⟨hg', ?_⟩
    have h2 := h.2.linkFew hb hdiff hg.wf hg'.wf ef.has (p := p) (c := c)
      (fun y hy => by rw [ef.parents, if_neg hy]) (fun q => by rw [ef.parents, if_pos rfl, mem_appendNew]) hp
    have h3 := h2.note hdiff hg'.wf .modified (x := c) (by show t'.has c = true; rw [ef.has]; exact hcc)
    exact h3.mono fun y hy => hy.2 hy.1
  cut := fun {s p c t'} h hg hp hcc hne ef hg' _ => by
    refine ⟨hg', ?_⟩
    have h2 := h.2.cutFew hb hdiff hg.wf hg'.wf ef.has (p := p) (c := c)
      (fun y hy => by rw [ef.parents, if_neg hy])
      (fun q => by rw [ef.parents, if_pos rfl, (hg.wf.ndP c).mem_erase_iff]; tauto) hp
    have h3 := h2.note hdiff hg'.wf .modified (x := c) (by show t'.has c = true; rw [ef.has]; exact hcc)
    exact h3.mono fun y hy => hy.2 (hy.1.1.resolve_left fun h => h)
  modified := fun {s} h hg {x} hx => ⟨hg, (h.2.note hdiff hg.wf .modified hx).mono fun _ h => h.1⟩

end Larch
