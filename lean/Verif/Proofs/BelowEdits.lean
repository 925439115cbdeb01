import Verif.Proofs.Below

/-!
# Views with filters that look at everything below a node: relations, new nodes, data
-/

namespace Larch

open Graph Spec

variable {V : Type} {diff : List Id → List Id → List Id} {b : Bank (Id → V)} {d : Id → V} {s0 : St} {ft0 : FT} {X : Id → Prop}

/-- The view follows when relations are broken. -/
theorem below_cuts (hb : BelowBank b ft0.applied) (hdiff : SetDiff diff) (hflat : ft0.flat = false) :
    KeepsGood (fun _ _ => False) (fun _ _ => True)
      (fun s => Good s.t ∧ OneUp s.t ∧ Watch diff b d s0 ft0 (fun _ => False) s) where
  same := fun {s s'} h hl hh hp hg => ⟨hg, fun y => by rw [hp]; exact h.2.1 y, h.2.2.sameBelow hb h.1.wf hg.wf hl hh hp⟩
  link := fun _ _ _ _ _ h => h.elim
  cut := fun {s p c t'} h hg hp hcc hne ef hg' _ => by
    refine ⟨hg', fun y => ?_, ?_⟩
    · show (t'.rawParents y).length ≤ 1
      rw [ef.parents]
      split
      · exact le_trans List.length_erase_le (h.2.1 _)
      · exact h.2.1 y
    · have h2 := h.2.2.cutBelow hb hdiff hflat hg.wf hg'.wf h.2.1 ef.has (p := p) (c := c)
        (fun y hy => by rw [ef.parents, if_neg hy]) (by rw [ef.parents, if_pos rfl]) hp (fun _ h => h.elim)
      have h3 := h2.note hdiff hg'.wf .modified (x := c) (by show t'.has c = true; rw [ef.has]; exact hcc)
      exact h3.mono fun y hy => hy.2 hy.1
  modified := fun {s} h hg {x} hx => ⟨hg, h.2.1, (h.2.2.note hdiff hg.wf .modified hx).mono fun _ h => h.1⟩

/-- The view follows when relations are made, as long as no node has two parents. -/
theorem below_links (hb : BelowBank b ft0.applied) (hdiff : SetDiff diff) (hflat : ft0.flat = false) :
    KeepsGood (fun _ _ => True) (fun _ _ => False)
      (fun s => Good s.t ∧ (OneUp s.t → Watch diff b d s0 ft0 (fun _ => False) s)) where
  same := fun {s s'} h hl hh hp hg => ⟨hg, fun h1 => (h.2 fun y => by rw [← hp]; exact h1 y).sameBelow hb h.1.wf hg.wf hl hh hp⟩
  link := fun {s p c t'} h hg hc hn hg' _ => by
    obtain ⟨hp, hcc, ef⟩ := Tree.create_eq_some hc
    refine ⟨hg', fun h1 => ?_⟩
    change OneUp t' at h1
    have h0 : OneUp s.t := by
      intro y
      have := h1 y
      rw [ef.parents] at this
      split at this
      · rename_i hy
        subst hy
        unfold appendNew at this
        split at this
        · exact this
        · rw [List.length_append] at this; omega
      · exact this
    have h2 := (h.2 h0).linkBelow hb hdiff hflat hg.wf hg'.wf h1 ef.has (p := p) (c := c)
      (fun y hy => by rw [ef.parents, if_neg hy]) (by rw [ef.parents, if_pos rfl]) hp
    have h3 := h2.note hdiff hg'.wf .modified (x := c) (by show t'.has c = true; rw [ef.has]; exact hcc)
    exact h3.mono fun y hy => hy.2 hy.1
  cut := fun _ _ _ _ _ _ _ h => h.elim
  modified := fun {s} h hg {x} hx => ⟨hg, fun h1 => ((h.2 h1).note hdiff hg.wf .modified hx).mono fun _ h => h.1⟩

/-- Setting a parent first breaks relations and then makes one. -/
theorem nodeSetParent_two {L1 M1 L2 M2 : Id → Id → Prop} {P1 P2 : St → Prop} (K1 : KeepsGood L1 M1 P1) (K2 : KeepsGood L2 M2 P2)
    (h12 : ∀ s, P1 s → P2 s) {s : St} (h : Good s.t) (x p : Id) (hL : L2 p x) (hC : ∀ q, q ≠ p → M1 q x) (hp : P1 s) :
    P2 (nodeSetParent s x p).state := by
  have hg := nodeSetParent_good h x p
  unfold nodeSetParent at hg ⊢
  split
  · exact h12 _ hp
  · rename_i nd hnd
    rw [hnd] at hg
    dsimp only at hg
    split
    · rename_i hcond
      rw [if_pos hcond] at hg
      split
      · rename_i hpn
        rw [hpn] at hg
        obtain ⟨s', e, hg'⟩ := forEach_break_good (s.t.getParents x) (fun q => (q, x)) s h
        have h1 := forEach_break_keepsGood K1 (s.t.getParents x) (fun q => (q, x)) s (fun q hq => hC q (by
            rintro rfl
            have := mem_getParents_has hq
            rw [Tree.has_eq, hpn] at this; cases this)) h hp
        dsimp only at e h1
        rw [e] at h1
        dsimp only at hg
        rw [e] at hg ⊢
        exact h12 _ (K1.same h1 rfl (fun _ => rfl) rfl hg)
      · split
        · have h1 := setParentLoop_good nd.parents.length 0 s x p false h
          have h2 := setParentLoop_keepsGood K1 nd.parents.length 0 s x p false hC h hp
          split
          · rename_i heq; rw [heq] at h2; exact h12 _ h2
          · rename_i heq; rw [heq] at h1 h2
            split
            · exact nodeAddParent_keepsGood K2 h1 x p hL (h12 _ h2)
            · exact h12 _ h2
        · exact h12 _ hp
    · exact h12 _ hp

theorem below_local (hb : BelowBank b ft0.applied) (hdiff : SetDiff diff) (hflat : ft0.flat = false) {s : St} (h : Good s.t) (op : Op)
    (hl : op.isLocal = true) (hs : Safe s op) (h1 : OneUp s.t) (h1' : OneUp (step s op).state.t)
    (hw : Watch diff b d s0 ft0 (fun _ => False) s) : Watch diff b d s0 ft0 (fun _ => False) (step s op).state := by
  have c := below_cuts (d := d) (s0 := s0) hb hdiff hflat
  have l := below_links (d := d) (s0 := s0) hb hdiff hflat
  have h12 : ∀ s, (Good s.t ∧ OneUp s.t ∧ Watch diff b d s0 ft0 (fun _ => False) s) →
      Good s.t ∧ (OneUp s.t → Watch diff b d s0 ft0 (fun _ => False) s) := fun s h => ⟨h.1, fun _ => h.2.2⟩
  cases op with
  | addNode nd p => cases hl
  | delNode x r => cases hl
  | moveNode x p =>
    change OneUp (moveNode s x p).state.t at h1'
    show Watch _ _ _ _ _ _ (moveNode s x p).state
    unfold moveNode at h1' ⊢
    split
    · rename_i hc
      rw [if_pos hc] at h1'
      exact (nodeSetParent_two c l h12 h x p trivial (fun _ _ => trivial) ⟨h, h1, hw⟩).2 h1'
    · exact hw
  | setParent x p => exact (nodeSetParent_two c l h12 h x p trivial (fun _ _ => trivial) ⟨h, h1, hw⟩).2 h1'
  | refreshNode x => exact (step_keepsGood l h (.refreshNode x) rfl hs (fun _ _ _ => trivial) (fun _ _ h => h) ⟨h, fun _ => hw⟩).2 h1'
  | addParent x p => exact (step_keepsGood l h (.addParent x p) rfl hs (fun _ _ _ => trivial) (fun _ _ h => h) ⟨h, fun _ => hw⟩).2 h1'
  | addChild x p => exact (step_keepsGood l h (.addChild x p) rfl hs (fun _ _ _ => trivial) (fun _ _ h => h) ⟨h, fun _ => hw⟩).2 h1'
  | newRelationship x p =>
    exact (step_keepsGood l h (.newRelationship x p) rfl hs (fun _ _ _ => trivial) (fun _ _ h => h) ⟨h, fun _ => hw⟩).2 h1'
  | removeParent x p =>
    exact (step_keepsGood c h (.removeParent x p) rfl hs (fun _ _ h => h) (fun _ _ _ => trivial) ⟨h, h1, hw⟩).2.2
  | setParentsEnabled x p =>
    exact (step_keepsGood c h (.setParentsEnabled x p) rfl hs (fun _ _ h => h) (fun _ _ _ => trivial) ⟨h, h1, hw⟩).2.2
  | setChildrenEnabled x p =>
    exact (step_keepsGood c h (.setChildrenEnabled x p) rfl hs (fun _ _ h => h) (fun _ _ _ => trivial) ⟨h, h1, hw⟩).2.2
  | breakRelationship x p =>
    exact (step_keepsGood c h (.breakRelationship x p) rfl hs (fun _ _ h => h) (fun _ _ _ => trivial) ⟨h, h1, hw⟩).2.2

/-- A new node arrives, with children and a parent perhaps. -/
theorem Watch.addedBelow (hb : BelowBank b ft0.applied) (hdiff : SetDiff diff) (hflat : ft0.flat = false) {s : St}
    (h : Watch diff b d s0 ft0 (fun _ => False) s) (hw : WF s.t) {t' : Tree} (hw' : WF t') (h1 : OneUp s.t) (h1' : OneUp t') {x : Id}
    (ha : Arrived s.t t' x) (hx : s.t.has x = false) (hxr : x ≠ ft0.root) :
    Watch diff b d s0 ft0 (fun _ => False) ((⟨t', s.log⟩ : St).emit .added x) := by
  have hxp : ∀ y, x ∉ s.t.rawParents y := by
    intro y hy
    have := hw.has_parent hy
    rw [hx] at this; cases this
  have hxs : s.t.rawParents x = [] := by
    rw [List.eq_nil_iff_forall_not_mem]
    intro q hq
    have := Tree.has_of_mem_rawParents hq
    rw [hx] at this; cases this
  have hroot : t'.has ft0.root = false := by
    rw [ha.has, h.rootFree]; simp [Ne.symm hxr]
  refine (Watch.chain hb hdiff hflat (D := fun y => x ∈ t'.rawParents y) .added h hw hw' h1 h1' hroot (by rw [ha.has]; simp)
    (fun y hy => by rw [ha.has, hy]; simp) ?_ ?_ ?_ ?_ (fun _ h => h.elim) (Or.inr (Or.inr hx)) ?_).mono ?_
  · intro y hy
    have hyx : y ≠ x := by rintro rfl; exact hy (Or.inl rfl)
    refine (accepts_below hb hw' hw (by rw [ha.has]; simp [hyx]) fun z hz => ⟨rfl, fun c => ?_⟩).symm
    have hzx : z ≠ x := by rintro rfl; exact hy hz
    by_cases hc : c = x
    · subst hc
      rw [hxs]
      exact iff_of_false (fun hm => hy (reachEq_cons hm hz)) (by simp)
    · exact ha.parents c z hc hzx
  · intro y hyx hD
    refine eq_of_mem_iff_le_one (h1' y) (h1 y) fun q => ?_
    by_cases hq : q = x
    · subst hq; exact iff_of_false hD (hxp y)
    · exact ha.parents y q hyx hq
  · intro y hy _ hr
    exact hw'.acyclic y (reach_of_head hy hr)
  · intro y hy _
    exact Or.inl (eq_singleton_of_le_one (h1' y) hy)
  · intro v hv
    obtain ⟨r, -, hvi⟩ := hv.inv
    refine orders_of_super (env_ok hdiff b hw' d ft0 hroot) (v := v) hvi.rootPars (by rw [env_par hw']; exact hw'.acyclic)
      t'.nodes.keys (env_keys hw') ?_
    intro y q hq
    rcases hv.parSub (fun _ h => h) hq with e | e
    · exact Or.inl e
    · rw [env_par hw] at e
      rw [env_par hw']
      have hyx : y ≠ x := by rintro rfl; rw [hxs] at e; cases e
      exact Or.inr ((ha.parents y q hyx (by rintro rfl; exact hxp y e)).2 e)
  · rintro y ⟨a1, -, a2 | a2⟩
    · rw [hx] at a2; cases a2
    · exact a2 a1

/-- The data of a node change. -/
theorem change_below (hb : BelowBank b ft0.applied) (hdiff : SetDiff diff) (hflat : ft0.flat = false) {t : Tree} (hw : WF t) (h1 : OneUp t)
    {d' : Id → V} (hroot : t.has ft0.root = false) {x : Id} (hx : t.has x = true) (hd : ∀ y, y ≠ x → d y = d' y)
    (h : Fit (FT.env diff b t d ft0) (fun _ => False) ft0.view) (ev : Ev) :
    ∃ v', FT.react diff b d' ⟨t, ev, x⟩ ft0 = .ok { ft0 with view := v' } ∧ Fit (FT.env diff b t d' ft0) (fun _ => False) v' := by
  have hxr : x ≠ ft0.root := by rintro rfl; rw [hroot] at hx; cases hx
  obtain ⟨r, ho, -⟩ := h.inv
  obtain ⟨v', a1, a2⟩ := Fit.chain (E := FT.env diff b t d ft0) (E' := FT.env diff b t d' ft0) (env_forest hb hw hflat h1)
    (env_forest hb hw hflat h1) (env_ok hdiff b hw d ft0 hroot) (env_ok hdiff b hw d' ft0 hroot) (D := fun _ => False) h rfl hxr
    (by
      intro y hy
      rw [env_par hw] at hy
      exact accepts_below hb hw hw rfl fun z hz => ⟨hd z (by rintro rfl; exact hy hz), fun c => Iff.rfl⟩)
    (fun y _ _ => rfl) (fun _ h => h.elim) (fun _ h => h.elim) (fun _ h => h.elim) (Or.inr (Or.inl ⟨rfl, fun h => h⟩))
    ⟨r, ho⟩ t.nodes.keys (env_keys hw) (f := 2 * (t.nodes.keys.length + ft0.view.nodes.entries.length) + 8) (by omega)
  exact ⟨v', react_eq (n := ⟨t, ev, x⟩) (ft := ft0) a1, a2.mono fun _ h => h.1⟩

end Larch
