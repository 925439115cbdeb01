import Verif.Proofs.FewerEdits

/-!
# Views with filters that look at the children of a node: nodes removed
-/

namespace Larch

open Graph Spec

variable {V : Type} {E : VEnv} {diff : List Id → List Id → List Id} {b : Bank (Id → V)} {d : Id → V} {s0 : St} {ft0 : FT} {X : Id → Prop}

theorem Watch.near {s : St} {x : Id} (h : Watch diff b d s0 ft0 (fun y => y = x) s) :
    Sees diff b d s0 ft0 (Near (FT.env diff b s.t d ft0) x) s :=
  h.sees.mono rfl h.rootFree fun _ h3 => ⟨near_inv h3.inv, fun y _ => h3.all y, h3.settled⟩

/-- A node that is related to nobody is deleted. -/
theorem few_deleted (hb : FewBank b ft0.applied) (hdiff : SetDiff diff) {s : St} {x : Id}
    (h : Sees diff b d s0 ft0 (Near (FT.env diff b s.t d ft0) x) s) (hw : WF s.t) (hx : s.t.has x = true)
    (hnp : s.t.rawParents x = []) (hno : ∀ c, x ∉ s.t.rawParents c) :
    Watch diff b d s0 ft0 (fun _ => False) ((⟨dropNode s.t x, s.log⟩ : St).emit .deleted x) := by
  have hw' : WF (dropNode s.t x) := hw.dropNode fun c _ => hno c
  refine h.deletedD hdiff (fun y hy => accepts_kids hb hw hw' (by rw [dropNode_has]; simp [hy]) rfl fun z => ?_) hw hx hno
  rw [hw.getParents_eq, hw'.getParents_eq, dropNode_rawParents]
  split
  · rename_i e; rw [e, hnp]
  · rfl

/-- Breaking the relation of a node to its parent. -/
theorem few_parents (hb : FewBank b ft0.applied) (hdiff : SetDiff diff) {s s' : St} {x : Id} (h : Watch diff b d s0 ft0 X s) (hw : WF s.t)
    (hX : ∀ y, X y → y ∈ s.t.rawParents x) (h1 : (s.t.rawParents x).length ≤ 1)
    (hs : removeParentsLoop (s.t.rawParents x).length 0 s x = .ok s') :
    Watch diff b d s0 ft0 (fun y => y = x) s' ∧ s'.t.rawParents x = [] := by
  cases hl : s.t.rawParents x with
  | nil =>
    rw [hl] at hs
    simp only [List.length_nil, removeParentsLoop] at hs
    cases hs
    exact ⟨h.mono fun y hy => (by have := hX y hy; rw [hl] at this; cases this), hl⟩
  | cons p l =>
    have : l = [] := by
      rw [hl] at h1; simp at h1; exact h1
    subst this
    rw [hl] at hs
    simp only [List.length_singleton, removeParentsLoop, hl, List.getElem?_cons_zero] at hs
    have hm : p ∈ s.t.rawParents x := by rw [hl]; simp
    obtain ⟨t', ht', e⟩ := Tree.destroy_spec (hw.has_parent hm) (Tree.has_of_mem_rawParents hm)
    rw [ht'] at hs
    cases hs
    have hw' := hw.destroy ht'
    refine ⟨?_, ?_⟩
    · have c2 := h.cutFew hb hdiff hw hw' e.has (c := x) (p := p)
        (fun y hy => by rw [e.parents, if_neg hy]) (fun q => by
          rw [e.parents, if_pos rfl, (hw.ndP x).mem_erase_iff]; tauto) (hw.has_parent hm)
      refine c2.mono fun y hy => ?_
      rcases hy.1 with h2 | h2
      · have := hX y h2
        rw [hl] at this
        exact absurd (List.mem_singleton.1 this) hy.2
      · exact h2
    · show t'.rawParents x = []
      rw [e.parents, if_pos rfl, hl]; simp

/-! ### The children of the removed node become orphans -/

theorem Fit.arrivingAt (hE : EB E) {v : View} {x : Id} (h : Fit E (fun y => y = x) v) : Arriving E [x] v := by
  refine ⟨h.inv, fun y _ hd => h.all y hd, fun y hy hd => ⟨fun _ => true, h.settled y hd (by simpa using hy)⟩,
    fun y hy hd hf p hp _ hdp => ?_⟩
  rw [h.settled y hd (by simpa using hy)]
  exact mem_npOf_of hf (hE.dispHas y hd) hp rfl hdp

theorem Arriving.near {v : View} {x : Id} (h : Arriving E [x] v) (hE : EB E) (hno : ∀ c, x ∉ E.par c) : Near E x v := by
  refine ⟨near_inv h.inv, fun y hy hd => h.has y (by simpa using hy) hd, fun y hd hy p => ?_⟩
  obtain ⟨W, hW⟩ := h.snap y (by simpa using hy) hd
  have hne : ∀ q ∈ E.par y, q ≠ E.root := by
    rintro q hq rfl
    have := (hE.parHas _ _ hq).1
    rw [hE.rootHas] at this; cases this
  rw [hW]
  by_cases hft : E.flat = true
  · rw [npAll, npOf_flat hft, npOf_flat hft]
  have hfl : E.flat = false := by simpa using hft
  have hall : ∀ q ∈ E.par y, E.disp q = true → W q = true := by
    intro q hq hdq
    have := h.par y (by simpa using hy) hd hfl q hq (by rw [List.mem_singleton]; rintro rfl; exact hno y hq) hdq
    rw [hW] at this
    rcases mem_npOf this with h | h
    · exact absurd h (hne q hq)
    · exact h.2.2.1
  rw [npOf_all y hall]

/-- The tree changes at the nodes of `l'` only, and no node is accepted less than before. -/
theorem Arriving.move {E' : VEnv} {l l' : List Id} {v : View} (h : Arriving E l v) (hl : ∀ y ∈ l, y ∈ l') (hr : E'.root = E.root)
    (hh : ∀ y, E'.has y = E.has y) (hf : E'.flat = E.flat) (hord : ∀ y, ∀ q ∈ E'.par y, q ∈ E.par y)
    (hp : ∀ y, y ∉ l' → ∀ q, q ∈ E'.par y ↔ q ∈ E.par y) (hmore : ∀ y, E.disp y = true → E'.disp y = true)
    (heq : ∀ y, y ∉ l' → E'.disp y = E.disp y) : Arriving E' l' v := by
  obtain ⟨r, ho, hv⟩ := h.inv
  refine ⟨⟨r, ⟨fun x q hq => ho.1 x q (hord x q hq), ho.2⟩, hv.congrE hr fun y hy hn => hmore y (hv.sub y hy hn)⟩,
    fun y hy hd => h.has y (fun hc => hy (hl y hc)) (by rw [← heq y hy]; exact hd), fun y hy hd => ?_,
    fun y hy hd hfl p hpy hpl hdp => h.par y (fun hc => hy (hl y hc)) (by rw [← heq y hy]; exact hd) (by rw [← hf]; exact hfl) p
      ((hp y hy p).1 hpy) (fun hc => hpl (hl p hc)) (by rw [← heq p hpl]; exact hdp)⟩
  obtain ⟨W, hW⟩ := h.snap y (fun hc => hy (hl y hc)) (by rw [← heq y hy]; exact hd)
  refine ⟨fun q => W q && E.disp q, fun p => ?_⟩
  have hca : ∀ q, q ∈ npCand E' (fun q => W q && E.disp q) y ↔ q ∈ npCand E W y := by
    intro q
    rw [mem_npCand, mem_npCand, hf, hh, hp y hy, Bool.and_eq_true]
    constructor
    · rintro ⟨a1, a2, ⟨a3, a4⟩, -⟩; exact ⟨a1, a2, a3, a4⟩
    · rintro ⟨a1, a2, a3, a4⟩; exact ⟨a1, a2, ⟨a3, a4⟩, hmore q a4⟩
  have hnil : npCand E' (fun q => W q && E.disp q) y = [] ↔ npCand E W y = [] := by
    rw [List.eq_nil_iff_forall_not_mem, List.eq_nil_iff_forall_not_mem]
    exact forall_congr' fun q => by rw [hca]
  rw [hW]
  unfold npOf
  by_cases hn : npCand E W y = []
  · rw [if_pos hn, if_pos (hnil.2 hn), hr]
  · rw [if_neg hn, if_neg (fun hc => hn (hnil.1 hc)), hca]

theorem Watch.arriving {s : St} {x : Id} (h : Watch diff b d s0 ft0 (fun y => y = x) s) (hdiff : SetDiff diff) (hw : WF s.t) :
    Sees diff b d s0 ft0 (Arriving (FT.env diff b s.t d ft0) [x]) s :=
  h.sees.mono rfl h.rootFree fun _ h3 => h3.arrivingAt (env_ok hdiff b hw d ft0 h.rootFree)

theorem few_orphans (hb : FewBank b ft0.applied) (hdiff : SetDiff diff) (x : Id) : ∀ (l : List Id) (s s' : St), WF s.t → s.t.has x = true →
    l.Nodup → (∀ c ∈ l, x ∈ s.t.rawParents c) → Sees diff b d s0 ft0 (Arriving (FT.env diff b s.t d ft0) [x]) s →
    s.t.rawParents x = [] →
    Res.forEach (fun c s => if false = true then removeNode 0 s c true else orphanChild x c s) l s = .ok s' →
    Sees diff b d s0 ft0 (Arriving (FT.env diff b s'.t d ft0) [x]) s' ∧ s'.t.rawParents x = [] := by
  intro l
  induction l with
  | nil => intro s s' _ _ _ _ h hn he; cases he; exact ⟨h, hn⟩
  | cons c l ih =>
    intro s s' h hx hnd hl hwa hn he
    have hxc := hl c (by simp)
    have hc := Tree.has_of_mem_rawParents hxc
    obtain ⟨t', ht', e⟩ := Tree.destroy_spec hx hc
    have hw := h.destroy ht'
    rw [List.nodup_cons] at hnd
    have hcr : c ≠ ft0.root := by rintro rfl; have := hwa.rootFree; rw [this] at hc; cases hc
    have hroot : t'.has ft0.root = false := by rw [e.has]; exact hwa.rootFree
    have hpar : ∀ y q, q ∈ t'.rawParents y ↔ q ∈ s.t.rawParents y ∧ ¬ (q = x ∧ y = c) := by
      intro y q
      rw [e.parents]
      split
      · rename_i hy; subst hy; rw [(h.ndP y).mem_erase_iff]; tauto
      · rename_i hy; simp [hy]
    have hdo : ∀ y, y ≠ x → (FT.env diff b t' d ft0).disp y = (FT.env diff b s.t d ft0).disp y := by
      intro y hy
      refine accepts_kids hb h hw (e.has y) rfl fun z => ?_
      rw [h.getParents_eq, hw.getParents_eq, hpar]; simp [hy]
    have hmore : ∀ y, (FT.env diff b s.t d ft0).disp y = true → (FT.env diff b t' d ft0).disp y = true := by
      intro y
      refine accepts_fewer hb hw h (e.has y).symm rfl fun z hz => ?_
      rw [hw.getParents_eq, hpar] at hz
      rw [h.getParents_eq]; exact hz.1
    have c1 : Sees diff b d s0 ft0 (Arriving (FT.env diff b t' d ft0) [c, x]) ⟨t', s.log⟩ := by
      refine hwa.mono rfl hroot fun v hv => hv.move (by simp) rfl e.has rfl ?_ ?_ hmore ?_
      · intro y q hq
        rw [env_par hw] at hq
        rw [env_par h]; exact ((hpar y q).1 hq).1
      · intro y hy q
        rw [env_par hw, env_par h, hpar]
        simp only [List.mem_cons, List.not_mem_nil, or_false, not_or] at hy
        simp [hy.1]
      · intro y hy
        exact hdo y (by rintro rfl; exact hy (by simp))
    have c2 : Sees diff b d s0 ft0 (Arriving (FT.env diff b t' d ft0) [x]) ((⟨t', s.log⟩ : St).emit .modified c) := by
      refine c1.say hw .modified (by show t'.has c = true; rw [e.has]; exact hc) fun v hv => ?_
      obtain ⟨r, ho, hvi⟩ := hv.inv
      exact ⟨fun y hy hyr _ => accepts_has (hvi.sub y hy hyr), ⟨_, r, rfl, by have := ho.1; rw [env_par hw] at this; exact this, hvi⟩,
        hv.step (env_ok hdiff b hw d ft0 hroot) t'.nodes.keys (env_keys hw) (le_refl _) hcr⟩
    generalize hs1 : (if t'.rawParents c = [] then
        (({ s with t := t' } : St).emit .modified c).mapTree (fun t => t.updRoot (fun l => l ++ [c]))
        else ({ s with t := t' } : St).emit .modified c) = s1
    have ho : orphanChild x c s = .ok s1 := by
      unfold orphanChild; rw [ht']; dsimp only; rw [← hs1]; rfl
    have hs1t : s1.t = if t'.rawParents c = [] then t'.updRoot (fun l => l ++ [c]) else t' := by
      rw [← hs1]; split <;> rfl
    have hs1l : s1.log = (({ s with t := t' } : St).emit .modified c).log := by
      rw [← hs1]; split <;> rfl
    have hn1 : s1.t.nodes = t'.nodes := by rw [hs1t]; split <;> rfl
    have hp1 : ∀ y, s1.t.rawParents y = t'.rawParents y := by
      intro y; unfold Tree.rawParents Tree.node?; rw [hn1]
    have hh1 : ∀ y, s1.t.has y = t'.has y := by
      intro y; unfold Tree.has; rw [hn1]
    have hw1 : WF s1.t := by
      rw [hs1t]; split
      · exact hw.updRoot _
      · exact hw
    unfold Res.forEach at he
    rw [if_neg (by simp), ho] at he
    refine ih s1 s' hw1 (by rw [hh1, e.has]; exact hx) hnd.2 ?_ ?_ (by
      rw [hp1, e.parents]
      split
      · rw [show s.t.rawParents c = s.t.rawParents x by rename_i hy; rw [hy], hn]; rfl
      · exact hn) he
    · intro y hy
      rw [hp1, e.parents, if_neg (by rintro rfl; exact hnd.1 hy)]
      exact hl y (by simp [hy])
    · have hde : ∀ y, (FT.env diff b s1.t d ft0).disp y = (FT.env diff b t' d ft0).disp y := fun y =>
        accepts_kids hb hw hw1 (hh1 y) rfl fun z => by rw [hw.getParents_eq, hw1.getParents_eq, hp1]
      refine c2.mono hs1l (by rw [hh1]; exact hroot) fun v hv => hv.move (fun _ h => h) rfl hh1 rfl ?_ ?_ ?_ ?_
      · intro y q hq
        rw [env_par hw1, hp1] at hq
        rw [env_par hw]; exact hq
      · intro y _ q
        rw [env_par hw1, hp1, env_par hw]
      · intro y hy; rw [hde]; exact hy
      · intro y _; exact hde y

/-! ### Removing a node -/

theorem few_removeOrphan (hb : FewBank b ft0.applied) (hdiff : SetDiff diff) {s : St} (h : Good s.t) {x : Id} (hx : s.t.has x = true)
    (hch : ∀ c ∈ s.t.rawChildren x, s.t.has c = true) (h1 : (s.t.rawParents x).length ≤ 1) (f : Nat)
    (hwa : Watch diff b d s0 ft0 (fun _ => False) s) :
    Watch diff b d s0 ft0 (fun _ => False) (removeNode (f + 1) s x false).state := by
  have hxn : x ≠ .none := by rintro rfl; have := (h.wf.ids _ hx).1; cases this
  unfold removeNode
  rw [if_neg (by simp [hx, hxn])]
  dsimp only
  generalize hs1 : (s.mapTree fun t => { t with pending := dropPendingOf t.pending x }) = s1
  have ht1 : s1.t = { s.t with pending := dropPendingOf s.t.pending x } := by rw [← hs1]; rfl
  have hw1 : WF s1.t := by rw [ht1]; exact h.wf.pending _
  have wa1 : Watch diff b d s0 ft0 (fun _ => False) s1 :=
    hwa.sameFew hb h.wf hw1 (by rw [← hs1]; rfl) (fun y => by rw [ht1]; rfl) (by rw [ht1]; rfl)
  obtain ⟨s2, e2, ef2⟩ := removeParentsLoop_effect (s1.t.rawParents x).length 0 s1 x hw1
  obtain ⟨wa2, nop2⟩ := few_parents hb hdiff wa1 hw1 (fun _ h => h.elim) (by rw [ht1]; exact h1) e2
  rw [e2, Res.andThen_ok]
  have has2 : ∀ y, s2.t.has y = s.t.has y := by intro y; rw [ef2.same.has, ht1]; rfl
  have selfp : x ∉ s.t.rawParents x := fun hm => h.wf.acyclic x (Reach.single hm)
  have selfc : x ∉ s.t.rawChildren x := fun hm => selfp (h.wf.down x x hm hx)
  have ch2 : s2.t.rawChildren x = s.t.rawChildren x := by
    rw [ef2.others x (by rw [ht1]; exact selfp), ht1]; rfl
  have par2 : ∀ y, y ≠ x → s2.t.rawParents y = s.t.rawParents y := by
    intro y hy; rw [ef2.parents y hy, ht1]; rfl
  have hcx : ∀ c ∈ s.t.rawChildren x, c ≠ x := by rintro c hc rfl; exact selfc hc
  have hl : ∀ c ∈ s2.t.rawChildren x, x ∈ s2.t.rawParents c := by
    intro c hc
    rw [ch2] at hc
    rw [par2 c (hcx c hc)]
    exact h.wf.down x c hc (hch c hc)
  obtain ⟨s3, e3, ef3⟩ := orphanLoop x (s2.t.rawChildren x) s2 ef2.wf (by rw [has2]; exact hx) (ef2.wf.ndC x) hl
  obtain ⟨wa3, nop3⟩ := few_orphans hb hdiff x (s2.t.rawChildren x) s2 s3 ef2.wf (by rw [has2]; exact hx) (ef2.wf.ndC x) hl
    (wa2.arriving hdiff ef2.wf) nop2 e3
  rw [orphanLoop_body, e3, Res.andThen_ok]
  have has3 : ∀ y, s3.t.has y = s.t.has y := by intro y; rw [ef3.same.has, has2]
  rw [if_pos (by rw [has3]; exact hx)]
  have hno : ∀ c, x ∉ s3.t.rawParents c := by
    intro c hc
    have hc1 := ef3.wf.up x c hc
    rw [ef3.childrenX] at hc1
    exact hc1.2 hc1.1
  exact few_deleted hb hdiff (wa3.mono rfl wa3.rootFree fun v hv => hv.near (env_ok hdiff b ef3.wf d ft0 wa3.rootFree) fun c => by
    rw [env_par ef3.wf]; exact hno c) ef3.wf (by rw [has3]; exact hx) nop3 hno

theorem few_removeRec (hb : FewBank b ft0.applied) (hdiff : SetDiff diff) (ht : Id → Nat) (f : Nat) : ∀ (X : Id → Prop) (s : St) (x : Id), WF s.t →
    (∀ y c, c ∈ s.t.rawChildren y → ht c < ht y) → ht x < f → s.t.has x = true →
    (∀ y, ReachEq s.t.rawChildren x y → (s.t.rawParents y).length ≤ 1) → (∀ y, X y → y ∈ s.t.rawParents x) →
    Watch diff b d s0 ft0 X s → Watch diff b d s0 ft0 (fun _ => False) (removeNode f s x true).state := by
  induction f with
  | zero => intro _ s x _ _ h; omega
  | succ f ih =>
    intro X s x h hh hf hx hone hX hwa
    have hxn : x ≠ .none := by rintro rfl; have := (h.ids _ hx).1; cases this
    unfold removeNode
    rw [if_neg (by simp [hx, hxn])]
    dsimp only
    generalize hs1 : (s.mapTree fun t => { t with pending := dropPendingOf t.pending x }) = s1
    have ht1 : s1.t = { s.t with pending := dropPendingOf s.t.pending x } := by rw [← hs1]; rfl
    have hw1 : WF s1.t := by rw [ht1]; exact h.pending _
    have wa1 : Watch diff b d s0 ft0 X s1 :=
      hwa.sameFew hb h hw1 (by rw [← hs1]; rfl) (fun y => by rw [ht1]; rfl) (by rw [ht1]; rfl)
    obtain ⟨s2, e2, ef2⟩ := removeParentsLoop_effect (s1.t.rawParents x).length 0 s1 x hw1
    obtain ⟨wa2, nop2⟩ := few_parents hb hdiff wa1 hw1 (by rw [ht1]; exact hX) (by rw [ht1]; exact hone x (Or.inl rfl)) e2
    rw [e2, Res.andThen_ok]
    have sub2 : ∀ y c, c ∈ s2.t.rawChildren y → c ∈ s.t.rawChildren y := by
      intro y c hc
      have := (ef2.childrenSub y).subset hc
      rw [ht1] at this; exact this
    have one2 : ∀ y, ReachEq s2.t.rawChildren x y → (s2.t.rawParents y).length ≤ 1 := by
      intro y hy
      have h3 := hone y (hy.mono sub2)
      by_cases e : y = x
      · subst e
        have := ef2.parentsX.length_le
        rw [ht1] at this
        exact le_trans this h3
      · rw [ef2.parents y e, ht1]; exact h3
    have loop : ∀ (l : List Id) (s2 : St), WF s2.t → (∀ y c, c ∈ s2.t.rawChildren y → ht c < ht y) →
        (∀ c ∈ l, ht c < f) → (∀ c ∈ l, s2.t.has c = true → x ∈ s2.t.rawParents c) →
        (∀ c ∈ l, ∀ y, ReachEq s2.t.rawChildren c y → (s2.t.rawParents y).length ≤ 1) →
        Watch diff b d s0 ft0 (fun y => y = x) s2 →
        ∃ s3, Res.forEach (fun c s => if true = true then removeNode f s c true else orphanChild x c s) l s2 = .ok s3 ∧
          Watch diff b d s0 ft0 (fun y => y = x) s3 ∧ RemEffect s2.t s3.t ∧ (∀ c ∈ l, s3.t.has c = false) ∧
          ∀ y, s2.t.has y = true → s3.t.has y = false → ∃ c ∈ l, ReachEq s2.t.rawChildren c y := by
      intro l
      induction l with
      | nil =>
        intro s2 hw _ _ _ _ hwa
        refine ⟨s2, rfl, hwa, RemEffect.refl hw, by simp, ?_⟩
        intro y h1 h2; rw [h1] at h2; cases h2
      | cons c l ihl =>
        intro s2 hw hd hl hlp hlo hwa
        obtain ⟨s3, e3, ef3, g3, r3, -⟩ := removeNode_rec ht f s2 c hw hd (hl c (by simp))
        have wa3 : Watch diff b d s0 ft0 (fun y => y = x) s3 := by
          by_cases hc : s2.t.has c = true
          · have := ih (fun y => y = x) s2 c hw hd (hl c (by simp)) hc (hlo c (by simp))
              (by rintro y rfl; exact hlp c (by simp) hc) hwa
            rw [e3] at this
            exact this.mono fun _ h => h.elim
          · have : s3 = s2 := by
              obtain ⟨k, rfl⟩ : ∃ k, f = k + 1 := ⟨f - 1, by have := hl c (by simp); omega⟩
              unfold removeNode at e3; rw [if_pos (by simp [hc])] at e3; cases e3; rfl
            rw [this]; exact hwa
        obtain ⟨s4, e4, wa4, ef4, g4, r4⟩ := ihl s3 ef3.wf
          (fun y d hd' => hd y d ((ef3.children y).subset hd')) (fun d hd' => hl d (by simp [hd']))
          (fun d hd' hdh => by rw [ef3.parents d hdh]; exact hlp d (by simp [hd']) (ef3.hasSub d hdh))
          (fun d hd' y hy => by
            by_cases hyh : s3.t.has y = true
            · rw [ef3.parents y hyh]; exact hlo d (by simp [hd']) y (ef3.reach hy)
            · have : s3.t.rawParents y = [] := by
                by_contra hc
                obtain ⟨q, hq⟩ := List.exists_mem_of_ne_nil _ hc
                exact hyh (Tree.has_of_mem_rawParents hq)
              rw [this]; simp) wa3
        refine ⟨s4, ?_, wa4, ef3.trans ef4, ?_, ?_⟩
        · unfold Res.forEach; rw [if_pos rfl, e3]; exact e4
        · intro d hd'
          rcases List.mem_cons.1 hd' with rfl | hd'
          · by_contra hc; have := ef4.hasSub d (by simpa using hc); rw [g3] at this; cases this
          · exact g4 d hd'
        · intro y h1 h2
          by_cases h3 : s3.t.has y = true
          · obtain ⟨d, hd', hr⟩ := r4 y h3 h2
            exact ⟨d, by simp [hd'], ef3.reach hr⟩
          · exact ⟨c, by simp, r3 y h1 (by simpa using h3)⟩
    obtain ⟨s3, e3, wa3, ef3, g3, r3⟩ := loop (s2.t.rawChildren x) s2 ef2.wf
      (fun y c hc => hh y c (sub2 y c hc))
      (fun c hc => by have := hh x c (sub2 x c hc); omega)
      (fun c hc hch => ef2.wf.down x c hc hch)
      (fun c hc y hy => one2 y (ReachEq.head hc hy)) wa2
    rw [e3, Res.andThen_ok]
    have hx3 : s3.t.has x = true := by
      by_contra hc
      obtain ⟨c, hc1, hr⟩ := r3 x (by rw [ef2.same.has, ht1]; exact hx) (by simpa using hc)
      have hac : ∀ z w, ReachEq s2.t.rawChildren z w → ht w ≤ ht z := by
        rintro z w (rfl | hr)
        · exact le_refl _
        · induction hr with
          | single hm => exact le_of_lt (hh _ _ (sub2 _ _ hm))
          | tail _ hm ih => exact le_trans (le_of_lt (hh _ _ (sub2 _ _ hm))) ih
      have h1 := hac c x hr
      have h2 := hh x c (sub2 x c hc1)
      omega
    rw [if_pos hx3]
    refine few_deleted hb hdiff wa3.near ef3.wf hx3 (by rw [ef3.parents x hx3]; exact nop2) ?_
    intro c hc
    have hch := Tree.has_of_mem_rawParents hc
    have := (ef3.children x).subset (ef3.wf.up x c hc)
    rw [g3 c this] at hch; cases hch

theorem few_removeRecursive (hb : FewBank b ft0.applied) (hdiff : SetDiff diff) {s : St} (h : WF s.t) {x : Id} (hx : s.t.has x = true)
    (hone : ∀ y, ReachEq s.t.rawChildren x y → (s.t.rawParents y).length ≤ 1)
    (hwa : Watch diff b d s0 ft0 (fun _ => False) s) :
    Watch diff b d s0 ft0 (fun _ => False) (removeNode (removeFuel s.t) s x true).state := by
  obtain ⟨ht, hle, hlt⟩ := exists_height s.t.rawChildren s.t.nodes.keys s.t.rawChildren_keys h.acyclicC
  exact few_removeRec hb hdiff ht (removeFuel s.t) (fun _ => False) s x h hlt (by
    have := hle x; rw [Dict.keys_length] at this; unfold removeFuel; omega) hx hone (fun _ h => h.elim) hwa

end Larch
