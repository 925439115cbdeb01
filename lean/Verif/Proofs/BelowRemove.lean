import Verif.Proofs.BelowEdits
import Verif.Proofs.ChainOrphan
import Verif.Proofs.FewerRemove

/-!
# Views with filters that look at everything below a node: nodes removed
-/

namespace Larch

open Graph Spec

variable {V : Type} {E : VEnv} {diff : List Id → List Id → List Id} {b : Bank (Id → V)} {d : Id → V} {s0 : St} {ft0 : FT} {X : Id → Prop}

/-- A node that is related to nobody is deleted. -/
theorem below_deleted (hb : BelowBank b ft0.applied) (hdiff : SetDiff diff) {s : St} {x : Id}
    (h : Sees diff b d s0 ft0 (Near (FT.env diff b s.t d ft0) x) s) (hw : WF s.t) (hx : s.t.has x = true)
    (hnp : s.t.rawParents x = []) (hno : ∀ c, x ∉ s.t.rawParents c) :
    Watch diff b d s0 ft0 (fun _ => False) ((⟨dropNode s.t x, s.log⟩ : St).emit .deleted x) := by
  have hw' : WF (dropNode s.t x) := hw.dropNode fun c _ => hno c
  refine h.deletedD hdiff (fun y hy => accepts_below hb hw hw' (by rw [dropNode_has]; simp [hy]) fun z _ => ⟨rfl, fun c => ?_⟩) hw hx hno
  rw [dropNode_rawParents]
  split
  · rename_i e; rw [e, hnp]
  · rfl

/-- In a forest everything shown has one parent in the view. -/
theorem Fit.oneUp (F : ForestE E) (hE : EB E) {v : View} (h : Fit E (fun _ => False) v) : ∀ y, (v.pars y).length ≤ 1 := by
  obtain ⟨r, -, hv⟩ := h.inv
  intro y
  by_cases hyr : y = E.root
  · rw [hyr, hv.rootPars]; simp
  cases hy : v.has y with
  | false =>
    have : v.pars y = [] := by
      rw [List.eq_nil_iff_forall_not_mem]
      intro q hq
      rw [View.has_of_par hq] at hy; cases hy
    rw [this]; simp
  | true =>
    have hd := hv.sub y hy hyr
    have hp := (F.settled_iff (hE.dispHas y hd) hd).1 (h.settled y hd fun h => h)
    have h1 := F.one y
    have hnd := hv.ndP y
    cases hl : E.par y with
    | nil =>
      rw [eq_singleton_of hnd (q := E.root) fun p => by rw [hp p, hl]; simp]; simp
    | cons q l =>
      rw [hl] at h1
      have : l = [] := by simpa using h1
      subst this
      rw [eq_singleton_of hnd (q := q) fun p => by rw [hp p, hl]; simp]; simp

/-- Breaking the relation of a node to its parent. -/
theorem below_parents (hb : BelowBank b ft0.applied) (hdiff : SetDiff diff) (hflat : ft0.flat = false) {s s' : St} {x : Id}
    (h : Watch diff b d s0 ft0 X s) (hw : WF s.t) (hX : ∀ y, X y → y ∈ s.t.rawParents x ∧ s.t.rawParents y = []) (h1 : OneUp s.t)
    (hs : removeParentsLoop (s.t.rawParents x).length 0 s x = .ok s') :
    Watch diff b d s0 ft0 (fun y => y = x) s' ∧ s'.t.rawParents x = [] ∧
      ((∀ y, ¬ X y) → Sees diff b d s0 ft0 (fun v => Fit (FT.env diff b s'.t d ft0) (fun y => y = x) v ∧ ∀ y, (v.pars y).length ≤ 1) s') := by
  have F := env_forest (diff := diff) (d := d) hb hw hflat h1
  have hB := env_ok hdiff b hw d ft0 h.rootFree
  cases hl : s.t.rawParents x with
  | nil =>
    rw [hl] at hs
    simp only [List.length_nil, removeParentsLoop] at hs
    cases hs
    refine ⟨h.mono fun y hy => (by have := (hX y hy).1; rw [hl] at this; cases this), hl, fun hn => ?_⟩
    refine h.sees.mono rfl h.rootFree fun v hv => ⟨hv.mono fun y hy => (hn y hy).elim, ?_⟩
    exact (hv.mono fun y hy => hn y hy).oneUp F hB
  | cons p l =>
    have : l = [] := by
      have := h1 x
      rw [hl] at this; simpa using this
    subst this
    rw [hl] at hs
    simp only [List.length_singleton, removeParentsLoop, hl, List.getElem?_cons_zero] at hs
    have hm : p ∈ s.t.rawParents x := by rw [hl]; simp
    obtain ⟨t', ht', e⟩ := Tree.destroy_spec (hw.has_parent hm) (Tree.has_of_mem_rawParents hm)
    rw [ht'] at hs
    cases hs
    have hw' := hw.destroy ht'
    have hXp : ∀ y, X y → y = p ∧ s.t.rawParents p = [] := by
      intro y hy
      obtain ⟨a1, a2⟩ := hX y hy
      rw [hl, List.mem_singleton] at a1
      subst a1; exact ⟨rfl, a2⟩
    have hn : t'.rawParents x = [] := by rw [e.parents, if_pos rfl, hl]; simp
    have c1 := Sees.cutBelow hb hdiff hflat (t' := t') (p := p) (c := x) h.sees (fun _ h => h) hw hw' h1 e.has
      (fun y hy => by rw [e.parents, if_neg hy]) (by rw [e.parents, if_pos rfl]) (hw.has_parent hm) hXp hm
    refine ⟨(c1.mono rfl c1.rootFree fun _ h => h.1).watch, hn, fun hno => c1.mono rfl c1.rootFree fun v' hv => ⟨hv.1, ?_⟩⟩
    obtain ⟨-, v, f, a1, a2⟩ := hv
    refine update_one hdiff ?_ a2 ((a1.mono fun y hy => hno y hy).oneUp F hB)
    intro y
    rw [env_par hw', e.parents]
    split
    · exact le_trans List.length_erase_le (h1 _)
    · exact h1 y

theorem Orph.congr {E' : VEnv} {x : Id} {v : View} (h : Orph E x v) (hr : E'.root = E.root) (hp : ∀ y, E'.par y = E.par y)
    (hd : ∀ y, E'.disp y = E.disp y) : Orph E' x v := by
  obtain ⟨r, ho, hv⟩ := h.inv
  refine ⟨⟨r, ⟨fun y p hq => ho.1 y p (by rw [← hp]; exact hq), ho.2⟩, hv.congrE hr fun y hy hn => ?_⟩,
    fun y hyx hdy => h.all y hyx (by rw [← hd]; exact hdy), fun y hyx hdy => (h.settled y hyx (by rw [← hd]; exact hdy)).congr hr (hp y),
    fun y hq hdy => h.kids y (by rw [← hp]; exact hq) (by rw [← hd]; exact hdy), h.one⟩
  have := hv.sub y hy hn
  unfold VEnv.showing at this ⊢
  dsimp only at this ⊢
  rw [hd]; exact this

theorem below_orphans (hb : BelowBank b ft0.applied) (hdiff : SetDiff diff) (hflat : ft0.flat = false) (x : Id) :
    ∀ (l : List Id) (s s' : St), WF s.t → OneUp s.t → s.t.has x = true →
    l.Nodup → (∀ c ∈ l, x ∈ s.t.rawParents c) → Sees diff b d s0 ft0 (Orph (FT.env diff b s.t d ft0) x) s →
    s.t.rawParents x = [] →
    Res.forEach (fun c s => if false = true then removeNode 0 s c true else orphanChild x c s) l s = .ok s' →
    Sees diff b d s0 ft0 (Orph (FT.env diff b s'.t d ft0) x) s' ∧ OneUp s'.t ∧ s'.t.rawParents x = [] := by
  intro l
  induction l with
  | nil => intro s s' _ h1 _ _ _ h hn he; cases he; exact ⟨h, h1, hn⟩
  | cons c l ih =>
    intro s s' h h1 hx hnd hl hwa hn he
    have hxc := hl c (by simp)
    have hc := Tree.has_of_mem_rawParents hxc
    obtain ⟨t', ht', e⟩ := Tree.destroy_spec hx hc
    have hw := h.destroy ht'
    rw [List.nodup_cons] at hnd
    have hxr : x ≠ ft0.root := by rintro rfl; have := hwa.rootFree; rw [this] at hx; cases hx
    have hcx : c ≠ x := by rintro rfl; rw [hn] at hxc; cases hxc
    have hroot : t'.has ft0.root = false := by rw [e.has]; exact hwa.rootFree
    have e1 := eq_singleton_of_le_one (h1 c) hxc
    have e2 : t'.rawParents c = [] := by rw [e.parents, if_pos rfl, e1]; simp
    have hpar : ∀ y, y ≠ c → t'.rawParents y = s.t.rawParents y := fun y hy => by rw [e.parents, if_neg hy]
    have h1' : OneUp t' := by
      intro y
      by_cases hy : y = c
      · rw [hy, e2]; simp
      · rw [hpar y hy]; exact h1 y
    have hdo : ∀ y, y ≠ x → (FT.env diff b t' d ft0).disp y = (FT.env diff b s.t d ft0).disp y := by
      intro y hy
      refine accepts_below hb h hw (e.has y) fun z hz => ⟨rfl, fun c' => ?_⟩
      have hzx : z ≠ x := by
        rintro rfl
        rcases hz with hz | hz
        · exact hy hz.symm
        · obtain ⟨q, hq, -⟩ := Relation.TransGen.head'_iff.1 hz
          rw [hn] at hq; cases hq
      by_cases hcc : c' = c
      · subst hcc; rw [e1, e2]; simp [hzx]
      · rw [hpar c' hcc]
    have c2 : Sees diff b d s0 ft0 (Orph (FT.env diff b t' d ft0) x) ((⟨t', s.log⟩ : St).emit .modified c) := by
      refine Sees.say (s := ⟨t', s.log⟩) (hwa.mono rfl hroot fun _ h => h) hw .modified (by show t'.has c = true; rw [e.has]; exact hc) fun v hv => ?_
      obtain ⟨r, ho, hvi⟩ := hv.inv
      refine ⟨fun y hy hyr _ => ?_, ⟨_, r, rfl, fun z q hq => by
        have := ho.1
        rw [env_par h] at this
        refine this z q ?_
        by_cases hz : z = c
        · rw [hz, e2] at hq; cases hq
        · rw [← hpar z hz]; exact hq, hvi⟩, ?_⟩
      · show t'.has y = true
        rw [e.has]
        by_cases hyx : y = x
        · rw [hyx]; exact hx
        · have := hvi.sub y hy hyr
          rw [VEnv.showing_ne hyx] at this
          exact accepts_has this
      · exact hv.step (env_forest hb h hflat h1) (env_forest hb hw hflat h1') (env_ok hdiff b h d ft0 hwa.rootFree) (env_ok hdiff b hw d ft0 hroot)
          rfl hxr hcx (by show t'.has x = true; rw [e.has]; exact hx) hdo (by rw [env_par h, env_par hw]; exact hpar) (by rw [env_par h]; exact e1)
          (by rw [env_par hw]; exact e2) (by rw [env_par h]; exact hn) t'.nodes.keys (env_keys hw) (by dsimp only; omega)
    generalize hs1 : (if t'.rawParents c = [] then
        (({ s with t := t' } : St).emit .modified c).mapTree (fun t => t.updRoot (fun l => l ++ [c]))
        else ({ s with t := t' } : St).emit .modified c) = s1
    have ho : orphanChild x c s = .ok s1 := by
      unfold orphanChild; rw [ht']; dsimp only; rw [← hs1]; rfl
    have hs1t : s1.t = if t'.rawParents c = [] then t'.updRoot (fun l => l ++ [c]) else t' := by
      rw [← hs1]; split <;> rfl
    have hs1l : s1.log = (({ s with t := t' } : St).emit .modified c).log := by
      rw [← hs1]; split <;> rfl
    have hn1 : s1.t.nodes = t'.nodes := by rw [hs1t]; split <;> rfl
    have hp1 : ∀ y, s1.t.rawParents y = t'.rawParents y := by
      intro y; unfold Tree.rawParents Tree.node?; rw [hn1]
    have hh1 : ∀ y, s1.t.has y = t'.has y := by
      intro y; unfold Tree.has; rw [hn1]
    have hw1 : WF s1.t := by
      rw [hs1t, if_pos e2]; exact hw.updRoot _
    unfold Res.forEach at he
    rw [if_neg (by simp), ho] at he
    refine ih s1 s' hw1 (fun y => by rw [hp1]; exact h1' y) (by rw [hh1, e.has]; exact hx) hnd.2 ?_ ?_ (by
      rw [hp1, hpar x hcx.symm]; exact hn) he
    · intro y hy
      rw [hp1, e.parents, if_neg (by rintro rfl; exact hnd.1 hy)]
      exact hl y (by simp [hy])
    · refine c2.mono hs1l (by rw [hh1]; exact hroot) fun v hv => hv.congr rfl (fun y => by rw [env_par hw1, hp1, env_par hw]) fun y => ?_
      exact accepts_below hb hw hw1 (hh1 y) fun z _ => ⟨rfl, fun c => by rw [hp1]⟩

/-! ### Removing a node -/

theorem below_removeOrphan (hb : BelowBank b ft0.applied) (hdiff : SetDiff diff) (hflat : ft0.flat = false) {s : St} (h : Good s.t) {x : Id}
    (hx : s.t.has x = true) (hch : ∀ c ∈ s.t.rawChildren x, s.t.has c = true) (h1 : OneUp s.t) (f : Nat)
    (hwa : Watch diff b d s0 ft0 (fun _ => False) s) :
    Watch diff b d s0 ft0 (fun _ => False) (removeNode (f + 1) s x false).state := by
  have hxn : x ≠ .none := by rintro rfl; have := (h.wf.ids _ hx).1; cases this
  unfold removeNode
  rw [if_neg (by simp [hx, hxn])]
  dsimp only
  generalize hs1 : (s.mapTree fun t => { t with pending := dropPendingOf t.pending x }) = s1
  have ht1 : s1.t = { s.t with pending := dropPendingOf s.t.pending x } := by rw [← hs1]; rfl
  have hw1 : WF s1.t := by rw [ht1]; exact h.wf.pending _
  have wa1 : Watch diff b d s0 ft0 (fun _ => False) s1 :=
    hwa.sameBelow hb h.wf hw1 (by rw [← hs1]; rfl) (fun y => by rw [ht1]; rfl) (by rw [ht1]; rfl)
  have h11 : OneUp s1.t := by rw [ht1]; exact h1
  obtain ⟨s2, e2, ef2⟩ := removeParentsLoop_effect (s1.t.rawParents x).length 0 s1 x hw1
  obtain ⟨-, nop2, se2⟩ := below_parents hb hdiff hflat wa1 hw1 (fun _ h => h.elim) h11 e2
  have wa2 := se2 fun _ h => h
  rw [e2, Res.andThen_ok]
  have has2 : ∀ y, s2.t.has y = s.t.has y := by intro y; rw [ef2.same.has, ht1]; rfl
  have selfp : x ∉ s.t.rawParents x := fun hm => h.wf.acyclic x (Reach.single hm)
  have selfc : x ∉ s.t.rawChildren x := fun hm => selfp (h.wf.down x x hm hx)
  have ch2 : s2.t.rawChildren x = s.t.rawChildren x := by
    rw [ef2.others x (by rw [ht1]; exact selfp), ht1]; rfl
  have par2 : ∀ y, y ≠ x → s2.t.rawParents y = s.t.rawParents y := by
    intro y hy; rw [ef2.parents y hy, ht1]; rfl
  have h12 : OneUp s2.t := by
    intro y
    by_cases hy : y = x
    · rw [hy, nop2]; simp
    · rw [par2 y hy]; exact h1 y
  have hcx : ∀ c ∈ s.t.rawChildren x, c ≠ x := by rintro c hc rfl; exact selfc hc
  have hl : ∀ c ∈ s2.t.rawChildren x, x ∈ s2.t.rawParents c := by
    intro c hc
    rw [ch2] at hc
    rw [par2 c (hcx c hc)]
    exact h.wf.down x c hc (hch c hc)
  obtain ⟨s3, e3, ef3⟩ := orphanLoop x (s2.t.rawChildren x) s2 ef2.wf (by rw [has2]; exact hx) (ef2.wf.ndC x) hl
  obtain ⟨wa3, h13, nop3⟩ := below_orphans hb hdiff hflat x (s2.t.rawChildren x) s2 s3 ef2.wf h12 (by rw [has2]; exact hx) (ef2.wf.ndC x) hl
    (wa2.mono rfl wa2.rootFree fun v hv => hv.1.orph (env_forest hb ef2.wf hflat h12) (env_ok hdiff b ef2.wf d ft0 wa2.rootFree) hv.2) nop2 e3
  rw [orphanLoop_body, e3, Res.andThen_ok]
  have has3 : ∀ y, s3.t.has y = s.t.has y := by intro y; rw [ef3.same.has, has2]
  rw [if_pos (by rw [has3]; exact hx)]
  have hno : ∀ c, x ∉ s3.t.rawParents c := by
    intro c hc
    have hc1 := ef3.wf.up x c hc
    rw [ef3.childrenX] at hc1
    exact hc1.2 hc1.1
  exact below_deleted hb hdiff (wa3.mono rfl wa3.rootFree fun v hv => hv.near (env_forest hb ef3.wf hflat h13)
    (env_ok hdiff b ef3.wf d ft0 wa3.rootFree)) ef3.wf (by rw [has3]; exact hx) nop3 hno

theorem below_removeRec (hb : BelowBank b ft0.applied) (hdiff : SetDiff diff) (hflat : ft0.flat = false) (ht : Id → Nat) (f : Nat) : ∀ (X : Id → Prop) (s : St) (x : Id), WF s.t →
    (∀ y c, c ∈ s.t.rawChildren y → ht c < ht y) → ht x < f → s.t.has x = true →
    OneUp s.t → (∀ y, X y → y ∈ s.t.rawParents x ∧ s.t.rawParents y = []) →
    Watch diff b d s0 ft0 X s → Watch diff b d s0 ft0 (fun _ => False) (removeNode f s x true).state := by
  induction f with
  | zero => intro _ s x _ _ h; omega
  | succ f ih =>
    intro X s x h hh hf hx hone hX hwa
    have hxn : x ≠ .none := by rintro rfl; have := (h.ids _ hx).1; cases this
    unfold removeNode
    rw [if_neg (by simp [hx, hxn])]
    dsimp only
    generalize hs1 : (s.mapTree fun t => { t with pending := dropPendingOf t.pending x }) = s1
    have ht1 : s1.t = { s.t with pending := dropPendingOf s.t.pending x } := by rw [← hs1]; rfl
    have hw1 : WF s1.t := by rw [ht1]; exact h.pending _
    have wa1 : Watch diff b d s0 ft0 X s1 :=
      hwa.sameBelow hb h hw1 (by rw [← hs1]; rfl) (fun y => by rw [ht1]; rfl) (by rw [ht1]; rfl)
    obtain ⟨s2, e2, ef2⟩ := removeParentsLoop_effect (s1.t.rawParents x).length 0 s1 x hw1
    obtain ⟨wa2, nop2, -⟩ := below_parents hb hdiff hflat wa1 hw1 (by rw [ht1]; exact hX) (by rw [ht1]; exact hone) e2
    rw [e2, Res.andThen_ok]
    have sub2 : ∀ y c, c ∈ s2.t.rawChildren y → c ∈ s.t.rawChildren y := by
      intro y c hc
      have := (ef2.childrenSub y).subset hc
      rw [ht1] at this; exact this
    have one2 : OneUp s2.t := by
      intro y
      by_cases e : y = x
      · rw [e, nop2]; simp
      · rw [ef2.parents y e, ht1]; exact hone y
    have loop : ∀ (l : List Id) (s2 : St), WF s2.t → (∀ y c, c ∈ s2.t.rawChildren y → ht c < ht y) →
        (∀ c ∈ l, ht c < f) → (∀ c ∈ l, s2.t.has c = true → x ∈ s2.t.rawParents c) →
        OneUp s2.t → s2.t.rawParents x = [] →
        Watch diff b d s0 ft0 (fun y => y = x) s2 →
        ∃ s3, Res.forEach (fun c s => if true = true then removeNode f s c true else orphanChild x c s) l s2 = .ok s3 ∧
          Watch diff b d s0 ft0 (fun y => y = x) s3 ∧ RemEffect s2.t s3.t ∧ (∀ c ∈ l, s3.t.has c = false) ∧
          ∀ y, s2.t.has y = true → s3.t.has y = false → ∃ c ∈ l, ReachEq s2.t.rawChildren c y := by
      intro l
      induction l with
      | nil =>
        intro s2 hw _ _ _ _ _ hwa
        refine ⟨s2, rfl, hwa, RemEffect.refl hw, by simp, ?_⟩
        intro y h1 h2; rw [h1] at h2; cases h2
      | cons c l ihl =>
        intro s2 hw hd hl hlp hlo hxp hwa
        obtain ⟨s3, e3, ef3, g3, r3, -⟩ := removeNode_rec ht f s2 c hw hd (hl c (by simp))
        have wa3 : Watch diff b d s0 ft0 (fun y => y = x) s3 := by
          by_cases hc : s2.t.has c = true
          · have := ih (fun y => y = x) s2 c hw hd (hl c (by simp)) hc hlo
              (by rintro y rfl; exact ⟨hlp c (by simp) hc, hxp⟩) hwa
            rw [e3] at this
            exact this.mono fun _ h => h.elim
          · have : s3 = s2 := by
              obtain ⟨k, rfl⟩ : ∃ k, f = k + 1 := ⟨f - 1, by have := hl c (by simp); omega⟩
              unfold removeNode at e3; rw [if_pos (by simp [hc])] at e3; cases e3; rfl
            rw [this]; exact hwa
        have hpy : ∀ y, s3.t.rawParents y = s2.t.rawParents y ∨ s3.t.rawParents y = [] := by
          intro y
          by_cases hyh : s3.t.has y = true
          · exact Or.inl (ef3.parents y hyh)
          · right
            by_contra hc
            obtain ⟨q, hq⟩ := List.exists_mem_of_ne_nil _ hc
            exact hyh (Tree.has_of_mem_rawParents hq)
        obtain ⟨s4, e4, wa4, ef4, g4, r4⟩ := ihl s3 ef3.wf
          (fun y d hd' => hd y d ((ef3.children y).subset hd')) (fun d hd' => hl d (by simp [hd']))
          (fun d hd' hdh => by rw [ef3.parents d hdh]; exact hlp d (by simp [hd']) (ef3.hasSub d hdh))
          (fun y => by rcases hpy y with e | e <;> rw [e]; exacts [hlo y, by simp])
          ((hpy x).elim (fun e => e.trans hxp) fun e => e) wa3
        refine ⟨s4, ?_, wa4, ef3.trans ef4, ?_, ?_⟩
        · unfold Res.forEach; rw [if_pos rfl, e3]; exact e4
        · intro d hd'
          rcases List.mem_cons.1 hd' with rfl | hd'
          · by_contra hc; have := ef4.hasSub d (by simpa using hc); rw [g3] at this; cases this
          · exact g4 d hd'
        · intro y h1 h2
          by_cases h3 : s3.t.has y = true
          · obtain ⟨d, hd', hr⟩ := r4 y h3 h2
            exact ⟨d, by simp [hd'], ef3.reach hr⟩
          · exact ⟨c, by simp, r3 y h1 (by simpa using h3)⟩
    obtain ⟨s3, e3, wa3, ef3, g3, r3⟩ := loop (s2.t.rawChildren x) s2 ef2.wf
      (fun y c hc => hh y c (sub2 y c hc))
      (fun c hc => by have := hh x c (sub2 x c hc); omega)
      (fun c hc hch => ef2.wf.down x c hc hch)
      one2 nop2 wa2
    rw [e3, Res.andThen_ok]
    have hx3 : s3.t.has x = true := by
      by_contra hc
      obtain ⟨c, hc1, hr⟩ := r3 x (by rw [ef2.same.has, ht1]; exact hx) (by simpa using hc)
      have hac : ∀ z w, ReachEq s2.t.rawChildren z w → ht w ≤ ht z := by
        rintro z w (rfl | hr)
        · exact le_refl _
        · induction hr with
          | single hm => exact le_of_lt (hh _ _ (sub2 _ _ hm))
          | tail _ hm ih => exact le_trans (le_of_lt (hh _ _ (sub2 _ _ hm))) ih
      have h1 := hac c x hr
      have h2 := hh x c (sub2 x c hc1)
      omega
    rw [if_pos hx3]
    refine below_deleted hb hdiff wa3.near ef3.wf hx3 (by rw [ef3.parents x hx3]; exact nop2) ?_
    intro c hc
    have hch := Tree.has_of_mem_rawParents hc
    have := (ef3.children x).subset (ef3.wf.up x c hc)
    rw [g3 c this] at hch; cases hch

theorem below_removeRecursive (hb : BelowBank b ft0.applied) (hdiff : SetDiff diff) (hflat : ft0.flat = false) {s : St} (h : WF s.t) {x : Id}
    (hx : s.t.has x = true) (hone : OneUp s.t) (hwa : Watch diff b d s0 ft0 (fun _ => False) s) :
    Watch diff b d s0 ft0 (fun _ => False) (removeNode (removeFuel s.t) s x true).state := by
  obtain ⟨ht, hle, hlt⟩ := exists_height s.t.rawChildren s.t.nodes.keys s.t.rawChildren_keys h.acyclicC
  exact below_removeRec hb hdiff hflat ht (removeFuel s.t) (fun _ => False) s x h hlt (by
    have := hle x; rw [Dict.keys_length] at this; unfold removeFuel; omega) hx hone (fun _ h => h.elim) hwa

end Larch
