import Verif.Proofs.ViewHistory

/-!
# A view follows added, removed and changed nodes
-/

namespace Larch

open Graph Spec

variable {V : Type} {diff : List Id → List Id → List Id} {b : Bank (Id → V)} {d : Id → V} {s0 : St} {ft0 : FT} {X : Id → Prop}

/-! ### Adding a node -/

/-- From `t` to `t'` the node `x` arrived, with relations of its own only. -/
structure Arrived (t t' : Tree) (x : Id) : Prop where
  has : ∀ y, t'.has y = (decide (y = x) || t.has y)
  parents : ∀ y q, y ≠ x → q ≠ x → (q ∈ t'.rawParents y ↔ q ∈ t.rawParents y)

theorem create_away {t t' : Tree} {p c x : Id} (h : t.create p c = some t') (hx : p = x ∨ c = x) (y q : Id) (hy : y ≠ x) (hq : q ≠ x) :
    q ∈ t'.rawParents y ↔ q ∈ t.rawParents y := by
  obtain ⟨-, -, e⟩ := Tree.create_eq_some h
  rw [e.parents]
  split
  · rename_i h1
    rw [mem_appendNew, h1]
    constructor
    · rintro (h2 | h2)
      · exact h2
      · rcases hx with h3 | h3
        · exact absurd (h2.trans h3) hq
        · exact absurd (h1.trans h3) hy
    · exact Or.inl
  · rfl

theorem addNode_arrived {s s' : St} (h : Good s.t) {nd : Node} {parent : Id} (hf : FreshNode nd) (hx : s.t.has nd.id = false)
    (he : addNode s nd parent = .ok s') :
    ∃ t', s' = (⟨t', s.log⟩ : St).emit .added nd.id ∧ Arrived s.t t' nd.id := by
  obtain ⟨t', e1, e2⟩ := addNode_ok hx he
  refine ⟨t', e1, e2, ?_⟩
  obtain ⟨t, bb, -, -, -, hP, hend⟩ := addNode_spec s nd parent hf.parents h.wf.upInv hx
    (fun _ t _ => ∀ y q, y ≠ nd.id → q ≠ nd.id → (q ∈ t.rawParents y ↔ q ∈ s.t.rawParents y))
    (by intro y q hy hq; rw [rawParents_insertNode, if_neg hy])
    (by
      intro r l t b t' b' _ _ hi hs y q hy hq
      cases hs with
      | skip => exact hi y q hy hq
      | drop l' => exact hi y q hy hq
      | asChild t2 hr _ _ hc => exact (create_away hc (Or.inr hr) y q hy hq).trans (hi y q hy hq)
      | asParent t2 hr _ _ hc => exact (create_away hc (Or.inl hr) y q hy hq).trans (hi y q hy hq))
  have fin : ∀ (t2 : Tree) (b2 : Bool), (∀ y q, y ≠ nd.id → q ≠ nd.id → (q ∈ t2.rawParents y ↔ q ∈ s.t.rawParents y)) →
      s' = finishAdd s.log t2 b2 nd.id →
      ∀ y q, y ≠ nd.id → q ≠ nd.id → (q ∈ t'.rawParents y ↔ q ∈ s.t.rawParents y) := by
    intro t2 b2 h2 e y q hy hq
    rw [← h2 y q hy hq]
    have : t' = (finishAdd s.log t2 b2 nd.id).t := by rw [← e, e1]; rfl
    rw [this]
    unfold finishAdd
    cases b2 <;> rfl
  rw [he] at hend
  generalize hr : (Res.ok s' : Res St) = r at hend
  cases hend with
  | noParent _ => cases hr; exact fin t bb hP rfl
  | circular => cases hr
  | linked t2 _ _ _ hc =>
    cases hr
    exact fin t2 false (fun y q hy hq => (create_away hc (Or.inr rfl) y q hy hq).trans (hP y q hy hq)) rfl
  | later => cases hr; exact fin { t with pending := t.pending ++ [(parent, nd.id)] } bb hP rfl

theorem Watch.addedD (hdiff : SetDiff diff) {s : St} (h : Watch diff b d s0 ft0 (fun _ => False) s) (hw : WF s.t)
    {t' : Tree} (hw' : WF t') {x : Id} (hdisp : ∀ y, y ≠ x → (FT.env diff b t' d ft0).disp y = (FT.env diff b s.t d ft0).disp y)
    (ha : Arrived s.t t' x) (hx : s.t.has x = false) (hxr : x ≠ ft0.root) :
    Watch diff b d s0 ft0 (fun _ => False) ((⟨t', s.log⟩ : St).emit .added x) := by
  obtain ⟨v, l, h1, h2, h3⟩ := h.seen
  have hroot : t'.has ft0.root = false := by
    rw [ha.has, h.rootFree]; simp [Ne.symm hxr]
  have hE := env_ok hdiff b hw' d ft0 hroot
  obtain ⟨r0, -, hv⟩ := h3.inv
  have hvx : v.has x = false := by
    by_contra hc
    have := hv.sub x (by simpa using hc) hxr
    have := accepts_has this
    rw [hx] at this; cases this
  have hxp : ∀ y, x ∉ s.t.rawParents y := by
    intro y hy
    have := hw.has_parent hy
    rw [hx] at this; cases this
  obtain ⟨r, ho⟩ := orders_of_super hE (v := v) hv.rootPars (by rw [env_par hw']; exact hw'.acyclic) t'.nodes.keys (env_keys hw') (by
    intro y p hpy
    have hyv : v.has y = true := View.has_of_par hpy
    have hyx : y ≠ x := by rintro rfl; rw [hvx] at hyv; cases hyv
    rcases h3.parSub (fun _ h => h) hpy with e | e
    · exact Or.inl e
    · refine Or.inr ?_
      rw [env_par hw] at e
      rw [env_par hw', ha.parents y p hyx (by rintro rfl; exact hxp y e)]
      exact e)
  obtain ⟨rank, e1, e2⟩ := hE.rank hv.rootPars ho t'.nodes.keys (env_keys hw')
  obtain ⟨v', a1, a2, a3, a4⟩ := update_settles e1
    (f := 2 * (t'.nodes.keys.length + v.nodes.entries.length) + 8) (x := x) (dir := .both) (v := v) (by omega) rfl
    ((hv.rerank e2).congrE rfl (fun y hy hn => by
      rw [hdisp y (by rintro rfl; rw [hvx] at hy; cases hy)]; exact hv.sub y hy hn))
    (fun y hy hyx => h3.all y (by rw [← hdisp y hyx]; exact hy)) hxr (fun _ => False) (by
      intro y hy hyx _ hcase p
      rw [h3.settled y (by rw [← hdisp y hyx]; exact hy) (fun h => h) p]
      symm
      refine npAll_congr (E := FT.env diff b s.t d ft0) (E' := FT.env diff b t' d ft0) rfl rfl
        (by show t'.has y = s.t.has y; rw [ha.has]; simp [hyx]) (fun hflat q => ?_) p
      rw [env_par hw, env_par hw']
      by_cases hqx : q = x
      · subst hqx
        constructor
        · rintro ⟨m1, m2⟩
          rcases hcase with c | c | c | c
          · have c' : ft0.flat = true := c
            have hflat' : ft0.flat = false := hflat
            rw [hflat'] at c'; cases c'
          · rw [hvx] at c; cases c
          · rw [c] at m1; cases m1
          · rw [env_par hw'] at c; exact absurd m2 c
        · rintro ⟨m1, m2⟩
          exact absurd m2 (hxp y)
      · rw [hdisp q hqx, ha.parents y q hyx hqx])
  refine ⟨hroot, h.moments.snoc h1 h2 ⟨fun y hy hyr hyx => by
      show t'.has y = true
      rw [ha.has]; simp [accepts_has (hv.sub y hy hyr)], 
    fun hf => absurd (show t'.has x = true by rw [ha.has]; simp) (by rw [show t'.has x = false from hf]; simp), hxr, hw', hroot, _, r, rfl,
    by have := ho.1; rw [env_par hw'] at this; exact this, hv.rerank ho.2⟩, v', l ++ [⟨t', .added, x⟩], ?_, ?_, ⟨rank, ⟨e1.parRank, fun y p hp => (a2.par y p hp).2⟩, a2⟩, a3,
    fun y hy _ => a4 y hy fun _ h => h⟩
  · show s.log ++ [_] = _
    rw [h1, List.append_assoc]
  · rw [forEach_snoc h2]
    exact react_eq (n := ⟨t', .added, x⟩) (ft := { ft0 with view := v }) a1

theorem Watch.added (hb : OwnOn b ft0.applied) (hdiff : SetDiff diff) {s : St} (h : Watch diff b d s0 ft0 (fun _ => False) s) (hw : WF s.t)
    {t' : Tree} (hw' : WF t') {x : Id} (ha : Arrived s.t t' x) (hx : s.t.has x = false) (hxr : x ≠ ft0.root) :
    Watch diff b d s0 ft0 (fun _ => False) ((⟨t', s.log⟩ : St).emit .added x) :=
  h.addedD hdiff hw hw' (fun y hy => accepts_own hb (by rw [ha.has]; simp [hy]) rfl) ha hx hxr

/-! ### Deleting a node that has no children any more -/

/-- The same, but `x` may be shown. -/
def VEnv.showing (E : VEnv) (x : Id) : VEnv := { E with disp := fun y => decide (y = x) || E.disp y }

theorem VEnv.showing_ne {E : VEnv} {x y : Id} (h : y ≠ x) : (E.showing x).disp y = E.disp y := by
  simp [VEnv.showing, h]

theorem VEnv.showing_of {E : VEnv} (x : Id) {y : Id} (h : E.disp y = true) : (E.showing x).disp y = true := by
  simp [VEnv.showing, h]

/-- The view is right, except that `x` may be misplaced, missing, or shown though it should not. -/
structure Near (E : VEnv) (x : Id) (v : View) : Prop where
  inv : ∃ r, Orders E v r ∧ VInv (E.showing x) r (fun _ => False) v
  all : ∀ y, y ≠ x → E.disp y = true → v.has y = true
  settled : ∀ y, E.disp y = true → y ≠ x → SettledAt E v y

theorem near_inv {E : VEnv} {x : Id} {v : View} (h : ∃ r, Orders E v r ∧ VInv E r (fun _ => False) v) :
    ∃ r, Orders E v r ∧ VInv (E.showing x) r (fun _ => False) v := by
  obtain ⟨r, ho, hv⟩ := h
  exact ⟨r, ho, hv.congrE rfl fun y hy hr => VEnv.showing_of x (hv.sub y hy hr)⟩

/-- Since `s0` the view `ft0` has followed the notifications, and now `Q` holds for it. -/
structure Sees (diff : List Id → List Id → List Id) (b : Bank (Id → V)) (d : Id → V) (s0 : St) (ft0 : FT) (Q : View → Prop)
    (s : St) : Prop where
  rootFree : s.t.has ft0.root = false
  moments : Moments diff b d s0 ft0 s.log
  seen : ∃ v l, s.log = s0.log ++ l ∧ Res.forEach (FT.react diff b d) l ft0 = .ok { ft0 with view := v } ∧ Q v

theorem Sees.deletedD (hdiff : SetDiff diff) {s : St} {x : Id} (h : Sees diff b d s0 ft0 (Near (FT.env diff b s.t d ft0) x) s)
    (hdisp : ∀ y, y ≠ x → (FT.env diff b (dropNode s.t x) d ft0).disp y = (FT.env diff b s.t d ft0).disp y)
    (hw : WF s.t) (hx : s.t.has x = true) (hno : ∀ c, x ∉ s.t.rawParents c) :
    Watch diff b d s0 ft0 (fun _ => False) ((⟨dropNode s.t x, s.log⟩ : St).emit .deleted x) := by
  obtain ⟨v, l, h1, h2, h3⟩ := h.seen
  have hw' : WF (dropNode s.t x) := hw.dropNode fun c _ => hno c
  have hxr : x ≠ ft0.root := by rintro rfl; have := h.rootFree; rw [this] at hx; cases hx
  have hroot : (dropNode s.t x).has ft0.root = false := by
    rw [dropNode_has, h.rootFree]; simp
  have hE := env_ok hdiff b hw' d ft0 hroot
  obtain ⟨r, ho, hv⟩ := h3.inv
  have hvs : ∀ y, y ≠ x → v.has y = true → y ≠ ft0.root → (FT.env diff b s.t d ft0).disp y = true := fun y hyx hy hyr => by
    rw [← VEnv.showing_ne hyx]; exact hv.sub y hy hyr
  have hdx : (FT.env diff b (dropNode s.t x) d ft0).disp x = false := by
    by_contra hc
    have : (FT.env diff b (dropNode s.t x) d ft0).disp x = true := by simpa using hc
    have := accepts_has this
    rw [dropNode_has] at this; simp at this
  have ho' : Orders (FT.env diff b (dropNode s.t x) d ft0) v r := by
    refine ⟨?_, ho.2⟩
    have := ho.1
    rw [env_par hw] at this
    rw [env_par hw']
    intro y p hp
    rw [dropNode_rawParents] at hp
    split at hp
    · cases hp
    · exact this y p hp
  -- nobody is below `x`
  have hbelow : ∀ y, x ∉ v.pars y := by
    intro y hy
    have hyv : v.has y = true := View.has_of_par hy
    have hyr : y ≠ ft0.root := by
      rintro rfl
      have : v.pars ft0.root = [] := hv.rootPars
      rw [this] at hy; cases hy
    have hyx : y ≠ x := by
      rintro rfl
      exact absurd (ho.2 y y hy) (lt_irrefl _)
    rcases (h3.settled y (hvs y hyx hyv hyr) hyx).sub hy with e | e
    · exact hxr e
    · rw [env_par hw] at e; exact hno y e
  have hset : ∀ y, y ≠ x → (FT.env diff b (dropNode s.t x) d ft0).disp y = true →
      SettledAt (FT.env diff b (dropNode s.t x) d ft0) v y := by
    intro y hyx hy p
    rw [h3.settled y (by rw [← hdisp y hyx]; exact hy) hyx p]
    symm
    refine npAll_congr (E := FT.env diff b s.t d ft0) (E' := FT.env diff b (dropNode s.t x) d ft0) rfl rfl
      (by show (dropNode s.t x).has y = s.t.has y; rw [dropNode_has]; simp [hyx]) (fun _ q => ?_) p
    rw [env_par hw, env_par hw', dropNode_rawParents, if_neg hyx]
    by_cases hqx : q = x
    · subst hqx
      constructor
      · rintro ⟨-, m2⟩; exact absurd m2 (hno y)
      · rintro ⟨-, m2⟩; exact absurd m2 (hno y)
    · rw [hdisp q hqx]
  have key : ∃ v', (FT.env diff b (dropNode s.t x) d ft0).update
      (2 * ((dropNode s.t x).nodes.keys.length + v.nodes.entries.length) + 8) x .both v = .ok v' ∧
      Fit (FT.env diff b (dropNode s.t x) d ft0) (fun _ => False) v' := by
    by_cases hvx : v.has x = true
    · refine Fit.hide hE ho' (dropNode s.t x).nodes.keys (env_keys hw') (by omega) ?_
      intro rank hrk
      refine Hiding.of hv rfl hrk hvx hdx hxr ?_ ?_ ?_ ?_
      · intro y hy hyr hyx; rw [hdisp y hyx]; exact hvs y hyx hy hyr
      · intro y hy
        have hyx : y ≠ x := by rintro rfl; rw [hdx] at hy; cases hy
        exact h3.all y hyx (by rw [← hdisp y hyx]; exact hy)
      · intro y hy _
        exact hset y (by rintro rfl; rw [hdx] at hy; cases hy) hy
      · intro y hy; exact absurd hy (hbelow y)
    · refine ⟨v, ?_, ⟨r, ho', hv.congrE rfl ?_⟩, ?_, ?_⟩
      · rw [VEnv.update, if_neg (show ¬ x = (FT.env diff b (dropNode s.t x) d ft0).root from hxr), if_pos ⟨by simpa using hvx, hdx⟩, if_neg]
        show ¬ (dropNode s.t x).has x = true
        rw [dropNode_has]; simp
      · intro y hy hyr
        have hyx : y ≠ x := by rintro rfl; exact hvx hy
        rw [hdisp y hyx]; exact hvs y hyx hy hyr
      · intro y hy
        have hyx : y ≠ x := by rintro rfl; rw [hdx] at hy; cases hy
        exact h3.all y hyx (by rw [← hdisp y hyx]; exact hy)
      · intro y hy _
        exact hset y (by rintro rfl; rw [hdx] at hy; cases hy) hy
  obtain ⟨v', a1, a2⟩ := key
  refine ⟨hroot, h.moments.snoc h1 h2 ⟨fun y hy hyr hyx => by
      show (dropNode s.t x).has y = true
      rw [dropNode_has, accepts_has (hvs y hyx hy hyr)]; simpa using hyx, 
    fun _ => List.eq_nil_iff_forall_not_mem.2 fun c hc => hbelow c ((hv.mirror c (fun h => h) x).2 hc), hxr, hw', hroot, _, r, rfl,
    by have := ho'.1; rw [env_par hw'] at this; exact this, hv⟩, v', l ++ [⟨dropNode s.t x, .deleted, x⟩], ?_, ?_, a2⟩
  · show s.log ++ [_] = _
    rw [h1, List.append_assoc]
  · rw [forEach_snoc h2]
    exact react_eq (n := ⟨dropNode s.t x, .deleted, x⟩) (ft := { ft0 with view := v }) a1

theorem Watch.deleted (hb : OwnOn b ft0.applied) (hdiff : SetDiff diff) {s : St} {x : Id} (h : Watch diff b d s0 ft0 (fun y => y = x) s)
    (hw : WF s.t) (hx : s.t.has x = true) (hno : ∀ c, x ∉ s.t.rawParents c) :
    Watch diff b d s0 ft0 (fun _ => False) ((⟨dropNode s.t x, s.log⟩ : St).emit .deleted x) := by
  obtain ⟨v, l, h1, h2, h3⟩ := h.seen
  exact Sees.deletedD hdiff ⟨h.rootFree, h.moments, v, l, h1, h2, near_inv h3.inv, fun y _ => h3.all y, h3.settled⟩
    (fun y hy => accepts_own hb (by rw [dropNode_has]; simp [hy]) rfl) hw hx hno

/-! ### Removing a node -/

/-- The loop over the parents of a removed node, with any number of parents. -/
theorem watch_parentsLoop (hb : OwnOn b ft0.applied) (hdiff : SetDiff diff) {x : Id} (f : Nat) : ∀ (i : Nat) (s s' : St), WF s.t →
    Watch diff b d s0 ft0 (fun y => y = x) s → removeParentsLoop f i s x = .ok s' → Watch diff b d s0 ft0 (fun y => y = x) s' := by
  induction f with
  | zero => intro i s s' _ h hs; cases hs; exact h
  | succ f ih =>
    intro i s s' hw h hs
    unfold removeParentsLoop at hs
    cases hp : (s.t.rawParents x)[i]? with
    | none => rw [hp] at hs; cases hs; exact h
    | some p =>
      rw [hp] at hs
      have hm : p ∈ s.t.rawParents x := List.mem_of_getElem? hp
      obtain ⟨t', ht', e⟩ := Tree.destroy_spec (hw.has_parent hm) (Tree.has_of_mem_rawParents hm)
      dsimp only at hs
      rw [ht'] at hs
      have hw' := hw.destroy ht'
      have c1 := h.cut (s' := ⟨t', s.log⟩) hb hw hw' rfl e.has (c := x)
        (fun y hy => by show t'.rawParents y = _; rw [e.parents, if_neg hy]) (by
          intro q hq
          have hq' : q ∈ t'.rawParents x := hq
          rw [e.parents, if_pos rfl] at hq'; exact List.mem_of_mem_erase hq')
      have c2 := c1.note hdiff hw' .modified (x := p) (by show t'.has p = true; rw [e.has]; exact hw.has_parent hm)
      exact ih (i + 1) _ s' hw' (c2.mono fun y hy => hy.1.elim id id) hs

theorem watch_parents (hb : OwnOn b ft0.applied) (hdiff : SetDiff diff) {s s' : St} {x : Id} (h : Watch diff b d s0 ft0 X s) (hw : WF s.t)
    (hX : ∀ y, X y → y ∈ s.t.rawParents x) (h1 : (s.t.rawParents x).length ≤ 1)
    (hs : removeParentsLoop (s.t.rawParents x).length 0 s x = .ok s') : Watch diff b d s0 ft0 (fun y => y = x) s' := by
  cases hl : s.t.rawParents x with
  | nil =>
    rw [hl] at hs
    simp only [List.length_nil, removeParentsLoop] at hs
    cases hs
    exact h.mono fun y hy => by have := hX y hy; rw [hl] at this; cases this
  | cons p l =>
    have : l = [] := by
      rw [hl] at h1; simp at h1; exact h1
    subst this
    rw [hl] at hs
    simp only [List.length_singleton, removeParentsLoop, hl, List.getElem?_cons_zero] at hs
    have hm : p ∈ s.t.rawParents x := by rw [hl]; simp
    obtain ⟨t', ht', e⟩ := Tree.destroy_spec (hw.has_parent hm) (Tree.has_of_mem_rawParents hm)
    rw [ht'] at hs
    cases hs
    have hw' := hw.destroy ht'
    have c1 := h.cut (s' := ⟨t', s.log⟩) hb hw hw' rfl e.has (c := x)
      (fun y hy => by show t'.rawParents y = _; rw [e.parents, if_neg hy]) (by
        intro q hq
        have hq' : q ∈ t'.rawParents x := hq
        rw [e.parents, if_pos rfl] at hq'; exact List.mem_of_mem_erase hq')
    have c2 := c1.note hdiff hw' .modified (x := p) (by show t'.has p = true; rw [e.has]; exact hw.has_parent hm)
    refine c2.mono fun y hy => ?_
    rcases hy.1 with h2 | h2
    · have := hX y h2
      rw [hl] at this
      exact absurd (List.mem_singleton.1 this) hy.2
    · exact h2

theorem watch_orphans (hb : OwnOn b ft0.applied) (hdiff : SetDiff diff) (x : Id) : ∀ (l : List Id) (s s' : St), WF s.t → s.t.has x = true →
    l.Nodup → (∀ c ∈ l, x ∈ s.t.rawParents c) → Watch diff b d s0 ft0 (fun y => y = x) s →
    Res.forEach (fun c s => if false = true then removeNode 0 s c true else orphanChild x c s) l s = .ok s' →
    Watch diff b d s0 ft0 (fun y => y = x) s' := by
  intro l
  induction l with
  | nil => intro s s' _ _ _ _ h he; cases he; exact h
  | cons c l ih =>
    intro s s' h hx hnd hl hwa he
    have hxc := hl c (by simp)
    have hc := Tree.has_of_mem_rawParents hxc
    obtain ⟨t', ht', e⟩ := Tree.destroy_spec hx hc
    have hw := h.destroy ht'
    rw [List.nodup_cons] at hnd
    have c1 := hwa.cut (s' := ⟨t', s.log⟩) hb h hw rfl e.has (c := c)
      (fun y hy => by show t'.rawParents y = _; rw [e.parents, if_neg hy]) (by
        intro q hq
        have hq' : q ∈ t'.rawParents c := hq
        rw [e.parents, if_pos rfl] at hq'; exact List.mem_of_mem_erase hq')
    have c2 := (c1.note hdiff hw .modified (x := c) (by show t'.has c = true; rw [e.has]; exact hc)).mono
      (Y := fun y => y = x) (fun y hy => hy.1.resolve_right hy.2)
    generalize hs1 : (if t'.rawParents c = [] then
        (({ s with t := t' } : St).emit .modified c).mapTree (fun t => t.updRoot (fun l => l ++ [c]))
        else ({ s with t := t' } : St).emit .modified c) = s1
    have ho : orphanChild x c s = .ok s1 := by
      unfold orphanChild; rw [ht']; dsimp only; rw [← hs1]; rfl
    have hs1t : s1.t = if t'.rawParents c = [] then t'.updRoot (fun l => l ++ [c]) else t' := by
      rw [← hs1]; split <;> rfl
    have hs1l : s1.log = (({ s with t := t' } : St).emit .modified c).log := by
      rw [← hs1]; split <;> rfl
    have hn1 : s1.t.nodes = t'.nodes := by rw [hs1t]; split <;> rfl
    have hp1 : ∀ y, s1.t.rawParents y = t'.rawParents y := by
      intro y; unfold Tree.rawParents Tree.node?; rw [hn1]
    have hh1 : ∀ y, s1.t.has y = t'.has y := by
      intro y; unfold Tree.has; rw [hn1]
    have hw1 : WF s1.t := by
      rw [hs1t]; split
      · exact hw.updRoot _
      · exact hw
    unfold Res.forEach at he
    rw [if_neg (by simp), ho] at he
    refine ih s1 s' hw1 (by rw [hh1, e.has]; exact hx) hnd.2 ?_ (c2.same hb hw hw1 hs1l hh1 (funext hp1)) he
    intro y hy
    rw [hp1, e.parents, if_neg (by rintro rfl; exact hnd.1 hy)]
    exact hl y (by simp [hy])

theorem watch_removeOrphan (hb : OwnOn b ft0.applied) (hdiff : SetDiff diff) {s : St} (h : Good s.t) {x : Id} (hx : s.t.has x = true)
    (hch : ∀ c ∈ s.t.rawChildren x, s.t.has c = true) (f : Nat)
    (hwa : Watch diff b d s0 ft0 (fun _ => False) s) :
    Watch diff b d s0 ft0 (fun _ => False) (removeNode (f + 1) s x false).state := by
  have hxn : x ≠ .none := by rintro rfl; have := (h.wf.ids _ hx).1; cases this
  unfold removeNode
  rw [if_neg (by simp [hx, hxn])]
  dsimp only
  generalize hs1 : (s.mapTree fun t => { t with pending := dropPendingOf t.pending x }) = s1
  have ht1 : s1.t = { s.t with pending := dropPendingOf s.t.pending x } := by rw [← hs1]; rfl
  have hw1 : WF s1.t := by rw [ht1]; exact h.wf.pending _
  have wa1 : Watch diff b d s0 ft0 (fun _ => False) s1 :=
    hwa.same hb h.wf hw1 (by rw [← hs1]; rfl) (fun y => by rw [ht1]; rfl) (by rw [ht1]; rfl)
  obtain ⟨s2, e2, ef2⟩ := removeParentsLoop_effect (s1.t.rawParents x).length 0 s1 x hw1
  have wa2 := watch_parentsLoop hb hdiff _ 0 s1 s2 hw1 (wa1.mono fun _ h => h.elim) e2
  rw [e2, Res.andThen_ok]
  have has2 : ∀ y, s2.t.has y = s.t.has y := by intro y; rw [ef2.same.has, ht1]; rfl
  have selfp : x ∉ s.t.rawParents x := fun hm => h.wf.acyclic x (Reach.single hm)
  have selfc : x ∉ s.t.rawChildren x := fun hm => selfp (h.wf.down x x hm hx)
  have ch2 : s2.t.rawChildren x = s.t.rawChildren x := by
    rw [ef2.others x (by rw [ht1]; exact selfp), ht1]; rfl
  have par2 : ∀ y, y ≠ x → s2.t.rawParents y = s.t.rawParents y := by
    intro y hy; rw [ef2.parents y hy, ht1]; rfl
  have hcx : ∀ c ∈ s.t.rawChildren x, c ≠ x := by rintro c hc rfl; exact selfc hc
  have hl : ∀ c ∈ s2.t.rawChildren x, x ∈ s2.t.rawParents c := by
    intro c hc
    rw [ch2] at hc
    rw [par2 c (hcx c hc)]
    exact h.wf.down x c hc (hch c hc)
  obtain ⟨s3, e3, ef3⟩ := orphanLoop x (s2.t.rawChildren x) s2 ef2.wf (by rw [has2]; exact hx) (ef2.wf.ndC x) hl
  have wa3 := watch_orphans hb hdiff x (s2.t.rawChildren x) s2 s3 ef2.wf (by rw [has2]; exact hx) (ef2.wf.ndC x) hl wa2 e3
  rw [orphanLoop_body, e3, Res.andThen_ok]
  have has3 : ∀ y, s3.t.has y = s.t.has y := by intro y; rw [ef3.same.has, has2]
  rw [if_pos (by rw [has3]; exact hx)]
  refine Watch.deleted hb hdiff wa3 ef3.wf (by rw [has3]; exact hx) ?_
  intro c hc
  have hc1 := ef3.wf.up x c hc
  rw [ef3.childrenX] at hc1
  exact hc1.2 hc1.1

theorem watch_removeRec (hb : OwnOn b ft0.applied) (hdiff : SetDiff diff) (ht : Id → Nat) (f : Nat) : ∀ (X : Id → Prop) (s : St) (x : Id), WF s.t →
    (∀ y c, c ∈ s.t.rawChildren y → ht c < ht y) → ht x < f → s.t.has x = true →
    (∀ y, Reach s.t.rawChildren x y → (s.t.rawParents y).length ≤ 1) →
    ((∀ y, ¬ X y) ∨ ((s.t.rawParents x).length ≤ 1 ∧ ∀ y, X y → y ∈ s.t.rawParents x)) →
    Watch diff b d s0 ft0 X s → Watch diff b d s0 ft0 (fun _ => False) (removeNode f s x true).state := by
  induction f with
  | zero => intro _ s x _ _ h; omega
  | succ f ih =>
    intro X s x h hh hf hx hone hX hwa
    have hxn : x ≠ .none := by rintro rfl; have := (h.ids _ hx).1; cases this
    unfold removeNode
    rw [if_neg (by simp [hx, hxn])]
    dsimp only
    generalize hs1 : (s.mapTree fun t => { t with pending := dropPendingOf t.pending x }) = s1
    have ht1 : s1.t = { s.t with pending := dropPendingOf s.t.pending x } := by rw [← hs1]; rfl
    have hw1 : WF s1.t := by rw [ht1]; exact h.pending _
    have wa1 : Watch diff b d s0 ft0 X s1 :=
      hwa.same hb h hw1 (by rw [← hs1]; rfl) (fun y => by rw [ht1]; rfl) (by rw [ht1]; rfl)
    obtain ⟨s2, e2, ef2⟩ := removeParentsLoop_effect (s1.t.rawParents x).length 0 s1 x hw1
    have wa2 : Watch diff b d s0 ft0 (fun y => y = x) s2 := by
      rcases hX with hX | ⟨h1, hX⟩
      · exact watch_parentsLoop hb hdiff _ 0 s1 s2 hw1 (wa1.mono fun y h => (hX y h).elim) e2
      · exact watch_parents hb hdiff wa1 hw1 (by rw [ht1]; exact hX) (by rw [ht1]; exact h1) e2
    rw [e2, Res.andThen_ok]
    have sub2 : ∀ y c, c ∈ s2.t.rawChildren y → c ∈ s.t.rawChildren y := by
      intro y c hc
      have := (ef2.childrenSub y).subset hc
      rw [ht1] at this; exact this
    have one2 : ∀ y, Reach s2.t.rawChildren x y → (s2.t.rawParents y).length ≤ 1 := by
      intro y hy
      have h3 := hone y (hy.mono sub2)
      by_cases e : y = x
      · subst e
        have := ef2.parentsX.length_le
        rw [ht1] at this
        exact le_trans this h3
      · rw [ef2.parents y e, ht1]; exact h3
    have loop : ∀ (l : List Id) (s2 : St), WF s2.t → (∀ y c, c ∈ s2.t.rawChildren y → ht c < ht y) →
        (∀ c ∈ l, ht c < f) → (∀ c ∈ l, s2.t.has c = true → x ∈ s2.t.rawParents c) →
        (∀ c ∈ l, ∀ y, ReachEq s2.t.rawChildren c y → (s2.t.rawParents y).length ≤ 1) →
        Watch diff b d s0 ft0 (fun y => y = x) s2 →
        ∃ s3, Res.forEach (fun c s => if true = true then removeNode f s c true else orphanChild x c s) l s2 = .ok s3 ∧
          Watch diff b d s0 ft0 (fun y => y = x) s3 ∧ RemEffect s2.t s3.t ∧ (∀ c ∈ l, s3.t.has c = false) ∧
          ∀ y, s2.t.has y = true → s3.t.has y = false → ∃ c ∈ l, ReachEq s2.t.rawChildren c y := by
      intro l
      induction l with
      | nil =>
        intro s2 hw _ _ _ _ hwa
        refine ⟨s2, rfl, hwa, RemEffect.refl hw, by simp, ?_⟩
        intro y h1 h2; rw [h1] at h2; cases h2
      | cons c l ihl =>
        intro s2 hw hd hl hlp hlo hwa
        obtain ⟨s3, e3, ef3, g3, r3, -⟩ := removeNode_rec ht f s2 c hw hd (hl c (by simp))
        have wa3 : Watch diff b d s0 ft0 (fun y => y = x) s3 := by
          by_cases hc : s2.t.has c = true
          · have := ih (fun y => y = x) s2 c hw hd (hl c (by simp)) hc (fun y hy => hlo c (by simp) y (Or.inr hy))
              (Or.inr ⟨hlo c (by simp) c (Or.inl rfl), by rintro y rfl; exact hlp c (by simp) hc⟩) hwa
            rw [e3] at this
            exact this.mono fun _ h => h.elim
          · have : s3 = s2 := by
              obtain ⟨k, rfl⟩ : ∃ k, f = k + 1 := ⟨f - 1, by have := hl c (by simp); omega⟩
              unfold removeNode at e3; rw [if_pos (by simp [hc])] at e3; cases e3; rfl
            rw [this]; exact hwa
        obtain ⟨s4, e4, wa4, ef4, g4, r4⟩ := ihl s3 ef3.wf
          (fun y d hd' => hd y d ((ef3.children y).subset hd')) (fun d hd' => hl d (by simp [hd']))
          (fun d hd' hdh => by rw [ef3.parents d hdh]; exact hlp d (by simp [hd']) (ef3.hasSub d hdh))
          (fun d hd' y hy => by
            by_cases hyh : s3.t.has y = true
            · rw [ef3.parents y hyh]; exact hlo d (by simp [hd']) y (ef3.reach hy)
            · have : s3.t.rawParents y = [] := by
                by_contra hc
                obtain ⟨q, hq⟩ := List.exists_mem_of_ne_nil _ hc
                exact hyh (Tree.has_of_mem_rawParents hq)
              rw [this]; simp) wa3
        refine ⟨s4, ?_, wa4, ef3.trans ef4, ?_, ?_⟩
        · unfold Res.forEach; rw [if_pos rfl, e3]; exact e4
        · intro d hd'
          rcases List.mem_cons.1 hd' with rfl | hd'
          · by_contra hc; have := ef4.hasSub d (by simpa using hc); rw [g3] at this; cases this
          · exact g4 d hd'
        · intro y h1 h2
          by_cases h3 : s3.t.has y = true
          · obtain ⟨d, hd', hr⟩ := r4 y h3 h2
            exact ⟨d, by simp [hd'], ef3.reach hr⟩
          · exact ⟨c, by simp, r3 y h1 (by simpa using h3)⟩
    obtain ⟨s3, e3, wa3, ef3, g3, r3⟩ := loop (s2.t.rawChildren x) s2 ef2.wf
      (fun y c hc => hh y c (sub2 y c hc))
      (fun c hc => by have := hh x c (sub2 x c hc); omega)
      (fun c hc hch => ef2.wf.down x c hc hch)
      (fun c hc y hy => one2 y (hy.elim (fun e => e ▸ Reach.single hc) fun h => Reach.head hc h)) wa2
    rw [e3, Res.andThen_ok]
    have hx3 : s3.t.has x = true := by
      by_contra hc
      obtain ⟨c, hc1, hr⟩ := r3 x (by rw [ef2.same.has, ht1]; exact hx) (by simpa using hc)
      have hac : ∀ z w, ReachEq s2.t.rawChildren z w → ht w ≤ ht z := by
        rintro z w (rfl | hr)
        · exact le_refl _
        · induction hr with
          | single hm => exact le_of_lt (hh _ _ (sub2 _ _ hm))
          | tail _ hm ih => exact le_trans (le_of_lt (hh _ _ (sub2 _ _ hm))) ih
      have h1 := hac c x hr
      have h2 := hh x c (sub2 x c hc1)
      omega
    rw [if_pos hx3]
    refine Watch.deleted hb hdiff wa3 ef3.wf hx3 ?_
    intro c hc
    have hch := Tree.has_of_mem_rawParents hc
    have := (ef3.children x).subset (ef3.wf.up x c hc)
    rw [g3 c this] at hch; cases hch

theorem watch_removeRecursive (hb : OwnOn b ft0.applied) (hdiff : SetDiff diff) {s : St} (h : WF s.t) {x : Id} (hx : s.t.has x = true)
    (hone : ∀ y, Reach s.t.rawChildren x y → (s.t.rawParents y).length ≤ 1)
    (hwa : Watch diff b d s0 ft0 (fun _ => False) s) :
    Watch diff b d s0 ft0 (fun _ => False) (removeNode (removeFuel s.t) s x true).state := by
  obtain ⟨ht, hle, hlt⟩ := exists_height s.t.rawChildren s.t.nodes.keys s.t.rawChildren_keys h.acyclicC
  exact watch_removeRec hb hdiff ht (removeFuel s.t) (fun _ => False) s x h hlt (by
    have := hle x; rw [Dict.keys_length] at this; unfold removeFuel; omega) hx hone (Or.inl fun _ h => h) hwa

end Larch
