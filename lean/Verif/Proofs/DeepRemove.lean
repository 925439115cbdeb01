import Verif.Proofs.DanglingGone

/-!
# A view follows recursive removals of nodes whose descendants have up to three parents

The loop over the parents of a node (`tree.py:236-239`) steps over every second of them. With up to three parents only one is
stepped over, and every other one is in its place, with everything above it, when the node is deleted.
-/

namespace Larch

open Graph Spec

variable {V : Type} {diff : List Id → List Id → List Id} {b : Bank (Id → V)} {d : Id → V} {s0 : St} {ft0 : FT} {X : Id → Prop}
  {B : Id → List Id}

/-- One notification about `x`; everything above `x` is in its place afterwards. -/
theorem Fit.updateUp {E : VEnv} (hE : EB E) {D : Id → Prop} {v : View} (h : Fit E D v) (K : List Id)
    (hK : ∀ x, E.par x ≠ [] → x ∈ K) {f : Nat} (hf : 2 * (K.length + v.nodes.entries.length) + 4 ≤ f) {x : Id}
    (hx : x ≠ E.root) : ∃ v', E.update f x .both v = .ok v' ∧ Fit E (fun y => D y ∧ ¬ ReachEq (upsOf E) x y) v' ∧
      ∀ y p, p ∈ v'.pars y → p ∈ v.pars y ∨ p ∈ npAll E y := by
  obtain ⟨v', a1, a2⟩ := h.update hE K hK hf hx
  obtain ⟨r, -, hv⟩ := h.inv
  obtain ⟨k1, k2⟩ := update_hold hE f x .both v v' ⟨hv.rootIn, h.all, hv.sub⟩ a1
  refine ⟨v', a1, ⟨a2.inv, a2.all, fun y hy hn => ?_⟩, k1.par⟩
  by_cases hr : ReachEq (upsOf E) x y
  · exact k2 rfl y hr hy
  · exact k1.set y (h.settled y hy fun hD => hn ⟨hD, hr⟩)

/-- The parents in the view are among `B`. -/
def BoundBy (diff : List Id → List Id → List Id) (b : Bank (Id → V)) (d : Id → V) (s0 : St) (ft0 : FT) (B : Id → List Id) (log : List Note) : Prop :=
  ∀ v l, log = s0.log ++ l → Res.forEach (FT.react diff b d) l ft0 = .ok { ft0 with view := v } →
    ∀ y p, p ∈ v.pars y → p = ft0.root ∨ p ∈ B y

/-- The view has followed, the nodes in `X` may be misplaced, and all parents are among `B`. -/
structure Deep (diff : List Id → List Id → List Id) (b : Bank (Id → V)) (d : Id → V) (s0 : St) (ft0 : FT) (B : Id → List Id)
    (X : Id → Prop) (s : St) : Prop where
  watch : Watch diff b d s0 ft0 X s
  within : BoundBy diff b d s0 ft0 B s.log
  sub : ∀ y q, q ∈ s.t.rawParents y → q ∈ B y

theorem BoundBy.at {log l : List Note} {v : View} (h1 : log = s0.log ++ l)
    (h2 : Res.forEach (FT.react diff b d) l ft0 = .ok { ft0 with view := v }) (h : ∀ y p, p ∈ v.pars y → p = ft0.root ∨ p ∈ B y) :
    BoundBy diff b d s0 ft0 B log := by
  intro v' l' e1 e2
  have : l' = l := by
    rw [h1] at e1
    exact (List.append_cancel_left e1).symm
  subst this
  rw [h2] at e2
  have : v = v' := congrArg FT.view (Res.ok.inj e2)
  exact this ▸ h

/-- Where an upward update goes in the tree of `s`. -/
def St.upsOf (diff : List Id → List Id → List Id) (b : Bank (Id → V)) (d : Id → V) (ft : FT) (s : St) : Id → List Id :=
  Larch.upsOf (FT.env diff b s.t d ft)

theorem upsOf_sub (hb : OwnOn b ft0.applied) {s s' : St} (hw : WF s.t) (hw' : WF s'.t)
    (hh : ∀ y, s'.t.has y = true → s.t.has y = true) (hp : ∀ y q, q ∈ s'.t.rawParents y → q ∈ s.t.rawParents y)
    (y q : Id) (hq : q ∈ s'.upsOf diff b d ft0 y) : q ∈ s.upsOf diff b d ft0 y := by
  have hq1 := upsOf_par hq
  rw [env_par hw'] at hq1
  have hy' := Tree.has_of_mem_rawParents hq1
  have hqh := hw'.has_parent hq1
  have hd : ∀ z, s'.t.has z = true → (FT.env diff b s'.t d ft0).disp z = (FT.env diff b s.t d ft0).disp z := fun z hz =>
    accepts_own hb (by rw [hz, hh z hz]) rfl
  unfold St.upsOf Larch.upsOf at hq ⊢
  rw [hd y hy'] at hq
  have hfl : (FT.env diff b s'.t d ft0).flat = (FT.env diff b s.t d ft0).flat := rfl
  rw [env_par hw', hfl] at hq
  rw [env_par hw]
  by_cases h1 : (FT.env diff b s.t d ft0).disp y = true
  · rw [if_pos h1] at hq ⊢
    by_cases h2 : (FT.env diff b s.t d ft0).flat = true
    · rw [if_pos h2] at hq; cases hq
    · rw [if_neg h2] at hq ⊢
      obtain ⟨m1, m2⟩ := List.mem_filter.1 hq
      exact List.mem_filter.2 ⟨hp y q m1, by rw [← hd q hqh]; exact m2⟩
  · rw [if_neg h1]; exact hp y q hq1

theorem reachEq_mono {s s' : Id → List Id} (h : ∀ y q, q ∈ s' y → q ∈ s y) {x y : Id} (hr : ReachEq s' x y) : ReachEq s x y :=
  hr.imp id fun h' => h'.mono h

/-- Nothing that is misplaced is above `p`. -/
def AtRest (diff : List Id → List Id → List Id) (b : Bank (Id → V)) (d : Id → V) (ft : FT) (X : Id → Prop) (s : St) (p : Id) : Prop :=
  ∀ z, ReachEq (s.upsOf diff b d ft) p z → ¬ X z

theorem AtRest.mono {s s' : St} {X' : Id → Prop} {p : Id} (h : AtRest diff b d ft0 X s p)
    (hu : ∀ y q, q ∈ s'.upsOf diff b d ft0 y → q ∈ s.upsOf diff b d ft0 y) (hX : ∀ z, ReachEq (s.upsOf diff b d ft0) p z → X' z → X z) :
    AtRest diff b d ft0 X' s' p := by
  intro z hz hx
  have := reachEq_mono hu hz
  exact h z this (hX z this hx)

theorem reachEq_height {s : Id → List Id} {ht : Id → Nat} (h : ∀ y q, q ∈ s y → ht y < ht q) {x y : Id} (hr : ReachEq s x y) : ht x ≤ ht y := by
  rcases hr with rfl | hr
  · exact le_refl _
  · induction hr with
    | single hm => exact le_of_lt (h _ _ hm)
    | tail _ hm ih => exact le_trans ih (le_of_lt (h _ _ hm))

theorem Deep.mono {s : St} (h : Deep diff b d s0 ft0 B X s) {Y : Id → Prop} (hy : ∀ y, X y → Y y) : Deep diff b d s0 ft0 B Y s :=
  ⟨h.watch.mono hy, h.within, h.sub⟩

/-- A notification about `x` without a change of the tree. -/
theorem Deep.note (hdiff : SetDiff diff) {s : St} (h : Deep diff b d s0 ft0 B X s) (hw : WF s.t) (ev : Ev) {x : Id}
    (hx : s.t.has x = true) :
    Deep diff b d s0 ft0 B (fun y => X y ∧ ¬ ReachEq (s.upsOf diff b d ft0) x y) (s.emit ev x) := by
  obtain ⟨v, l, h1, h2, h3⟩ := h.watch.seen
  have hE := env_ok hdiff b hw d ft0 h.watch.rootFree
  have hne : x ≠ ft0.root := by rintro rfl; rw [h.watch.rootFree] at hx; cases hx
  obtain ⟨v', a1, a2, a3⟩ := h3.updateUp hE s.t.nodes.keys (env_keys hw)
    (f := 2 * (s.t.nodes.keys.length + v.nodes.entries.length) + 8) (by omega) (x := x) hne
  have e1 : (s.emit ev x).log = s0.log ++ (l ++ [⟨s.t, ev, x⟩]) := by
    show s.log ++ [_] = _
    rw [h1, List.append_assoc]
  have e2 : Res.forEach (FT.react diff b d) (l ++ [⟨s.t, ev, x⟩]) ft0 = .ok { ft0 with view := v' } := by
    rw [forEach_snoc h2]
    exact react_eq (n := ⟨s.t, ev, x⟩) (ft := { ft0 with view := v }) a1
  have hwn := h.watch.note hdiff hw ev hx
  refine ⟨⟨h.watch.rootFree, hwn.moments, v', _, e1, e2, a2⟩, BoundBy.at e1 e2 fun y p hp => ?_, h.sub⟩
  rcases a3 y p hp with hp | hp
  · exact h.within v l h1 h2 y p hp
  · rcases mem_npOf hp with hp | hp
    · exact Or.inl hp
    · exact Or.inr (h.sub y p (by rw [← env_par hw (diff := diff) (b := b) (d := d) (ft := ft0)]; exact hp.2.1))

/-- The node `x` loses the parent `p`. -/
theorem Deep.cut (hb : OwnOn b ft0.applied) (hdiff : SetDiff diff) {s : St} (h : Deep diff b d s0 ft0 B X s) (hw : WF s.t) {p x : Id}
    (hm : p ∈ s.t.rawParents x) {t' : Tree} (ht' : s.t.destroy p x = some t') :
    Deep diff b d s0 ft0 B (fun y => (X y ∨ y = x) ∧ ¬ ReachEq ((⟨t', s.log⟩ : St).upsOf diff b d ft0) p y)
      ((⟨t', s.log⟩ : St).emit .modified p) := by
  obtain ⟨t2, ht2, e⟩ := Tree.destroy_spec (hw.has_parent hm) (Tree.has_of_mem_rawParents hm)
  rw [ht'] at ht2
  cases ht2
  have hw' := hw.destroy ht'
  have hsub : ∀ y q, q ∈ t'.rawParents y → q ∈ s.t.rawParents y := by
    intro y q hq
    rw [e.parents] at hq
    split at hq
    · rename_i hy; subst hy; exact List.mem_of_mem_erase hq
    · exact hq
  have c1 := h.watch.cut (s' := ⟨t', s.log⟩) hb hw hw' rfl e.has (c := x)
    (fun y hy => by show t'.rawParents y = _; rw [e.parents, if_neg hy]) (fun q hq => hsub x q hq)
  have d1 : Deep diff b d s0 ft0 B (fun y => X y ∨ y = x) ⟨t', s.log⟩ := ⟨c1, h.within, fun y q hq => h.sub y q (hsub y q hq)⟩
  exact d1.note hdiff hw' .modified (x := p) (by show t'.has p = true; rw [e.has]; exact hw.has_parent hm)

theorem Deep.same (hb : OwnOn b ft0.applied) {s s' : St} (h : Deep diff b d s0 ft0 B X s) (hw : WF s.t) (hw' : WF s'.t)
    (hl : s'.log = s.log) (hh : ∀ y, s'.t.has y = s.t.has y) (hp : s'.t.rawParents = s.t.rawParents) :
    Deep diff b d s0 ft0 B X s' :=
  ⟨h.watch.same hb hw hw' hl hh hp, by rw [hl]; exact h.within, by rw [hp]; exact h.sub⟩

/-- Deleting a node without children, of whose parents at most one is not in its place. -/
theorem Deep.deleted (hb : OwnOn b ft0.applied) (hdiff : SetDiff diff) {s : St} {x : Id} (h : Deep diff b d s0 ft0 B X s)
    (ht : Id → Nat) (hB : ∀ y q, q ∈ B y → ht y < ht q) (hX : ∀ y, X y → y = x ∨ ht x < ht y)
    (hw : WF s.t) (hx : s.t.has x = true) (hno : ∀ c, x ∉ s.t.rawParents c)
    {o : Id} (ho3 : ∀ p ∈ B x, p ≠ o → AtRest diff b d ft0 X s p) :
    Deep diff b d s0 ft0 B (fun y => X y ∧ y ≠ x) ((⟨dropNode s.t x, s.log⟩ : St).emit .deleted x) := by
  obtain ⟨v, l, h1, h2, h3⟩ := h.watch.seen
  have hin := h.within v l h1 h2
  have hw' : WF (dropNode s.t x) := hw.dropNode fun c _ => hno c
  have hxr : x ≠ ft0.root := by rintro rfl; have := h.watch.rootFree; rw [this] at hx; cases hx
  have hroot : (dropNode s.t x).has ft0.root = false := by
    rw [dropNode_has, h.watch.rootFree]; simp
  have hE := env_ok hdiff b hw' d ft0 hroot
  obtain ⟨r, ho, hv⟩ := h3.inv
  have hdisp : ∀ y, y ≠ x → (FT.env diff b (dropNode s.t x) d ft0).disp y = (FT.env diff b s.t d ft0).disp y := fun y hy =>
    accepts_own hb (by rw [dropNode_has]; simp [hy]) rfl
  have hhx : (dropNode s.t x).has x = false := by rw [dropNode_has]; simp
  have hdx : (FT.env diff b (dropNode s.t x) d ft0).disp x = false := by
    by_contra hc
    have : (FT.env diff b (dropNode s.t x) d ft0).disp x = true := by simpa using hc
    have := accepts_has this
    rw [hhx] at this; cases this
  have hpsub : ∀ y q, q ∈ (dropNode s.t x).rawParents y → q ∈ s.t.rawParents y := by
    intro y q hq
    rw [dropNode_rawParents] at hq
    split at hq
    · cases hq
    · exact hq
  have ho' : Orders (FT.env diff b (dropNode s.t x) d ft0) v r := by
    refine ⟨?_, ho.2⟩
    have := ho.1
    rw [env_par hw] at this
    rw [env_par hw']
    exact fun y p hp => this y p (hpsub y p hp)
  -- nobody is below `x`
  have hbelow : ∀ y, x ∉ v.pars y := by
    intro y hy
    have hyr : y ≠ ft0.root := by
      rintro rfl
      have : v.pars ft0.root = [] := hv.rootPars
      rw [this] at hy; cases hy
    have hyd := hv.sub y (View.has_of_par hy) hyr
    have hlt : ht y < ht x := hB y x ((hin y x hy).resolve_left hxr)
    by_cases hXy : X y
    · rcases hX y hXy with rfl | h
      · omega
      · omega
    · rcases (h3.settled y hyd hXy).sub hy with e | e
      · exact hxr e
      · rw [env_par hw] at e; exact hno y e
  have hset : ∀ y, (FT.env diff b (dropNode s.t x) d ft0).disp y = true → ¬ (X y ∧ y ≠ x) →
      SettledAt (FT.env diff b (dropNode s.t x) d ft0) v y := by
    intro y hy hn p
    have hyx : y ≠ x := by rintro rfl; rw [hdx] at hy; cases hy
    rw [h3.settled y (by rw [← hdisp y hyx]; exact hy) (fun hXy => hn ⟨hXy, hyx⟩) p]
    symm
    refine npAll_congr (E := FT.env diff b s.t d ft0) (E' := FT.env diff b (dropNode s.t x) d ft0) rfl rfl
      (by show (dropNode s.t x).has y = s.t.has y; rw [dropNode_has]; simp [hyx]) (fun _ q => ?_) p
    rw [env_par hw, env_par hw', dropNode_rawParents, if_neg hyx]
    by_cases hqx : q = x
    · subst hqx
      constructor
      · rintro ⟨-, m2⟩; exact absurd m2 (hno y)
      · rintro ⟨-, m2⟩; exact absurd m2 (hno y)
    · rw [hdisp q hqx]
  have hall : ∀ y, (FT.env diff b (dropNode s.t x) d ft0).disp y = true → v.has y = true := by
    intro y hy
    have hyx : y ≠ x := by rintro rfl; rw [hdx] at hy; cases hy
    exact h3.all y (by rw [← hdisp y hyx]; exact hy)
  have key : ∃ v', (FT.env diff b (dropNode s.t x) d ft0).update
      (2 * ((dropNode s.t x).nodes.keys.length + v.nodes.entries.length) + 8) x .both v = .ok v' ∧
      Fit (FT.env diff b (dropNode s.t x) d ft0) (fun y => X y ∧ y ≠ x) v' ∧
      ∀ y p, p ∈ v'.pars y → p ∈ v.pars y ∨ p ∈ npAll (FT.env diff b (dropNode s.t x) d ft0) y := by
    by_cases hvx : v.has x = true
    · have hs : ∀ y q, q ∈ (⟨dropNode s.t x, s.log⟩ : St).upsOf diff b d ft0 y → q ∈ s.upsOf diff b d ft0 y :=
        upsOf_sub hb (s' := ⟨dropNode s.t x, s.log⟩) hw hw' (fun y hy => by
          have hy' : (dropNode s.t x).has y = true := hy
          rw [dropNode_has] at hy'; simp only [Bool.and_eq_true] at hy'
          exact hy'.2) hpsub
      refine Fit.gone (A := fun y => ∀ z, ReachEq (upsOf (FT.env diff b (dropNode s.t x) d ft0)) y z → ¬ (X z ∧ z ≠ x)) hE ho'
        (hv.congrE rfl fun y hy hyr => ?_) (dropNode s.t x).nodes.keys (env_keys hw') (by omega) hvx hxr hdx hhx hbelow hall hset ?_ ?_ ?_
      · by_cases hyx : y = x
        · simp [VEnv.showing, hyx]
        · rw [VEnv.showing_ne hyx, hdisp y hyx]; exact hv.sub y hy hyr
      · intro y hy p hp z hz; exact hy z (reachEq_cons hp hz)
      · intro y hy; exact hy y (Or.inl rfl)
      · have hcl : ∀ p ∈ v.pars x, Aside (FT.env diff b (dropNode s.t x) d ft0)
            (fun y => ∀ z, ReachEq (upsOf (FT.env diff b (dropNode s.t x) d ft0)) y z → ¬ (X z ∧ z ≠ x)) p → p = o := by
          intro p hp hoff
          by_contra hc
          refine hoff.1 fun z hz hXz => ?_
          exact ho3 p ((hin x p hp).resolve_left hoff.2) hc z (reachEq_mono hs hz) hXz.1
        intro p hp q hq hop hoq
        rw [hcl p hp hop, hcl q hq hoq]
    · refine ⟨v, ?_, ⟨⟨r, ho', hv.congrE rfl ?_⟩, hall, hset⟩, fun _ _ h => Or.inl h⟩
      · rw [VEnv.update, if_neg (show ¬ x = (FT.env diff b (dropNode s.t x) d ft0).root from hxr), if_pos ⟨by simpa using hvx, hdx⟩, if_neg]
        show ¬ (dropNode s.t x).has x = true
        rw [hhx]; simp
      · intro y hy hyr
        have hyx : y ≠ x := by rintro rfl; exact hvx hy
        rw [hdisp y hyx]; exact hv.sub y hy hyr
  obtain ⟨v', a1, a2, a3⟩ := key
  have e1 : ((⟨dropNode s.t x, s.log⟩ : St).emit .deleted x).log = s0.log ++ (l ++ [⟨dropNode s.t x, .deleted, x⟩]) := by
    show s.log ++ [_] = _
    rw [h1, List.append_assoc]
  have e2 : Res.forEach (FT.react diff b d) (l ++ [⟨dropNode s.t x, .deleted, x⟩]) ft0 = .ok { ft0 with view := v' } := by
    rw [forEach_snoc h2]
    exact react_eq (n := ⟨dropNode s.t x, .deleted, x⟩) (ft := { ft0 with view := v }) a1
  refine ⟨⟨hroot, h.watch.moments.snoc h1 h2 ⟨fun y hy hyr hyx => by
      show (dropNode s.t x).has y = true
      rw [dropNode_has, accepts_has (hv.sub y hy hyr)]; simpa using hyx,
    fun _ => List.eq_nil_iff_forall_not_mem.2 fun c hc => hbelow c ((hv.mirror c (fun h => h) x).2 hc), hxr, hw', hroot, _, r, rfl,
    by have := ho'.1; rw [env_par hw'] at this; exact this, hv⟩, v', _, e1, e2, a2⟩, BoundBy.at e1 e2 fun y p hp => ?_,
    fun y q hq => h.sub y q (hpsub y q hq)⟩
  rcases a3 y p hp with hp | hp
  · exact hin y p hp
  · rcases mem_npOf hp with hp | hp
    · exact Or.inl hp
    · exact Or.inr (h.sub y p (hpsub y p (by rw [← env_par hw' (diff := diff) (b := b) (d := d) (ft := ft0)]; exact hp.2.1)))

/-- One round of the loop over the parents. -/
theorem deep_round (hb : OwnOn b ft0.applied) (hdiff : SetDiff diff) {x : Id} {ht : Id → Nat}
    {s : St} (hB : ∀ y q, q ∈ B y → ht y < ht q) (hw : WF s.t) (h : Deep diff b d s0 ft0 B X s) {p : Id} (hm : p ∈ s.t.rawParents x) :
    ∃ t' X', s.t.destroy p x = some t' ∧ WF t' ∧ (∀ y, X' y → X y ∨ y = x) ∧ t'.rawParents x = (s.t.rawParents x).erase p ∧
      Deep diff b d s0 ft0 B X' ((⟨t', s.log⟩ : St).emit .modified p) ∧
      AtRest diff b d ft0 X' ((⟨t', s.log⟩ : St).emit .modified p) p ∧
      ∀ q ∈ B x, AtRest diff b d ft0 X s q → AtRest diff b d ft0 X' ((⟨t', s.log⟩ : St).emit .modified p) q := by
  obtain ⟨t', ht', e⟩ := Tree.destroy_spec (hw.has_parent hm) (Tree.has_of_mem_rawParents hm)
  have hw' := hw.destroy ht'
  refine ⟨t', _, ht', hw', fun y hy => hy.1, by rw [e.parents, if_pos rfl], h.cut hb hdiff hw hm ht', fun z hz hx => hx.2 hz, ?_⟩
  intro q hq hp
  have hsub : ∀ y r, r ∈ t'.rawParents y → r ∈ s.t.rawParents y := by
    intro y q hq
    rw [e.parents] at hq
    split at hq
    · rename_i hy; subst hy; exact List.mem_of_mem_erase hq
    · exact hq
  refine hp.mono (s' := (⟨t', s.log⟩ : St).emit .modified p) (upsOf_sub hb (s' := ⟨t', s.log⟩) hw hw' (fun y hy => by
    have hy' : t'.has y = true := hy
    rw [e.has] at hy'; exact hy') hsub) fun z hz hx => hx.1.resolve_right ?_
  rintro rfl
  have h1 := reachEq_height (ht := ht) (fun y r hr => hB y r (h.sub y r (by
    rw [← env_par hw (diff := diff) (b := b) (d := d) (ft := ft0)]; exact upsOf_par hr))) hz
  have h2 := hB z q hq
  omega

/-- The loop over the parents of a node with at most three of them. -/
theorem deep_parents (hb : OwnOn b ft0.applied) (hdiff : SetDiff diff) {x : Id} {ht : Id → Nat}
    {s s' : St} (hB : ∀ y q, q ∈ B y → ht y < ht q) (hw : WF s.t) (h : Deep diff b d s0 ft0 B X s) (hp : s.t.rawParents x = B x)
    (h3 : (B x).length ≤ 3) (hs : removeParentsLoop (s.t.rawParents x).length 0 s x = .ok s') :
    ∃ X' o, (∀ y, X' y → X y ∨ y = x) ∧ Deep diff b d s0 ft0 B X' s' ∧ ∀ p ∈ B x, p ≠ o → AtRest diff b d ft0 X' s' p := by
  rw [hp] at hs
  have nd := hw.ndP x
  cases hl : B x with
  | nil =>
    rw [hl] at hs
    simp only [List.length_nil, removeParentsLoop] at hs
    cases hs
    exact ⟨X, x, fun _ h => Or.inl h, h, by simp⟩
  | cons p1 l =>
    rw [hl] at hs hp
    rw [hp] at nd
    have hm : p1 ∈ s.t.rawParents x := by rw [hp]; simp
    obtain ⟨t1, X1, a1, a2, a3, a4, a5, a6, a7⟩ := deep_round hb hdiff hB hw h hm
    rw [hp, List.erase_cons_head] at a4
    simp only [List.length_cons, removeParentsLoop, hp, List.getElem?_cons_zero, a1] at hs
    have hB1 : p1 ∈ B x := by rw [hl]; simp
    match l, hs, a4, nd, hl with
    | [], hs, a4, nd, hl =>
      simp only [List.length_nil, removeParentsLoop] at hs
      cases hs
      exact ⟨X1, x, a3, a5, by intro p hp' _; rw [List.mem_singleton] at hp'; rw [hp']; exact a6⟩
    | [p2], hs, a4, nd, hl =>
      have e0 : (({ s with t := t1 } : St).emit .modified p1).t.rawParents x = [p2] := a4
      simp only [List.length_cons, List.length_nil, removeParentsLoop, e0] at hs
      cases hs
      refine ⟨X1, p2, a3, a5, ?_⟩
      intro p hp' hne
      have : p = p1 := by simpa [hne] using hp'
      rw [this]; exact a6
    | [p2, p3], hs, a4, nd, hl =>
      have e0 : (({ s with t := t1 } : St).emit .modified p1).t.rawParents x = [p2, p3] := a4
      have hm3 : p3 ∈ (((⟨t1, s.log⟩ : St).emit .modified p1)).t.rawParents x := by
        show p3 ∈ t1.rawParents x
        rw [a4]; simp
      obtain ⟨t2, X2, b1, b2, b3, b4, b5, b6, b7⟩ := deep_round hb hdiff hB (s := (⟨t1, s.log⟩ : St).emit .modified p1) a2 a5 hm3
      have e1 : (({ s with t := t1 } : St).emit .modified p1).t.destroy p3 x = some t2 := b1
      have e2 : (t1.rawParents x).erase p3 = [p2] := by
        rw [a4]
        have : p2 ≠ p3 := by
          intro e
          rw [List.nodup_cons, List.nodup_cons] at nd
          exact nd.2.1 (by simp [e])
        rw [List.erase_cons_tail (by simpa using this), List.erase_cons_head]
      simp only [List.length_cons, List.length_nil, removeParentsLoop, e0, Nat.zero_add, List.getElem?_cons_succ,
        List.getElem?_cons_zero, e1] at hs
      have e3 : (({ ({ s with t := t1 } : St).emit .modified p1 with t := t2 } : St).emit .modified p3).t.rawParents x = [p2] := b4.trans e2
      rw [e3] at hs
      cases hs
      refine ⟨X2, p2, fun y hy => (b3 y hy).elim (a3 y) Or.inr, b5, ?_⟩
      intro p hp' hne
      rcases (by simpa [hne] using hp' : p = p1 ∨ p = p3) with rfl | rfl
      · exact b7 p hB1 a6
      · exact b6
    | _ :: _ :: _ :: _, hs, a4, nd, hl => rw [hl] at h3; simp at h3

/-- The loop over the parents of a node with any number of them, if nothing is misplaced before. -/
theorem deep_parentsLoop (hb : OwnOn b ft0.applied) (hdiff : SetDiff diff) {x : Id} {ht : Id → Nat} (hB : ∀ y q, q ∈ B y → ht y < ht q) (f : Nat) :
    ∀ (i : Nat) (X : Id → Prop) (s s' : St), WF s.t → (∀ y, X y → y = x) → Deep diff b d s0 ft0 B X s → removeParentsLoop f i s x = .ok s' →
      ∃ X', (∀ y, X' y → y = x) ∧ Deep diff b d s0 ft0 B X' s' := by
  induction f with
  | zero => intro i X s s' _ hX h hs; cases hs; exact ⟨X, hX, h⟩
  | succ f ih =>
    intro i X s s' hw hX h hs
    unfold removeParentsLoop at hs
    cases hp : (s.t.rawParents x)[i]? with
    | none => rw [hp] at hs; cases hs; exact ⟨X, hX, h⟩
    | some p =>
      rw [hp] at hs
      obtain ⟨t1, X1, a1, a2, a3, a4, a5, a6, a7⟩ := deep_round hb hdiff hB hw h (List.mem_of_getElem? hp)
      dsimp only at hs
      rw [a1] at hs
      exact ih (i + 1) X1 _ s' a2 (fun y hy => (a3 y hy).elim (hX y) id) a5 hs

theorem placed_rem (hb : OwnOn b ft0.applied) {s s' : St} (hw : WF s.t) (e : RemEffect s.t s'.t) {p : Id}
    (h : AtRest diff b d ft0 X s p) : AtRest diff b d ft0 X s' p := by
  refine h.mono (upsOf_sub hb hw e.wf e.hasSub fun y q hq => ?_) fun _ _ h => h
  rw [← e.parents y (Tree.has_of_mem_rawParents hq)]; exact hq

theorem deep_removeRec (hb : OwnOn b ft0.applied) (hdiff : SetDiff diff) (ht : Id → Nat) (hB : ∀ y q, q ∈ B y → ht y < ht q) (f : Nat) :
    ∀ (X : Id → Prop) (s : St) (x : Id), WF s.t → (∀ y c, c ∈ s.t.rawChildren y → ht c < ht y) → ht x < f → s.t.has x = true →
    (∀ y, ReachEq s.t.rawChildren x y → s.t.has y = true → s.t.rawParents y = B y) →
    (∀ y, Reach s.t.rawChildren x y → s.t.has y = true → (B y).length ≤ 3) →
    ((∀ y, ¬ X y) ∨ (B x).length ≤ 3) → (∀ y, X y → ht x < ht y) →
    Deep diff b d s0 ft0 B X s → Deep diff b d s0 ft0 B X (removeNode f s x true).state := by
  induction f with
  | zero => intro _ s x _ _ h; omega
  | succ f ih =>
    intro X s x h hh hf hx heq hthree hX3 hX hwa
    have hxn : x ≠ .none := by rintro rfl; have := (h.ids _ hx).1; cases this
    unfold removeNode
    rw [if_neg (by simp [hx, hxn])]
    dsimp only
    generalize hs1 : (s.mapTree fun t => { t with pending := dropPendingOf t.pending x }) = s1
    have ht1 : s1.t = { s.t with pending := dropPendingOf s.t.pending x } := by rw [← hs1]; rfl
    have hw1 : WF s1.t := by rw [ht1]; exact h.pending _
    have wa1 : Deep diff b d s0 ft0 B X s1 :=
      hwa.same hb h hw1 (by rw [← hs1]; rfl) (fun y => by rw [ht1]; rfl) (by rw [ht1]; rfl)
    obtain ⟨s2, e2, ef2⟩ := removeParentsLoop_effect (s1.t.rawParents x).length 0 s1 x hw1
    have hpx : s1.t.rawParents x = B x := by rw [ht1]; exact heq x (Or.inl rfl) hx
    obtain ⟨X2, o, hX2, wa2, pl2⟩ : ∃ X2 o, (∀ y, X2 y → X y ∨ y = x) ∧ Deep diff b d s0 ft0 B X2 s2 ∧
        ∀ p ∈ B x, p ≠ o → AtRest diff b d ft0 X2 s2 p := by
      rcases hX3 with hX0 | hX3
      · obtain ⟨X2, a1, a2⟩ := deep_parentsLoop hb hdiff hB _ 0 X s1 s2 hw1 (fun y hy => absurd hy (hX0 y)) wa1 e2
        refine ⟨X2, x, fun y hy => Or.inr (a1 y hy), a2, fun p hp _ z hz hX2z => ?_⟩
        have := a1 z hX2z
        subst this
        have h1 := reachEq_height (ht := ht) (fun y r hr => hB y r (a2.sub y r (by
          rw [← env_par ef2.wf (diff := diff) (b := b) (d := d) (ft := ft0)]; exact upsOf_par hr))) hz
        have h2 := hB z p hp
        omega
      · exact deep_parents hb hdiff hB hw1 wa1 hpx hX3 e2
    rw [e2, Res.andThen_ok]
    have sub2 : ∀ y c, c ∈ s2.t.rawChildren y → c ∈ s.t.rawChildren y := by
      intro y c hc
      have := (ef2.childrenSub y).subset hc
      rw [ht1] at this; exact this
    have has2 : ∀ y, s2.t.has y = s.t.has y := by intro y; rw [ef2.same.has, ht1]; rfl
    have loop : ∀ (l : List Id) (s2 : St), WF s2.t → (∀ y c, c ∈ s2.t.rawChildren y → ht c < ht y) →
        (∀ c ∈ l, ht c < f) → (∀ c ∈ l, ht c < ht x) →
        (∀ c ∈ l, ∀ y, ReachEq s2.t.rawChildren c y → s2.t.has y = true → s2.t.rawParents y = B y ∧ (B y).length ≤ 3) →
        Deep diff b d s0 ft0 B X2 s2 →
        ∃ s3, Res.forEach (fun c s => if true = true then removeNode f s c true else orphanChild x c s) l s2 = .ok s3 ∧
          Deep diff b d s0 ft0 B X2 s3 ∧ RemEffect s2.t s3.t ∧ (∀ c ∈ l, s3.t.has c = false) ∧
          ∀ y, s2.t.has y = true → s3.t.has y = false → ∃ c ∈ l, ReachEq s2.t.rawChildren c y := by
      intro l
      induction l with
      | nil =>
        intro s2 hw _ _ _ _ hwa
        refine ⟨s2, rfl, hwa, RemEffect.refl hw, by simp, ?_⟩
        intro y h1 h2; rw [h1] at h2; cases h2
      | cons c l ihl =>
        intro s2 hw hd hl hlx hlo hwa
        obtain ⟨s3, e3, ef3, g3, r3, -⟩ := removeNode_rec ht f s2 c hw hd (hl c (by simp))
        have wa3 : Deep diff b d s0 ft0 B X2 s3 := by
          by_cases hc : s2.t.has c = true
          · have := ih X2 s2 c hw hd (hl c (by simp)) hc (fun y hy hyh => (hlo c (by simp) y hy hyh).1)
              (fun y hy hyh => (hlo c (by simp) y (Or.inr hy) hyh).2) (Or.inr (hlo c (by simp) c (Or.inl rfl) hc).2)
              (fun y hy => by
                have h1 := hlx c (by simp)
                rcases hX2 y hy with h | h
                · have := hX y h; omega
                · rw [h]; exact h1) hwa
            rw [e3] at this
            exact this
          · have : s3 = s2 := by
              obtain ⟨k, rfl⟩ : ∃ k, f = k + 1 := ⟨f - 1, by have := hl c (by simp); omega⟩
              unfold removeNode at e3; rw [if_pos (by simp [hc])] at e3; cases e3; rfl
            rw [this]; exact hwa
        obtain ⟨s4, e4, wa4, ef4, g4, r4⟩ := ihl s3 ef3.wf
          (fun y d hd' => hd y d ((ef3.children y).subset hd')) (fun d hd' => hl d (by simp [hd']))
          (fun d hd' => hlx d (by simp [hd']))
          (fun d hd' y hy hyh => by
            rw [ef3.parents y hyh]; exact hlo d (by simp [hd']) y (ef3.reach hy) (ef3.hasSub y hyh)) wa3
        refine ⟨s4, ?_, wa4, ef3.trans ef4, ?_, ?_⟩
        · unfold Res.forEach; rw [if_pos rfl, e3]; exact e4
        · intro d hd'
          rcases List.mem_cons.1 hd' with rfl | hd'
          · by_contra hc; have := ef4.hasSub d (by simpa using hc); rw [g3] at this; cases this
          · exact g4 d hd'
        · intro y h1 h2
          by_cases h3 : s3.t.has y = true
          · obtain ⟨d, hd', hr⟩ := r4 y h3 h2
            exact ⟨d, by simp [hd'], ef3.reach hr⟩
          · exact ⟨c, by simp, r3 y h1 (by simpa using h3)⟩
    have hac : ∀ z w, ReachEq s2.t.rawChildren z w → ht w ≤ ht z := by
      rintro z w (rfl | hr)
      · exact le_refl _
      · induction hr with
        | single hm => exact le_of_lt (hh _ _ (sub2 _ _ hm))
        | tail _ hm ih => exact le_trans (le_of_lt (hh _ _ (sub2 _ _ hm))) ih
    obtain ⟨s3, e3, wa3, ef3, g3, r3⟩ := loop (s2.t.rawChildren x) s2 ef2.wf
      (fun y c hc => hh y c (sub2 y c hc))
      (fun c hc => by have := hh x c (sub2 x c hc); omega)
      (fun c hc => hh x c (sub2 x c hc))
      (fun c hc y hy hyh => by
        have hr : Reach s2.t.rawChildren x y := hy.elim (fun e => e ▸ Reach.single hc) fun h => Reach.head hc h
        have hr' : Reach s.t.rawChildren x y := hr.mono sub2
        rw [has2] at hyh
        have hyx : y ≠ x := by
          rintro rfl
          have h1 := hac c y hy
          have h2 := hh y c (sub2 y c hc)
          omega
        rw [ef2.parents y hyx, ht1]
        exact ⟨heq y (Or.inr hr') hyh, hthree y hr' hyh⟩) wa2
    rw [e3, Res.andThen_ok]
    have hx3 : s3.t.has x = true := by
      by_contra hc
      obtain ⟨c, hc1, hr⟩ := r3 x (by rw [has2]; exact hx) (by simpa using hc)
      have h1 := hac c x hr
      have h2 := hh x c (sub2 x c hc1)
      omega
    rw [if_pos hx3]
    refine (wa3.deleted hb hdiff ht hB (fun y hy => (hX2 y hy).elim (fun h => Or.inr (hX y h)) Or.inl) ef3.wf hx3 ?_
      (fun p hp hpo => placed_rem hb ef2.wf ef3 (pl2 p hp hpo))).mono fun y hy => (hX2 y hy.1).resolve_right hy.2
    intro c hc
    have hch := Tree.has_of_mem_rawParents hc
    have := (ef3.children x).subset (ef3.wf.up x c hc)
    rw [g3 c this] at hch; cases hch

/-- A view follows a recursive removal if the descendants of the node have at most three parents each. -/
theorem watch_removeThree (hb : OwnOn b ft0.applied) (hdiff : SetDiff diff) {s : St} (h : WF s.t) {x : Id} (hx : s.t.has x = true)
    (hthree : ∀ y, Reach s.t.rawChildren x y → (s.t.rawParents y).length ≤ 3)
    (hwa : Watch diff b d s0 ft0 (fun _ => False) s) :
    Watch diff b d s0 ft0 (fun _ => False) (removeNode (removeFuel s.t) s x true).state := by
  obtain ⟨ht, hle, hlt⟩ := exists_height s.t.rawChildren s.t.nodes.keys s.t.rawChildren_keys h.acyclicC
  refine (deep_removeRec (B := s.t.rawParents) hb hdiff ht (fun y q hq => hlt q y (h.up q y hq)) (removeFuel s.t) (fun _ => False) s x h hlt (by
    have := hle x; rw [Dict.keys_length] at this; unfold removeFuel; omega) hx (fun _ _ _ => rfl) (fun y hy _ => hthree y hy) (Or.inl fun _ h => h)
    (fun _ h => h.elim) ⟨hwa, ?_, fun _ _ h => h⟩).watch
  intro v l e1 e2 y p hp
  obtain ⟨v', l', f1, f2, f3⟩ := hwa.seen
  have hl : l' = l := by rw [f1] at e1; exact List.append_cancel_left e1
  subst hl
  rw [f2] at e2
  have hvv : v' = v := congrArg FT.view (Res.ok.inj e2)
  subst hvv
  rcases f3.parSub (fun _ h => h) hp with e | e
  · exact Or.inl e
  · rw [env_par h] at e; exact Or.inr e

end Larch
