import Verif.Proofs.ChainHide
import Verif.Proofs.Fewer
import Verif.Proofs.Minimal
import Verif.Spec.Below

/-!
# Views with filters that look at everything below a node

The tree is a forest and the view is not flat. Every change concerns one node and its ancestors.
-/

namespace Larch

open Graph Spec

variable {V : Type} {diff : List Id → List Id → List Id} {b : Bank (Id → V)} {d : Id → V} {s0 : St} {ft0 : FT} {X : Id → Prop}

/-- All filters in the list look at a node and everything below it, and keep the parents of what they accept. -/
def BelowBank (b : Bank (Id → V)) (ap : List FName) : Prop :=
  ∀ n ∈ ap, ∀ f, b.getFilter n = some f → LooksBelow f ∧ BubblesUp f

/-- No node has two parents. -/
def OneUp (t : Tree) : Prop := ∀ x, (t.rawParents x).length ≤ 1

theorem WF.oneUp {t : Tree} (h : WF t) (h1 : SingleParent t) : OneUp t := fun x => by
  rw [← h.getParents_eq]; exact h1 x

theorem eq_of_mem_iff_le_one {l l' : List Id} (h : l.length ≤ 1) (h' : l'.length ≤ 1) (hm : ∀ x, x ∈ l ↔ x ∈ l') : l = l' := by
  match l, l', h, h', hm with
  | [], [], _, _, _ => rfl
  | [], b :: _, _, _, hm => exact absurd ((hm b).2 (by simp)) (by simp)
  | a :: _, [], _, _, hm => exact absurd ((hm a).1 (by simp)) (by simp)
  | [a], [b], _, _, hm =>
    have := (hm a).1 (by simp)
    simp at this; rw [this]

theorem eq_singleton_of_le_one {l : List Id} {p : Id} (h : l.length ≤ 1) (hp : p ∈ l) : l = [p] :=
  eq_of_mem_iff_le_one h (by simp) fun x => by
    match l, h, hp with
    | [a], _, hp => simp at hp; simp [hp]

theorem reach_of_head {s : Id → List Id} {x y z : Id} (hy : y ∈ s x) (h : ReachEq s y z) : Reach s x z := by
  rcases h with rfl | h
  · exact Reach.single hy
  · exact Reach.head hy h

theorem accepts_below {ap : List FName} (hb : BelowBank b ap) {t t' : Tree} {d d' : Id → V} {x : Id} (hw : WF t) (hw' : WF t')
    (hh : t'.has x = t.has x)
    (hc : ∀ y, ReachEq t.rawParents y x → d y = d' y ∧ ∀ c, y ∈ t.rawParents c ↔ y ∈ t'.rawParents c) :
    FT.accepts b t' d' ap x = FT.accepts b t d ap x := by
  unfold FT.accepts
  rw [hh]
  cases hx : t.has x with
  | false => simp
  | true =>
    congr 1
    rw [Bool.eq_iff_iff, List.all_eq_true, List.all_eq_true]
    refine forall_congr' fun n => forall_congr' fun hn => ?_
    cases hg : b.getFilter n with
    | none => rfl
    | some f =>
      dsimp only
      rw [(hb n hn f hg).1 t t' d d' x hw.agree hw.upInv.noCycle hw'.agree hw'.upInv.noCycle hx (by rw [hh]; exact hx)]
      intro y hy
      have hy' : ReachEq t.rawParents y x := hy.imp (fun h => h) fun h => (hw.descendant_up y x).1 h
      refine ⟨(hc y hy').1, fun c => ?_⟩
      have h1 := (hc y hy').2 c
      unfold IsChild
      rw [hw.mem_getChildren, hw'.mem_getChildren]; exact h1

theorem accepts_up {ap : List FName} (hb : BelowBank b ap) {t : Tree} {d : Id → V} (hw : WF t) {x p : Id} (hp : p ∈ t.rawParents x)
    (h : FT.accepts b t d ap x = true) : FT.accepts b t d ap p = true := by
  have hph := hw.has_parent hp
  unfold FT.accepts at h ⊢
  simp only [Bool.and_eq_true, List.all_eq_true] at h ⊢
  refine ⟨⟨by rw [(hw.ids p hph).1]; rfl, hph⟩, fun n hn => ?_⟩
  have := h.2 n hn
  cases hg : b.getFilter n with
  | none => rw [hg] at this; cases this
  | some f =>
    rw [hg] at this
    exact (hb n hn f hg).2 t d p x hw.agree hw.upInv.noCycle (by unfold IsParent; rw [hw.getParents_eq]; exact hp) this

theorem env_forest (hb : BelowBank b ft0.applied) {t : Tree} (hw : WF t) (hflat : ft0.flat = false) (h1 : OneUp t) :
    ForestE (FT.env diff b t d ft0) := by
  refine ⟨hflat, fun x => ?_, fun x p hp hd => ?_⟩
  · rw [env_par hw]; exact h1 x
  · rw [env_par hw] at hp
    exact accepts_up hb hw hp hd

/-- In a forest everything shown has one parent at most in the view. -/
theorem update_one {E : VEnv} (hdiff : SetDiff E.diff) (h1 : ∀ x, (E.par x).length ≤ 1) {f : Nat} {x : Id} {dir : Dir} {v v' : View}
    (h : E.update f x dir v = .ok v') (hv : ∀ y, (v.pars y).length ≤ 1) : ∀ y, (v'.pars y).length ≤ 1 := by
  have hnp : ∀ (v : View) x, (E.newPars v x).length ≤ 1 := by
    intro v x
    have h2 : (if E.flat = false ∧ E.has x = true then (E.par x).filter (fun p => v.has p && E.disp p) else []).length ≤ 1 := by
      split
      · exact le_trans (List.length_filter_le _ _) (h1 x)
      · simp
    unfold VEnv.newPars
    dsimp only
    generalize (if E.flat = false ∧ E.has x = true then (E.par x).filter (fun p => v.has p && E.disp p) else []) = l at h2 ⊢
    split
    · simp
    · exact h2
  refine update_keep (S := False) (I := fun v => ∀ y, (v.pars y).length ≤ 1) (D := fun _ _ => True) (A := fun _ _ => True) hdiff ?_
    (fun h => h.elim) f dir x v v' h hv
  refine ⟨fun v x ps h => h, ?_, ?_, fun _ _ _ _ _ _ _ _ => trivial, fun _ _ _ _ _ _ _ _ => trivial, fun _ _ _ _ _ _ _ => trivial,
    fun _ _ _ _ h _ _ => h, fun _ _ _ _ h _ _ => h, fun _ _ _ _ h _ _ => h, ?_, ?_, ?_, ?_⟩
  · intro v x h _ _ _ y
    unfold View.pars
    dsimp only
    rw [Dict.get?_set]
    split
    · simp
    · exact h y
  · intro v x h hx _ _ y
    rw [View.pars_updPars v x (fun _ => (E.newPars v x).filter v.has) hx y]
    split
    · obtain ⟨n, hn⟩ := View.get_of_has hx
      rw [hn]
      exact le_trans (List.length_filter_le _ _) (hnp v x)
    · exact h y
  · intro v p x h y
    rw [View.pars_updKids v p (fun l => l.erase x) y]; exact h y
  · intro v p x h _ _ y
    rw [View.pars_updKids v p (fun l => l ++ [x]) y]; exact h y
  · intro v x c h _ hp _ _ y
    have hc := View.has_of_par hp
    rw [View.pars_updPars v c (fun n => n.parents.erase x) hc y]
    split
    · obtain ⟨n, hn⟩ := View.get_of_has hc
      rw [hn]
      have := h c
      rw [View.pars_of_get hn] at this
      exact le_trans List.length_erase_le this
    · exact h y
  · intro v x sigs h _ _ _ _ y
    unfold View.pars
    dsimp only
    rw [Dict.get?_del]
    split
    · simp
    · exact h y

/-! ### Notifications -/

/-- The tree changed at `x` and its ancestors; `x` is told. -/
theorem Sees.chain (hb : BelowBank b ft0.applied) (hdiff : SetDiff diff) (hflat : ft0.flat = false) {s : St} {t' : Tree} {x : Id}
    {D : Id → Prop} (ev : Ev) {Q : View → Prop} (h : Sees diff b d s0 ft0 Q s) (hQ : ∀ v, Q v → Fit (FT.env diff b s.t d ft0) X v)
    (hw : WF s.t) (hw' : WF t') (h1 : OneUp s.t) (h1' : OneUp t') (hroot : t'.has ft0.root = false) (hx : t'.has x = true)
    (hhas : ∀ y, s.t.has y = true → t'.has y = true)
    (hdisp : ∀ y, ¬ ReachEq t'.rawParents x y → (FT.env diff b t' d ft0).disp y = (FT.env diff b s.t d ft0).disp y)
    (hpar : ∀ y, y ≠ x → ¬ D y → t'.rawParents y = s.t.rawParents y)
    (hDA : ∀ y, D y → y ≠ x → ¬ ReachEq t'.rawParents x y)
    (hD : ∀ y, D y → y ≠ x → t'.rawParents y = [x] ∨ (t'.rawParents y = [] ∧ s.t.rawParents y = [x]))
    (hX : ∀ y, X y → y = x)
    (hpx : t'.rawParents x = [] ∨ (t'.rawParents x = s.t.rawParents x ∧ ¬ X x) ∨ s.t.has x = false)
    (ho : ∀ v, Fit (FT.env diff b s.t d ft0) X v → ∃ r, Orders (FT.env diff b t' d ft0) v r) :
    Sees diff b d s0 ft0 (fun v' =>
      Fit (FT.env diff b t' d ft0) (fun y => D y ∧ y ≠ x ∧ (s.t.has x = true ∨ x ∉ t'.rawParents y)) v' ∧
        ∃ v f, Q v ∧ (FT.env diff b t' d ft0).update f x .both v = .ok v') ((⟨t', s.log⟩ : St).emit ev x) := by
  have hxr : x ≠ ft0.root := by rintro rfl; rw [hroot] at hx; cases hx
  refine Sees.say (s := ⟨t', s.log⟩) (h.mono rfl hroot fun _ h => h) hw' ev hx fun v hq => ?_
  have h3 := hQ v hq
  obtain ⟨r, -, hv⟩ := h3.inv
  obtain ⟨r', ho'⟩ := ho v h3
  refine ⟨fun y hy hyr _ => h3.hasIn hhas y hy hyr, ⟨_, r', rfl, by
    have := ho'.1
    rw [env_par hw'] at this
    exact this, hv.rerank ho'.2⟩, ?_⟩
  obtain ⟨v', a1, a2⟩ := Fit.chain (env_forest hb hw hflat h1) (env_forest (diff := diff) (d := d) hb hw' hflat h1')
    (env_ok hdiff b hw d ft0 h.rootFree) (env_ok hdiff b hw' d ft0 hroot) (D := D) h3 rfl hxr
    (by rw [env_par hw']; exact hdisp) (by rw [env_par hw, env_par hw']; exact hpar) (by rw [env_par hw']; exact hDA)
    (by rw [env_par hw, env_par hw']; exact fun y a1 a2 _ => hD y a1 a2) hX
    (by
      rw [env_par hw, env_par hw']
      refine hpx.imp (fun h => h) (Or.imp (fun h => h) fun h => ?_)
      rw [Bool.eq_false_iff]
      intro hc
      have := accepts_has hc
      rw [h] at this; cases this)
    (ho v h3) t'.nodes.keys (env_keys hw') (f := 2 * (t'.nodes.keys.length + v.nodes.entries.length) + 8) (by omega)
  refine ⟨v', a1, a2.mono fun y hy => ⟨hy.1, hy.2.1, ?_⟩, v, _, hq, a1⟩
  rw [env_par hw'] at hy
  exact hy.2.2.imp (fun hvx => accepts_has (hv.sub x hvx hxr)) fun h => h

theorem Watch.chain (hb : BelowBank b ft0.applied) (hdiff : SetDiff diff) (hflat : ft0.flat = false) {s : St} {t' : Tree} {x : Id}
    {D : Id → Prop} (ev : Ev) (h : Watch diff b d s0 ft0 X s)
    (hw : WF s.t) (hw' : WF t') (h1 : OneUp s.t) (h1' : OneUp t') (hroot : t'.has ft0.root = false) (hx : t'.has x = true)
    (hhas : ∀ y, s.t.has y = true → t'.has y = true)
    (hdisp : ∀ y, ¬ ReachEq t'.rawParents x y → (FT.env diff b t' d ft0).disp y = (FT.env diff b s.t d ft0).disp y)
    (hpar : ∀ y, y ≠ x → ¬ D y → t'.rawParents y = s.t.rawParents y)
    (hDA : ∀ y, D y → y ≠ x → ¬ ReachEq t'.rawParents x y)
    (hD : ∀ y, D y → y ≠ x → t'.rawParents y = [x] ∨ (t'.rawParents y = [] ∧ s.t.rawParents y = [x]))
    (hX : ∀ y, X y → y = x)
    (hpx : t'.rawParents x = [] ∨ (t'.rawParents x = s.t.rawParents x ∧ ¬ X x) ∨ s.t.has x = false)
    (ho : ∀ v, Fit (FT.env diff b s.t d ft0) X v → ∃ r, Orders (FT.env diff b t' d ft0) v r) :
    Watch diff b d s0 ft0 (fun y => D y ∧ y ≠ x ∧ (s.t.has x = true ∨ x ∉ t'.rawParents y)) ((⟨t', s.log⟩ : St).emit ev x) := by
  have h2 := Sees.chain hb hdiff hflat ev h.sees (fun _ h => h) hw hw' h1 h1' hroot hx hhas hdisp hpar hDA hD hX hpx ho
  exact (h2.mono rfl h2.rootFree fun _ h => h.1).watch

theorem Watch.sameBelow (hb : BelowBank b ft0.applied) {s s' : St} (h : Watch diff b d s0 ft0 X s) (hw : WF s.t) (hw' : WF s'.t)
    (hl : s'.log = s.log) (hh : ∀ y, s'.t.has y = s.t.has y) (hp : s'.t.rawParents = s.t.rawParents) :
    Watch diff b d s0 ft0 X s' := by
  refine h.moveD (fun y => accepts_below hb hw hw' (hh y) fun z _ => ⟨rfl, fun c => by rw [hp]⟩) hw hw' hl hh
    (fun _ h => h) (fun y _ => by rw [hp]) ?_
  intro v hf
  obtain ⟨r, ho, -⟩ := hf.inv
  refine ⟨r, ?_, ho.2⟩
  rw [env_par hw', hp, ← env_par hw (diff := diff) (b := b) (d := d) (ft := ft0)]
  exact ho.1

/-- The relation from `p` to `c` was broken; `p` is told. -/
theorem Sees.cutBelow (hb : BelowBank b ft0.applied) (hdiff : SetDiff diff) (hflat : ft0.flat = false) {s : St} {p c : Id} {t' : Tree}
    {Q : View → Prop} (h : Sees diff b d s0 ft0 Q s) (hQ : ∀ v, Q v → Fit (FT.env diff b s.t d ft0) X v)
    (hw : WF s.t) (hw' : WF t') (h1 : OneUp s.t) (hh : ∀ y, t'.has y = s.t.has y)
    (hp : ∀ y, y ≠ c → t'.rawParents y = s.t.rawParents y)
    (hc : t'.rawParents c = (s.t.rawParents c).erase p) (hpt : s.t.has p = true)
    (hX : ∀ y, X y → y = p ∧ s.t.rawParents p = []) (hm : p ∈ s.t.rawParents c) :
    Sees diff b d s0 ft0 (fun v' => Fit (FT.env diff b t' d ft0) (fun y => y = c) v' ∧
      ∃ v f, Q v ∧ (FT.env diff b t' d ft0).update f p .both v = .ok v') ((⟨t', s.log⟩ : St).emit .modified p) := by
  have hpt' : t'.has p = true := by rw [hh]; exact hpt
  have hsub : ∀ y q, q ∈ t'.rawParents y → q ∈ s.t.rawParents y := by
    intro y q hq
    by_cases hy : y = c
    · subst hy; rw [hc] at hq; exact List.mem_of_mem_erase hq
    · rw [hp y hy] at hq; exact hq
  have e1 := eq_singleton_of_le_one (h1 c) hm
  have e2 : t'.rawParents c = [] := by rw [hc, e1]; simp
  have hpc : p ≠ c := by rintro rfl; exact hw.acyclic p (Reach.single hm)
  have hroot : t'.has ft0.root = false := by rw [hh]; exact h.rootFree
  refine (Sees.chain hb hdiff hflat (D := fun y => y = c) .modified h hQ hw hw' h1 ?_ hroot hpt' (fun y hy => by rw [hh]; exact hy)
    ?_ (fun y _ hy => hp y hy) ?_ ?_ (fun y hy => (hX y hy).1) ?_ ?_).mono rfl hroot fun v hv => ⟨hv.1.mono fun y hy => hy.1, hv.2⟩
  · intro y
    by_cases hy : y = c
    · rw [hy, e2]; simp
    · rw [hp y hy]; exact h1 y
  · intro y hy
    refine (accepts_below hb hw' hw (hh y).symm fun z hz => ⟨rfl, fun c' => ?_⟩).symm
    have hzp : z ≠ p := by rintro rfl; exact hy hz
    by_cases hcc : c' = c
    · subst hcc; rw [e1, e2]; simp [hzp]
    · rw [hp c' hcc]
  · rintro y rfl _ hr
    exact hw.acyclic y (reach_of_head hm (ReachEq.mono hsub hr))
  · rintro y rfl _; exact Or.inr ⟨e2, e1⟩
  · by_cases hXp : X p
    · left; rw [hp p hpc]; exact (hX p hXp).2
    · exact Or.inr (Or.inl ⟨hp p hpc, hXp⟩)
  · intro v hv
    obtain ⟨r, ho, -⟩ := hv.inv
    refine ⟨r, ?_, ho.2⟩
    have := ho.1
    rw [env_par hw] at this
    rw [env_par hw']
    exact fun x q hq => this x q (hsub x q hq)

theorem Watch.cutBelow (hb : BelowBank b ft0.applied) (hdiff : SetDiff diff) (hflat : ft0.flat = false) {s : St} {p c : Id} {t' : Tree}
    (h : Watch diff b d s0 ft0 X s) (hw : WF s.t) (hw' : WF t') (h1 : OneUp s.t) (hh : ∀ y, t'.has y = s.t.has y)
    (hp : ∀ y, y ≠ c → t'.rawParents y = s.t.rawParents y)
    (hc : t'.rawParents c = (s.t.rawParents c).erase p) (hpt : s.t.has p = true)
    (hX : ∀ y, X y → y = p ∧ s.t.rawParents p = []) :
    Watch diff b d s0 ft0 (fun y => y = c) ((⟨t', s.log⟩ : St).emit .modified p) := by
  have hpt' : t'.has p = true := by rw [hh]; exact hpt
  by_cases hm : p ∈ s.t.rawParents c
  · have h2 := Sees.cutBelow hb hdiff hflat h.sees (fun _ h => h) hw hw' h1 hh hp hc hpt hX hm
    exact (h2.mono rfl h2.rootFree fun _ h => h.1).watch
  · have hs : t'.rawParents = s.t.rawParents := by
      funext y
      by_cases hy : y = c
      · subst hy; rw [hc, List.erase_of_not_mem hm]
      · exact hp y hy
    have h2 := h.sameBelow (s' := ⟨t', s.log⟩) hb hw hw' rfl hh hs
    exact (h2.note hdiff hw' .modified (x := p) hpt').mono fun y hy => absurd (hX y hy.1).1 hy.2

/-- `p` became the parent of `c`; `p` is told. -/
theorem Watch.linkBelow (hb : BelowBank b ft0.applied) (hdiff : SetDiff diff) (hflat : ft0.flat = false) {s : St} {p c : Id} {t' : Tree}
    (h : Watch diff b d s0 ft0 (fun _ => False) s) (hw : WF s.t) (hw' : WF t') (h1' : OneUp t') (hh : ∀ y, t'.has y = s.t.has y)
    (hp : ∀ y, y ≠ c → t'.rawParents y = s.t.rawParents y)
    (hc : t'.rawParents c = appendNew (s.t.rawParents c) p) (hpt : s.t.has p = true) :
    Watch diff b d s0 ft0 (fun y => y = c) ((⟨t', s.log⟩ : St).emit .modified p) := by
  have hpt' : t'.has p = true := by rw [hh]; exact hpt
  have hpc' : p ∈ t'.rawParents c := by rw [hc, mem_appendNew]; exact Or.inr rfl
  have e2 := eq_singleton_of_le_one (h1' c) hpc'
  have hpc : p ≠ c := by rintro rfl; exact hw'.acyclic p (Reach.single hpc')
  have hsup : ∀ y q, q ∈ s.t.rawParents y → q ∈ t'.rawParents y := by
    intro y q hq
    by_cases hy : y = c
    · subst hy; rw [hc, mem_appendNew]; exact Or.inl hq
    · rw [hp y hy]; exact hq
  by_cases hm : p ∈ s.t.rawParents c
  · have hs : t'.rawParents = s.t.rawParents := by
      funext y
      by_cases hy : y = c
      · subst hy; rw [hc]; unfold appendNew; rw [if_pos hm]
      · exact hp y hy
    have h2 := h.sameBelow (s' := ⟨t', s.log⟩) hb hw hw' rfl hh hs
    exact (h2.note hdiff hw' .modified (x := p) hpt').mono fun y hy => hy.1.elim
  · have e1 : s.t.rawParents c = [] := by
      rw [List.eq_nil_iff_forall_not_mem]
      intro q hq
      have := hsup c q hq
      rw [e2] at this
      simp at this
      subst this; exact hm hq
    have h1 : OneUp s.t := by
      intro y
      by_cases hy : y = c
      · rw [hy, e1]; simp
      · rw [← hp y hy]; exact h1' y
    refine (Watch.chain hb hdiff hflat (D := fun y => y = c) .modified h hw hw' h1 h1' (by rw [hh]; exact h.rootFree) hpt' (fun y hy => by rw [hh]; exact hy)
      ?_ (fun y _ hy => hp y hy) ?_ ?_ (fun y hy => hy.elim) ?_ ?_).mono fun y hy => hy.1
    · intro y hy
      refine (accepts_below hb hw' hw (hh y).symm fun z hz => ⟨rfl, fun c' => ?_⟩).symm
      have hzp : z ≠ p := by rintro rfl; exact hy hz
      by_cases hcc : c' = c
      · subst hcc; rw [e1, e2]; simp [hzp]
      · rw [hp c' hcc]
    · rintro y rfl _ hr
      exact hw'.acyclic y (reach_of_head hpc' hr)
    · rintro y rfl _; exact Or.inl e2
    · exact Or.inr (Or.inl ⟨hp p hpc, fun h => h⟩)
    · intro v hv
      obtain ⟨r, -, hvi⟩ := hv.inv
      refine orders_of_super (env_ok hdiff b hw' d ft0 (by rw [hh]; exact h.rootFree)) (v := v) hvi.rootPars (by rw [env_par hw']; exact hw'.acyclic)
        t'.nodes.keys (env_keys hw') ?_
      intro y q hq
      rcases hv.parSub (fun _ h => h) hq with e | e
      · exact Or.inl e
      · rw [env_par hw] at e
        rw [env_par hw']; exact Or.inr (hsup y q e)

end Larch
