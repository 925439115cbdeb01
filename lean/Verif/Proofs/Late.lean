import Verif.Proofs.StaleFit
import Verif.Props.FilteredTree
import Verif.Props.Refresh
import Verif.Spec.Announce

/-!
# A view that hears of changes later
-/

namespace Larch

open Spec Graph

variable {E : VEnv} {diff : List Id → List Id → List Id} {V : Type} {v : View}

theorem Stale.moreP {G : Roof} {P P' X Y : Id → Prop} (h : Stale E G P X Y v) (hP : ∀ z, P z → P' z) : Stale E G P' X Y v :=
  { h with
    shown := fun y hy => h.shown y fun g => hy (hP y g)
    stuck := fun hf y hx hy hd p hp hP' => h.stuck hf y hx hy hd p hp fun g => hP' (hP p g) }

/-- An announcement of something that is no node is not needed. -/
theorem Stale.skip (hE : EB E) {P X Y : Id → Prop} (h : Stale E E.roof P X Y v) {x : Id} (hx : E.has x = false) :
    Stale E E.roof (fun z => P z ∧ z ≠ x) X Y v := by
  have hd : E.disp x = false := by
    by_contra hc
    have := hE.dispHas x (by simpa using hc)
    rw [hx] at this; cases this
  refine { h with shown := fun y hy hr => ?_, stuck := fun hf y hX hy hd' p hp hP hdp => ?_ }
  · by_cases hyx : y = x
    · subst hyx
      rw [hd]
      by_contra hc
      have : E.has y = true := h.real y (by simpa using hc) hr
      rw [hx] at this; cases this
    · exact h.shown y (fun g => hy ⟨g, hyx⟩) hr
  · have hpx : p ≠ x := by rintro rfl; rw [hd] at hdp; cases hdp
    exact h.stuck hf y hX hy hd' p hp (fun g => hP ⟨g, hpx⟩) hdp

theorem Arriving.skip (hE : EB E) {l : List Id} {x : Id} (h : Arriving E (x :: l) v) (hx : E.has x = false) : Arriving E l v := by
  have hd : ∀ y, E.disp y = true → y ≠ x := by
    rintro y hy rfl
    have := hE.dispHas y hy
    rw [hx] at this; cases this
  exact ⟨h.inv, fun y hy hdy => h.has y (by simp [hd y hdy, hy]) hdy, fun y hy hdy => h.snap y (by simp [hd y hdy, hy]) hdy,
    fun y hy hdy hf p hp hpl hdp => h.par y (by simp [hd y hdy, hy]) hdy hf p hp (by simp [hd p hdp, hpl]) hdp⟩

/-- What is known about the view while the nodes of `l` are still to be announced. -/
def Waiting (E : VEnv) (l : List Id) (v : View) : Prop :=
  (OneParent E E.roof ∧ (∃ r : Id → Nat, ∀ x, ∀ p ∈ E.par x, r p < r x) ∧ Stale E E.roof (fun y => y ∈ l) (fun _ => False) (fun _ => False) v) ∨
    Arriving E l v

theorem Waiting.fit (hE : EB E) (h : Waiting E [] v) : Fit E (fun _ => False) v := by
  rcases h with ⟨h1, ⟨r, h2⟩, h3⟩ | h
  · exact (h3.moreP (P' := fun _ => False) fun z hz => by cases hz).fit hE h1 h2
  · exact h.fit hE

theorem Waiting.skip (hE : EB E) {l : List Id} {x : Id} (h : Waiting E (x :: l) v) (hx : E.has x = false) : Waiting E l v := by
  rcases h with ⟨h1, h2, h3⟩ | h
  · refine Or.inl ⟨h1, h2, (h3.skip hE hx).moreP fun z hz => ?_⟩
    simpa [hz.2] using hz.1
  · exact Or.inr (h.skip hE hx)

theorem Waiting.step (hE : EB E) {l : List Id} {x : Id} (h : Waiting E (x :: l) v) (K : List Id)
    (hK : ∀ x, E.par x ≠ [] → x ∈ K) {f : Nat} (hf : 2 * (K.length + v.nodes.entries.length) + 8 ≤ f) (hx : x ≠ E.root) :
    ∃ v', E.update f x .both v = .ok v' ∧ Waiting E l v' := by
  rcases h with ⟨h1, ⟨r, h2⟩, h3⟩ | h
  · obtain ⟨v', e, h'⟩ := h3.step hE h1 h2 K hK hf hx
    refine ⟨v', e, Or.inl ⟨h1, ⟨r, h2⟩, h'.moreP fun z hz => ?_⟩⟩
    simpa [hz.2] using hz.1
  · obtain ⟨v', e, h'⟩ := h.step hE K hK hf hx
    exact ⟨v', e, Or.inr h'⟩

theorem silently_bank {b : Bank (Id → V)} (hb : BankInv b) (ps : List (FName × Params)) :
    BankInv (ps.foldl (fun b p => b.setParameters p.1 (some p.2)) b) := by
  induction ps generalizing b with
  | nil => exact hb
  | cons p ps ih => exact ih (setParameters_inv hb _ _)

theorem react_waiting (hdiff : SetDiff diff) {b : Bank (Id → V)} {t : Tree} (hw : WF t) {d : Id → V} {ft : FT}
    (hroot : t.has ft.root = false) (x : Id) (l : List Id) (v : View) (h : Waiting (FT.env diff b t d ft) (x :: l) v)
    (hx : t.has x = true) :
    ∃ v', FT.react diff b d ⟨t, .modified, x⟩ { ft with view := v } = .ok { ft with view := v' } ∧
      Waiting (FT.env diff b t d ft) l v' := by
  obtain ⟨v', e, h'⟩ := h.step (env_ok hdiff b hw d ft hroot) t.nodes.keys (env_keys hw)
    (f := 2 * (t.nodes.keys.length + v.nodes.entries.length) + 8) (by omega) (x := x)
    (by rintro rfl; rw [show t.has ft.root = true from hx] at hroot; cases hroot)
  exact ⟨v', react_eq (n := ⟨t, .modified, x⟩) (ft := { ft with view := v }) e, h'⟩

/-- The notifications of `refresh_all` reach the view. -/
theorem told_notes {b : Bank (Id → V)} {t : Tree} {d : Id → V} {ft : FT} (P : List Id → View → Prop)
    (hstep : ∀ x l v, P (x :: l) v → t.has x = true →
      ∃ v', FT.react diff b d ⟨t, .modified, x⟩ { ft with view := v } = .ok { ft with view := v' } ∧ P l v') :
    ∀ (l : List Id) (v : View), (∀ x ∈ l, t.has x = true) → P l v →
      ∃ v', Res.forEach (FT.react diff b d) (l.map fun x => ⟨t, .modified, x⟩) { ft with view := v } = .ok { ft with view := v' } ∧ P [] v'
  | [], v, _, h => ⟨v, rfl, h⟩
  | x :: l, v, hl, h => by
    obtain ⟨v1, e1, h1⟩ := hstep x l v h (hl x (by simp))
    rw [List.map_cons, Res.forEach, e1]
    exact told_notes P hstep l v1 (fun y hy => hl y (by simp [hy])) h1

theorem VState.waiting (hdiff : SetDiff diff) {a : FApp V} (h : VState diff a) (d : Id → V) (ps : List (FName × Params))
    (hc : CatchUp a (a.silently d ps)) (l : List Id) (hl : ∀ x, x ∉ l → (Wanted (a.silently d ps) x ↔ Wanted a x)) :
    Waiting (FT.env diff (a.silently d ps).bank a.s.t d a.ft) l a.ft.view ∧
      a.ft.flat = FT.anyFlat (a.silently d ps).bank a.ft.applied := by
  have hw := h.good.wf
  have hE := env_ok hdiff (a.silently d ps).bank hw d a.ft h.rootFree
  have hE0 := env_ok hdiff a.bank hw a.data a.ft h.rootFree
  have hnew : ∀ x, (FT.env diff (a.silently d ps).bank a.s.t d a.ft).disp x = true ↔ Wanted (a.silently d ps) x :=
    fun x => accepts_iff (a := a.silently d ps) hw x
  have hold : ∀ x, (FT.env diff a.bank a.s.t a.data a.ft).disp x = true ↔ Wanted a x := fun x => accepts_iff hw x
  have hflat : a.ft.flat = FT.anyFlat (a.silently d ps).bank a.ft.applied := by
    rw [h.flat, Bool.eq_iff_iff]
    exact flatView_iff.trans (hc.1.symm.trans (flatView_iff (a := a.silently d ps)).symm)
  refine ⟨?_, hflat⟩
  obtain ⟨r, ho, hv⟩ := h.fit.inv
  have one : (FlatView a ∨ Forest a.s.t) → Waiting (FT.env diff (a.silently d ps).bank a.s.t d a.ft) l a.ft.view := by
    intro hf
    have h1 : OneParent (FT.env diff (a.silently d ps).bank a.s.t d a.ft)
        (FT.env diff (a.silently d ps).bank a.s.t d a.ft).roof := by
      intro hfl x p q hp hq
      rcases hf with hf | hf
      · exact absurd (h.flat.trans (flatView_iff.2 hf)) (by rw [show a.ft.flat = false from hfl]; simp)
      · exact hf x p q hp hq
    refine Or.inl ⟨h1, ⟨r, ho.1⟩, h.fit.stale hE h1 rfl rfl rfl rfl (fun y hy => ((hold y).1 hy).1) fun y hy => ?_⟩
    rw [Bool.eq_iff_iff, hnew, hold]
    exact hl y hy
  rcases hc.2 with hf | hf | hf
  · exact one (Or.inl hf)
  · exact one (Or.inr hf)
  · exact Or.inr (h.fit.arriving hE rfl rfl rfl rfl (fun y hy => (hnew y).2 (hf y ((hold y).1 hy)))
      fun y hy hyl => (hold y).2 ((hl y hyl).1 ((hnew y).1 hy)))

theorem late_vstate (hdiff : SetDiff diff) {a : FApp V} (h : VState diff a) (d : Id → V) (ps : List (FName × Params)) (told : List Id)
    (hf : LateFair a (.late d ps told)) : ∃ a', a.actLate diff (.late d ps told) = .ok a' ∧ VState diff a' := by
  obtain ⟨hw, hflat⟩ := h.waiting hdiff d ps hf.1 told hf.2
  have hwf := h.good.wf
  have hb := silently_bank h.bank ps
  have hE := env_ok hdiff (a.silently d ps).bank hwf d a.ft h.rootFree
  obtain ⟨log', v', e, h'⟩ := told_run (diff := diff) (b := (a.silently d ps).bank) (t := a.s.t) (d := d) (ft := a.ft)
    (Waiting (FT.env diff (a.silently d ps).bank a.s.t d a.ft))
    (fun x l v h1 _ h2 => react_waiting hdiff hwf h.rootFree x l v h1 h2)
    (fun x l v h1 h2 => h1.skip hE (by
      by_contra hc
      have hx : a.s.t.has x = true := Bool.eq_true_of_not_eq_false hc
      exact h2 ⟨(hwf.ids x hx).2, hx⟩)) told a.s.log a.ft.view hw
  exact ⟨_, e, h.good, h.tidy, hb, h.rootFree, hflat, h'.fit hE⟩

theorem lateAll_vstate (hdiff : SetDiff diff) {a : FApp V} (h : VState diff a) (d : Id → V) (ps : List (FName × Params))
    (hf : LateFair a (.lateAll d ps)) : ∃ a', a.actLate diff (.lateAll d ps) = .ok a' ∧ VState diff a' := by
  have hwf := h.good.wf
  generalize hl : a.s.t.nodes.keys.filter (fun x => decide (x ≠ rootId)) = l
  have hmem : ∀ x, x ∈ l ↔ a.s.t.has x = true := by
    intro x
    rw [← hl, List.mem_filter, Dict.mem_keys]
    constructor
    · intro h1; exact h1.1
    · intro h1; exact ⟨h1, by simpa using (hwf.ids x h1).2⟩
  obtain ⟨hw, hflat⟩ := h.waiting hdiff d ps hf l fun x hx => by
    rw [hmem] at hx
    exact ⟨fun h1 => absurd h1.1 hx, fun h1 => absurd h1.1 hx⟩
  have hb := silently_bank h.bank ps
  have hE := env_ok hdiff (a.silently d ps).bank hwf d a.ft h.rootFree
  have er : Larch.refreshAll a.s = .ok ⟨a.s.t, a.s.log ++ l.map fun x => ⟨a.s.t, .modified, x⟩⟩ := by
    rw [← hl]
    exact refreshLoop a.s.t a.s.t.nodes.keys a.s.log fun x hx => (Dict.mem_keys _ _).1 hx
  obtain ⟨v', e, h'⟩ := told_notes (diff := diff) (b := (a.silently d ps).bank) (t := a.s.t) (d := d) (ft := a.ft)
    (Waiting (FT.env diff (a.silently d ps).bank a.s.t d a.ft))
    (fun x l v h1 h2 => react_waiting hdiff hwf h.rootFree x l v h1 h2) l a.ft.view (fun x hx => (hmem x).1 hx) hw
  refine ⟨⟨⟨a.s.t, a.s.log ++ l.map fun x => ⟨a.s.t, .modified, x⟩⟩, d, (a.silently d ps).bank, { a.ft with view := v' }⟩, ?_,
    h.good, h.tidy, hb, h.rootFree, hflat, h'.fit hE⟩
  show FApp.refreshAll diff (a.silently d ps) = _
  unfold FApp.refreshAll
  dsimp only
  rw [show Larch.refreshAll (a.silently d ps).s = _ from er]
  show FApp.withFT _ (Res.forEach _ (List.drop a.s.log.length (a.s.log ++ _)) _) = _
  rw [List.drop_left]
  erw [e]
  rfl

theorem runLate_vstate (hdiff : SetDiff diff) (cs : List (LAct V)) (a : FApp V) (h : VState diff a) (hf : LateFairRun diff cs a) :
    ∃ a', FApp.runLate diff cs a = .ok a' ∧ VState diff a' := by
  induction cs generalizing a with
  | nil => exact ⟨a, rfl, h⟩
  | cons c cs ih =>
    obtain ⟨a1, e1, h1⟩ : ∃ a', a.actLate diff c = .ok a' ∧ VState diff a' := by
      cases c with
      | act c => exact act_vstate hdiff h c hf.1
      | late d ps told => exact late_vstate hdiff h d ps told hf.1
      | lateAll d ps => exact lateAll_vstate hdiff h d ps hf.1
    have hf2 := hf.2
    rw [e1] at hf2
    obtain ⟨a2, e2, h2⟩ := ih a1 h1 hf2
    exact ⟨a2, by unfold FApp.runLate; rw [e1]; exact e2, h2⟩

end Larch
