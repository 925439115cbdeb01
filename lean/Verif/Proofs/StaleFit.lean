import Verif.Proofs.Announce
import Verif.Proofs.ViewStaleUp

/-!
# From a view that was right to one that is right again
-/

namespace Larch

open Spec Graph

variable {E : VEnv} {v : View}

/-- The view was right for `E0`; the filters now answer differently for nodes of `l`. -/
theorem Fit.stale (hE : EB E) (ho : OneParent E E.roof) {E0 : VEnv} {l : List Id} (h : Fit E0 (fun _ => False) v) (hr : E.root = E0.root)
    (hh : E.has = E0.has) (hp : E.par = E0.par) (hf : E.flat = E0.flat) (hd : ∀ y, E0.disp y = true → E.has y = true)
    (hl : ∀ y, y ∉ l → E.disp y = E0.disp y) : Stale E E.roof (fun y => y ∈ l) (fun _ => False) (fun _ => False) v := by
  obtain ⟨r, hor, hv⟩ := h.inv
  have hset : ∀ y, v.has y = true → y ≠ E.root → ∀ p, p ∈ v.pars y ↔ p ∈ npAll E0 y :=
    fun y hy hn => h.settled y (hv.sub y hy (hr ▸ hn)) (fun h => h)
  have hne : ∀ {y p}, p ∈ v.pars y → y ≠ E.root := by
    rintro y p hpy rfl
    rw [hr, hv.rootPars] at hpy; cases hpy
  have hcand : ∀ y, candAll E0 y = [] ∨ ∃ p, candAll E0 y = [p] ∧ E0.flat = false ∧ p ∈ E0.par y ∧ E0.disp p = true := by
    intro y
    rcases hc : candAll E0 y with _ | ⟨p, t⟩
    · exact Or.inl rfl
    · right
      have hm : ∀ q ∈ candAll E0 y, (E0.flat = false ∧ E0.has y = true) ∧ q ∈ E0.par y ∧ E0.disp q = true := fun q hq => by
        obtain ⟨g1, g2, -, g3⟩ := mem_npCand.1 hq
        exact ⟨g1, g2, g3⟩
      have hnd : (candAll E0 y).Nodup := by
        unfold candAll npCand
        split
        · exact (hp ▸ hE.parNd y).filter _
        · simp
      obtain ⟨g1, g2, g3⟩ := hm p (by rw [hc]; simp)
      refine ⟨p, ?_, g1.1, g2, g3⟩
      have : t = [] := by
        rw [List.eq_nil_iff_forall_not_mem]
        intro q hq
        have e := (hm q (by rw [hc]; simp [hq])).2.1
        have := ho (by rw [hf]; exact g1.1) y q p (by show q ∈ E.par y; rw [hp]; exact e) (by show p ∈ E.par y; rw [hp]; exact g2)
        rw [hc, List.nodup_cons] at hnd
        rw [this] at hq; exact hnd.1 hq
      rw [this]
  have hall : ∀ y, npAll E0 y = [E0.root] ∨ ∃ p, npAll E0 y = [p] ∧ E0.flat = false ∧ p ∈ E0.par y ∧ E0.disp p = true := by
    intro y
    rcases hcand y with e | ⟨p, e, g⟩
    · left; unfold npAll npOf; rw [if_pos e]
    · right; exact ⟨p, by unfold npAll npOf; rw [if_neg (by rw [show npCand E0 (fun _ => true) y = [p] from e]; simp)]; exact e, g⟩
  have hsingle : ∀ y q, (∀ p, p ∈ v.pars y ↔ p ∈ [q]) → v.pars y = [q] := by
    intro y q hm
    have hnd := hv.ndP y
    generalize v.pars y = l at hm hnd
    cases l with
    | nil => exact absurd ((hm q).2 (by simp)) (by simp)
    | cons p l =>
      have e1 : p = q := by simpa using (hm p).1 (by simp)
      cases l with
      | nil => rw [e1]
      | cons p' l =>
        have e2 : p' = q := by simpa using (hm p').1 (by simp)
        rw [e1, e2] at hnd
        simp at hnd
  have hpars : ∀ y, v.has y = true → y ≠ E.root → v.pars y = npAll E0 y := by
    intro y hy hn
    rcases hall y with e | ⟨p, e, -⟩
    · rw [e]; exact hsingle y _ (by rw [← e]; exact hset y hy hn)
    · rw [e]; exact hsingle y _ (by rw [← e]; exact hset y hy hn)
  have hmay : ∀ y p, p ∈ v.pars y → MayBe E E.roof p y := by
    intro y p hpy
    rw [hpars y (View.has_of_par hpy) (hne hpy)] at hpy
    rcases hall y with e | ⟨q, e, g1, g2, -⟩
    · rw [e] at hpy; left; rw [hr]; simpa using hpy
    · rw [e] at hpy; simp at hpy; subst hpy
      exact Or.inr ⟨by rw [hf]; exact g1, by show p ∈ E.par y; rw [hp]; exact g2⟩
  have hmir := hv.mirror
  refine ⟨hv.keys, hr ▸ hv.rootIn, hr ▸ hv.rootPars, fun _ h => h.elim, fun _ h => h.elim, fun y hy hn => hd y (hv.sub y hy (hr ▸ hn)),
    fun y p hpy => ⟨(hv.par y p hpy).1, hmay y p hpy⟩, ?_, ?_, hv.ndK, fun y _ p hpy => (hmir y (fun h => h) p).1 hpy,
    fun p _ c hc => ⟨(hv.kid p c hc).1, (hmir c (fun h => h) p).2 hc⟩, fun _ h => h.elim, fun _ h => h.elim, ?_, ?_, ?_, ?_⟩
  · intro y p hpy
    have e0 := hpars y (View.has_of_par hpy) (hne hpy)
    rw [e0] at hpy ⊢
    rcases hall y with e | ⟨q, e, -⟩
    · rw [e] at hpy ⊢; simp at hpy; rw [hpy]
    · rw [e] at hpy ⊢; simp at hpy; rw [hpy]
  · intro p c hc
    have := (hmir c (fun h => h) p).2 hc
    exact ⟨hne this, hmay c p this⟩
  · intro y hy hn _
    rw [hpars y hy hn]
    rcases hall y with e | ⟨q, e, -⟩ <;> rw [e] <;> simp
  · intro y hy hn
    rw [hl y hy, Bool.eq_iff_iff]
    exact ⟨fun hh => hv.sub y hh (hr ▸ hn), fun hh => h.all y hh⟩
  · intro hfl y _ hy hyd p hpy hpl hpd
    have hyr : y ≠ E.root := by
      rintro rfl
      have := hE.dispHas _ hyd
      rw [hE.rootHas] at this; cases this
    rw [hset y hy hyr]
    have hdy := hv.sub y hy (hr ▸ hyr)
    refine mem_npOf_of (hf ▸ hfl) ?_ (hp ▸ hpy) rfl (by rw [← hl p hpl]; exact hpd)
    rw [← hh]; exact hd y hdy
  · rw [hr]
    refine hv.rows.congr fun l => ?_
    have : v.edge = v.both := by
      funext p c
      apply propext
      show c ∈ v.kids p ↔ p ∈ v.pars c ∧ c ∈ v.kids p
      exact ⟨fun hc => ⟨(hmir c (fun h => h) p).2 hc, hc⟩, fun hc => hc.2⟩
    rw [this]

theorem Stale.orders (hE : EB E) {P X Y : Id → Prop} (h : Stale E E.roof P X Y v) {r : Id → Nat} (hr : ∀ x, ∀ p ∈ E.par x, r p < r x) :
    ∃ r', Orders E v r' := by
  have hne : ∀ {x p}, p ∈ E.par x → p ≠ E.root ∧ x ≠ E.root := by
    intro x p hp
    constructor
    · rintro rfl
      have := (hE.parHas _ _ hp).1
      rw [hE.rootHas] at this; cases this
    · rintro rfl
      have := (hE.parHas _ _ hp).2
      rw [hE.rootHas] at this; cases this
  have key : ∀ x p, p ∈ E.par x → (if p = E.root then 0 else r p + 1) < (if x = E.root then 0 else r x + 1) := by
    intro x p hp
    obtain ⟨h1, h2⟩ := hne hp
    rw [if_neg h1, if_neg h2]
    have := hr x p hp
    omega
  refine ⟨fun y => if y = E.root then 0 else r y + 1, key, fun y p hp => ?_⟩
  have hy := h.ne_root hp
  rcases (h.par y p hp).2 with rfl | ⟨-, e⟩
  · simp [hy]
  · exact key y p e

theorem Stale.step (hE : EB E) (ho : OneParent E E.roof) {P : Id → Prop} (h : Stale E E.roof P (fun _ => False) (fun _ => False) v) {r : Id → Nat}
    (hr : ∀ x, ∀ p ∈ E.par x, r p < r x) (K : List Id) (hK : ∀ x, E.par x ≠ [] → x ∈ K) {f : Nat}
    (hf : 2 * (K.length + v.nodes.entries.length) + 8 ≤ f) {x : Id} (hx : x ≠ E.root) :
    ∃ v', E.update f x .both v = .ok v' ∧ Stale E E.roof (fun z => P z ∧ z ≠ x) (fun _ => False) (fun _ => False) v' := by
  obtain ⟨r', hr'⟩ := h.orders hE hr
  obtain ⟨rank, e1, -⟩ := hE.rank h.rootPars hr' K hK
  exact update_stale e1.roof ho (by have := e1.bound x; omega) hx h

/-- A view that knows everything is right. -/
theorem Stale.fit (hE : EB E) (ho : OneParent E E.roof) (h : Stale E E.roof (fun _ => False) (fun _ => False) (fun _ => False) v) {r : Id → Nat}
    (hr : ∀ x, ∀ p ∈ E.par x, r p < r x) : Fit E (fun _ => False) v := by
  obtain ⟨r', hr'⟩ := h.orders hE hr
  have hshown : ∀ y, y ≠ E.root → v.has y = E.disp y := fun y hy => h.shown y (fun h => h) hy
  have hne : ∀ y, E.disp y = true → y ≠ E.root := by
    rintro y hy rfl
    have := hE.dispHas _ hy
    rw [hE.rootHas] at this; cases this
  have hmir : ∀ y p, p ∈ v.pars y ↔ y ∈ v.kids p := fun y p => ⟨fun hp => h.up y (fun h => h) p hp, fun hk => (h.dn p (fun h => h) y hk).2⟩
  refine ⟨⟨r', hr', h.keys, h.rootIn, h.rootPars, fun y hy hn => by rw [← hshown y hn]; exact hy,
    fun y p hp => ⟨(h.par y p hp).1, hr'.2 y p hp⟩, fun p c hc => ⟨(h.dn p (fun h => h) c hc).1, hr'.2 c p ((hmir c p).2 hc)⟩, h.nd, h.ndK,
    fun y _ p => hmir y p, ?_⟩, fun y hy => by rw [hshown y (hne y hy)]; exact hy, ?_⟩
  · refine h.rows.congr fun l => ?_
    have : v.both = v.edge := by
      funext p c
      apply propext
      show p ∈ v.pars c ∧ c ∈ v.kids p ↔ c ∈ v.kids p
      exact ⟨fun hc => hc.2, fun hc => ⟨(hmir c p).2 hc, hc⟩⟩
    rw [this]
  · intro y hy _ p
    have hyr := hne y hy
    have hyin : v.has y = true := by rw [hshown y hyr]; exact hy
    obtain ⟨q, hq⟩ : ∃ q, v.pars y = [q] := by
      rcases hl : v.pars y with _ | ⟨a, l⟩
      · exact absurd hl (h.full y hyin hyr (fun h => h))
      · exact ⟨a, by rw [← hl]; exact h.one y a (by rw [hl]; simp)⟩
    have hqm := h.par y q (by rw [hq]; simp)
    rw [mem_npAll]
    have hcand : ∀ p, p ∈ candAll E y ↔ (E.flat = false ∧ p ∈ E.par y ∧ E.disp p = true) := by
      intro p
      rw [mem_npCand]
      exact ⟨fun ⟨g1, g2, _, g4⟩ => ⟨g1.1, g2, g4⟩, fun ⟨g1, g2, g3⟩ => ⟨⟨g1, hE.dispHas y hy⟩, g2, rfl, g3⟩⟩
    have hin : ∀ p, p ∈ candAll E y → p = q := by
      intro p hp
      obtain ⟨g1, g2, g3⟩ := (hcand p).1 hp
      have := h.stuck g1 y (fun h => h) hyin hy p g2 (fun h => h) g3
      rw [hq] at this; simpa using this
    rw [hq]
    by_cases hc : candAll E y = []
    · rw [hc]
      have : q = E.root := by
        rcases hqm.2 with e | ⟨g1, g2⟩
        · exact e
        · exfalso
          have hqr : q ≠ E.root := by
            rintro rfl
            have := (hE.parHas _ _ g2).1
            rw [hE.rootHas] at this; cases this
          have : q ∈ candAll E y := (hcand q).2 ⟨g1, g2, by rw [← hshown q hqr]; exact hqm.1⟩
          rw [hc] at this; cases this
      subst this
      simp
    · obtain ⟨p', hp'⟩ := List.exists_mem_of_ne_nil _ hc
      have := hin p' hp'
      subst this
      constructor
      · intro hp; simp at hp; subst hp; exact Or.inl hp'
      · rintro (hp | hp)
        · simpa using hin p hp
        · exact absurd hp.2 hc

end Larch
