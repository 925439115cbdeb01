import Verif.Proofs.ViewApp

/-!
# Announcements of changes that happened before
-/

namespace Larch

open Spec Graph

variable {E : VEnv} {diff : List Id → List Id → List Id} {V : Type}

/-- Announcing the nodes of a list one after the other. -/
theorem told_run {b : Bank (Id → V)} {t : Tree} {d : Id → V} {ft : FT} (P : List Id → View → Prop)
    (hstep : ∀ x l v, P (x :: l) v → x ≠ rootId → t.has x = true →
      ∃ v', FT.react diff b d ⟨t, .modified, x⟩ { ft with view := v } = .ok { ft with view := v' } ∧ P l v')
    (hskip : ∀ x l v, P (x :: l) v → ¬ (x ≠ rootId ∧ t.has x = true) → P l v) :
    ∀ (l : List Id) (log : List Note) (v : View), P l v →
      ∃ log' v', FApp.run diff (l.map fun x => .edit (.refreshNode x)) ⟨⟨t, log⟩, d, b, { ft with view := v }⟩ =
        .ok ⟨⟨t, log'⟩, d, b, { ft with view := v' }⟩ ∧ P [] v'
  | [], log, v, h => ⟨log, v, rfl, h⟩
  | x :: l, log, v, h => by
    rw [List.map_cons, FApp.run]
    show ∃ log' v', ((FApp.edit diff _ _).andThen _) = _ ∧ _
    unfold FApp.edit
    dsimp only
    by_cases hx : x ≠ rootId ∧ t.has x = true
    · have es : (step ⟨t, log⟩ (.refreshNode x)).state = St.emit ⟨t, log⟩ .modified x := by
        show (modifyNode _ x).state = _
        unfold modifyNode; rw [if_pos hx]; rfl
      obtain ⟨v1, a1, a2⟩ := hstep x l v h hx.1 hx.2
      rw [es]
      have el : (St.emit ⟨t, log⟩ .modified x).log = log ++ [⟨t, .modified, x⟩] := rfl
      rw [el, List.drop_left, Res.forEach, a1]
      exact told_run P hstep hskip l _ v1 a2
    · have es : (step ⟨t, log⟩ (.refreshNode x)).state = ⟨t, log⟩ := by
        show (modifyNode _ x).state = _
        unfold modifyNode; rw [if_neg hx]; rfl
      rw [es, List.drop_length]
      exact told_run P hstep hskip l _ v (hskip x l v h hx)

/-! ### Nodes only appear -/

/-- Everything is right as far as the nodes outside `l` are concerned. -/
structure Arriving (E : VEnv) (l : List Id) (v : View) : Prop where
  inv : ∃ r, Orders E v r ∧ VInv E r (fun _ => False) v
  has : ∀ y, y ∉ l → E.disp y = true → v.has y = true
  snap : ∀ y, y ∉ l → E.disp y = true → ∃ W, ∀ p, p ∈ v.pars y ↔ p ∈ npOf E W y
  par : ∀ y, y ∉ l → E.disp y = true → E.flat = false → ∀ p ∈ E.par y, p ∉ l → E.disp p = true → p ∈ v.pars y

theorem Arriving.fit (hE : EB E) {v : View} (h : Arriving E [] v) : Fit E (fun _ => False) v := by
  refine ⟨h.inv, fun y hy => h.has y (by simp) hy, fun y hy _ p => ?_⟩
  obtain ⟨W, hW⟩ := h.snap y (by simp) hy
  have hne : ∀ q ∈ E.par y, q ≠ E.root := by
    rintro q hq rfl
    have := (hE.parHas _ _ hq).1
    rw [hE.rootHas] at this; cases this
  rw [hW]
  by_cases hft : E.flat = true
  · rw [npAll, npOf_flat hft, npOf_flat hft]
  have hfl : E.flat = false := by simpa using hft
  have hall : ∀ q ∈ E.par y, E.disp q = true → W q = true := by
    intro q hq hdq
    have := h.par y (by simp) hy hfl q hq (by simp) hdq
    rw [hW] at this
    rcases mem_npOf this with h | h
    · exact absurd h (hne q hq)
    · exact h.2.2.1
  rw [npOf_all y hall]

theorem Arriving.step {l : List Id} {v : View} {x : Id} (hE : EB E) (h : Arriving E (x :: l) v) (K : List Id)
    (hK : ∀ x, E.par x ≠ [] → x ∈ K) {f : Nat} (hf : 2 * (K.length + v.nodes.entries.length) + 8 ≤ f) (hx : x ≠ E.root) :
    ∃ v', E.update f x .both v = .ok v' ∧ Arriving E l v' := by
  obtain ⟨r, ho, hv⟩ := h.inv
  obtain ⟨rank, e1, e2⟩ := hE.rank hv.rootPars ho K hK
  have hv' := hv.rerank e2
  obtain ⟨v', a1, a2, a3, a4⟩ := update_down_ok e1 f x .both v (by omega) rfl hv'
  have hself : ∀ q ∈ E.par x, q ≠ x := by
    rintro q hq rfl
    exact absurd (e1.parRank _ _ hq) (by omega)
  refine ⟨v', a1, ⟨rank, ⟨e1.parRank, fun y p hp => (a2.par y p hp).2⟩, a2⟩, fun y hy hd => ?_, fun y hy hd => ?_,
    fun y hy hd hfl p hp hpl hdp => ?_⟩
  · by_cases hyx : y = x
    · subst hyx; exact (a4 hx hd).1
    · exact a3.has y (h.has y (by simp [hyx, hy]) hd)
  · by_cases hyx : y = x
    · subst hyx
      obtain ⟨-, ⟨W, -, -, w⟩, -⟩ := a4 hx hd
      exact ⟨W, fun p => by rw [w]⟩
    · rcases a3.snap y with e | ⟨W, -, -, w⟩
      · rw [e]; exact h.snap y (by simp [hyx, hy]) hd
      · exact ⟨W, fun p => by rw [w]⟩
  · by_cases hpx : p = x
    · subst hpx
      exact ((a4 hx hdp).2.2 y ((mem_newKids e1).2 ⟨hfl, hp, hd⟩)).2
    · have hph : v.has p = true := h.has p (by simp [hpx, hpl]) hdp
      by_cases hyx : y = x
      · subst hyx
        exact (a4 hx hd).2.1.par_in e1 hfl hph hdp hp
      · exact a3.par_stays e1 (h.par y (by simp [hyx, hy]) hd hfl p hp (by simp [hpx, hpl]) hdp) hfl hph hdp hp

/-- The view was right for `E0`; the filters now accept more nodes, all of them in `l`. -/
theorem Fit.arriving (hE : EB E) {E0 : VEnv} {l : List Id} {v : View} (h : Fit E0 (fun _ => False) v) (hr : E.root = E0.root)
    (hh : E.has = E0.has) (hp : E.par = E0.par) (hf : E.flat = E0.flat)
    (hmore : ∀ y, E0.disp y = true → E.disp y = true) (hl : ∀ y, E.disp y = true → y ∉ l → E0.disp y = true) :
    Arriving E l v := by
  obtain ⟨r, ho, hv⟩ := h.inv
  have hset : ∀ y, y ∉ l → E.disp y = true → ∀ p, p ∈ v.pars y ↔ p ∈ npOf E E0.disp y := by
    intro y hy hd p
    rw [h.settled y (hl y hd hy) (fun h => h) p]
    have : npOf E E0.disp y = npAll E0 y := by
      unfold npAll npOf npCand
      rw [hr, hh, hp, hf]
      have : (E0.par y).filter (fun p => E0.disp p && E.disp p) = (E0.par y).filter (fun p => (fun _ => true) p && E0.disp p) := by
        apply List.filter_congr
        intro q _
        cases hq : E0.disp q with
        | false => rfl
        | true => simp [hmore q hq]
      rw [this]
    rw [this]
  refine ⟨⟨r, ⟨by rw [hp]; exact ho.1, ho.2⟩, hv.congrE hr fun y hy hn => hmore y (hv.sub y hy hn)⟩,
    fun y hy hd => h.all y (hl y hd hy), fun y hy hd => ⟨E0.disp, hset y hy hd⟩, fun y hy hd hfl p hpy hpl hdp => ?_⟩
  rw [hset y hy hd]
  exact mem_npOf_of hfl (hE.dispHas y hd) hpy (hl p hdp hpl) hdp

end Larch
