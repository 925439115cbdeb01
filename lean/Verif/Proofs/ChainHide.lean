import Verif.Proofs.Chain

/-!
# Forests in which the parents of displayed nodes are displayed: a chain of ancestors disappears
-/

namespace Larch

open Spec Graph

variable {E : VEnv} {rank : Id → Nat} {M : Nat}

/-- Everything is in order, except that it is not known which of `x` and its ancestors are shown. -/
structure Climbing (E : VEnv) (rank : Id → Nat) (x : Id) (v : View) : Prop where
  base : Base E rank v
  kidHas : ∀ p c, c ∈ v.kids p → v.has c = true
  mirror : ∀ y p, p ∈ v.pars y ↔ y ∈ v.kids p
  sub : ∀ y, v.has y = true → y ≠ E.root → E.disp y = true ∨ ReachEq E.par x y
  all : ∀ y, E.disp y = true → v.has y = true ∨ ReachEq E.par x y
  placed : ∀ y, v.has y = true → y ≠ E.root → InPlace E v y

theorem eq_singleton_of {α : Type} {l : List α} {q : α} (hn : l.Nodup) (h : ∀ p, p ∈ l ↔ p = q) : l = [q] := by
  match l, hn, h with
  | [], _, h => exact absurd ((h q).2 rfl) (by simp)
  | [a], _, h => rw [(h a).1 (by simp)]
  | a :: b :: l, hn, h =>
    have h1 := (h a).1 (by simp)
    have h2 := (h b).1 (by simp)
    rw [h1, h2] at hn
    simp at hn

theorem Base.vinv {v : View} (h : Base E rank v) (hk : ∀ p c, c ∈ v.kids p → v.has c = true)
    (hm : ∀ y p, p ∈ v.pars y ↔ y ∈ v.kids p) (hs : ∀ y, v.has y = true → y ≠ E.root → E.disp y = true) :
    VInv E rank (fun _ => False) v :=
  ⟨h.keys, h.rootIn, h.rootPars, hs, h.par, fun p c hc => ⟨hk p c hc, h.kid p c hc⟩,
    h.ndP, h.ndK, fun y _ p => hm y p, h.rows.congr fun l => by
      unfold View.pedge View.edge
      rw [show (fun p c => p ∈ v.pars c) = (fun p c => c ∈ v.kids p) from by funext p c; exact propext (hm c p)]⟩

theorem Climbing.partly (hE : EOK E rank M) {x : Id} {v : View} (h : Climbing E rank x v) : Partly E v x := by
  have hne : ∀ y, ∀ p ∈ E.par y, y ≠ E.root := by
    rintro y p hp rfl
    have := (hE.parHas _ _ hp).2
    rw [hE.rootHas] at this; cases this
  refine ⟨fun y hy hh p hp => (h.base.par y p ((h.placed y hh (hne y p hp) p).2 (Or.inl hp))).1, fun y hy hyx hh => ?_⟩
  refine h.placed y hh ?_
  rintro rfl
  rcases hy with rfl | hy
  · exact hyx rfl
  · obtain ⟨p, hp⟩ : ∃ p, E.root ∈ E.par p := by
      cases hy with
      | single h => exact ⟨_, h⟩
      | tail _ h => exact ⟨_, h⟩
    exact hE.par_ne_root hp rfl

theorem EOK.root_not_disp (hE : EOK E rank M) {x : Id} (hd : E.disp x = true) : x ≠ E.root := by
  rintro rfl
  have := hE.dispHas _ hd
  rw [hE.rootHas] at this; cases this

/-- The ancestors of a displayed node are shown. -/
theorem climb_shown (F : ForestE E) (hE : EOK E rank M) {f : Nat} {x : Id} {v : View} (hf : rank x < f)
    (h : Climbing E rank x v) (hd : E.disp x = true) :
    ∃ v', E.update f x .up v = .ok v' ∧ Calm E rank (fun _ => False) v' := by
  have hv : VInv E rank (fun _ => False) v := h.base.vinv h.kidHas h.mirror
    (fun y hy hr => (h.sub y hy hr).elim (fun h => h) (fun hx => F.anc hx hd))
  obtain ⟨v', a1, a2, a3, a4, a5⟩ := up_shows F hE f x v (fun _ => False) hf hv (fun _ _ h => h) hd (h.partly hE)
  refine ⟨v', a1, a2.base, fun p c hc => (a2.kid p c hc).1, fun y p => a2.mirror y (fun h => h) p, a2.sub, ?_, ?_⟩
  · intro y hy
    rcases h.all y hy with hh | hh
    · exact a3.has y hh
    · exact (a5 y hh).1
  · intro y hy _
    rw [F.settled_iff (hE.dispHas y hy) hy]
    rcases h.all y hy with hh | hh
    · have hin := h.placed y hh (hE.root_not_disp hy)
      exact hin.grow F hE hy (fun p hp => (hv.par y p ((hin p).2 (Or.inl hp))).1) a3
    · exact (a5 y hh).2

/-- A shown node that has to go, and perhaps some of its ancestors with it; the nodes in `N` were below it and are not any more. -/
theorem vanish_chain (F : ForestE E) (hE : EOK E rank M) {N : Id → Prop} {x : Id} {v : View} (hb : Base E rank v)
    (hkh : ∀ p c, c ∈ v.kids p → v.has c = true) (hm : ∀ y p, p ∈ v.pars y ↔ y ∈ v.kids p) (hx : v.has x = true)
    (hr : x ≠ E.root) (hd : E.disp x = false)
    (hsub : ∀ y, v.has y = true → y ≠ E.root → E.disp y = true ∨ ReachEq E.par x y)
    (hall : ∀ y, E.disp y = true → v.has y = true)
    (hin : ∀ y, v.has y = true → y ≠ E.root → ¬ N y → InPlace E v y)
    (hN : ∀ y, N y → E.disp y = true ∧ E.par y = [] ∧ ∀ p, p ∈ v.pars y ↔ p = x) {g : Nat} (hg : 0 < g) (hgx : rank x ≤ g + 1)
    (hup : ∀ q u, rank q < rank x → Climbing E rank q u →
      ∃ u', E.update (g + 1) q .up u = .ok u' ∧ Calm E rank (fun _ => False) u') :
    ∃ v', E.vanish (fun p v => E.update (g + 1) p .up v) (fun c v => E.update (g + 1) c .down v) x v = .ok v' ∧
      Calm E rank (fun _ => False) v' := by
  have hxN : ¬ N x := fun h => by have := (hN x h).1; rw [hd] at this; cases this
  have hbelow : ∀ y, x ∈ v.pars y → N y := by
    intro y hy
    by_contra hn
    have hyv := View.has_of_par hy
    have hyr : y ≠ E.root := by rintro rfl; rw [hb.rootPars] at hy; cases hy
    rcases (hin y hyv hyr hn x).1 hy with h | h
    · rcases hsub y hyv hyr with h' | h'
      · have := F.up y x h h'
        rw [hd] at this; cases this
      · have := hE.anc_rank h'
        have := hE.parRank y x h
        omega
    · exact hr h.1
  have H : Going E rank (fun _ => False) x v := by
    refine ⟨hb, hkh, hm, hx, hr, hd, fun y hy => (hN y (hbelow y ((hm y x).2 hy))).1, hall, ?_, ?_, fun _ h => h.elim⟩
    · intro y hy _ hxy
      rw [F.settled_iff (hE.dispHas y hy) hy]
      exact hin y (hall y hy) (hE.root_not_disp hy) fun hn => hxy (((hN y hn).2.2 x).2 rfl)
    · intro y hxy p
      obtain ⟨n1, n2, n3⟩ := hN y (hbelow y hxy)
      rw [n3, F.cand (hE.dispHas y n1) n1, n2]; simp
  obtain ⟨ps, w, n, w2, q1, b1, hn, hw2, b2, hnp, hb2, c2, p2, k2, hxk2⟩ := vanish_head hE H hg
  -- its only parent
  obtain ⟨q, hq, hqa⟩ : ∃ q, (∀ p, p ∈ v.pars x ↔ p = q) ∧ ∀ y, ReachEq E.par x y → y = x ∨ ReachEq E.par q y := by
    rcases F.par x with h | ⟨z, h⟩
    · refine ⟨E.root, fun p => by rw [hin x hx hr hxN p, h]; simp, fun y hy => ?_⟩
      rcases reachEq_cases hy with e | ⟨z, hz, -⟩
      · exact Or.inl e
      · rw [h] at hz; cases hz
    · refine ⟨z, fun p => by rw [hin x hx hr hxN p, h]; simp, fun y hy => ?_⟩
      rcases reachEq_cases hy with e | ⟨z', hz, hr⟩
      · exact Or.inl e
      · rw [h] at hz
        simp at hz
        subst hz; exact Or.inr hr
  have hnq : n.parents = [q] := by
    rw [hnp]
    exact eq_singleton_of (b2.base.ndP x) (fun p => by rw [b2.low x (le_refl _), hq])
  have hqr : rank q < rank x := (hb.par x q ((hq q).2 rfl)).2
  have hxq : x ∈ w2.kids q := (hxk2 q).2 (by rw [hnq]; simp)
  have hqin := View.has_of_kid hxq
  obtain ⟨m, hm2⟩ := View.get_of_has hqin
  have hk : m.children = w2.kids q := (View.kids_of_get hm2).symm
  set u1 := w2.upd q fun n => { n with children := n.children.erase x } with hu1
  have hdrop : w2.dropKid q x = .ok u1 := by
    unfold View.dropKid; rw [hm2]; dsimp only; rw [if_pos (by rw [hk]; exact hxq)]
  have k1 : ∀ y, u1.kids y = if y = q then (w2.kids q).erase x else w2.kids y :=
    View.kids_updKids w2 q (fun l => l.erase x) hqin
  have hm1 : ∀ c p, c ∈ u1.kids p ↔ c ∈ w2.kids p ∧ c ≠ x := by
    intro c p
    rw [k1]
    by_cases hp : p = q
    · subst hp; rw [if_pos rfl, (hb2.ndK p).mem_erase_iff]; tauto
    · rw [if_neg hp]
      constructor
      · intro h
        refine ⟨h, ?_⟩
        rintro rfl
        have := (hxk2 p).1 h
        rw [hnq] at this
        simp at this
        exact hp this
      · exact fun h => h.1
  have p1 : u1.pars = w2.pars := funext (View.pars_updKids w2 q (fun l => l.erase x))
  have c1 : u1.has = w2.has := funext fun y => View.has_upd _ _ _ _
  have hpx : ∀ p, p ∉ w2.pars x := by intro p; rw [p2]; simp
  have hb1 : Base E rank u1 := by
    refine ⟨by rw [hu1, View.keys_upd]; exact hb2.keys, by rw [c1]; exact hb2.rootIn, by rw [p1]; exact hb2.rootPars,
      by rw [c1, p1]; exact hb2.par, fun p c hc => hb2.kid p c ((hm1 c p).1 hc).1, by rw [p1]; exact hb2.ndP, ?_, ?_, ?_⟩
    · intro y; rw [k1]; split
      · exact (hb2.ndK q).erase x
      · exact hb2.ndK y
    · intro y p hp
      rw [p1] at hp
      refine (hm1 y p).2 ⟨hb2.up y p hp, ?_⟩
      rintro rfl; exact hpx _ hp
    · show RowsSet w2.out (RowE (fun p c => p ∈ u1.pars c) E.root) _
      rw [p1]
      refine RowsSet.fewerKids (v' := u1) hb2.rows fun y => ?_
      rw [k1]; split
      · rename_i h; rw [h]; exact List.erase_sublist
      · exact List.Sublist.refl _
  have hcl : Climbing E rank q u1 := by
    refine ⟨hb1, ?_, ?_, ?_, ?_, ?_⟩
    · intro p c hc
      obtain ⟨h1, h2⟩ := (hm1 c p).1 hc
      rw [k2] at h1
      rw [c1]
      split at h1
      · cases h1
      · exact (c2 c).2 ⟨b2.kidHas p c h1, h2⟩
    · intro y p
      rw [p1, hm1]
      by_cases hy : y = x
      · subst hy; simp [hpx p]
      · rw [p2, if_neg hy, k2, b2.mirror]
        by_cases h : p = x <;> simp [h, hy]
    · intro y hy hyr
      rw [c1] at hy
      obtain ⟨h1, h2⟩ := (c2 y).1 hy
      rw [b2.has] at h1
      exact (hsub y h1 hyr).imp (fun h => h) (fun h => (hqa y h).resolve_left h2)
    · intro y hy
      refine Or.inl ?_
      rw [c1]
      exact (c2 y).2 ⟨by rw [b2.has]; exact hall y hy, by rintro rfl; rw [hd] at hy; cases hy⟩
    · intro y hy hyr
      rw [c1] at hy
      obtain ⟨h1, h2⟩ := (c2 y).1 hy
      have e : ∀ p, p ∈ u1.pars y ↔ p ∈ w.pars y := fun p => by rw [p1, p2, if_neg h2]
      rcases hsub y (by rw [← b2.has]; exact h1) hyr with h | h
      · have := (F.settled_iff (hE.dispHas y h) h).1 (b2.done y h (fun h => h) (by simp))
        exact fun p => (e p).trans (this p)
      · by_cases hNy : N y
        · have hyd := (hN y hNy).1
          have := (F.settled_iff (hE.dispHas y hyd) hyd).1 (b2.done y hyd (fun h => h) (by simp))
          exact fun p => (e p).trans (this p)
        · have := hin y (by rw [← b2.has]; exact h1) hyr hNy
          exact fun p => (e p).trans ((b2.low y (hE.anc_rank h) p).trans (this p))
  obtain ⟨w3, d1, d2⟩ := hup q u1 hqr hcl
  have hpre : ∀ r : Res View, (if E.has x = true then
        Res.forEach (fun p v => if v.has p = false then E.update (g + 1) p .up v else .ok v) (E.par x) w3 else .ok w3) = r →
      E.vanish (fun p v => E.update (g + 1) p .up v) (fun c v => E.update (g + 1) c .down v) x v = r := by
    intro r hr
    unfold VEnv.vanish
    rw [q1]
    dsimp only
    rw [b1, Res.andThen_ok, hn]
    dsimp only
    rw [← hw2, hnq]
    simp only [Res.forEach, hdrop, Res.andThen_ok, d1]
    exact hr
  cases hh : E.has x with
  | false => exact ⟨w3, hpre _ (by rw [if_neg (by simp [hh])]), d2⟩
  | true =>
    obtain ⟨w4, e1, -, e2⟩ := forEach_ok (body := fun p v => if View.has v p = false then E.update (g + 1) p .up v else Res.ok v)
      (fun l u => (∀ p ∈ l, p ∈ E.par x) ∧ Calm E rank (fun _ => False) u)
      (by
        rintro p l u ⟨hl, hu⟩
        have hpr := hE.parRank x p (hl p (by simp))
        by_cases hp : u.has p = false
        · obtain ⟨u2, j1, j2, j3⟩ := quiet_up hE (g + 1) p u (by omega) hu.base
            ⟨fun y hy hd => ⟨hu.all y hd, hu.settled y hd fun h => h⟩, fun y _ hh => hu.sub y hh⟩
          exact ⟨u2, by rw [if_pos hp]; exact j1, fun q hq => hl q (by simp [hq]), hu.same j2 j3⟩
        · exact ⟨u, by rw [if_neg hp], fun q hq => hl q (by simp [hq]), hu⟩)
      (E.par x) w3 ⟨fun _ h => h, d2⟩
    exact ⟨w4, hpre _ (by rw [if_pos hh]; exact e1), e2⟩

/-- A node hidden in the tree and not shown: what is left to do is the same for its parent. -/
theorem Climbing.parent {x p : Id} {v : View} (h : Climbing E rank x v) (hp : E.par x = [p]) (hx : v.has x = false)
    (hd : E.disp x = false) : Climbing E rank p v := by
  have key : ∀ y, ReachEq E.par x y → y = x ∨ ReachEq E.par p y := by
    intro y hy
    rcases reachEq_cases hy with e | ⟨z, hz, hr⟩
    · exact Or.inl e
    · rw [hp] at hz
      simp at hz
      subst hz; exact Or.inr hr
  refine ⟨h.base, h.kidHas, h.mirror, ?_, ?_, h.placed⟩
  · intro y hy hr
    refine (h.sub y hy hr).imp (fun h => h) (fun hh => (key y hh).resolve_left ?_)
    rintro rfl; rw [hx] at hy; cases hy
  · intro y hy
    refine (h.all y hy).imp (fun h => h) (fun hh => (key y hh).resolve_left ?_)
    rintro rfl; rw [hd] at hy; cases hy

theorem Climbing.calm (F : ForestE E) (hE : EOK E rank M) {x : Id} {v : View} (h : Climbing E rank x v)
    (hs : ∀ y, ReachEq E.par x y → (v.has y = true → y ≠ E.root → E.disp y = true) ∧ (E.disp y = true → v.has y = true)) :
    Calm E rank (fun _ => False) v := by
  have hall : ∀ y, E.disp y = true → v.has y = true := fun y hy => (h.all y hy).elim (fun h => h) (fun hh => (hs y hh).2 hy)
  exact ⟨h.base, h.kidHas, h.mirror, fun y hy hr => (h.sub y hy hr).elim (fun h => h) (fun hh => (hs y hh).1 hy hr), hall,
    fun y hy _ => (F.settled_iff (hE.dispHas y hy) hy).2 (h.placed y (hall y hy) (hE.root_not_disp hy))⟩

theorem climb (F : ForestE E) (hE : EOK E rank M) : ∀ (f : Nat) (x : Id) (v : View), rank x + 2 ≤ f → Climbing E rank x v →
    ∃ v', E.update f x .up v = .ok v' ∧ Calm E rank (fun _ => False) v' := by
  intro f
  induction f with
  | zero => intro x v hf; omega
  | succ f ih =>
    intro x v hf h
    by_cases hr : x = E.root
    · subst hr
      refine ⟨v, by rw [VEnv.update, if_pos rfl], h.calm F hE fun y hy => ?_⟩
      rcases reachEq_cases hy with rfl | ⟨z, hz, -⟩
      · exact ⟨fun _ h => absurd rfl h, fun hd => absurd rfl (hE.root_not_disp hd)⟩
      · have := (hE.parHas _ _ hz).2
        rw [hE.rootHas] at this; cases this
    cases hd : E.disp x with
    | true => exact climb_shown F hE (by omega) h hd
    | false =>
      have hrk := hE.posRank x hr
      cases hx : v.has x with
      | true =>
        obtain ⟨g, rfl⟩ : ∃ g, f = g + 1 := ⟨f - 1, by omega⟩
        have hanc : ∀ y, ReachEq E.par x y → v.has y = true := fun y hy => (h.partly hE).shown hx hy
        obtain ⟨v', a1, a2⟩ := vanish_chain F hE (N := fun _ => False) (x := x) (v := v) h.base h.kidHas h.mirror hx hr hd h.sub
          (fun y hy => (h.all y hy).elim (fun h => h) (fun hh => hanc y hh)) (fun y hy hyr _ => h.placed y hy hyr)
          (fun _ h => h.elim) (g := g) (by omega) (by omega) (fun q u hq hu => ih q u (by omega) hu)
        refine ⟨v', ?_, a2⟩
        rw [VEnv.update, if_neg hr, if_neg (by simp [hx]), if_neg (by simp [hd])]
        exact a1
      | false =>
        rw [VEnv.update, if_neg hr, if_pos ⟨hx, hd⟩]
        rcases F.par x with hp | ⟨p, hp⟩
        · refine ⟨v, by rw [hp]; simp [Res.forEach], h.calm F hE fun y hy => ?_⟩
          rcases reachEq_cases hy with rfl | ⟨z, hz, -⟩
          · exact ⟨fun hh => absurd hh (by simp [hx]), fun hh => absurd hh (by simp [hd])⟩
          · rw [hp] at hz; cases hz
        · have hh := (hE.parHas x p (by rw [hp]; simp)).2
          rw [if_pos hh, hp]
          have := hE.parRank x p (by rw [hp]; simp)
          obtain ⟨v', a1, a2⟩ := ih p v (by omega) (h.parent hp hx hd)
          exact ⟨v', by simp only [Res.forEach]; rw [a1]; rfl, a2⟩

/-! ### One notification about `x` -/

theorem InPlace.congr {E' : VEnv} {v : View} {y : Id} (h : InPlace E v y) (hr : E'.root = E.root) (hp : E'.par y = E.par y) :
    InPlace E' v y := by
  intro p; rw [hr, hp]; exact h p

/-- The tree, or what the filters say about `x` and its ancestors, has changed since the view was in order; `x` is told. The nodes
in `D` have come to `x` or have left it. -/
theorem Fit.chain {E' : VEnv} (F : ForestE E) (F' : ForestE E') (hB : EB E) (hB' : EB E') {D X : Id → Prop} {v : View} {x : Id}
    (h : Fit E X v) (hroot : E'.root = E.root) (hx : x ≠ E.root)
    (hdisp : ∀ y, ¬ ReachEq E'.par x y → E'.disp y = E.disp y)
    (hpar : ∀ y, y ≠ x → ¬ D y → E'.par y = E.par y)
    (hDA : ∀ y, D y → y ≠ x → ¬ ReachEq E'.par x y)
    (hD : ∀ y, D y → y ≠ x → E'.disp y = true → E'.par y = [x] ∨ (E'.par y = [] ∧ E.par y = [x]))
    (hX : ∀ y, X y → y = x)
    (hpx : E'.par x = [] ∨ (E'.par x = E.par x ∧ ¬ X x) ∨ E.disp x = false)
    (ho : ∃ r, Orders E' v r) (K : List Id) (hK : ∀ x, E'.par x ≠ [] → x ∈ K) {f : Nat}
    (hf : 2 * (K.length + v.nodes.entries.length) + 4 ≤ f) :
    ∃ v', E'.update f x .both v = .ok v' ∧ Fit E' (fun y => D y ∧ y ≠ x ∧ (v.has x = true ∨ x ∉ E'.par y)) v' := by
  obtain ⟨r0, -, hv0⟩ := h.inv
  obtain ⟨r, ho⟩ := ho
  obtain ⟨rank, e1, e2⟩ := hB'.rank (v := v) (by rw [hroot]; exact hv0.rootPars) ho K hK
  have hv := hv0.rerank e2
  have hx' : x ≠ E'.root := by rw [hroot]; exact hx
  -- what the old view knows
  have hin : ∀ y, E.disp y = true → y ≠ x → InPlace E v y := fun y hy hyx =>
    (F.settled_iff (hB.dispHas y hy) hy).1 (h.settled y hy fun hX' => hyx (hX y hX'))
  have hin' : ∀ y, E.disp y = true → y ≠ x → ¬ D y → InPlace E' v y := fun y hy hyx hn =>
    (hin y hy hyx).congr hroot (hpar y hyx hn)
  have hsub : ∀ y, v.has y = true → y ≠ E'.root → E.disp y = true := fun y hy hr => hv.sub y hy (by rw [← hroot]; exact hr)
  have hP : Partly E' v x := by
    have hne : ∀ y, ∀ p ∈ E'.par y, y ≠ E'.root := by
      rintro y p hp rfl
      have := (hB'.parHas _ _ hp).2
      rw [hB'.rootHas] at this; cases this
    refine ⟨fun y hy hh p hp => ?_, fun y hy hyx hh => ?_⟩
    · have hyd := hsub y hh (hne y p hp)
      by_cases hyx : y = x
      · subst hyx
        rcases hpx with hp' | hp' | hp'
        · rw [hp'] at hp; cases hp
        · rw [hp'.1] at hp
          exact h.all p (F.up y p hp hyd)
        · rw [hp'] at hyd; cases hyd
      · rw [hpar y hyx (fun hd => hDA y hd hyx hy)] at hp
        exact h.all p (F.up y p hp hyd)
    · refine hin' y (hsub y hh ?_) hyx (fun hd => hDA y hd hyx hy)
      rintro rfl
      rcases hy with e | hy
      · exact hyx e.symm
      · obtain ⟨p, hp⟩ : ∃ p, E'.root ∈ E'.par p := by
          cases hy with
          | single h => exact ⟨_, h⟩
          | tail _ h => exact ⟨_, h⟩
        exact e1.par_ne_root hp rfl
  have hdAnc : ∀ y, D y → y ≠ x → E.disp y = true → E'.disp y = true := fun y hd hyx hy => by
    rw [hdisp y (hDA y hd hyx)]; exact hy
  have hfit : ∀ v', Calm E' rank (fun _ => False) v' →
      Fit E' (fun y => D y ∧ y ≠ x ∧ (v.has x = true ∨ x ∉ E'.par y)) v' := fun v' c =>
    ⟨⟨rank, ⟨e1.parRank, fun y p hp => (c.base.par y p hp).2⟩, c.vinv⟩, c.all, fun y hy _ => c.settled y hy fun h => h⟩
  have hb : Base E' rank v := by
    have b := hv.base
    exact ⟨b.keys, by rw [hroot]; exact b.rootIn, by rw [hroot]; exact b.rootPars, b.par, b.kid, b.ndP, b.ndK, b.up,
      by rw [hroot]; exact b.rows⟩
  have hkh : ∀ p c, c ∈ v.kids p → v.has c = true := fun p c hc => (hv.kid p c hc).1
  have hm : ∀ y p, p ∈ v.pars y ↔ y ∈ v.kids p := fun y p => hv.mirror y (fun h => h) p
  have hsub' : ∀ y, v.has y = true → y ≠ E'.root → E'.disp y = true ∨ ReachEq E'.par x y := by
    intro y hy hr
    by_cases ha : ReachEq E'.par x y
    · exact Or.inr ha
    · exact Or.inl (by rw [hdisp y ha]; exact hsub y hy hr)
  have hrkx := e1.bound x
  cases hd : E'.disp x with
  | true =>
    obtain ⟨v', a1, a2, a3, a4⟩ := both_fit F' e1 (f := f) (x := x) (dir := .both) (v := v) (by omega) rfl
      (hv.congrE hroot fun y hy hr => (hsub' y hy (by rw [hroot]; exact hr)).elim (fun h => h) (fun ha => F'.anc ha hd)) hd hP
      (fun y hy ha => h.all y (by rw [← hdisp y ha]; exact hy)) (fun y => D y ∧ (v.has x = true ∨ x ∉ E'.par y))
      (fun y hy ha hn hc => hin' y (by rw [← hdisp y ha]; exact hy) (fun e => ha (Or.inl e.symm)) fun hD' => hn ⟨hD', hc⟩)
    exact ⟨v', a1, ⟨rank, ⟨e1.parRank, fun y p hp => (a2.par y p hp).2⟩, a2⟩, a3, 
      fun y hy hn => a4 y hy fun hyx hD' => hn ⟨hD'.1, hyx, hD'.2⟩⟩
  | false =>
    have hnx : ∀ y, E'.disp y = true → x ∉ E'.par y := fun y hy hp => by
      have := F'.up y x hp hy
      rw [hd] at this; cases this
    cases hxv : v.has x with
    | true =>
      have hxd := hsub x hxv hx'
      have hall : ∀ y, E'.disp y = true → v.has y = true := by
        intro y hy
        by_cases ha : ReachEq E'.par x y
        · exact hP.shown hxv ha
        · exact h.all y (by rw [← hdisp y ha]; exact hy)
      have hN : ∀ y, D y → y ≠ x → E'.disp y = true → E'.par y = [] ∧ ∀ p, p ∈ v.pars y ↔ p = x := by
        intro y hy hyx hyd
        rcases hD y hy hyx hyd with hp | ⟨hp, hp'⟩
        · exact absurd (by rw [hp]; simp) (hnx y hyd)
        · refine ⟨hp, fun p => ?_⟩
          rw [hin y (by rw [← hdisp y (hDA y hy hyx)]; exact hyd) hyx p, hp']; simp
      obtain ⟨g, rfl⟩ : ∃ g, f = g + 1 + 1 := ⟨f - 2, by omega⟩
      suffices hs : ∃ v', E'.vanish (fun p v => E'.update (g + 1) p .up v) (fun c v => E'.update (g + 1) c .down v) x v = .ok v' ∧
          Calm E' rank (fun _ => False) v' by
        obtain ⟨v', a1, a2⟩ := hs
        refine ⟨v', ?_, hxv ▸ hfit v' a2⟩
        rw [VEnv.update, if_neg hx', if_neg (by simp [hxv]), if_neg (by simp [hd])]
        exact a1
      have hrest : ∀ y, v.has y = true → y ≠ E'.root → y ≠ x → ¬ (D y ∧ y ≠ x ∧ E'.disp y = true) → InPlace E' v y := by
        intro y hy hyr hyx hn
        have hyd := hsub y hy hyr
        exact hin' y hyd hyx fun hd' => hn ⟨hd', hyx, hdAnc y hd' hyx hyd⟩
      rcases hpx with hp' | hp' | hp'
      · refine vanish_ok e1 (N := fun _ => False) ?_ (by omega) (by omega)
        have hbelow : ∀ y, x ∈ v.pars y → D y ∧ y ≠ x ∧ E'.disp y = true := by
          intro y hy
          by_contra hn
          have hyv := View.has_of_par hy
          have hyr : y ≠ E'.root := by rintro rfl; rw [hb.rootPars] at hy; cases hy
          have hyx : y ≠ x := by rintro rfl; exact absurd (hb.par y y hy).2 (lt_irrefl _)
          rcases (hrest y hyv hyr hyx hn x).1 hy with h' | h'
          · rcases hsub' y hyv hyr with h'' | h''
            · exact hnx y h'' h'
            · have := e1.anc_rank h''
              have := e1.parRank y x h'
              omega
          · exact hx' h'.1
        refine ⟨hb, hkh, hm, hxv, hx', hd, ?_, hall, ?_, ?_, fun _ h => h.elim⟩
        · intro y hy hr hyx
          refine (hsub' y hy hr).elim (fun h => h) (fun ha => ?_)
          rcases reachEq_cases ha with e | ⟨z, hz, -⟩
          · exact absurd e hyx
          · rw [hp'] at hz; cases hz
        · intro y hy _ hxy
          rw [F'.settled_iff (hB'.dispHas y hy) hy]
          refine hrest y (hall y hy) (e1.root_not_disp hy) (by rintro rfl; rw [hd] at hy; cases hy) fun hn => ?_
          exact hxy (((hN y hn.1 hn.2.1 hn.2.2).2 x).2 rfl)
        · intro y hxy p
          obtain ⟨n1, n2, n3⟩ := hbelow y hxy
          rw [(hN y n1 n2 n3).2, F'.cand (hB'.dispHas y n3) n3, (hN y n1 n2 n3).1]; simp
      · refine vanish_chain F' e1 (N := fun y => D y ∧ y ≠ x ∧ E'.disp y = true) hb hkh hm hxv hx' hd hsub' hall ?_
          (fun y hy => ⟨hy.2.2, hN y hy.1 hy.2.1 hy.2.2⟩) (by omega) (by omega)
          (fun q u hq hu => climb F' e1 (g + 1) q u (by omega) hu)
        intro y hy hyr hn
        by_cases hyx : y = x
        · subst hyx
          exact ((F.settled_iff (hB.dispHas y hxd) hxd).1 (h.settled y hxd hp'.2)).congr hroot hp'.1
        · exact hrest y hy hyr hyx hn
      · rw [hp'] at hxd; cases hxd
    | false =>
      have hcl : Climbing E' rank x v := by
        refine ⟨hb, hkh, hm, hsub', ?_, ?_⟩
        · intro y hy
          by_cases ha : ReachEq E'.par x y
          · exact Or.inr ha
          · exact Or.inl (h.all y (by rw [← hdisp y ha]; exact hy))
        · intro y hy hr
          have hyx : y ≠ x := by rintro rfl; rw [hxv] at hy; cases hy
          have hyd := hsub y hy hr
          refine hin' y hyd hyx fun hd' => ?_
          rcases hD y hd' hyx (hdAnc y hd' hyx hyd) with hp | ⟨-, hp⟩
          · exact hnx y (hdAnc y hd' hyx hyd) (by rw [hp]; simp)
          · have := h.all x (F.up y x (by rw [hp]; simp) hyd)
            rw [hxv] at this; cases this
      obtain ⟨v', a1, a2⟩ := climb F' e1 f x v (by omega) hcl
      refine ⟨v', ?_, hxv ▸ hfit v' a2⟩
      obtain ⟨g, rfl⟩ : ∃ g, f = g + 1 := ⟨f - 1, by omega⟩
      rw [VEnv.update, if_neg hx', if_pos ⟨hxv, hd⟩] at a1 ⊢
      exact a1

end Larch
