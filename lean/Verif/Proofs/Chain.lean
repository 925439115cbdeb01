import Verif.Proofs.ViewHistory

/-!
# Forests in which the parents of displayed nodes are displayed

An update of a node may then show or hide a whole chain of ancestors.
-/

namespace Larch

open Spec Graph

variable {E : VEnv} {rank : Id → Nat} {M : Nat}

/-- The view is not flat, no node of the tree has two parents, and the parents of displayed nodes are displayed. -/
structure ForestE (E : VEnv) : Prop where
  flat : E.flat = false
  one : ∀ x, (E.par x).length ≤ 1
  up : ∀ x p, p ∈ E.par x → E.disp x = true → E.disp p = true

/-- The node is shown below its parent in the tree, or at the top if it has none. -/
def InPlace (E : VEnv) (v : View) (y : Id) : Prop := ∀ p, p ∈ v.pars y ↔ p ∈ E.par y ∨ (p = E.root ∧ E.par y = [])

theorem ForestE.par (F : ForestE E) (x : Id) : E.par x = [] ∨ ∃ p, E.par x = [p] := by
  have := F.one x
  match h : E.par x with
  | [] => exact Or.inl rfl
  | [p] => exact Or.inr ⟨p, rfl⟩
  | p :: q :: l => rw [h] at this; simp at this

theorem ForestE.anc (F : ForestE E) {x y : Id} (h : ReachEq E.par x y) (hd : E.disp x = true) : E.disp y = true := by
  rcases h with rfl | h
  · exact hd
  · induction h with
    | single h => exact F.up _ _ h hd
    | tail _ h ih => exact F.up _ _ h ih

theorem ForestE.cand (F : ForestE E) {y : Id} (hh : E.has y = true) (hd : E.disp y = true) : candAll E y = E.par y := by
  unfold candAll npCand
  rw [if_pos ⟨F.flat, hh⟩, List.filter_eq_self]
  intro p hp
  simp [F.up y p hp hd]

theorem ForestE.settled_iff (F : ForestE E) {v : View} {y : Id} (hh : E.has y = true) (hd : E.disp y = true) :
    SettledAt E v y ↔ InPlace E v y := by
  unfold SettledAt InPlace
  simp only [mem_npAll, F.cand hh hd]

theorem ForestE.npOf_in (F : ForestE E) (hE : EOK E rank M) {W : Id → Bool} {y : Id} (hd : E.disp y = true)
    (hW : ∀ p ∈ E.par y, W p = true) (p : Id) : p ∈ npOf E W y ↔ p ∈ E.par y ∨ (p = E.root ∧ E.par y = []) := by
  rw [npOf_all y (fun p hp _ => hW p hp), mem_npAll, F.cand (hE.dispHas y hd) hd]

theorem InPlace.of_pars {v v' : View} {y : Id} (h : InPlace E v y) (hp : v'.pars y = v.pars y) : InPlace E v' y := by
  intro p; rw [hp]; exact h p

theorem InPlace.grow (F : ForestE E) (hE : EOK E rank M) {v v' : View} {y : Id} (h : InPlace E v y) (hd : E.disp y = true)
    (hp : ∀ p ∈ E.par y, v.has p = true) (g : Grow E v v') : InPlace E v' y := by
  rcases g.snap y with e | ⟨W, w1, -, w3⟩
  · exact h.of_pars e
  · intro p; rw [w3]; exact F.npOf_in hE hd (fun q hq => w1 q (hp q hq)) p

theorem Snap.inPlace (F : ForestE E) (hE : EOK E rank M) {v v' : View} {y : Id} (h : Snap E v v' y) (hd : E.disp y = true)
    (hp : ∀ p ∈ E.par y, v.has p = true) : InPlace E v' y := by
  obtain ⟨W, w1, -, w3⟩ := h
  intro p; rw [w3]; exact F.npOf_in hE hd (fun q hq => w1 q (hp q hq)) p

/-! ### A chain of ancestors is shown -/

/-- All shown ancestors of `x` are in their places; `x` itself need not be. -/
structure Partly (E : VEnv) (v : View) (x : Id) : Prop where
  closed : ∀ y, ReachEq E.par x y → v.has y = true → ∀ p ∈ E.par y, v.has p = true
  placed : ∀ y, ReachEq E.par x y → y ≠ x → v.has y = true → InPlace E v y

/-- `x` and all its ancestors are shown where they belong. -/
def ShownUp (E : VEnv) (v : View) (x : Id) : Prop := ∀ y, ReachEq E.par x y → v.has y = true ∧ InPlace E v y

theorem reachEq_snoc {s : Id → List Id} {x y z : Id} (h : ReachEq s x y) (hz : z ∈ s y) : ReachEq s x z := by
  rcases h with rfl | h
  · exact Or.inr (Reach.single hz)
  · exact Or.inr (h.trans (Reach.single hz))

theorem reachEq_cons {s : Id → List Id} {x y z : Id} (hy : y ∈ s x) (h : ReachEq s y z) : ReachEq s x z :=
  ReachEq.head hy h

theorem reachEq_cases {s : Id → List Id} {x y : Id} (h : ReachEq s x y) : y = x ∨ ∃ z ∈ s x, ReachEq s z y := by
  rcases h with rfl | h
  · exact Or.inl rfl
  · refine Or.inr ?_
    induction h with
    | single h => exact ⟨_, h, Or.inl rfl⟩
    | tail _ h ih =>
      obtain ⟨z, hz, hr⟩ := ih
      exact ⟨z, hz, reachEq_snoc hr h⟩

theorem EOK.anc_rank (hE : EOK E rank M) {x y : Id} (h : ReachEq E.par x y) : rank y ≤ rank x := by
  rcases h with rfl | h
  · exact le_refl _
  · have : rank y < rank x := by
      induction h with
      | single h => exact hE.parRank _ _ h
      | tail _ h ih => exact lt_trans (hE.parRank _ _ h) ih
    exact le_of_lt this

theorem Partly.shown {v : View} {x : Id} (h : Partly E v x) (hx : v.has x = true) {y : Id} (hy : ReachEq E.par x y) : v.has y = true := by
  rcases hy with rfl | hy
  · exact hx
  · induction hy with
    | single h1 => exact h.closed _ (Or.inl rfl) hx _ h1
    | tail h0 h1 ih => exact h.closed _ (Or.inr h0) ih _ h1

theorem Partly.parent (hE : EOK E rank M) {v : View} {x p : Id} (h : Partly E v x) (hp : p ∈ E.par x) : Partly E v p :=
  ⟨fun y hy => h.closed y (reachEq_cons hp hy), fun y hy _ hh => h.placed y (reachEq_cons hp hy) (by
    rintro rfl
    have := hE.anc_rank hy
    have := hE.parRank y p hp
    omega) hh⟩

/-- All ancestors of a shown node are in their places. -/
theorem Partly.shownUp (hE : EOK E rank M) {v : View} {x p : Id} (h : Partly E v x) (hp : p ∈ E.par x) (hx : v.has p = true) : ShownUp E v p :=
  fun y hy => ⟨(h.parent hE hp).shown hx hy, h.placed y (reachEq_cons hp hy) (by
    rintro rfl
    have := hE.anc_rank hy
    have := hE.parRank y p hp
    omega) ((h.parent hE hp).shown hx hy)⟩

theorem ShownUp.grow (F : ForestE E) (hE : EOK E rank M) {v v' : View} {x : Id} (h : ShownUp E v x) (hd : E.disp x = true)
    (g : Grow E v v') : ShownUp E v' x :=
  fun y hy => ⟨g.has y (h y hy).1, (h y hy).2.grow F hE (F.anc hy hd) (fun p hp => (h p (reachEq_snoc hy hp)).1) g⟩

theorem ShownUp.step {v : View} {x : Id} (hx : v.has x = true) (hp : InPlace E v x)
    (h : ∀ p ∈ E.par x, ShownUp E v p) : ShownUp E v x := by
  intro y hy
  rcases reachEq_cases hy with rfl | ⟨z, hz, hr⟩
  · exact ⟨hx, hp⟩
  · exact h z hz y hr

/-- A shown node with its ancestors in place, after something in which the node got new parents. -/
theorem ShownUp.of_partly (F : ForestE E) (hE : EOK E rank M) {v v' : View} {x : Id} (h : Partly E v x) (hx : v.has x = true)
    (hd : E.disp x = true) (g : Grow E v v') (hs : Snap E v v' x) : ShownUp E v' x :=
  ShownUp.step (g.has x hx) (hs.inPlace F hE hd (h.closed x (Or.inl rfl) hx))
    fun p hp => (h.shownUp hE hp (h.closed x (Or.inl rfl) hx p hp)).grow F hE (F.up x p hp hd) g

/-- What is assumed of the recursive calls for ancestors. -/
def UpShows (E : VEnv) (rank : Id → Nat) (k : Nat) (up : Id → View → Res View) : Prop :=
  ∀ (p : Id) (v : View) (X : Id → Prop), rank p < k → VInv E rank X v → (∀ y, rank y ≤ rank p → ¬ X y) → E.disp p = true →
    Partly E v p → ∀ v', up p v = .ok v' → ShownUp E v' p

theorem settle_shows (F : ForestE E) (hE : EOK E rank M) {up : Id → View → Res View} {x : Id} (hup : UpSpec E rank (rank x) up)
    (hsh : UpShows E rank (rank x) up) {X : Id → Prop} (hX : ∀ y, rank y ≤ rank x → ¬ X y) {v : View} (hv : VInv E rank X v)
    (dir : Dir) (hroot : x ≠ E.root) (hd : E.disp x = true) (hP : Partly E v x) :
    ∃ v', E.settle up x dir v = .ok v' ∧ VInv E rank X v' ∧ Grow E v v' ∧ FrameAt rank x v v' ∧ v'.has x = true ∧
      Snap E v v' x ∧ ShownUp E v' x := by
  obtain ⟨v', a1, a2, a3, a4, a5, a6, a7⟩ := settle_ok_new hE hup hX hv dir hroot hd
  refine ⟨v', a1, a2, a3, a4, a5, a6, ?_⟩
  cases hx : v.has x with
  | true => exact ShownUp.of_partly F hE hP hx hd a3 a6
  | false =>
    obtain ⟨v2, b1, b2, b3⟩ := a7 hx
    obtain ⟨i1, i2, i3, i4⟩ := hv.insert hd hx
    have hP1 : ∀ p ∈ E.par x, Partly E { v with nodes := v.nodes.set x {} } p := by
      intro p hp
      have hne : ∀ y, ReachEq E.par p y → y ≠ x := by
        rintro y hy rfl
        have := hE.anc_rank hy
        have := hE.parRank y p hp
        omega
      refine ⟨fun y hy hh q hq => ?_, fun y hy _ hh => ?_⟩
      · rw [(i4 y (hne y hy)).2.1] at hh
        exact i2.has q (hP.closed y (reachEq_cons hp hy) hh q hq)
      · rw [(i4 y (hne y hy)).2.1] at hh
        exact (hP.placed y (reachEq_cons hp hy) (hne y hy) hh).of_pars (i4 y (hne y hy)).1
    have key : ∀ p ∈ E.par x, ShownUp E v2 p := by
      intro p hp
      have hpr := hE.parRank x p hp
      have hpx : p ≠ x := by rintro rfl; omega
      have hone : E.par x = [p] := by
        rcases F.par x with h | ⟨q, h⟩
        · rw [h] at hp; cases hp
        · rw [h] at hp ⊢; simp at hp; rw [hp]
      cases hpv : v.has p with
      | true =>
        rw [hone, List.filter_cons_of_neg, List.filter_nil] at b1
        · cases b1
          exact (hP.shownUp hE hp hpv).grow F hE (F.up x p hp hd) i2
        · simp only [decide_eq_true_eq, not_and, Decidable.not_not]
          intro hn
          exact absurd (mem_npOf_of F.flat (hE.dispHas x hd) hp (i2.has p hpv) (F.up x p hp hd)) hn
      | false =>
        rw [hone, List.filter_cons_of_pos, List.filter_nil] at b1
        · have b1' : up p { v with nodes := v.nodes.set x {} } = .ok v2 := by
            obtain ⟨u, hu, -⟩ := hup p _ X hpr i1 (fun y hy => hX y (by omega))
            rw [Res.forEach, hu, Res.andThen_ok] at b1
            rw [hu]; exact b1
          exact hsh p _ X hpr i1 (fun y hy => hX y (by omega)) (F.up x p hp hd) (hP1 p hp) v2 b1'
        · simp only [decide_eq_true_eq]
          constructor
          · intro hn
            rcases mem_npOf (newPars_eq E _ x ▸ hn) with e | e
            · exact hE.par_ne_root hp e
            · have := e.2.2.1
              rw [(i4 p hpx).2.1, hpv] at this; cases this
          · intro hn
            have := (i1.par x p hn).1
            rw [(i4 p hpx).2.1, hpv] at this; cases this
    refine ShownUp.step a5 (b3.inPlace F hE hd fun p hp => (key p hp p (Or.inl rfl)).1) fun p hp => ?_
    exact (key p hp).grow F hE (F.up x p hp hd) b2

theorem up_shows (F : ForestE E) (hE : EOK E rank M) : ∀ (f : Nat) (x : Id) (v : View) (X : Id → Prop), rank x < f →
    VInv E rank X v → (∀ y, rank y ≤ rank x → ¬ X y) → E.disp x = true → Partly E v x →
    ∃ v', E.update f x .up v = .ok v' ∧ VInv E rank X v' ∧ Grow E v v' ∧ FrameAt rank x v v' ∧ ShownUp E v' x := by
  intro f
  induction f with
  | zero => intro x v X hf; omega
  | succ f ih =>
    intro x v X hf hv hX hd hP
    have hr : x ≠ E.root := by rintro rfl; have := hE.dispHas _ hd; rw [hE.rootHas] at this; cases this
    obtain ⟨v', a1, a2, a3, a4, a5, a6, a7⟩ := settle_shows F hE (up := fun p v => E.update f p .up v) (hE.upSpec (by omega))
      (fun p w Y hp hw hY hdp hPp w' hw' => by
        obtain ⟨u, b1, -, -, -, b2⟩ := ih p w Y (by omega) hw hY hdp hPp
        dsimp only at hw'; rw [b1] at hw'; cases hw'; exact b2)
      hX hv .up hr hd hP
    refine ⟨v', ?_, a2, a3, a4, a7⟩
    unfold VEnv.update
    rw [if_neg hr, if_neg (by simp [hd]), if_pos hd, a1, Res.andThen_ok, if_neg (by simp [a5]), if_neg (by simp [Dir.goesDown])]

theorem both_shows (F : ForestE E) (hE : EOK E rank M) {f : Nat} {x : Id} {dir : Dir} {v : View} (hf : 2 * M + 2 ≤ f + rank x)
    (hdir : dir.goesDown = true) (hv : VInv E rank (fun _ => False) v) (hd : E.disp x = true) (hP : Partly E v x) :
    ∃ v', E.update f x dir v = .ok v' ∧ VInv E rank (fun _ => False) v' ∧ Grow E v v' ∧ ShownUp E v' x ∧
      ∀ c ∈ E.newKids x, v'.has c = true ∧ x ∈ v'.pars c := by
  have hr : x ≠ E.root := by rintro rfl; have := hE.dispHas _ hd; rw [hE.rootHas] at this; cases this
  obtain ⟨v', a1, a2, a3, a4⟩ := update_down_ok hE f x dir v hf hdir hv
  refine ⟨v', a1, a2, a3, ?_, (a4 hr hd).2.2⟩
  have hxM := hE.bound x
  obtain ⟨g, rfl⟩ : ∃ g, f = g + 1 := ⟨f - 1, by omega⟩
  obtain ⟨w, b1, b2, b3, b4, b5, b6, b7⟩ := settle_shows F hE (up := fun p v => E.update g p .up v) (hE.upSpec (by omega))
    (fun p w Y hp hw hY hdp hPp w' hw' => by
      obtain ⟨u, b1, -, -, -, b2⟩ := up_shows F hE g p w Y (by omega) hw hY hdp hPp
      dsimp only at hw'; rw [b1] at hw'; cases hw'; exact b2)
    (fun _ _ h => h) hv dir hr hd hP
  unfold VEnv.update at a1
  rw [if_neg hr, if_neg (by simp [hd]), if_pos hd, b1, Res.andThen_ok, if_neg (by simp [b5]), if_pos hdir] at a1
  obtain ⟨u, c1, -, c2, c3⟩ := forEach_ok
    (body := fun (c : Id) (v : View) => if c ∉ v.kids x then E.update g c .down v else Res.ok v)
    (fun l u => (∀ c ∈ l, x ∈ E.par c) ∧ VInv E rank (fun _ => False) u ∧ Grow E w u)
    (by
      rintro c l u ⟨i1, i2, i3⟩
      by_cases hk : c ∈ u.kids x
      · exact ⟨u, by rw [if_neg (by simpa using hk)], fun q hq => i1 q (by simp [hq]), i2, i3⟩
      · obtain ⟨u', j1, j2, j3, -⟩ := update_down_ok hE g c .down u (by have := hE.parRank c x (i1 c (by simp)); omega) rfl i2
        exact ⟨u', by rw [if_pos hk]; exact j1, fun q hq => i1 q (by simp [hq]), j2, i3.trans j3⟩)
    (E.newKids x) w ⟨fun c hc => ((mem_newKids hE).1 hc).2.1, b2, Grow.refl _ _⟩
  rw [c1] at a1
  cases a1
  exact b7.grow F hE hd c3

/-- An update of a displayed node in a view that shows everything except some of its ancestors. -/
theorem both_fit (F : ForestE E) (hE : EOK E rank M) {f : Nat} {x : Id} {dir : Dir} {v : View} (hf : 2 * M + 2 ≤ f + rank x)
    (hdir : dir.goesDown = true) (hv : VInv E rank (fun _ => False) v) (hd : E.disp x = true) (hP : Partly E v x)
    (hall : ∀ y, E.disp y = true → ¬ ReachEq E.par x y → v.has y = true) (D : Id → Prop)
    (hset : ∀ y, E.disp y = true → ¬ ReachEq E.par x y → ¬ D y → (v.has x = true ∨ x ∉ E.par y) → InPlace E v y) :
    ∃ v', E.update f x dir v = .ok v' ∧ VInv E rank (fun _ => False) v' ∧ (∀ y, E.disp y = true → v'.has y = true) ∧
      ∀ y, E.disp y = true → (y ≠ x → ¬ D y) → SettledAt E v' y := by
  obtain ⟨v', a1, a2, a3, a4, a5⟩ := both_shows F hE hf hdir hv hd hP
  refine ⟨v', a1, a2, ?_, ?_⟩
  · intro y hy
    by_cases hyx : ReachEq E.par x y
    · exact (a4 y hyx).1
    · exact a3.has y (hall y hy hyx)
  · intro y hy hD
    rw [F.settled_iff (hE.dispHas y hy) hy]
    by_cases hyx : ReachEq E.par x y
    · exact (a4 y hyx).2
    · have hne : y ≠ x := fun e => hyx (Or.inl e.symm)
      by_cases hc : v.has x = true ∨ x ∉ E.par y
      · have hin := hset y hy hyx (hD hne) hc
        exact hin.grow F hE hy (fun p hp => (hv.par y p ((hin p).2 (Or.inl hp))).1) a3
      · push Not at hc
        obtain ⟨c1, c2⟩ := hc
        have hxy := (a5 y ((mem_newKids hE).2 ⟨F.flat, c2, hy⟩)).2
        rcases a3.snap y with e | ⟨W, w1, w2, w3⟩
        · rw [e] at hxy
          exact absurd (hv.par y x hxy).1 c1
        · intro p
          rw [w3]
          refine F.npOf_in hE hy (fun q hq => ?_) p
          have hqx : q = x := by
            rcases F.par y with h | ⟨z, h⟩
            · rw [h] at c2; cases c2
            · rw [h] at hq c2; simp at hq c2; rw [hq, c2]
          subst hqx
          rw [w3] at hxy
          rcases mem_npOf hxy with h | h
          · exact absurd h (hE.par_ne_root hq)
          · exact h.2.2.1

end Larch
