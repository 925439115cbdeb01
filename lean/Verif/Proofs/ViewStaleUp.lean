import Verif.Proofs.ViewStaleDown

/-!
# The upward pass over a view that is out of date
-/

namespace Larch

open Spec Graph

variable {E : VEnv} {G : Roof} {rank : Id → Nat} {M : Nat}

/-- The nodes in transit keep their parents, no displayed node disappeared and no other node appeared. -/
structure Held (E : VEnv) (X : Id → Prop) (v w : View) : Prop where
  pars : ∀ z, X z → w.pars z = v.pars z
  stay : ∀ y, v.has y = true → E.disp y = true → w.has y = true
  none : ∀ y, w.has y = true → E.disp y = false → v.has y = true

namespace Held

variable {X X' : Id → Prop} {u v w : View}

theorem refl : Held E X v v := ⟨fun _ _ => rfl, fun _ h _ => h, fun _ h _ => h⟩

theorem trans (h : Held E X u v) (h' : Held E X v w) : Held E X u w :=
  ⟨fun z hz => (h'.pars z hz).trans (h.pars z hz), fun y hy hd => h'.stay y (h.stay y hy hd) hd,
    fun y hy hd => h.none y (h'.none y hy hd) hd⟩

theorem mono (h : Held E X v w) (hX : ∀ z, X' z → X z) : Held E X' v w := ⟨fun z hz => h.pars z (hX z hz), h.stay, h.none⟩

theorem of_nodes (h : w.nodes = v.nodes) : Held E X v w :=
  ⟨fun z _ => by rw [View.pars_congr h], fun y hy _ => by rw [View.has_congr h]; exact hy, fun y hy _ => by rw [← View.has_congr h]; exact hy⟩

end Held

/-- The nodes in transit may stay where they are while `x` and what is above it are looked at. -/
structure Outside (E : VEnv) (G : Roof) (rank : Id → Nat) (X : Id → Prop) (x : Id) (v : View) : Prop where
  ok : ∀ z, X z → rank x < rank z ∧ E.disp z = true ∧ v.has z = true
  below : x ≠ E.root → E.flat = false → ∀ z, X z → ReachEq G.par z x

/-- What the upward pass achieves with this much depth. -/
def UpAt (E : VEnv) (G : Roof) (rank : Id → Nat) (M f : Nat) : Prop :=
  ∀ (x : Id) (P X : Id → Prop) (v : View), M + rank x + 3 ≤ f → Stale E G P X (fun _ => False) v → Outside E G rank X x v →
    (E.disp x = false → ∀ z, X z → ∀ a ∈ v.kids x, ¬ ReachEq G.par z a) →
    ∃ v', E.update f x .up v = .ok v' ∧ Stale E G P X (fun _ => False) v' ∧ Held E X v v' ∧
      (x ≠ E.root → v'.has x = E.disp x)

variable {G' : Roof} {P X : Id → Prop} {v : View} {x : Id}

/-- Looking at a tree parent the node is not displayed below. -/
theorem upParent (hE : GOK E G rank M) (ho : OneParent E G) {f : Nat} (ih : UpAt E G rank M f) {p : Id} (hp : p ∈ G.par x)
    (hM : M + rank x + 2 ≤ f) (h : Stale E G P X (fun _ => False) v) (hX : ∀ z, X z → rank p < rank z ∧ E.disp z = true ∧ v.has z = true)
    (hre : E.flat = false → ∀ z, X z → ReachEq G.par z x) (hxk : x ∉ v.kids p) :
    ∃ v', E.update f p .up v = .ok v' ∧ Stale E G P X (fun _ => False) v' ∧ Held E X v v' ∧ v'.has p = E.disp p := by
  have hrp := hE.gRank _ _ hp
  have hpr := (hE.gNe _ _ hp).1
  obtain ⟨v', a1, a2, a3, a4⟩ := ih p P X v (by omega) h
    ⟨hX, fun _ hf z hz => (hre hf z hz).trans (Or.inr (Reach.single hp))⟩
    (by
      intro _ z hz a ha hk
      obtain ⟨hf, hpa⟩ := (h.kid p a ha).2.resolve_left hpr
      have hap : ∀ q ∈ G.par a, q = p := fun q hq => ho hf a q p hq hpa
      have hxp : ∀ q ∈ G.par x, q = p := fun q hq => ho hf x q p hq hp
      have hax : a ≠ x := by rintro rfl; exact hxk ha
      have hra := hE.gRank _ _ hpa
      -- both `a` and `x` are above `z`
      have key : ∀ y, ReachEq G.par z y → ReachEq G.par y x ∨ ReachEq G.par x y := by
        intro y hy
        rcases hy with rfl | hy
        · exact Or.inl (hre hf _ hz)
        · induction hy with
          | single h1 =>
            rcases hre hf z hz with e | e
            · right; rw [← e]; exact Or.inr (Reach.single h1)
            · left
              obtain ⟨b, g1, g2⟩ := Relation.TransGen.head'_iff.1 e
              have := ho hf _ _ _ h1 g1
              subst this
              rcases Relation.reflTransGen_iff_eq_or_transGen.1 g2 with e | e
              · exact Or.inl e.symm
              · exact Or.inr e
          | tail _ h1 ih =>
            rcases ih with (e | e) | e
            · right; rw [← e]; exact Or.inr (Reach.single h1)
            · left
              obtain ⟨b, g1, g2⟩ := Relation.TransGen.head'_iff.1 e
              have := ho hf _ _ _ h1 g1
              subst this
              rcases Relation.reflTransGen_iff_eq_or_transGen.1 g2 with e | e
              · exact Or.inl e.symm
              · exact Or.inr e
            · right; exact e.trans (Or.inr (Reach.single h1))
      rcases key a hk with e | e
      · rcases reach_up hap e with e | e
        · exact hax e.symm
        · have := hE.reach_rank e
          omega
      · rcases reach_up hxp e with e | e
        · exact hax e
        · have := hE.reach_rank e
          omega)
  exact ⟨v', a1, a2, a3, a4 hpr⟩

/-- Looking at several of them. -/
theorem upList (hE : GOK E G rank M) (ho : OneParent E G) {f : Nat} (ih : UpAt E G rank M f) {body : Id → View → Res View}
    (hb : ∀ p w, body p w = E.update f p .up w ∨ (body p w = .ok w ∧ w.has p = true)) (hM : M + rank x + 2 ≤ f) {l : List Id}
    (hl : ∀ p ∈ l, p ∈ E.par x) (h : Stale E G P X (fun _ => False) v) (hX : ∀ z, X z → rank x ≤ rank z ∧ E.disp z = true ∧ v.has z = true)
    (hre : E.flat = false → ∀ z, X z → ReachEq G.par z x) (hx : X x ∨ (E.disp x = false ∧ v.has x = false)) :
    ∃ v', Res.forEach body l v = .ok v' ∧ Stale E G P X (fun _ => False) v' ∧ Held E X v v' ∧ (∀ p ∈ l, E.disp p = true → v'.has p = true) := by
  obtain ⟨v', b1, -, b2, b3, b4⟩ := forEach_ok (body := body)
    (fun l' w => (∀ p ∈ l', p ∈ l) ∧ Stale E G P X (fun _ => False) w ∧ Held E X v w ∧ ∀ p ∈ l, p ∉ l' → E.disp p = true → w.has p = true)
    (by
      rintro p l' w ⟨i1, i2, i3, i4⟩
      have hp := hE.gSup _ _ (hl p (i1 p (by simp)))
      have hrp := hE.gRank _ _ hp
      have hxk : x ∉ w.kids p := by
        intro hk
        rcases hx with hx | ⟨hd, hn⟩
        · exact i2.det x hx p (fun h => h) hk
        · have := i3.none x (i2.dn p (fun h => h) x hk).1 hd
          rw [hn] at this; cases this
      have hrest : ∀ w', Held E X w w' → (E.disp p = true → w'.has p = true) → ∀ q ∈ l, q ∉ l' → E.disp q = true → w'.has q = true := by
        intro w' hw' hpp q hq hql hqd
        by_cases hqp : q = p
        · subst hqp; exact hpp hqd
        · exact hw'.stay q (i4 q hq (by simp [hqp, hql]) hqd) hqd
      rcases hb p w with e | ⟨e, e'⟩
      · obtain ⟨w', j1, j2, j3, j4⟩ := upParent hE ho ih hp hM i2
          (fun z hz => by
            obtain ⟨g1, g2, g3⟩ := hX z hz
            exact ⟨by omega, g2, i3.stay z g3 g2⟩) hre hxk
        exact ⟨w', e.trans j1, fun q hq => i1 q (by simp [hq]), j2, i3.trans j3, hrest w' j3 (fun hd => by rw [j4]; exact hd)⟩
      · exact ⟨w, e, fun q hq => i1 q (by simp [hq]), i2, i3, hrest w Held.refl (fun _ => e')⟩)
    l v ⟨fun _ hp => hp, h, Held.refl, fun p hp hn => absurd hp hn⟩
  exact ⟨v', b1, b2, b3, fun p hp => b4 p hp (by simp)⟩

theorem newPars_one (hE : GOK E G rank M) (ho : OneParent E G) (v : View) (x : Id) :
    ∃ q, E.newPars v x = [q] ∧ (q = E.root ∨ (E.flat = false ∧ q ∈ E.par x ∧ v.has q = true ∧ E.disp q = true)) ∧
      (E.flat = false → ∀ p ∈ E.par x, v.has p = true → E.disp p = true → p = q) := by
  by_cases hf : E.flat = false
  · rcases hl : E.par x with _ | ⟨p, l⟩
    · refine ⟨E.root, ?_, Or.inl rfl, fun _ p hp => by simp at hp⟩
      unfold VEnv.newPars
      rw [hl]; simp
    · have hp : p ∈ E.par x := by rw [hl]; simp
      have he := ho.par_eq hE hf hp
      rw [← hl, newPars_single hE hf he]
      by_cases hc : v.has p = true ∧ E.disp p = true
      · refine ⟨p, by rw [if_pos hc], Or.inr ⟨hf, hp, hc.1, hc.2⟩, fun _ p' hp' _ _ => ho hf x p' p (hE.gSup _ _ hp') (hE.gSup _ _ hp)⟩
      · refine ⟨E.root, by rw [if_neg hc], Or.inl rfl, fun _ p' hp' h1 h2 => ?_⟩
        have := ho hf x p' p (hE.gSup _ _ hp') (hE.gSup _ _ hp)
        subst this
        exact absurd ⟨h1, h2⟩ hc
  · refine ⟨E.root, ?_, Or.inl rfl, fun h => absurd h hf⟩
    unfold VEnv.newPars
    simp [hf]

theorem noneBelow_false : NoneBelow G (fun _ => False) x := fun _ h => h.elim

/-- The roof without what `x` just lost, and with everything else. -/
def Roof.Keeps (G G' : Roof) (x : Id) : Prop :=
  ∀ y, y ≠ x → (∀ p ∈ G.par y, p ∈ G'.par y) ∧ (G.has y = true → G'.has y = true)

theorem Stale.reroof (hE' : GOK E G' rank M) (hG : G.Keeps G' x) (h : Stale E G P X (fun _ => False) v)
    (hp : ∀ p ∈ v.pars x, p = E.root ∨ (E.flat = false ∧ p ∈ E.par x)) (hk : ∀ p, x ∈ v.kids p → p ∈ v.pars x)
    (hx : v.has x = true → x ≠ E.root → E.has x = true) : Stale E G' P X (fun _ => False) v := by
  refine { h with real := fun y hy hr => ?_, par := fun y p hy => ⟨(h.par y p hy).1, ?_⟩, kid := fun p c hc => ⟨(h.kid p c hc).1, ?_⟩ }
  · by_cases e : y = x
    · subst e; exact hE'.gHas _ (hx hy hr)
    · exact (hG y e).2 (h.real y hy hr)
  · by_cases e : y = x
    · subst e; exact (hp p hy).imp id fun e => ⟨e.1, hE'.gSup _ _ e.2⟩
    · exact (h.par y p hy).2.imp id fun e' => ⟨e'.1, (hG y e).1 p e'.2⟩
  · by_cases e : c = x
    · subst e; exact (hp p (hk p hc)).imp id fun e => ⟨e.1, hE'.gSup _ _ e.2⟩
    · exact (h.kid p c hc).2.imp id fun e' => ⟨e'.1, (hG c e).1 p e'.2⟩

/-- A node that is to be shown is put in its place. -/
theorem settleUp (hE : GOK E G rank M) (ho : OneParent E G) {f : Nat} (ih : UpAt E G rank M f)
    (hE' : GOK E G' rank M) (ho' : OneParent E G') (ih' : UpAt E G' rank M f) (hG : G.Keeps G' x) (hM : M + rank x + 2 ≤ f)
    (hr : x ≠ E.root) (hd : E.disp x = true) (h : Stale E G P X (fun _ => False) v) (hX : Outside E G rank X x v)
    (hX' : Outside E G' rank X x v) {dir : Dir} (hdir : dir ≠ .down) :
    ∃ v', E.settle (fun p v => E.update f p .up v) x dir v = .ok v' ∧ Stale E G' P X (fun _ => False) v' ∧ Held E X v v' ∧
      v'.has x = true := by
  have hup : dir.goesUp = true := by cases dir <;> first | rfl | exact absurd rfl hdir
  have hXx : ¬ X x := fun hx => absurd (hX.ok x hx).1 (by omega)
  have hupr : ∀ w : View, E.update f E.root .up w = .ok w := by
    intro w
    obtain ⟨g, rfl⟩ : ∃ g, f = g + 1 := ⟨f - 1, by omega⟩
    exact update_root
  have hdirq : ∀ l : List Id, (if dir = .down ∧ E.root ∈ l then Dir.both else dir) = dir := by
    intro l; rw [if_neg (fun e => hdir e.1)]
  -- looking at a displayed node above
  have hupq : ∀ (q : Id) (w : View), (q = E.root ∨ (E.flat = false ∧ q ∈ E.par x ∧ E.disp q = true)) → Stale E G' P X (fun _ => False) w →
      Held E X v w → ∃ w', E.update f q .up w = .ok w' ∧ Stale E G' P X (fun _ => False) w' ∧ Held E X w w' := by
    rintro q w (rfl | ⟨hf, hqp, hqd⟩) hw hh
    · exact ⟨w, hupr w, hw, Held.refl⟩
    · replace hqp := hE'.gSup _ _ hqp
      have hrq := hE'.gRank _ _ hqp
      obtain ⟨w', a1, a2, a3, -⟩ := ih' q P X w (by omega) hw
        ⟨fun z hz => by
          obtain ⟨g1, g2, g3⟩ := hX.ok z hz
          exact ⟨by omega, g2, hh.stay z g3 g2⟩, fun _ hf z hz => (hX'.below hr hf z hz).trans (Or.inr (Reach.single hqp))⟩
        (by intro hn; rw [hqd] at hn; cases hn)
      exact ⟨w', a1, a2, a3⟩
  have hXor : ∀ z, (X z ∨ z = x) → rank x ≤ rank z ∧ E.disp z = true := by
    rintro z (hz | rfl)
    · have := hX.ok z hz
      exact ⟨by omega, this.2.1⟩
    · exact ⟨le_refl _, hd⟩
  have hreor : E.flat = false → ∀ z, (X z ∨ z = x) → ReachEq G.par z x := by
    rintro hf z (hz | rfl)
    · exact hX.below hr hf z hz
    · exact Or.inl rfl
  -- joining a displayed node or the root
  have hjoin : ∀ (q : Id) (w : View), (q = E.root ∨ (E.flat = false ∧ q ∈ E.par x ∧ E.disp q = true)) →
      Stale E G' P (fun z => X z ∨ z = x) (fun _ => False) w → Held E X v w → w.pars x = [q] →
      (E.flat = false → ∀ p ∈ E.par x, ¬ P p → E.disp p = true → p = q) →
      ∃ w', E.join (fun p v => E.update f p .up v) true x q w = .ok w' ∧ Stale E G' P X (fun _ => False) w' ∧ Held E X w w' ∧ w'.has x = true := by
    intro q w hq hw hh hp hst
    have hqx : q ∈ w.pars x := by rw [hp]; simp
    have hrq := hw.prank hE' hqx
    obtain ⟨w2, t1, t2, t3, t4, t5⟩ := hw.attach hE' hp hXx noneBelow_false
      (hw.clear hE' fun z hz => by
        have := (hXor z hz).1
        omega) (fun hf _ => hst hf)
    have hh2 : Held E X w w2 := ⟨fun z _ => by rw [t4], fun y hy _ => by rw [t3]; exact hy, fun y hy _ => by rw [← t3]; exact hy⟩
    obtain ⟨w3, s1, s2, s3⟩ := hupq q w2 hq t2 (hh.trans hh2)
    refine ⟨w3, ?_, s2, hh2.trans s3, s3.stay x (by rw [t3]; exact View.has_of_par hqx) hd⟩
    unfold VEnv.join
    rw [if_neg (by simp [(hw.par x q hqx).1]), t1, Res.andThen_ok, if_pos rfl]
    exact s1
  have hclearX : ∀ w, Stale E G' P X (fun _ => False) w → Clear w x := fun w hw => hw.clear hE' fun z hz => (hX.ok z hz).1
  cases hin : v.has x with
  | false =>
    obtain ⟨s1, s2, s3, s4⟩ := h.insert hE hr hin hd
    set v1 : View := { v with nodes := v.nodes.set x {} } with hv1
    have hh1 : Held E X v v1 := by
      refine ⟨fun z _ => by rw [s3], fun y hy _ => (s2 y).2 (Or.inl hy), fun y hy hyd => ?_⟩
      rcases (s2 y).1 hy with e | rfl
      · exact e
      · rw [hd] at hyd; cases hyd
    obtain ⟨v2, u1, u2, u3, u4⟩ := upList (x := x) (v := v1) hE ho ih (body := fun p v => E.update f p .up v) (fun _ _ => Or.inl rfl) hM
      (l := (E.par x).filter fun p => decide (p ∉ E.newPars v1 x ∧ p ∉ v1.pars x)) (fun p hp => (List.mem_filter.1 hp).1) s1
      (by
        intro z hz
        obtain ⟨g1, g2⟩ := hXor z hz
        refine ⟨g1, g2, ?_⟩
        rcases hz with hz | rfl
        · exact hh1.stay z (hX.ok z hz).2.2 g2
        · exact (s2 z).2 (Or.inr rfl)) hreor (Or.inl (Or.inr rfl))
    have hin2 : v2.has x = true := u3.stay x ((s2 x).2 (Or.inr rfl)) hd
    have hp2 : v2.pars x = [] := by rw [u3.pars x (Or.inr rfl), s3]; exact View.pars_of_not_has hin
    obtain ⟨q, q1, q2, q3⟩ := newPars_one hE ho v2 x
    have hqh : v2.has q = true := by
      rcases q2 with rfl | q2
      · exact u2.rootIn
      · exact q2.2.2.1
    have hq' : q = E.root ∨ (E.flat = false ∧ q ∈ E.par x ∧ E.disp q = true) := q2.imp id fun e => ⟨e.1, e.2.1, e.2.2.2⟩
    obtain ⟨r1, r2, r3, r4⟩ := u2.point (x := x) (Or.inr rfl) hin2 hp2 hqh (q2.imp id fun e => ⟨e.1, hE.gSup _ _ e.2.1⟩) (q2.imp id fun e => e.2.2.2)
    set v3 := v2.upd x fun n => { n with parents := [q] } with hv3
    have hh3 : Held E X v2 v3 :=
      ⟨fun z hz => by rw [r3, if_neg (by rintro rfl; exact hXx hz)], fun y hy _ => by rw [r2]; exact hy, fun y hy _ => by rw [← r2]; exact hy⟩
    have hhv3 := (hh1.trans (u3.mono fun _ => Or.inl)).trans hh3
    have r1' := r1.reroof hE' hG (by
        intro p hp; rw [r3, if_pos rfl] at hp; simp at hp; subst hp; exact hq'.imp id fun e => ⟨e.1, e.2.1⟩)
      (fun p hp => absurd hp (r1.det x (Or.inr rfl) p fun h => h)) (fun _ _ => hE.dispHas x hd)
    obtain ⟨v5, t1, t2, t3, t4⟩ := hjoin q v3 hq' r1' hhv3 (by rw [r3, if_pos rfl])
      (fun hf p hp hP hpd => q3 hf p hp (by
        rw [u2.shown p hP (hE.gNe _ _ (hE.gSup _ _ hp)).1]; exact hpd) hpd)
    obtain ⟨n, hn⟩ := View.get_of_has hin2
    have hnp : n.parents = [] := by rw [← View.pars_of_get hn]; exact hp2
    refine ⟨v5, ?_, t2, hhv3.trans t3, t4⟩
    have g1 : E.diff [q] [] = [q] := diff_single hE (by simp)
    have g2 : E.diff [q] [q] = [] := diff_nil hE.toEOK (by simp)
    refine settle_new hin u1 hn q1 hqh (hdirq _) (v4 := v3) (v5 := v5) ?_ ?_ ?_
    · rw [hnp, diff_nil hE.toEOK (by simp)]; rfl
    · rw [hnp, g1, hup]; exact forEach_one t1
    · rw [hnp, g1, g2, hup]; rfl
  | true =>
    obtain ⟨q, q1, q2, q3⟩ := newPars_one hE ho v x
    have hqh : v.has q = true := by
      rcases q2 with rfl | q2
      · exact h.rootIn
      · exact q2.2.2.1
    have hq' : q = E.root ∨ (E.flat = false ∧ q ∈ E.par x ∧ E.disp q = true) := q2.imp id fun e => ⟨e.1, e.2.1, e.2.2.2⟩
    obtain ⟨p0, hp0⟩ : ∃ p0, v.pars x = [p0] := by
      rcases hl : v.pars x with _ | ⟨a, l⟩
      · exact absurd hl (h.full x hin hr hXx)
      · exact ⟨a, by rw [← hl]; exact h.one x a (by rw [hl]; simp)⟩
    obtain ⟨n, hn⟩ := View.get_of_has hin
    have hnp : n.parents = [p0] := by rw [← View.pars_of_get hn]; exact hp0
    have g2 : E.diff [q] [q] = [] := diff_nil hE.toEOK (by simp)
    have hstq : E.flat = false → ∀ p ∈ E.par x, ¬ P p → E.disp p = true → p = q := fun hf p hp hP hpd => q3 hf p hp (by
        rw [h.shown p hP (hE.gNe _ _ (hE.gSup _ _ hp)).1]; exact hpd) hpd
    by_cases hqp : q = p0
    · subst hqp
      set v3 := v.upd x fun n => { n with parents := [q] } with hv3
      have p3 : v3.pars = v.pars := by
        funext y
        rw [hv3, View.pars_updPars v x (fun _ => [q]) hin, hn]
        by_cases e : y = x
        · subst e; rw [if_pos rfl, hp0]; rfl
        · rw [if_neg e]
      have h3 : Stale E G P X (fun _ => False) v3 :=
        h.same (by rw [hv3, View.keys_upd]; exact h.keys) (funext fun y => View.has_upd _ _ _ _) p3
          (funext (View.kids_updPars v x (fun _ => [q]))) rfl
      have h3' := h3.reroof hE' hG (by
          intro p hp; rw [p3, hp0] at hp; simp at hp; subst hp; exact hq'.imp id fun e => ⟨e.1, e.2.1⟩)
        (fun p hp => (h3.dn p (fun h => h) x hp).2) (fun _ _ => hE.dispHas x hd)
      have hh3 : Held E X v v3 :=
        ⟨fun z _ => by rw [p3], fun y hy _ => by rw [hv3, View.has_upd]; exact hy, fun y hy _ => by rw [hv3, View.has_upd] at hy; exact hy⟩
      obtain ⟨v6, a1, a2, a3⟩ := hupq q v3 hq' h3' hh3
      have hin6 : v6.has x = true := a3.stay x (by rw [hv3, View.has_upd]; exact hin) hd
      obtain ⟨ps, b1, b2⟩ := a2.modified hE' hr hin6 (hclearX v6 a2)
      have hnn : (v6.send .modified x ps).nodes = v6.nodes := View.send_nodes _ _ _ _
      refine ⟨v6.send .modified x ps, ?_, b2, (hh3.trans a3).trans (Held.of_nodes hnn), by rw [View.has_congr hnn]; exact hin6⟩
      have g3 : E.diff [q] [] = [q] := diff_single hE (by simp)
      refine settle_old hin hn q1 hqh (hdirq _) (v4 := v3) (v5 := v3) ?_ ?_ ?_ b1
      · rw [hnp, g2]; rfl
      · rw [hnp, g2]; rfl
      · rw [hnp, g2, g3, if_pos hup]; exact forEach_one a1
    · obtain ⟨v4, v5, s1, s2, s3, s4, s5, s6⟩ := h.detach hE hp0 hXx noneBelow_false
        (h.clear hE fun z hz => by
          have := (hX.ok z hz).1
          have := h.prank hE (y := x) (p := p0) (by rw [hp0]; simp)
          omega) (fun h => h) hqh (q2.imp id fun e => ⟨e.1, hE.gSup _ _ e.2.1⟩) (q2.imp id fun e => e.2.2.2) hqp
      have hh5 : Held E X v v5 :=
        ⟨fun z hz => by rw [s5, if_neg (by rintro rfl; exact hXx hz)], fun y hy _ => by rw [s4]; exact hy, fun y hy _ => by rw [← s4]; exact hy⟩
      -- looking at the old parent
      obtain ⟨v6, u1, u2, u3⟩ : ∃ v6, E.update f p0 .up v5 = .ok v6 ∧ Stale E G P (fun z => X z ∨ z = x) (fun _ => False) v6 ∧
          Held E (fun z => X z ∨ z = x) v5 v6 := by
        rcases (h.par x p0 (by rw [hp0]; simp)).2 with e | ⟨hf, hpp⟩
        · rw [e]; exact ⟨v5, hupr v5, s3, Held.refl⟩
        · have hrp := hE.gRank _ _ hpp
          obtain ⟨v6, a1, a2, a3, -⟩ := upParent hE ho ih hpp hM s3
            (by
              intro z hz
              obtain ⟨g1, g2⟩ := hXor z hz
              refine ⟨by omega, g2, ?_⟩
              rw [s4]
              rcases hz with hz | rfl
              · exact (hX.ok z hz).2.2
              · exact hin) hreor (by rw [s6]; simp)
          exact ⟨v6, a1, a2, a3⟩
      have hp6 : v6.pars x = [q] := by rw [u3.pars x (Or.inr rfl), s5, if_pos rfl]
      have hh6 := hh5.trans (u3.mono fun _ => Or.inl)
      have u2' := u2.reroof hE' hG (by
          intro p hp; rw [hp6] at hp; simp at hp; subst hp; exact hq'.imp id fun e => ⟨e.1, e.2.1⟩)
        (fun p hp => absurd hp (u2.det x (Or.inr rfl) p fun h => h)) (fun _ _ => hE.dispHas x hd)
      obtain ⟨v7, t1, t2, t3, t4⟩ := hjoin q v6 hq' u2' hh6 hp6 hstq
      obtain ⟨ps, b1, b2⟩ := t2.modified hE' hr t4 (hclearX v7 t2)
      have hnn : (v7.send .modified x ps).nodes = v7.nodes := View.send_nodes _ _ _ _
      refine ⟨v7.send .modified x ps, ?_, b2, (hh6.trans t3).trans (Held.of_nodes hnn), by rw [View.has_congr hnn]; exact t4⟩
      have g3 : E.diff [q] [p0] = [q] := diff_single hE (by simp [hqp])
      have g4 : E.diff [p0] [q] = [p0] := diff_single hE (by simp [Ne.symm hqp])
      refine settle_old hin hn q1 hqh (hdirq _) (v4 := v6) (v5 := v7) ?_ ?_ ?_ b1
      · rw [hnp, g4, hup]
        refine forEach_one ?_
        unfold VEnv.leave
        rw [s1, Res.andThen_ok, s2, Res.andThen_ok, if_pos rfl]
        exact u1
      · rw [hnp, g3, hup]; exact forEach_one t1
      · rw [hnp, g3, g2, if_pos hup]; rfl

/-- A node that is not to be shown goes. -/
theorem vanishUp (hE : GOK E G rank M) (ho : OneParent E G) {f : Nat} (ih : UpAt E G rank M f) (hM : M + rank x + 2 ≤ f)
    (hr : x ≠ E.root) (hd : E.disp x = false) (hin : v.has x = true) (h : Stale E G P X (fun _ => False) v) (hX : Outside E G rank X x v)
    (hoff : ∀ z, X z → ∀ a ∈ v.kids x, ¬ ReachEq G.par z a) :
    ∃ v', E.vanish (fun p v => E.update f p .up v) (fun c v => E.update f c .down v) x v = .ok v' ∧
      Stale E G P X (fun _ => False) v' ∧ Held E X v v' ∧ v'.has x = false := by
  have hXx : ¬ X x := fun hx => absurd (hX.ok x hx).1 (by omega)
  have hupr : ∀ w : View, E.update f E.root .up w = .ok w := by
    intro w
    obtain ⟨g, rfl⟩ : ∃ g, f = g + 1 := ⟨f - 1, by omega⟩
    exact update_root
  have hcl : Clear v x := h.clear hE fun z hz => (hX.ok z hz).1
  obtain ⟨ps, a1, a2, a3⟩ := paths_on (h.pathsOn hE hcl) (ReachEq.refl _ x) hin (root := E.root)
  obtain ⟨w, b1, b2, b3', b3, b4⟩ := abandonAll hE ho (downAt hE ho f) (x := x) (by omega) h hr hd hin hcl hoff noneBelow_false
  have hwin : w.has x = true := by rw [b3.has x (by simp)]; exact hin
  obtain ⟨p, hp⟩ : ∃ p, v.pars x = [p] := by
    rcases hl : v.pars x with _ | ⟨a, l⟩
    · exact absurd hl (h.full x hin hr hXx)
    · exact ⟨a, by rw [← hl]; exact h.one x a (by rw [hl]; simp)⟩
  have hwp : w.pars x = [p] := by rw [b3.pars x (by simp)]; exact hp
  have hpx : p ∈ w.pars x := by rw [hwp]; simp
  have hpr : p ≠ x := by
    rintro rfl
    have := b2.prank hE hpx
    omega
  have hlow : ∀ y, rank y ≤ rank x → ¬ (ReachEq G.par y x ∧ y ≠ x) := by
    rintro y hy ⟨h1, h2⟩
    rcases h1 with rfl | h1
    · exact h2 rfl
    · obtain ⟨z, g1, g2⟩ := Relation.TransGen.tail'_iff.1 h1
      have e2 := hE.gRank _ _ g2
      have e3 : rank z ≤ rank y := by
        rcases Relation.reflTransGen_iff_eq_or_transGen.1 g1 with e | e
        · rw [e]
        · exact hE.reach_rank (Or.inr e)
      omega
  have hedge : ∀ y, rank y ≤ rank x → ∀ p, (v.both p y ↔ w.both p y) := by
    intro y hy p
    show (p ∈ v.pars y ∧ y ∈ v.kids p) ↔ (p ∈ w.pars y ∧ y ∈ w.kids p)
    rw [b3.pars y (hlow y hy)]
    refine and_congr_right fun hpy => ?_
    have := h.prank hE hpy
    rw [b3.kids p y (hlow p (by omega)) (hlow y hy)]
  obtain ⟨w2, e0, e1, e2, e3, e4, e5⟩ := b2.delete b4 a2
    (by
      intro l
      rw [a3]
      exact ⟨fun hl => chain_low (rank := rank) (fun p y hpy => h.prank hE hpy.1) (fun y hy p hpy => (hedge y hy p).1 hpy) hl,
        fun hl => chain_low (rank := rank) (fun p y hpy => b2.prank hE hpy.1) (fun y hy p hpy => (hedge y hy p).2 hpy) hl⟩)
  have hpin : w2.has p = true := (e1 p).2 ⟨(b2.par x p hpx).1, hpr⟩
  have hxk : x ∈ w.kids p := b2.up x hXx p hpx
  obtain ⟨m, hm⟩ := View.get_of_has hpin
  have hmk : m.children = w.kids p := by rw [← View.kids_of_get hm, e3, if_neg hpr]
  set w3 := w2.upd p fun n => { n with children := n.children.erase x } with hw3
  have hdrop : w2.dropKid p x = .ok w3 := by
    unfold View.dropKid; rw [hm]; dsimp only; rw [if_pos (by rw [hmk]; exact hxk)]
  have k3 : ∀ y, w3.kids y = if y = p then (w.kids p).erase x else if y = x then [] else w.kids y := fun y => by
    rw [hw3, View.kids_updKids w2 p (fun l => l.erase x) hpin, e3, e3, if_neg hpr]
  have c3 : w3.has = w2.has := funext fun y => View.has_upd _ _ _ _
  have p3 : w3.pars = w2.pars := funext (View.pars_updKids w2 p (fun l => l.erase x))
  have hfin : Stale E G P X (fun _ => False) w3 := by
    refine b2.deleted (fun z hz => Or.inl hz) (fun z hz => ⟨hz, by rintro rfl; exact hXx hz⟩) (fun h => h) b4 (by rw [c3]; exact e1) (by rw [p3]; exact e2)
      (fun k b hk => ?_) (fun k b hk hb hkx => ?_) (fun b _ hk => ?_) (fun b => ?_) (by rw [hw3, View.keys_upd]; exact e4)
      (RowsSet.fewerKids (v' := w3) (e5 : RowsSet w3.out _ _) fun y => by
        rw [k3, e3]
        by_cases hy : y = p
        · rw [if_pos hy, hy, if_neg hpr]; exact List.erase_sublist
        · rw [if_neg hy])
    · rw [k3] at hk
      split at hk
      · rename_i e; rw [e]; exact ⟨List.mem_of_mem_erase hk, hpr⟩
      · split at hk
        · cases hk
        · exact ⟨hk, by assumption⟩
    · rw [k3]
      split
      · rename_i e; rw [e] at hk; exact (List.mem_erase_of_ne hkx).2 hk
      · exact hk
    · rw [k3] at hk
      split at hk
      · exact ((b2.ndK p).mem_erase_iff.1 hk).1 rfl
      · rename_i e
        split at hk
        · cases hk
        · rename_i e'
          have := (b2.dn b (by rintro (hc | hc); exacts [hc, e' hc]) x hk).2
          rw [hwp] at this; simp at this
          exact e this
    · rw [k3]; split
      · exact (b2.ndK p).erase x
      · split
        · simp
        · exact b2.ndK b
  have hh3 : Held E X v w3 := by
    have hh : Held E X v w := ⟨fun z hz => b3'.pars z (by rintro ⟨a, ha, hk⟩; exact hoff z hz a ha hk), b3.stay, b3.none⟩
    refine hh.trans ⟨fun z hz => ?_, fun y hy hyd => ?_, fun y hy _ => ?_⟩
    · rw [p3, e2, if_neg (by rintro rfl; exact hXx hz)]
    · rw [c3]; exact (e1 y).2 ⟨hy, by rintro rfl; rw [hd] at hyd; cases hyd⟩
    · rw [c3] at hy; exact ((e1 y).1 hy).1
  have hgone3 : w3.has x = false := by
    rw [Bool.eq_false_iff, c3]; intro hc; exact ((e1 x).1 hc).2 rfl
  -- looking at the old parent
  obtain ⟨w4, u1, u2, u3⟩ : ∃ w4, E.update f p .up w3 = .ok w4 ∧ Stale E G P X (fun _ => False) w4 ∧ Held E X w3 w4 := by
    rcases (h.par x p (by rw [hp]; simp)).2 with e | ⟨hf, hpp⟩
    · rw [e]; exact ⟨w3, hupr w3, hfin, Held.refl⟩
    · have hrp := hE.gRank _ _ hpp
      obtain ⟨w4, t1, t2, t3, -⟩ := upParent hE ho ih hpp hM hfin
        (by
          intro z hz
          obtain ⟨g1, g2, g3⟩ := hX.ok z hz
          exact ⟨by omega, g2, hh3.stay z g3 g2⟩) (hX.below hr)
        (by
          intro hk
          have := (hfin.dn p (fun h => h) x hk).1
          rw [hgone3] at this; cases this)
      exact ⟨w4, t1, t2, t3⟩
  have hgone : ∀ w', Held E X w3 w' → w'.has x = false := by
    intro w' hw'
    rw [Bool.eq_false_iff]; intro hc
    have := hw'.none x hc hd
    rw [hgone3] at this; cases this
  obtain ⟨n, hn⟩ := View.get_of_has hwin
  have hnp : n.parents = [p] := by rw [← View.pars_of_get hn]; exact hwp
  have hpre : ∀ r : Res View, (if E.has x = true then
        Res.forEach (fun p v => if v.has p = false then E.update f p .up v else .ok v) (E.par x) w4 else .ok w4) = r →
      E.vanish (fun p v => E.update f p .up v) (fun c v => E.update f c .down v) x v = r := by
    intro r hr
    unfold VEnv.vanish
    rw [a1]
    dsimp only
    rw [b1, Res.andThen_ok, hn]
    dsimp only
    rw [← e0, hnp, forEach_one (s' := w4) (by rw [hdrop, Res.andThen_ok]; exact u1), Res.andThen_ok]
    exact hr
  have hh4 := hh3.trans u3
  by_cases hh : E.has x = true
  · obtain ⟨w5, t1, t2, t3, -⟩ := upList (x := x) hE ho ih (body := fun p v => if View.has v p = false then E.update f p .up v else Res.ok v)
      (by
        intro p w
        by_cases e : w.has p = false
        · left; rw [if_pos e]
        · right; rw [if_neg e]; exact ⟨rfl, by simpa using e⟩) hM (l := E.par x) (fun _ hp => hp) u2
      (by
        intro z hz
        obtain ⟨g1, g2, g3⟩ := hX.ok z hz
        exact ⟨by omega, g2, hh4.stay z g3 g2⟩) (hX.below hr) (Or.inr ⟨hd, hgone w4 u3⟩)
    exact ⟨w5, hpre _ (by rw [if_pos hh]; exact t1), t2, hh4.trans t3, hgone w5 (u3.trans t3)⟩
  · exact ⟨w4, hpre _ (by rw [if_neg hh]), u2, hh4, hgone w4 u3⟩

theorem upAt (hE : GOK E G rank M) (ho : OneParent E G) : ∀ f, UpAt E G rank M f := by
  intro f
  induction f with
  | zero => intro x P X v hM; omega
  | succ f ih =>
    intro x P X v hM h hX hoff
    unfold VEnv.update
    by_cases hr : x = E.root
    · rw [if_pos hr]
      exact ⟨v, rfl, h, Held.refl, fun e => absurd hr e⟩
    rw [if_neg hr]
    by_cases hd : E.disp x = true
    · rw [if_neg (by simp [hd]), if_pos hd]
      obtain ⟨v', a1, a2, a3, a4⟩ := settleUp hE ho ih hE ho ih (fun _ _ => ⟨fun _ h => h, fun h => h⟩) (by omega) hr hd h hX hX (dir := .up) (by simp)
      refine ⟨v', ?_, a2, a3, fun _ => by rw [a4, hd]⟩
      rw [a1, Res.andThen_ok, if_neg (by simp [a4])]; rfl
    · rw [Bool.not_eq_true] at hd
      by_cases hin : v.has x = true
      · rw [if_neg (by simp [hin]), if_neg (by simp [hd])]
        obtain ⟨v', a1, a2, a3, a4⟩ := vanishUp hE ho ih (by omega) hr hd hin h hX (hoff hd)
        exact ⟨v', a1, a2, a3, fun _ => by rw [a4, hd]⟩
      · rw [Bool.not_eq_true] at hin
        rw [if_pos ⟨hin, hd⟩]
        by_cases hh : E.has x = true
        · rw [if_pos hh]
          obtain ⟨v', t1, t2, t3, -⟩ := upList (x := x) hE ho ih (body := fun p v => E.update f p .up v) (fun _ _ => Or.inl rfl)
            (by omega) (l := E.par x) (fun _ hp => hp) h
            (by
              intro z hz
              obtain ⟨g1, g2, g3⟩ := hX.ok z hz
              exact ⟨by omega, g2, g3⟩) (hX.below hr) (Or.inr ⟨hd, hin⟩)
          refine ⟨v', t1, t2, t3, fun _ => ?_⟩
          rw [hd, Bool.eq_false_iff]; intro hc
          have := t3.none x hc hd
          rw [hin] at this; cases this
        · rw [if_neg hh]
          exact ⟨v, rfl, h, Held.refl, fun _ => by rw [hin, hd]⟩

/-- Once `x` was looked at, the view knows about it, and it no longer shows what `x` lost. -/
theorem update_under (hE : GOK E G rank M) (ho : OneParent E G) (hE' : GOK E G' rank M) (ho' : OneParent E G') (hG : G.Keeps G' x) {f : Nat} (hM : M + rank x + 3 ≤ f) (hr : x ≠ E.root)
    (h : Stale E G P (fun _ => False) (fun _ => False) v) :
    ∃ v', E.update f x .both v = .ok v' ∧ Stale E G' (fun z => P z ∧ z ≠ x) (fun _ => False) (fun _ => False) v' := by
  obtain ⟨f, rfl⟩ : ∃ g, f = g + 1 := ⟨f - 1, by omega⟩
  have hX' : Outside E G' rank (fun _ => False) x v := ⟨fun z hz => hz.elim, fun _ _ z hz => hz.elim⟩
  have hgone : ∀ w, Stale E G P (fun _ => False) (fun _ => False) w → w.has x = false → Stale E G' P (fun _ => False) (fun _ => False) w := by
    intro w hw hx
    refine hw.reroof hE' hG (fun p hp => ?_) (fun p hp => (hw.dn p (fun h => h) x hp).2) (fun h _ => ?_)
    · rw [View.pars_of_not_has hx] at hp; cases hp
    · rw [hx] at h; cases h
  have hX : Outside E G rank (fun _ => False) x v := ⟨fun z hz => hz.elim, fun _ _ z hz => hz.elim⟩
  have hless : ∀ w, Stale E G' P (fun _ => False) (fun _ => False) w → w.has x = E.disp x →
      (E.flat = false → E.disp x = true → ∀ y, E.disp y = true → x ∈ E.par y → x ∈ w.pars y) →
      Stale E G' (fun z => P z ∧ z ≠ x) (fun _ => False) (fun _ => False) w := by
    intro w hw hx hk
    refine { hw with shown := fun y hP hy => ?_, stuck := fun hf y hX hy hyd p hp hP hpd => ?_ }
    · by_cases e : y = x
      · rw [e]; exact hx
      · exact hw.shown y (fun hc => hP ⟨hc, e⟩) hy
    · by_cases e : p = x
      · rw [e] at hp hpd ⊢; exact hk hf hpd y hyd hp
      · exact hw.stuck hf y hX hy hyd p hp (fun hc => hP ⟨hc, e⟩) hpd
  unfold VEnv.update
  rw [if_neg hr]
  by_cases hd : E.disp x = true
  · rw [if_neg (by simp [hd]), if_pos hd]
    obtain ⟨v1, a1, a2, a3, a4⟩ := settleUp hE ho (upAt hE ho f) hE' ho' (upAt hE' ho' f) hG (by omega) hr hd h hX hX' (dir := .both) (by simp)
    rw [a1, Res.andThen_ok, if_neg (by simp [a4]), if_pos (show Dir.both.goesDown = true from rfl)]
    obtain ⟨v', b1, b2, b3, b4⟩ := kidsLoop hE' ho' (downAt hE' ho' f) (c := x) (by omega) a2 hr hd a4
      (a2.clear hE' fun z hz => hz.elim) (fun z hz => hz.elim) noneBelow_false
    refine ⟨v', b1, hless v' b2 (by rw [b3.has x (by simp), a4, hd]) fun hf _ y hyd hy => b4 y ?_⟩
    exact (mem_newKids hE.toEOK).2 ⟨hf, hy, hyd⟩
  · have hoff : E.flat = false → E.disp x = true → ∀ w : View, ∀ y, E.disp y = true → x ∈ E.par y → x ∈ w.pars y := fun _ h => absurd h hd
    rw [Bool.not_eq_true] at hd
    by_cases hin : v.has x = true
    · rw [if_neg (by simp [hin]), if_neg (by simp [hd])]
      obtain ⟨v', a1, a2, a3, a4⟩ := vanishUp hE ho (upAt hE ho f) (by omega) hr hd hin h hX (fun z hz => hz.elim)
      exact ⟨v', a1, hless v' (hgone v' a2 a4) (by rw [a4, hd]) fun hf h => hoff hf h v'⟩
    · rw [Bool.not_eq_true] at hin
      rw [if_pos ⟨hin, hd⟩]
      by_cases hh : E.has x = true
      · rw [if_pos hh]
        obtain ⟨v', t1, t2, t3, -⟩ := upList (x := x) hE ho (upAt hE ho f) (body := fun p v => E.update f p .up v) (fun _ _ => Or.inl rfl)
          (by omega) (l := E.par x) (fun _ hp => hp) h (fun z hz => hz.elim) (fun _ z hz => hz.elim) (Or.inr ⟨hd, hin⟩)
        have hxv : v'.has x = false := by
          rw [Bool.eq_false_iff]; intro hc
          have := t3.none x hc hd
          rw [hin] at this; cases this
        exact ⟨v', t1, hless v' (hgone v' t2 hxv) (by rw [hxv, hd]) fun hf h => hoff hf h v'⟩
      · rw [if_neg hh]
        exact ⟨v, rfl, hless v (hgone v h hin) (by rw [hin, hd]) fun hf h => hoff hf h v⟩

/-- Once `x` was looked at, the view knows about it. -/
theorem update_stale (hE : GOK E G rank M) (ho : OneParent E G) {f : Nat} (hM : M + rank x + 3 ≤ f) (hr : x ≠ E.root)
    (h : Stale E G P (fun _ => False) (fun _ => False) v) :
    ∃ v', E.update f x .both v = .ok v' ∧ Stale E G (fun z => P z ∧ z ≠ x) (fun _ => False) (fun _ => False) v' :=
  update_under hE ho hE ho (fun _ _ => ⟨fun _ h => h, fun h => h⟩) hM hr h

end Larch
