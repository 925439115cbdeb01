import Verif.Proofs.Below

/-!
# Forests in which the parents of displayed nodes are displayed: a node loses its children one by one

The node itself is told nothing meanwhile. It stays in the view, displayed or not, until its last displayed child has left.
-/

namespace Larch

open Spec Graph

variable {E : VEnv} {rank : Id → Nat} {M : Nat}

/-- A shown node without children goes. -/
theorem vanish_leaf (hE : EOK E rank M) {X : Id → Prop} {x : Id} {v : View} (hv : VInv (E.showing x) rank X v)
    (hX : ∀ y, rank y ≤ rank x → ¬ X y) (hvx : v.has x = true) (hxr : x ≠ E.root) (hk : v.kids x = []) (hp : ∀ y, x ∉ v.pars y)
    (h1 : (v.pars x).length ≤ 1) (hpx : E.par x = []) {f : Nat} (hf : rank x ≤ f) (dn : Id → View → Res View) :
    ∃ v' u, E.vanish (fun p v => E.update f p .up v) dn x v = .ok v' ∧ VInv E rank X v' ∧ Grow E u v' ∧ FrameGe rank (rank x) u v' ∧
      (∀ y, u.has y = true ↔ v.has y = true ∧ y ≠ x) ∧ (∀ y, y ≠ x → u.pars y = v.pars y) ∧
      ∀ y p, y ∈ u.kids p ↔ y ∈ v.kids p ∧ y ≠ x := by
  obtain ⟨ps, q1, q2, q3⟩ := paths_spec (hv.pathsOK (k := rank x) hX) (le_refl _) hvx
  obtain ⟨n, hn⟩ := View.get_of_has hvx
  have hnp : n.parents = v.pars x := (View.pars_of_get hn).symm
  have hleaf : ∀ y, ¬ v.edge x y := by
    intro y hy
    change y ∈ v.kids x at hy
    rw [hk] at hy; cases hy
  have hmx : ∀ p, x ∈ v.kids p ↔ p ∈ v.pars x := fun p => (hv.mirror x (hX x (le_refl _)) p).symm
  set w := ({ v with nodes := v.nodes.del x } : View).send .deleted x ps with hw
  have g2 : ∀ y, w.nodes.get? y = if y = x then none else v.nodes.get? y := fun y => Dict.get?_del _ _ _
  have c2 : ∀ y, w.has y = true ↔ v.has y = true ∧ y ≠ x := by
    intro y
    unfold View.has Dict.has
    rw [g2]
    by_cases h : y = x <;> simp [h]
  have p2 : ∀ y, w.pars y = if y = x then [] else v.pars y := by
    intro y
    unfold View.pars
    rw [g2]
    by_cases h : y = x <;> simp [h]
  have k2 : ∀ y, w.kids y = v.kids y := by
    intro y
    by_cases h : y = x
    · rw [h, hk]
      unfold View.kids
      rw [g2]; simp
    · unfold View.kids
      rw [g2]; simp [h]
  have hr2 : RowsSet w.out (RowE (fun p y => v.edge p y ∧ y ≠ x) E.root) (v.under E.root) := by
    have hd := hv.rows.deletedMany (x := x) ps (fun a ha => (rowE_of_path hxr ((q3 a).1 ha)).2) q2
      (fun a ha => (rowE_of_path hxr ((q3 a).1 ha)).1)
      (by
        rintro a ha r ⟨-, hr⟩ ⟨t, rfl⟩
        rw [chain_leaf hleaf hr ((q3 a).1 ha).2]; simp)
    refine (hd : RowsSet w.out _ _).congr fun l => ?_
    constructor
    · rintro ⟨⟨h1, h2⟩, h3⟩
      refine ⟨h1, chain_avoid l E.root ?_ h2⟩
      intro hxl
      apply h3
      obtain ⟨s, t, rfl⟩ := List.append_of_mem hxl
      have h2' : List.IsChain v.edge ((E.showing x).root :: ((s ++ [x]) ++ t)) := by simpa using h2
      have ht := chain_leaf hleaf h2' (getLast_snoc _ _ _)
      subst ht
      exact (q3 _).2 ⟨h2, getLast_snoc _ _ _⟩
    · rintro ⟨h1, h2⟩
      refine ⟨⟨h1, h2.imp (fun {a b} hab => hab.1)⟩, ?_⟩
      intro hl
      have hlast := ((q3 l).1 hl).2
      rcases List.eq_nil_or_concat l with rfl | ⟨l', z, rfl⟩
      · exact h1 rfl
      · rw [List.concat_eq_append] at h2 hlast
        rw [getLast_snoc] at hlast
        obtain ⟨p, -, -, hp⟩ := chain_snoc.1 h2
        exact hp.2 (by simpa using hlast)
  -- its parent forgets it
  obtain ⟨u, hkey, hku, cu, pu, ku, ndu, ou⟩ : ∃ u : View, ((v.pars x = [] ∧ u = w) ∨ ∃ q, v.pars x = [q] ∧ w.dropKid q x = .ok u) ∧
      u.nodes.keys = w.nodes.keys ∧ (∀ y, u.has y = w.has y) ∧ (∀ y, u.pars y = w.pars y) ∧
      (∀ y p, y ∈ u.kids p ↔ y ∈ v.kids p ∧ y ≠ x) ∧ (∀ p, (u.kids p).Nodup ∧ (u.kids p).Sublist (v.kids p)) ∧ u.out = w.out := by
    have nil : v.pars x = [] ∨ ∃ q, v.pars x = [q] := by
      match h : v.pars x with
      | [] => exact Or.inl rfl
      | [q] => exact Or.inr ⟨q, rfl⟩
      | p :: q :: l => rw [h] at h1; simp at h1
    rcases nil with h0 | ⟨q, hq⟩
    · refine ⟨w, Or.inl ⟨h0, rfl⟩, rfl, fun _ => rfl, fun _ => rfl, fun y p => ?_, fun p => by rw [k2]; exact ⟨hv.ndK p, List.Sublist.refl _⟩, rfl⟩
      rw [k2]
      refine ⟨fun h => ⟨h, ?_⟩, fun h => h.1⟩
      rintro rfl
      rw [hmx, h0] at h; cases h
    · have hqm : q ∈ v.pars x := by rw [hq]; simp
      have hqx : q ≠ x := by rintro rfl; exact hp q hqm
      have hqin : w.has q = true := (c2 q).2 ⟨(hv.par x q hqm).1, hqx⟩
      obtain ⟨m, hm⟩ := View.get_of_has hqin
      have hkm : m.children = v.kids q := by rw [← View.kids_of_get hm, k2]
      have k3 : ∀ y, (w.upd q fun n => { n with children := n.children.erase x }).kids y = if y = q then (v.kids q).erase x else v.kids y := by
        intro y
        have := View.kids_updKids w q (fun l => l.erase x) hqin y
        rw [k2, k2] at this; exact this
      refine ⟨w.upd q fun n => { n with children := n.children.erase x }, Or.inr ⟨q, hq, ?_⟩, View.keys_upd _ _ _, fun y => View.has_upd _ _ _ _,
        fun y => View.pars_updKids w q (fun l => l.erase x) y, ?_, ?_, rfl⟩
      · unfold View.dropKid; rw [hm]; dsimp only; rw [if_pos (by rw [hkm, hmx]; exact hqm)]
      · intro y p
        rw [k3]
        by_cases hpq : p = q
        · subst hpq; rw [if_pos rfl, (hv.ndK p).mem_erase_iff]; tauto
        · rw [if_neg hpq]
          refine ⟨fun h => ⟨h, ?_⟩, fun h => h.1⟩
          rintro rfl
          rw [hmx, hq] at h
          exact hpq (by simpa using h)
      · intro p
        rw [k3]; split
        · rename_i e; rw [e]; exact ⟨(hv.ndK q).erase x, List.erase_sublist⟩
        · exact ⟨hv.ndK p, List.Sublist.refl _⟩
  have hvu : VInv E rank X u := by
    refine ⟨?_, ?_, ?_, ?_, ?_, ?_, ?_, fun p => (ndu p).1, ?_, ?_⟩
    · rw [hku]
      show (v.nodes.del x).keys.Nodup
      rw [Dict.keys_del]
      exact hv.keys.filter _
    · rw [cu]; exact (c2 _).2 ⟨hv.rootIn, hxr.symm⟩
    · rw [pu, p2, if_neg hxr.symm]; exact hv.rootPars
    · intro y hy hyr
      rw [cu, c2] at hy
      have := hv.sub y hy.1 hyr
      unfold VEnv.showing at this
      dsimp only at this
      simpa [hy.2] using this
    · intro y p hyp
      rw [pu, p2] at hyp
      split at hyp
      · cases hyp
      · refine ⟨?_, (hv.par y p hyp).2⟩
        rw [cu, c2]; exact ⟨(hv.par y p hyp).1, by rintro rfl; exact hp y hyp⟩
    · intro p c hc
      rw [ku] at hc
      rw [cu, c2]
      exact ⟨⟨(hv.kid p c hc.1).1, hc.2⟩, (hv.kid p c hc.1).2⟩
    · intro y; rw [pu, p2]; split
      · simp
      · exact hv.ndP y
    · intro y hy p
      rw [pu, p2, ku]
      by_cases h : y = x
      · simp [h]
      · rw [if_neg h, hv.mirror y hy]; simp [h]
    · rw [ou]
      refine (hr2.fewerKids (v' := u) fun p => (ndu p).2).congr fun l => ?_
      unfold View.edge
      rw [show (fun p c => c ∈ u.kids p) = (fun p y => y ∈ v.kids p ∧ y ≠ x) from by
        funext a b; exact propext (ku b a)]
  have props : (∀ y, u.has y = true ↔ v.has y = true ∧ y ≠ x) ∧ (∀ y, y ≠ x → u.pars y = v.pars y) ∧
      ∀ y p, y ∈ u.kids p ↔ y ∈ v.kids p ∧ y ≠ x :=
    ⟨fun y => by rw [cu, c2], fun y hy => by rw [pu, p2, if_neg hy], ku⟩
  unfold VEnv.vanish
  have q1' : v.paths E.root x = .ok ps := q1
  rw [q1']
  dsimp only
  rw [hk, List.reverse_nil, Res.forEach, Res.andThen_ok, hn]
  dsimp only
  rw [← hw, hnp, hpx]
  rcases hkey with ⟨h0, hu⟩ | ⟨q, hq, hdrop⟩
  · refine ⟨u, u, ?_, hvu, Grow.refl _ _, FrameGe.refl _ _ _, props⟩
    rw [h0, Res.forEach, Res.andThen_ok, ← hu]
    split <;> rfl
  · have hqm : q ∈ v.pars x := by rw [hq]; simp
    have hqr := (hv.par x q hqm).2
    obtain ⟨v', a1, a2, a3, a4, -⟩ := update_up_ok hE f q u X (by omega) hvu (fun y hy => hX y (by omega))
    refine ⟨v', u, ?_, a2, a3, a4.ge hqr, props⟩
    rw [hq, Res.forEach, hdrop, Res.andThen_ok, a1]
    show (if E.has x = true then Res.forEach _ [] v' else .ok v') = _
    split <;> rfl

/-- `x` loses its children, and the view is right apart from `x`, which stays as long as one of its children is displayed. -/
structure Orph (E : VEnv) (x : Id) (v : View) : Prop where
  inv : ∃ r, Orders E v r ∧ VInv (E.showing x) r (fun _ => False) v
  all : ∀ y, y ≠ x → E.disp y = true → v.has y = true
  settled : ∀ y, y ≠ x → E.disp y = true → InPlace E v y
  kids : ∀ y, x ∈ E.par y → E.disp y = true → v.has x = true
  one : ∀ y, (v.pars y).length ≤ 1

theorem Fit.orph (F : ForestE E) (hB : EB E) {x : Id} {v : View} (h : Fit E (fun y => y = x) v)
    (h1 : ∀ y, (v.pars y).length ≤ 1) : Orph E x v :=
  ⟨near_inv h.inv, fun y _ hd => h.all y hd, fun y hyx hd => (F.settled_iff (hB.dispHas y hd) hd).1 (h.settled y hd hyx),
    fun y hp hd => h.all x (F.up y x hp hd), h1⟩

theorem Orph.near (F : ForestE E) (hB : EB E) {x : Id} {v : View} (h : Orph E x v) : Near E x v :=
  ⟨h.inv, h.all, fun y hd hyx => (F.settled_iff (hB.dispHas y hd) hd).2 (h.settled y hyx hd)⟩

/-- The child `c` of `x` becomes an orphan, and is told so. -/
theorem Orph.step {E' : VEnv} (F : ForestE E) (F' : ForestE E') (hB : EB E) (hB' : EB E') {x c : Id} {v : View} (h : Orph E x v)
    (hroot : E'.root = E.root) (hxr : x ≠ E.root) (hcx : c ≠ x) (hhx : E'.has x = true)
    (hdisp : ∀ y, y ≠ x → E'.disp y = E.disp y) (hpar : ∀ y, y ≠ c → E'.par y = E.par y) (hc : E.par c = [x]) (hc' : E'.par c = [])
    (hx : E.par x = []) (K : List Id) (hK : ∀ x, E'.par x ≠ [] → x ∈ K) {f : Nat}
    (hf : 2 * (K.length + v.nodes.entries.length) + 4 ≤ f) :
    ∃ v', E'.update f c .both v = .ok v' ∧ Orph E' x v' := by
  obtain ⟨r0, ho0, hv0⟩ := h.inv
  have hsubpar : ∀ y p, p ∈ E'.par y → p ∈ E.par y := by
    intro y p hp
    by_cases hy : y = c
    · subst hy; rw [hc'] at hp; cases hp
    · rw [hpar y hy] at hp; exact hp
  have ho : Orders E' v r0 := ⟨fun y p hp => ho0.1 y p (hsubpar y p hp), ho0.2⟩
  have hrp : v.pars E'.root = [] := by rw [hroot]; exact hv0.rootPars
  have hv1 : VInv (E'.showing x) r0 (fun _ => False) v := hv0.congrE hroot fun y hy hyr => by
    by_cases hyx : y = x
    · subst hyx; simp [VEnv.showing]
    · rw [VEnv.showing_ne hyx, hdisp y hyx, ← VEnv.showing_ne hyx]; exact hv0.sub y hy hyr
  have hxr' : x ≠ E'.root := by rw [hroot]; exact hxr
  have hx' : E'.par x = [] := by rw [hpar x hcx.symm]; exact hx
  have hxc : x ∈ E.par c := by rw [hc]; simp
  have hcr : c ≠ E'.root := by
    rintro rfl
    have := (hB.parHas _ _ hxc).2
    rw [hroot, hB.rootHas] at this; cases this
  have hplace : ∀ y, y ≠ x → y ≠ c → E'.disp y = true → InPlace E' v y := fun y hyx hyc hd =>
    (h.settled y hyx (by rw [← hdisp y hyx]; exact hd)).congr hroot (hpar y hyc)
  obtain ⟨f, rfl⟩ : ∃ g, f = g + 2 := ⟨f - 2, by omega⟩
  cases hdc : E'.disp c with
  | false =>
    -- the child is hidden
    have hvc : v.has c = false := by
      by_contra hn
      have := hv1.sub c (by simpa using hn) hcr
      rw [VEnv.showing_ne hcx, hdc] at this; cases this
    refine ⟨v, ?_, ⟨r0, ho, hv1⟩, ?_, ?_, ?_, h.one⟩
    · rw [VEnv.update, if_neg hcr, if_pos ⟨hvc, hdc⟩, hc']
      split <;> rfl
    · intro y hyx hd; exact h.all y hyx (by rw [← hdisp y hyx]; exact hd)
    · intro y hyx hd
      exact hplace y hyx (by rintro rfl; rw [hdc] at hd; cases hd) hd
    · intro y hp hd
      have hyx : y ≠ x := by rintro rfl; rw [hx'] at hp; cases hp
      exact h.kids y (hsubpar y x hp) (by rw [← hdisp y hyx]; exact hd)
  | true =>
    have hdc0 : E.disp c = true := by rw [← hdisp c hcx]; exact hdc
    have hvx : v.has x = true := h.kids c hxc hdc0
    have hvc : v.has c = true := h.all c hcx hdc0
    have hone' : ∀ {w w' : View} {g : Nat} {y : Id} {dir : Dir}, E'.update g y dir w = .ok w' → (∀ y, (w.pars y).length ≤ 1) →
        ∀ y, (w'.pars y).length ≤ 1 := fun h1 h2 => update_one hB'.diff F'.one h1 h2
    cases hdx : E'.disp x with
    | true =>
      -- the node stays
      have hfit : Fit E' (fun y => y = x ∨ y = c) v := by
        refine ⟨⟨r0, ho, hv1.congrE rfl fun y hy hyr => ?_⟩, fun y hd => ?_, fun y hd hn => ?_⟩
        · by_cases hyx : y = x
          · rw [hyx]; exact hdx
          · rw [← VEnv.showing_ne hyx]; exact hv1.sub y hy hyr
        · by_cases hyx : y = x
          · rw [hyx]; exact hvx
          · exact h.all y hyx (by rw [← hdisp y hyx]; exact hd)
        · rw [F'.settled_iff (hB'.dispHas y hd) hd]
          exact hplace y (fun e => hn (Or.inl e)) (fun e => hn (Or.inr e)) hd
      obtain ⟨v', a1, a2⟩ := hfit.update hB' K hK (f := f + 2) hf hcr
      exact ⟨v', a1, (a2.mono fun y hy => hy.1.resolve_right hy.2).orph F' hB' (hone' a1 h.one)⟩
    | false =>
      obtain ⟨rank, hE, hrk⟩ := hB'.rank hrp ho K hK
      have hv := hv1.rerank hrk
      have hpc : v.pars c = [x] := by
        refine eq_singleton_of (hv.ndP c) fun p => ?_
        rw [h.settled c hcx hdc0 p, hc]; simp
      have hrc : rank x < rank c := hrk c x (by rw [hpc]; simp)
      -- `c` is the only child shown below `x`
      have honly : ∀ y, x ∈ v.pars y → y = c := by
        intro y hy
        by_contra hyc
        have hyv := View.has_of_par hy
        have hyr : y ≠ E'.root := by rintro rfl; rw [hrp] at hy; cases hy
        have hyx : y ≠ x := by rintro rfl; exact absurd (hrk y y hy) (lt_irrefl _)
        have hd : E'.disp y = true := by rw [← VEnv.showing_ne hyx]; exact hv.sub y hyv hyr
        rcases (hplace y hyx hyc hd x).1 hy with e | e
        · have := F'.up y x e hd
          rw [hdx] at this; cases this
        · exact hxr' e.1
      have hkx : ∀ y, y ∈ v.kids x ↔ y = c := by
        intro y
        rw [← hv.mirror y (fun h => h) x]
        exact ⟨honly y, by rintro rfl; rw [hpc]; simp⟩
      -- the parents of `c` are rewritten
      set v3 := v.upd c fun n => { n with parents := [E'.root] } with hv3
      have p3 : ∀ y, v3.pars y = if y = c then [E'.root] else v.pars y := by
        intro y
        obtain ⟨n, hn⟩ := View.get_of_has hvc
        have := View.pars_updPars v c (fun _ => [E'.root]) hvc y
        rw [hn] at this
        exact this
      have k3 : ∀ y, v3.kids y = v.kids y := fun y => View.kids_updPars v c (fun _ => [E'.root]) y
      have c3 : ∀ y, v3.has y = v.has y := fun y => View.has_upd _ _ _ _
      have hv3i : VInv (E'.showing x) rank (fun y => y = c) v3 := by
        refine ⟨?_, by rw [c3]; exact hv.rootIn, ?_, fun y hy => hv.sub y (by rw [← c3]; exact hy), ?_, ?_, ?_, ?_, ?_, ?_⟩
        · rw [hv3, View.keys_upd]; exact hv.keys
        · rw [p3]
          have : (E'.showing x).root ≠ c := fun e => hcr e.symm
          rw [if_neg this]; exact hv.rootPars
        · intro y p hp
          rw [p3] at hp
          rw [c3]
          split at hp
          · rename_i e
            rw [List.mem_singleton] at hp
            subst hp; subst e
            exact ⟨hv.rootIn, by rw [hE.rootRank]; exact hE.posRank y hcr⟩
          · exact hv.par y p hp
        · intro p y hy
          rw [k3] at hy
          rw [c3]; exact hv.kid p y hy
        · intro y; rw [p3]; split
          · simp
          · exact hv.ndP y
        · intro y; rw [k3]; exact hv.ndK y
        · intro y hy p
          rw [p3, if_neg hy, k3]; exact hv.mirror y (fun h => h) p
        · refine (RowsSet.sameKids (v' := v3) (hv.rows : RowsSet v3.out _ _) k3).congr fun l => ?_
          show RowE (fun p c => c ∈ v.kids p) E'.root l ↔ RowE (fun p c => c ∈ v3.kids p) E'.root l
          rw [show v3.kids = v.kids from funext k3]
      have hXc : ∀ y, rank y < rank c → ¬ y = c := by rintro y hy rfl; omega
      have hE1 : EOK (E'.showing x) rank (K.length + v.nodes.entries.length + 1) :=
        ⟨hE.rootHas, fun y hy => by
          by_cases hyx : y = x
          · rw [hyx]; exact hhx
          · exact hE.dispHas y (by rw [← VEnv.showing_ne hyx]; exact hy), hE.parHas, hE.parNd, hE.parRank, hE.chi, hE.rootRank,
          hE.posRank, hE.bound, hE.diff⟩
      obtain ⟨v4, l1, l2, -, -, -, -, -⟩ := leave_ok hE1 (up := fun p v => (E'.showing x).update (rank c) p .up v) (hE1.upSpec (le_refl _))
        hXc rfl hv3i false (p := x) (by rw [k3, hkx])
      unfold VEnv.leave at l1
      change (v3.sendRemove E'.root c x).andThen _ = _ at l1
      cases hsr : v3.sendRemove E'.root c x with
      | err e w => rw [hsr] at l1; cases l1
      | ok w1 =>
      rw [hsr, Res.andThen_ok] at l1
      cases hdk : w1.dropKid x c with
      | err e w => rw [hdk] at l1; cases l1
      | ok w2 =>
      rw [hdk, Res.andThen_ok] at l1
      simp only [Bool.false_eq_true, if_false] at l1
      cases l1
      obtain ⟨sigs, rfl, -⟩ := sendRemove_uses hsr
      obtain ⟨hxw, hv4⟩ := dropKid_inv hdk
      have c4 : ∀ y, v4.has y = v.has y := fun y => by rw [hv4, View.has_upd]; exact c3 y
      have p4 : ∀ y, v4.pars y = v3.pars y := fun y => by
        rw [hv4]; exact View.pars_updKids { v3 with out := v3.out ++ sigs } x (fun l => l.erase c) y
      have k4 : ∀ y q, y ∈ v4.kids q ↔ y ∈ v.kids q ∧ ¬ (q = x ∧ y = c) := by
        intro y q
        have e : v4.kids q = if q = x then (v3.kids x).erase c else v3.kids q := by
          rw [hv4]; exact View.kids_updKids { v3 with out := v3.out ++ sigs } x (fun l => l.erase c) hxw q
        rw [e]
        split
        · rename_i hq; subst hq; rw [k3, (hv.ndK q).mem_erase_iff]; tauto
        · rename_i hq; rw [k3]; simp [hq]
      have k4x : v4.kids x = [] := by
        rw [List.eq_nil_iff_forall_not_mem]
        intro y hy
        rw [k4, hkx] at hy
        exact hy.2 ⟨rfl, hy.1⟩
      have hp4 : ∀ y, x ∉ v4.pars y := by
        intro y hy
        rw [p4, p3] at hy
        split at hy
        · exact hxr' (by simpa using hy)
        · rename_i hyc; exact hyc (honly y hy)
      have one4 : ∀ y, (v4.pars y).length ≤ 1 := by
        intro y
        rw [p4, p3]; split
        · simp
        · exact h.one y
      have hMf : rank c ≤ f + 1 := by have := hE.bound c; omega
      -- the node goes
      obtain ⟨v5, u, a1, a2, a3, a4, a5, a6, a7⟩ := vanish_leaf hE l2 (by rintro y hy rfl; omega) (by rw [c4]; exact hvx) hxr' k4x hp4 (one4 x) hx'
        (f := f) (by omega) (fun c v => E'.update f c .down v)
      have hup : E'.update (f + 1) x .up v4 = .ok v5 := by
        rw [VEnv.update, if_neg hxr', if_neg (by rw [c4, hvx]; simp), if_neg (by rw [hdx]; simp)]
        exact a1
      have hleave : E'.leave (fun p v => E'.update (f + 1) p .up v) true c x v3 = .ok v5 := by
        unfold VEnv.leave
        rw [hsr, Res.andThen_ok, hdk, Res.andThen_ok, if_pos rfl]
        exact hup
      have s5 : ∀ y, rank x ≤ rank y → y ≠ x → v5.pars y = v4.pars y ∧ v5.has y = v4.has y ∧ ∀ p, y ∈ v5.kids p ↔ y ∈ v4.kids p := by
        intro y hy hyx
        obtain ⟨b1, b2, b3⟩ := a4 y hy
        refine ⟨b1.trans (a6 y hyx), b2.trans ?_, fun p => (b3 p).trans ?_⟩
        · rw [Bool.eq_iff_iff, a5]; simp [hyx]
        · rw [a7]; simp [hyx]
      obtain ⟨t1, t2, t3⟩ := s5 c (by omega) hcx
      have hc5 : ∀ q, c ∉ v5.kids q := by
        intro q hq
        rw [t3, k4, ← hv.mirror c (fun h => h) q, hpc] at hq
        exact hq.2 ⟨by simpa using hq.1, rfl⟩
      -- the child joins the top
      have hrr : rank E'.root < rank c := by rw [hE.rootRank]; exact hE.posRank c hcr
      obtain ⟨v6, j1, j2, j3, j4, j5, j6, j7⟩ := join_ok hE (up := fun p v => E'.update (f + 1) p .up v) (hE.upSpec (k := rank c) hMf) hXc rfl a2 true
        (p := E'.root) a2.rootIn (by rw [t2, c4]; exact hvc) hrr (hc5 _)
      have hpc6 : v6.pars c = [E'.root] := by rw [j5, t1, p4, p3, if_pos rfl]
      have hv6 : VInv E' rank (fun _ => False) v6 := by
        refine { j2 with mirror := fun y _ p => ?_ }
        by_cases hyc : y = c
        · subst hyc
          rw [hpc6, j7]
          simp [hc5]
        · exact j2.mirror y hyc p
      have hvc6 : v6.has c = true := by rw [j6, t2, c4]; exact hvc
      obtain ⟨ps, q1, q2, q3⟩ := paths_spec (hv6.pathsOK (k := rank c) fun _ _ h => h) (y := c) (le_refl _) hvc6
      have hk7 : (v6.send .modified c ps).kids = v6.kids := View.kids_congr (View.send_nodes _ _ _ _)
      have hp7 : (v6.send .modified c ps).pars = v6.pars := View.pars_congr (View.send_nodes _ _ _ _)
      have hh7 : (v6.send .modified c ps).has = v6.has := View.has_congr (View.send_nodes _ _ _ _)
      have hv7 : VInv E' rank (fun _ => False) (v6.send .modified c ps) := by
        refine hv6.of_out (View.send_nodes _ _ _ _) ?_
        unfold View.edge
        rw [hk7]
        exact hv6.rows.modifiedMany ps (fun a ha => (rowE_of_path hcr ((q3 a).1 ha)).2) (fun a ha => (rowE_of_path hcr ((q3 a).1 ha)).1)
      have hsettle : E'.settle (fun p v => E'.update (f + 1) p .up v) c .both v = .ok (v6.send .modified c ps) := by
        obtain ⟨n, hn⟩ := View.get_of_has hvc
        have hnp : n.parents = [x] := by rw [← View.pars_of_get hn, hpc]
        have hnew : E'.newPars v c = [E'.root] := by
          unfold VEnv.newPars
          dsimp only
          rw [hc']; simp
        have hd1 : E'.diff [E'.root] [x] = [E'.root] := by
          obtain ⟨g1, g2⟩ := hE.diff [E'.root] [x]
          exact eq_singleton_of g1 fun p => by
            rw [g2]; simp only [List.mem_singleton]
            exact ⟨fun h => h.1, fun h => ⟨h, fun e => hxr' (e ▸ h)⟩⟩
        have hd2 : E'.diff [x] [E'.root] = [x] := by
          obtain ⟨g1, g2⟩ := hE.diff [x] [E'.root]
          exact eq_singleton_of g1 fun p => by
            rw [g2]; simp only [List.mem_singleton]
            exact ⟨fun h => h.1, fun h => ⟨h, fun e => hxr' (h ▸ e)⟩⟩
        have hd3 : E'.diff [E'.root] [E'.root] = [] := by
          obtain ⟨g1, g2⟩ := hE.diff [E'.root] [E'.root]
          rw [List.eq_nil_iff_forall_not_mem]
          intro p hp
          rw [g2] at hp; exact hp.2 hp.1
        have hrv : v.has E'.root = true := hv.rootIn
        unfold VEnv.settle
        simp only [hvc, Bool.not_true, Bool.false_eq_true, if_false, Res.andThen_ok, hn, hnp, hnew, hd1, hd2, hd3, List.filter_cons, hrv, if_true,
          List.filter_nil, reduceCtorEq, false_and, Dir.goesUp]
        rw [← hv3, Res.forEach, hleave, Res.andThen_ok]
        rw [Res.forEach, Res.andThen_ok, Res.forEach, j1, Res.andThen_ok]
        rw [Res.forEach, Res.andThen_ok, Res.forEach, Res.andThen_ok, q1]
      have hupd : E'.update (f + 2) c .both v = .ok (v6.send .modified c ps) := by
        rw [VEnv.update, if_neg hcr, if_neg (by rw [hdc]; simp), if_pos hdc, hsettle, Res.andThen_ok, hh7,
          if_neg (by rw [hvc6]; simp)]
        show Res.forEach _ _ _ = _
        refine forEach_skip fun y hy => ?_
        obtain ⟨-, m1, m2⟩ := (mem_newKids hE).1 hy
        have hyx : y ≠ x := by rintro rfl; rw [hx'] at m1; cases m1
        have hry : rank c < rank y := hE.parRank y c m1
        have hyc : y ≠ c := by rintro rfl; omega
        refine if_neg ?_
        rw [not_not, hk7]
        rw [(j4 y (by omega) hyc).2.2, (s5 y (by omega) hyx).2.2, k4, ← hv.mirror y (fun h => h) c]
        exact ⟨(hplace y hyx hyc m2 c).2 (Or.inl m1), fun e => hcx e.1⟩
      refine ⟨_, hupd, ⟨rank, ⟨hE.parRank, fun y p hp => (hv7.par y p hp).2⟩, hv7.congrE rfl fun y hy hr => VEnv.showing_of x (hv7.sub y hy hr)⟩,
        ?_, ?_, ?_, hone' hupd h.one⟩
      · intro y hyx hd
        rw [hh7]
        refine j3.has y (a3.has y ((a5 y).2 ⟨?_, hyx⟩))
        rw [c4]; exact h.all y hyx (by rw [← hdisp y hyx]; exact hd)
      · intro y hyx hd
        refine InPlace.of_pars (v := v6) ?_ (by rw [hp7])
        by_cases hyc : y = c
        · subst hyc
          intro p
          rw [hpc6, hc']; simp
        · have hin : InPlace E' u y := (hplace y hyx hyc hd).of_pars (by rw [a6 y hyx, p4, p3, if_neg hyc])
          refine hin.grow F' hE hd (fun p hp => ?_) (a3.trans j3)
          rw [a5, c4]
          refine ⟨(hv.par y p ((hplace y hyx hyc hd p).2 (Or.inl hp))).1, ?_⟩
          rintro rfl
          have := F'.up y p hp hd
          rw [hdx] at this; cases this
      · intro y hp hd
        have := F'.up y x hp hd
        rw [hdx] at this; cases this

end Larch
