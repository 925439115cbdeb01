import Verif.Proofs.DanglingUp
import Verif.Proofs.ViewEdits

/-!
# A leaf disappears from a view in which other nodes are misplaced
-/

namespace Larch

open Spec Graph

variable {E : VEnv} {rank : Id → Nat} {x : Id} {A : Id → Prop}

/-- A consistent view, seen through another one with the same contents. -/
theorem VInv.of_sans {u w : View} (hs : Sans x u w) (hno : ∀ q, x ∉ u.kids q) (h : VInv E rank (fun _ => False) w) :
    VInv E rank (fun _ => False) u := by
  have e1 : w.has = u.has := hs.hasEq
  have e2 : w.pars = u.pars := funext hs.pars
  have e3 : w.kids = u.kids := funext fun y => hs.kids_eq (hno y)
  refine ⟨hs.keys ▸ h.keys, e1 ▸ h.rootIn, e2 ▸ h.rootPars, e1 ▸ h.sub, by rw [← e1, ← e2]; exact h.par, by rw [← e1, ← e3]; exact h.kid,
    e2 ▸ h.ndP, e3 ▸ h.ndK, by rw [← e2, ← e3]; exact h.mirror, ?_⟩
  have hr := h.rows
  rw [hs.out] at hr
  have : u.edge = w.edge := by unfold View.edge; rw [e3]
  rw [this]
  exact RowsSet.sameKids (v' := u) hr fun y => congrFun e3.symm y

/-- The view just after the leaf `x` has gone, with and without the mentions of `x`. -/
theorem gone_start {v : View} (hv : VInv (E.showing x) rank (fun _ => False) v) (hx : v.has x = true)
    (hxr : x ≠ E.root) (hleaf : ∀ y, x ∉ v.pars y) :
    ∃ ps u w, v.paths E.root x = .ok ps ∧ u = ({ v with nodes := v.nodes.del x } : View).send .deleted x ps ∧ Sans x u w ∧
      VInv E rank (fun _ => False) w ∧ (∀ y, w.has y = true ↔ v.has y = true ∧ y ≠ x) ∧ (∀ y, y ≠ x → w.pars y = v.pars y) ∧
      ∀ q, x ∈ u.kids q ↔ q ∈ v.pars x := by
  have hroot : (E.showing x).root = E.root := rfl
  obtain ⟨ps, q1, q2, q3⟩ := paths_spec (hv.pathsOK (k := rank x) fun _ _ h => h) (le_refl _) hx
  have hleafK : ∀ y, ¬ v.edge x y := fun y hy => hleaf y ((hv.mirror y (fun h => h) x).2 hy)
  rw [hroot] at q1 q3
  set u := ({ v with nodes := v.nodes.del x } : View).send .deleted x ps with hu
  have g2 : ∀ y, u.nodes.get? y = if y = x then none else v.nodes.get? y := fun y => Dict.get?_del _ _ _
  have hux : u.has x = false := by
    unfold View.has Dict.has
    rw [g2, if_pos rfl]; rfl
  have hs := View.sans_sans hux
  have c2 : ∀ y, u.has y = true ↔ v.has y = true ∧ y ≠ x := by
    intro y
    unfold View.has Dict.has
    rw [g2]
    by_cases h : y = x <;> simp [h]
  have p2 : ∀ y, u.pars y = if y = x then [] else v.pars y := by
    intro y
    unfold View.pars
    rw [g2]
    by_cases h : y = x <;> simp [h]
  have k2 : ∀ y, u.kids y = if y = x then [] else v.kids y := by
    intro y
    unfold View.kids
    rw [g2]
    by_cases h : y = x <;> simp [h]
  have hkx : v.kids x = [] := List.eq_nil_iff_forall_not_mem.2 fun c hc => hleafK c hc
  have k2' : ∀ y, u.kids y = v.kids y := by
    intro y
    rw [k2]
    split
    · rename_i h; rw [h, hkx]
    · rfl
  refine ⟨ps, u, u.sans x, q1, rfl, hs, ?_, fun y => by rw [hs.has]; exact c2 y, fun y hy => by rw [hs.pars, p2, if_neg hy],
    fun q => by rw [k2']; exact (hv.mirror x (fun h => h) q).symm⟩
  have hedge : ∀ p y, (u.sans x).edge p y ↔ v.edge p y ∧ y ≠ x := by
    intro p y
    show y ∈ (u.sans x).kids p ↔ y ∈ v.kids p ∧ y ≠ x
    rw [hs.kids, List.mem_filter, k2']; simp
  have hsub : ∀ y, List.Sublist ((u.sans x).kids y) (v.kids y) := by
    intro y; rw [hs.kids, k2']; exact List.filter_sublist
  have hpars : ∀ y, (u.sans x).pars y = if y = x then [] else v.pars y := fun y => by rw [hs.pars, p2]
  have hhas : ∀ y, (u.sans x).has y = true ↔ v.has y = true ∧ y ≠ x := fun y => by rw [hs.has]; exact c2 y
  refine ⟨?_, (hhas _).2 ⟨hv.rootIn, hxr.symm⟩, by rw [hpars, if_neg hxr.symm]; exact hv.rootPars, ?_, ?_, ?_, ?_, ?_, ?_, ?_⟩
  · rw [hs.keys]
    show (v.nodes.del x).keys.Nodup
    rw [Dict.keys_del]
    exact hv.keys.filter _
  · intro y hy hyr
    obtain ⟨h1, h2⟩ := (hhas y).1 hy
    rw [← VEnv.showing_ne h2]; exact hv.sub y h1 hyr
  · intro y p hp
    rw [hpars] at hp
    split at hp
    · cases hp
    · exact ⟨(hhas p).2 ⟨(hv.par y p hp).1, by rintro rfl; exact hleaf y hp⟩, (hv.par y p hp).2⟩
  · intro p c hc
    obtain ⟨h1, h2⟩ := (hedge p c).1 hc
    exact ⟨(hhas c).2 ⟨(hv.kid p c h1).1, h2⟩, (hv.kid p c h1).2⟩
  · intro y; rw [hpars]; split
    · simp
    · exact hv.ndP y
  · intro y; exact (hv.ndK y).sublist (hsub y)
  · intro y _ p
    rw [hpars]
    have := hedge p y
    rw [show y ∈ (u.sans x).kids p ↔ y ∈ v.kids p ∧ y ≠ x from this]
    by_cases h : y = x
    · simp [h]
    · rw [if_neg h, hv.mirror y (fun h => h) p]; simp [h]
  · have hd := hv.rows.deletedMany (x := x) ps (fun a ha => (rowE_of_path hxr ((q3 a).1 ha)).2) q2
      (fun a ha => (rowE_of_path hxr ((q3 a).1 ha)).1)
      (by
        rintro a ha r ⟨-, hr⟩ ⟨t, rfl⟩
        rw [chain_leaf hleafK hr ((q3 a).1 ha).2]; simp)
    refine (RowsSet.fewerKids (v' := u.sans x) (hd : RowsSet (u.sans x).out _ _) hsub).congr fun l => ?_
    have he : (u.sans x).edge = fun p y => v.edge p y ∧ y ≠ x := by
      funext p y
      exact propext (hedge p y)
    rw [he, hroot]
    constructor
    · rintro ⟨⟨h1, h2⟩, h3⟩
      refine ⟨h1, chain_avoid l E.root ?_ h2⟩
      intro hxl
      apply h3
      obtain ⟨s, t, rfl⟩ := List.append_of_mem hxl
      have h2' : List.IsChain v.edge (E.root :: ((s ++ [x]) ++ t)) := by simpa using h2
      have ht := chain_leaf hleafK h2' (getLast_snoc _ _ _)
      subst ht
      exact (q3 _).2 ⟨h2, getLast_snoc _ _ _⟩
    · rintro ⟨h1, h2⟩
      refine ⟨⟨h1, h2.imp (fun {a b} hab => hab.1)⟩, ?_⟩
      intro hl
      have hlast := ((q3 l).1 hl).2
      rcases List.eq_nil_or_concat l with rfl | ⟨l', z, rfl⟩
      · exact h1 rfl
      · rw [List.concat_eq_append] at h2 hlast
        rw [getLast_snoc] at hlast
        obtain ⟨p, -, -, hp⟩ := chain_snoc.1 h2
        exact hp.2 (by simpa using hlast)

/-- `self.nodes[p]['children'].remove(x)` for the deleted node `x`. -/
theorem Sans.dropSelf {u w : View} (h : Sans x u w) {p : Id} (hp : x ∈ u.kids p) :
    ∃ u1, u.dropKid p x = .ok u1 ∧ Sans x u1 w ∧ ∀ q, u1.kids q = if q = p then (u.kids p).erase x else u.kids q := by
  have hph := View.has_of_kid hp
  obtain ⟨n, hn⟩ := View.get_of_has hph
  rw [View.kids_of_get hn] at hp
  have hk := View.kids_updKids u p (fun l => l.erase x) hph
  refine ⟨u.upd p fun n => { n with children := n.children.erase x }, ?_, ?_, hk⟩
  · unfold View.dropKid; rw [hn]; dsimp only; rw [if_pos hp]
  · refine ⟨by rw [View.keys_upd]; exact h.keys, fun y => ?_, h.out, by rw [View.has_upd]; exact h.gone⟩
    rw [h.get, View.get_upd]
    by_cases hy : y = p
    · rw [if_pos hy, hy, hn]
      simp only [Option.map_some, VNode.sans]
      rw [List.filter_erase_self]
    · rw [if_neg hy]
where
  List.filter_erase_self {l : List Id} : (l.erase x).filter (fun a => decide (a ≠ x)) = l.filter fun a => decide (a ≠ x) := by
    induction l with
    | nil => rfl
    | cons a l ih =>
      by_cases ha : a = x
      · subst ha; rw [List.erase_cons_head, List.filter_cons_of_neg (by simp)]
      · rw [List.erase_cons_tail (by simpa using ha), List.filter_cons_of_pos (by simpa using ha),
          List.filter_cons_of_pos (by simpa using ha), ih]

/-- The leaf `x` has left the tree and leaves the view. The nodes `D` may be misplaced, as long as at most one of the parents of
`x` has such a node above it. -/
theorem Fit.gone (hE : EB E) {D : Id → Prop} {v : View} {r : Id → Nat} (ho : Orders E v r) (hv : VInv (E.showing x) r (fun _ => False) v)
    (K : List Id) (hK : ∀ x, E.par x ≠ [] → x ∈ K) {f : Nat} (hf : 2 * (K.length + v.nodes.entries.length) + 4 ≤ f)
    (hx : v.has x = true) (hxr : x ≠ E.root) (hdx : E.disp x = false) (hhx : E.has x = false) (hleaf : ∀ y, x ∉ v.pars y)
    (hall : ∀ y, E.disp y = true → v.has y = true) (hset : ∀ y, E.disp y = true → ¬ D y → SettledAt E v y)
    (hA : ∀ y, A y → ∀ p ∈ upsOf E y, A p) (hAD : ∀ y, A y → ¬ D y)
    (hone : ∀ p ∈ v.pars x, ∀ q ∈ v.pars x, Aside E A p → Aside E A q → p = q) :
    ∃ v', E.update f x .both v = .ok v' ∧ Fit E D v' ∧ ∀ y p, p ∈ v'.pars y → p ∈ v.pars y ∨ p ∈ npAll E y := by
  have hr : v.pars E.root = [] := hv.rootPars
  obtain ⟨rank, e1, e2⟩ := hE.rank hr ho K hK
  obtain ⟨g, rfl⟩ : ∃ g, f = g + 1 := ⟨f - 1, by omega⟩
  have hvr := hv.rerank e2
  obtain ⟨ps, u, w, a1, a2, a3, a4, a5, a6, a7⟩ := gone_start hvr hx hxr hleaf
  obtain ⟨n, hn⟩ := View.get_of_has hx
  have hnp : n.parents = v.pars x := (View.pars_of_get hn).symm
  have hkx : v.kids x = [] := List.eq_nil_iff_forall_not_mem.2 fun c hc => hleaf c ((hvr.mirror c (fun h => h) x).2 hc)
  have hsw : Shown E w := by
    refine ⟨a4.rootIn, fun y hy => (a5 y).2 ⟨hall y hy, ?_⟩, a4.sub⟩
    rintro rfl; rw [hdx] at hy; cases hy
  have hset0 : ∀ y, E.disp y = true → ¬ D y → SettledAt E w y := by
    intro y hy hD p
    rw [a6 y (by rintro rfl; rw [hdx] at hy; cases hy)]
    exact hset y hy hD p
  have ht0 : Twin E x A u w := ⟨a3, hsw, fun y hy hd => hset0 y hd (hAD y hy)⟩
  -- the parents
  obtain ⟨u', h1, w', -, -, h2, h3, h4, h5⟩ := forEach_ok (body := fun p v => (View.dropKid v p x).andThen fun v => E.update g p .up v)
    (fun l u1 => ∃ w1, l.Nodup ∧ (∀ p ∈ l, p ∈ v.pars x) ∧ Twin E x A u1 w1 ∧ VInv E rank (fun _ => False) w1 ∧ Keep E w w1 ∧
      ∀ q, (u1.kids q).count x = if q ∈ l then 1 else 0)
    (by
      rintro p l u1 ⟨w1, i1, i2, i3, i4, i5, i6⟩
      rw [List.nodup_cons] at i1
      have hpx : x ∈ u1.kids p := by
        rw [← List.count_pos_iff, i6, if_pos (by simp)]; omega
      obtain ⟨u2, b1, b2, b3⟩ := i3.sans.dropSelf hpx
      have hc2 : ∀ q, (u2.kids q).count x = if q ∈ l then 1 else 0 := by
        intro q
        rw [b3]
        by_cases hq : q = p
        · subst hq
          rw [if_pos rfl, List.count_erase_self, i6, if_pos (by simp), if_neg i1.1]
        · rw [if_neg hq, i6]; simp [hq]
      have t2 : Twin E x A u2 w1 := ⟨b2, i3.shown, i3.set⟩
      obtain ⟨w2, c1, c2, -⟩ := update_up_ok e1 g p w1 (fun _ => False) (by have := e1.bound p; omega) i4 (fun _ _ h => h)
      have hfree : (A p ∨ p = E.root) ∨ Sans.Free x u2 (Aside E A) := by
        by_cases hAp : A p ∨ p = E.root
        · exact Or.inl hAp
        · refine Or.inr ?_
          have hpo : Aside E A p := ⟨fun h => hAp (Or.inl h), fun h => hAp (Or.inr h)⟩
          have hno : ∀ z, Aside E A z → x ∉ u2.kids z := by
            intro z hz hm
            rw [← List.count_pos_iff, hc2] at hm
            have hzl : z ∈ l := by
              by_contra hc
              rw [if_neg hc] at hm; omega
            have : p = z := hone p (i2 p (by simp)) z (i2 z (by simp [hzl])) hpo hz
            subst this
            exact i1.1 hzl
          refine ⟨hno, fun z hz c hc => ?_⟩
          have hcx : c ≠ x := by rintro rfl; exact hno z hz hc
          have hzp : z ∈ w1.pars c := (i4.mirror c (fun h => h) z).2 ((b2.mem_kids hcx z).2 hc)
          have hcr : c ≠ E.root := by rintro rfl; rw [i4.rootPars] at hzp; cases hzp
          refine ⟨fun hAc => ?_, hcr⟩
          have hdc := i4.sub c (View.has_of_par hzp) hcr
          rcases mem_npAll_up hdc ((i3.set c hAc hdc z).1 hzp) with h | h
          · exact hz.2 h
          · exact hz.1 (hA c hAc z h)
      obtain ⟨u3, d1, d2⟩ := update_along hE hA g p u2 w1 w2 t2 hfree c1
      refine ⟨u3, by rw [b1, Res.andThen_ok]; exact d1, w2, i1.2, fun q hq => i2 q (by simp [hq]), d2.twin, c2,
        i5.trans (update_hold hE g p .up w1 w2 i3.shown c1).1, fun q => by rw [d2.count, hc2]⟩)
    (v.pars x) u ⟨w, hvr.ndP x, fun _ h => h, ht0, a4, Keep.refl _, fun q => by
      have hle : (u.kids q).count x ≤ 1 := by
        have hs : u.kids q = v.kids q := by
          rw [a2]
          show View.kids ({ v with nodes := v.nodes.del x } : View) q = _
          unfold View.kids
          dsimp only
          rw [Dict.get?_del]
          by_cases h : q = x
          · rw [if_pos h, h]
            unfold View.kids at hkx
            rw [hkx]; rfl
          · rw [if_neg h]
        rw [hs]
        exact List.nodup_iff_count_le_one.1 (hvr.ndK q) x
      by_cases hq : q ∈ v.pars x
      · rw [if_pos hq]
        have := List.count_pos_iff.2 ((a7 q).2 hq)
        omega
      · rw [if_neg hq]
        exact List.count_eq_zero.2 fun h => hq ((a7 q).1 h)⟩
  have hno : ∀ q, x ∉ u'.kids q := by
    intro q hm
    rw [← List.count_pos_iff, h5] at hm
    simp at hm
  refine ⟨u', ?_, ⟨?_, ?_, ?_⟩, ?_⟩
  · unfold VEnv.update
    rw [if_neg hxr, if_neg (by simp [hx]), if_neg (by simp [hdx])]
    unfold VEnv.vanish
    rw [a1]
    dsimp only
    rw [hkx, List.reverse_nil, Res.forEach, Res.andThen_ok, hn]
    dsimp only
    rw [hnp, ← a2, h1, Res.andThen_ok, if_neg (by simp [hhx])]
  · have hi := VInv.of_sans h2.sans hno h3
    exact ⟨rank, ⟨e1.parRank, fun y p hp => (hi.par y p hp).2⟩, hi⟩
  · intro y hy
    rw [← h2.sans.has]; exact h2.shown.all y hy
  · intro y hy hD p
    rw [← h2.sans.pars]; exact h4.set y (hset0 y hy hD) p
  · intro y p hp
    rw [← h2.sans.pars] at hp
    refine (h4.par y p hp).imp (fun h => ?_) id
    by_cases hyx : y = x
    · subst hyx
      have := View.has_of_par h
      rw [(a5 y)] at this; exact absurd rfl this.2
    · rw [← a6 y hyx]; exact h

end Larch
