import Verif.Proofs.Minimal
import Verif.Proofs.ViewApp

/-!
# Rows that an edit does not concern

`X` are the nodes that may come and go, `S` the nodes whose parents may change.
-/

namespace Larch

open Graph Spec

/-! ### Elementary mutations -/

namespace View

theorem pars_insert {v : View} {x : Id} (hx : v.has x = false) (y : Id) :
    ({ v with nodes := v.nodes.set x {} } : View).pars y = v.pars y := by
  have hpx := pars_of_not_has hx
  unfold pars at hpx ⊢
  dsimp only
  rw [Dict.get?_set]
  by_cases h : y = x
  · rw [if_pos h, h, hpx]; rfl
  · rw [if_neg h]

theorem kids_insert {v : View} {x : Id} (hx : v.has x = false) (y : Id) :
    ({ v with nodes := v.nodes.set x {} } : View).kids y = v.kids y := by
  have hkx := kids_of_not_has hx
  unfold kids at hkx ⊢
  dsimp only
  rw [Dict.get?_set]
  by_cases h : y = x
  · rw [if_pos h, h, hkx]; rfl
  · rw [if_neg h]

theorem has_insert (v : View) (x y : Id) :
    ({ v with nodes := v.nodes.set x {} } : View).has y = (decide (y = x) || v.has y) := Dict.has_set _ _ _ _

theorem has_gone (v : View) (x y : Id) (o : List Sig) :
    ({ nodes := v.nodes.del x, out := o } : View).has y = (decide (y ≠ x) && v.has y) := Dict.has_del _ _ _

theorem pars_gone (v : View) (x y : Id) (o : List Sig) :
    ({ nodes := v.nodes.del x, out := o } : View).pars y = if y = x then [] else v.pars y := by
  unfold pars
  dsimp only
  rw [Dict.get?_del]
  by_cases h : y = x
  · rw [if_pos h, if_pos h]; rfl
  · rw [if_neg h, if_neg h]

theorem kids_gone (v : View) (x y : Id) (o : List Sig) :
    ({ nodes := v.nodes.del x, out := o } : View).kids y = if y = x then [] else v.kids y := by
  unfold kids
  dsimp only
  rw [Dict.get?_del]
  by_cases h : y = x
  · rw [if_pos h, if_pos h]; rfl
  · rw [if_neg h, if_neg h]

theorem kids_drop {v : View} {p x q c : Id} (h : c ∈ (v.upd p fun n => { n with children := n.children.erase x }).kids q) :
    c ∈ v.kids q := by
  unfold kids at h ⊢
  rw [get_upd] at h
  by_cases e : q = p
  · subst e
    rw [if_pos rfl] at h
    cases hn : v.nodes.get? q with
    | none => rw [hn] at h; exact h
    | some n => rw [hn] at h; exact List.mem_of_mem_erase h
  · rw [if_neg e] at h; exact h

end View

/-! ### The first invariant -/

/-- What the sets have to satisfy. -/
structure OffEnv (E : VEnv) (X S : Id → Prop) : Prop where
  rootX : ¬ X E.root
  sub : ∀ y, X y → S y
  kid : ∀ y p, E.flat = false → E.disp y = true → X p → p ∈ E.par y → S y
  parRoot : ∀ y, E.root ∉ E.par y

/-- Off these sets the view is right, and the signals since `o` concern rows that pass through `S`. -/
structure Off (E : VEnv) (X S : Id → Prop) (o : List Sig) (v : View) : Prop where
  rootIn : v.has E.root = true
  has : ∀ y, ¬ X y → y ≠ E.root → v.has y = E.disp y
  pars : ∀ y, ¬ S y → y ≠ E.root → v.has y = true → SettledAt E v y
  kids : ∀ p c, X p → c ∈ v.kids p → S c
  out : ∃ l, v.out = o ++ l ∧ ∀ s ∈ l, s.ev ≠ .modified → ∃ z ∈ s.path, S z

variable {E : VEnv} {X S : Id → Prop} {o : List Sig}

theorem Off.newPars (hE : OffEnv E X S) {v : View} (h : Off E X S o v) {y : Id} (hd : E.disp y = true) (hy : ¬ S y) : E.newPars v y = npAll E y := by
  rw [newPars_eq]
  cases hf : E.flat with
  | true => rw [npOf_flat hf]; unfold npAll; rw [npOf_flat hf]
  | false =>
    refine npOf_all y fun p hp hd' => ?_
    rw [h.has p (fun hx => hy (hE.kid y p hf hd hx hp)) (by rintro rfl; exact hE.parRoot y hp)]
    exact hd'

theorem Off.newParsHas (hE : OffEnv E X S) {v : View} (h : Off E X S o v) {y p : Id} (hd : E.disp y = true) (hy : ¬ S y) (hp : p ∈ npAll E y) :
    v.has p = true := by
  rcases mem_npOf hp with rfl | ⟨hf, h1, -, h2⟩
  · exact h.rootIn
  · rw [h.has p (fun hx => hy (hE.kid y p hf hd hx h1)) (by rintro rfl; exact hE.parRoot y h1)]
    exact h2

theorem Off.sends {v : View} (h : Off E X S o v) {sigs : List Sig} (hs : ∀ s ∈ sigs, s.ev ≠ .modified → ∃ z ∈ s.path, S z) :
    Off E X S o { v with out := v.out ++ sigs } := by
  obtain ⟨l, e, hl⟩ := h.out
  refine ⟨h.rootIn, h.has, h.pars, h.kids, l ++ sigs, ?_, ?_⟩
  · show v.out ++ sigs = _
    rw [e, List.append_assoc]
  · intro s hm
    rcases List.mem_append.1 hm with hm | hm
    · exact hl s hm
    · exact hs s hm

/-- A node's parents are replaced. -/
theorem Off.repar {v v' : View} (h : Off E X S o v) (x : Id) (hh : ∀ y, v'.has y = v.has y) (ho : v'.out = v.out) (hk : ∀ y, v'.kids y = v.kids y)
    (hp : ∀ y, y ≠ x → v'.pars y = v.pars y) (hx : ¬ S x → SettledAt E v' x) : Off E X S o v' := by
  refine ⟨by rw [hh]; exact h.rootIn, fun y h1 h2 => by rw [hh]; exact h.has y h1 h2, ?_, fun p c h1 h2 => h.kids p c h1 (by rw [hk] at h2; exact h2), by rw [ho]; exact h.out⟩
  intro y hy hr hv
  rw [hh] at hv
  by_cases e : y = x
  · subst e; exact hx hy
  · intro p; rw [hp y e]; exact h.pars y hy hr hv p

theorem off_closed (hE : OffEnv E X S) : Closed E True (Off E X S o) (fun _ x => S x) (fun _ x => S x) := by
  refine ⟨?_, ?_, ?_, ?_, ?_, ?_, ?_, ?_, ?_, ?_, ?_, ?_, ?_⟩
  · intro v x ps h
    exact h.sends fun s hs hm => by
      obtain ⟨p, -, rfl⟩ := List.mem_map.1 hs
      exact absurd rfl hm
  · intro v x h hx hd hr
    have hX : X x := by
      by_contra hX
      rw [h.has x hX hr, hd] at hx; cases hx
    refine ⟨?_, ?_, ?_, ?_, h.out⟩
    · rw [View.has_insert, h.rootIn]; simp
    · intro y hy hyr
      rw [View.has_insert, h.has y hy hyr]
      have : y ≠ x := by rintro rfl; exact hy hX
      simp [this]
    · intro y hy hyr hv p
      rw [View.has_insert] at hv
      have hyx : y ≠ x := by rintro rfl; exact hy (hE.sub y hX)
      rw [View.pars_insert hx]
      exact h.pars y hy hyr (by simpa [hyx] using hv) p
    · intro p c hp hc
      rw [View.kids_insert hx] at hc
      exact h.kids p c hp hc
  · intro v x h hx hd hr
    refine h.repar x (fun y => View.has_upd _ _ _ _) rfl (View.kids_updPars _ _ _) ?_ ?_
    · intro y hy
      rw [View.pars_updPars v x (fun _ => (E.newPars v x).filter v.has) hx, if_neg hy]
    · intro hS p
      rw [View.pars_updPars v x (fun _ => (E.newPars v x).filter v.has) hx, if_pos rfl]
      obtain ⟨n, hn⟩ := View.get_of_has hx
      rw [hn]
      simp only [Option.map_some, Option.getD_some]
      rw [h.newPars hE hd hS, List.mem_filter]
      exact ⟨fun hh => hh.1, fun hh => ⟨hh, h.newParsHas hE hd hS hh⟩⟩
  · intro v x p h hd hr hp hn
    by_contra hS
    rw [h.newPars hE hd hS] at hn
    exact hn ((h.pars x hS hr (View.has_of_par hp) p).1 hp)
  · intro v x p h hd hr hp hn
    by_contra hS
    rw [h.newPars hE hd hS] at hp
    exact hn ((h.pars x hS hr (by rw [h.has x (fun hX => hS (hE.sub x hX)) hr]; exact hd) p).2 hp)
  · intro v x c h hd hr hc
    refine h.kids x c ?_ hc
    by_contra hX
    have := View.has_of_kid hc
    rw [h.has x hX hr, hd] at this; cases this
  · intro v p x sigs h hS hs
    exact h.sends fun s hm _ => ⟨x, (hs s hm).2.mem, hS⟩
  · intro v x c sigs h hS hs
    exact h.sends fun s hm _ => ⟨c, (hs trivial s hm).2.mem, hS⟩
  · intro v p x sigs h hS hs
    exact h.sends fun s hm _ => ⟨x, (hs s hm).2.mem, hS⟩
  · intro v p x h
    refine ⟨by rw [View.has_upd]; exact h.rootIn, fun y h1 h2 => by rw [View.has_upd]; exact h.has y h1 h2, ?_, ?_, h.out⟩
    · intro y h1 h2 h3 q
      rw [View.pars_updKids v p (fun l => l.erase x)]
      rw [View.has_upd] at h3
      exact h.pars y h1 h2 h3 q
    · intro q c hq hc
      exact h.kids q c hq (View.kids_drop hc)
  · intro v p x h hS hp
    refine ⟨by rw [View.has_upd]; exact h.rootIn, fun y h1 h2 => by rw [View.has_upd]; exact h.has y h1 h2, ?_, ?_, h.out⟩
    · intro y h1 h2 h3 q
      rw [View.pars_updKids v p (fun l => l ++ [x])]
      rw [View.has_upd] at h3
      exact h.pars y h1 h2 h3 q
    · intro q c hq hc
      rw [View.kids_updKids v p (fun l => l ++ [x]) hp] at hc
      split at hc
      · rename_i e; subst e
        rcases List.mem_append.1 hc with hc | hc
        · exact h.kids _ c hq hc
        · rw [List.mem_singleton.1 hc]; exact hS
      · exact h.kids q c hq hc
  · intro v x c h hS hp hd hr
    refine h.repar c (fun y => View.has_upd _ _ _ _) rfl (View.kids_updPars v c (fun n => n.parents.erase x)) ?_ (fun hn => absurd hS hn)
    intro y hy
    rw [View.pars_updPars v c (fun n => n.parents.erase x) (View.has_of_par hp), if_neg hy]
  · intro v x sigs h hv hd hr hs
    have hX : X x := by
      by_contra hX
      rw [h.has x hX hr, hd] at hv; cases hv
    obtain ⟨l, e, hl⟩ := h.out
    refine ⟨?_, ?_, ?_, ?_, l ++ sigs, ?_, ?_⟩
    · rw [View.has_gone, h.rootIn]
      have : E.root ≠ x := fun e => hr e.symm
      simp [this]
    · intro y hy hyr
      have : y ≠ x := by rintro rfl; exact hy hX
      rw [View.has_gone, h.has y hy hyr]; simp [this]
    · intro y hy hyr hyv p
      have : y ≠ x := by rintro rfl; exact hy (hE.sub y hX)
      rw [View.has_gone] at hyv
      rw [View.pars_gone, if_neg this]
      exact h.pars y hy hyr (by simpa [this] using hyv) p
    · intro p c hp hc
      rw [View.kids_gone] at hc
      split at hc
      · cases hc
      · exact h.kids p c hp hc
    · show v.out ++ sigs = _
      rw [e, List.append_assoc]
    · intro s hm hne
      rcases List.mem_append.1 hm with hm | hm
      · exact hl s hm hne
      · obtain ⟨-, p, hu⟩ := hs s hm
        exact ⟨x, hu.mem, hE.sub x hX⟩

theorem Off.update (hE : OffEnv E X S) (hdiff : SetDiff E.diff) {f : Nat} {x : Id} {dir : Dir} {v v' : View} (h : Off E X S o v)
    (hu : E.update f x dir v = .ok v') : Off E X S o v' := update_closed hdiff (off_closed hE) hu h

/-- A view that is in order is in order off the sets. -/
theorem Fit.off (hE : OffEnv E X S) {v : View} (h : Fit E (fun _ => False) v) : Off E X S v.out v := by
  obtain ⟨r, ho, hv⟩ := h.inv
  refine ⟨hv.rootIn, ?_, ?_, ?_, [], by simp, by simp⟩
  · intro y _ hr
    cases hd : E.disp y with
    | true => exact h.all y hd
    | false =>
      by_contra hc
      have := hv.sub y (by simpa using hc) hr
      rw [hd] at this; cases this
  · intro y _ hr hy; exact h.settled y (hv.sub y hy hr) (fun h => h)
  · intro p c hp hc
    have hpc := (hv.mirror c (fun h => h) p).2 hc
    have hcr : c ≠ E.root := by rintro rfl; rw [hv.rootPars] at hpc; cases hpc
    have hd := hv.sub c (hv.kid p c hc).1 hcr
    rcases mem_npOf ((h.settled c hd (fun h => h) p).1 hpc) with e | ⟨hf, e, -, -⟩
    · rw [e] at hp; exact absurd hp hE.rootX
    · exact hE.kid c p hf hd hp e

/-! ### The second invariant -/

/-- The steps in `F` belong into the view. -/
structure HoldEnv (E : VEnv) (F : Id → Id → Prop) : Prop where
  child : ∀ p x, F p x → E.disp x = true ∧ x ≠ E.root
  parent : ∀ p x, F p x → p ∈ npAll E x
  parRoot : ∀ y, E.root ∉ E.par y

/-- The steps in `F` are in the view, and the signals since `o` are for rows with other steps. -/
structure Hold (E : VEnv) (F : Id → Id → Prop) (o : List Sig) (v : View) : Prop where
  rootIn : v.has E.root = true
  has : ∀ p x, F p x → v.has p = true
  pars : ∀ p x, F p x → p ∈ v.pars x
  out : ∃ l, v.out = o ++ l ∧ ∀ s ∈ l, s.ev ≠ .modified → ∃ p x, Uses E.root s.path p x ∧ ¬ F p x

variable {F : Id → Id → Prop}

theorem HoldEnv.ne (hE : HoldEnv E F) {p x : Id} (h : F p x) : p = E.root ∨ E.disp p = true := by
  rcases mem_npOf (hE.parent p x h) with e | e
  · exact Or.inl e
  · exact Or.inr e.2.2.2

theorem Hold.newPars (hE : HoldEnv E F) {v : View} (h : Hold E F o v) {p x : Id} (hf : F p x) : p ∈ E.newPars v x := by
  rw [newPars_eq]
  rcases mem_npAll.1 (hE.parent p x hf) with e | ⟨rfl, e⟩
  · have := mem_npCand.1 e
    exact mem_npOf_of this.1.1 this.1.2 this.2.1 (h.has p x hf) this.2.2.2
  · have : npCand E v.has x = [] := by
      rw [List.eq_nil_iff_forall_not_mem]
      intro q hq
      have hq := mem_npCand.1 hq
      have : q ∈ candAll E x := mem_npCand.2 ⟨hq.1, hq.2.1, rfl, hq.2.2.2⟩
      rw [e] at this; cases this
    unfold npOf; rw [if_pos this]; simp

theorem Hold.sends {v : View} (h : Hold E F o v) {sigs : List Sig}
    (hs : ∀ s ∈ sigs, s.ev ≠ .modified → ∃ p x, Uses E.root s.path p x ∧ ¬ F p x) : Hold E F o { v with out := v.out ++ sigs } := by
  obtain ⟨l, e, hl⟩ := h.out
  refine ⟨h.rootIn, h.has, h.pars, l ++ sigs, ?_, ?_⟩
  · show v.out ++ sigs = _
    rw [e, List.append_assoc]
  · intro s hm
    rcases List.mem_append.1 hm with hm | hm
    · exact hl s hm
    · exact hs s hm

theorem hold_closed (hE : HoldEnv E F) : Closed E True (Hold E F o) (fun p x => ¬ F p x) (fun p x => ¬ F p x) := by
  refine ⟨?_, ?_, ?_, ?_, ?_, ?_, ?_, ?_, ?_, ?_, ?_, ?_, ?_⟩
  · intro v x ps h
    exact h.sends fun s hs hm => by
      obtain ⟨p, -, rfl⟩ := List.mem_map.1 hs
      exact absurd rfl hm
  · intro v x h hx hd hr
    refine ⟨?_, ?_, ?_, h.out⟩
    · rw [View.has_insert, h.rootIn]; simp
    · intro p y hf; rw [View.has_insert, h.has p y hf]; simp
    · intro p y hf; rw [View.pars_insert hx]; exact h.pars p y hf
  · intro v x h hx hd hr
    refine ⟨by rw [View.has_upd]; exact h.rootIn, fun p y hf => by rw [View.has_upd]; exact h.has p y hf, ?_, h.out⟩
    intro p y hf
    rw [View.pars_updPars v x (fun _ => (E.newPars v x).filter v.has) hx]
    split
    · rename_i e
      subst e
      obtain ⟨n, hn⟩ := View.get_of_has hx
      rw [hn]
      simp only [Option.map_some, Option.getD_some]
      exact List.mem_filter.2 ⟨h.newPars hE hf, h.has p y hf⟩
    · exact h.pars p y hf
  · intro v x p h _ _ hp hn hf; exact hn (h.newPars hE hf)
  · intro v x p h _ _ hp hn hf; exact hn (h.pars p x hf)
  · intro v x c h hd hr hc hf
    rcases hE.ne hf with e | e
    · exact hr e
    · rw [hd] at e; cases e
  · intro v p x sigs h hD hs
    exact h.sends fun s hm _ => ⟨p, x, (hs s hm).2, hD⟩
  · intro v x c sigs h hD hs
    exact h.sends fun s hm _ => ⟨x, c, (hs trivial s hm).2, hD⟩
  · intro v p x sigs h hA hs
    exact h.sends fun s hm _ => ⟨p, x, (hs s hm).2, hA⟩
  · intro v p x h
    refine ⟨by rw [View.has_upd]; exact h.rootIn, fun q y hf => by rw [View.has_upd]; exact h.has q y hf, ?_, h.out⟩
    intro q y hf
    rw [View.pars_updKids v p (fun l => l.erase x)]
    exact h.pars q y hf
  · intro v p x h _ hp
    refine ⟨by rw [View.has_upd]; exact h.rootIn, fun q y hf => by rw [View.has_upd]; exact h.has q y hf, ?_, h.out⟩
    intro q y hf
    rw [View.pars_updKids v p (fun l => l ++ [x])]
    exact h.pars q y hf
  · intro v x c h hD hp _ _
    refine ⟨by rw [View.has_upd]; exact h.rootIn, fun q y hf => by rw [View.has_upd]; exact h.has q y hf, ?_, h.out⟩
    intro q y hf
    rw [View.pars_updPars v c (fun n => n.parents.erase x) (View.has_of_par hp)]
    split
    · rename_i e
      subst e
      obtain ⟨n, hn⟩ := View.get_of_has (View.has_of_par hp)
      have := h.pars q y hf
      unfold View.pars at this
      rw [hn] at this ⊢
      simp only [Option.map_some, Option.getD_some] at this ⊢
      exact (List.mem_erase_of_ne (by rintro rfl; exact hD hf)).2 this
    · exact h.pars q y hf
  · intro v x sigs h hv hd hr hs
    obtain ⟨l, e, hl⟩ := h.out
    have hnx : ∀ p y, F p y → p ≠ x ∧ y ≠ x := by
      intro p y hf
      refine ⟨?_, ?_⟩
      · rintro rfl
        rcases hE.ne hf with e | e
        · exact hr e
        · rw [hd] at e; cases e
      · rintro rfl
        have := (hE.child p y hf).1
        rw [hd] at this; cases this
    refine ⟨?_, ?_, ?_, l ++ sigs, ?_, ?_⟩
    · rw [View.has_gone, h.rootIn]
      have : E.root ≠ x := fun e => hr e.symm
      simp [this]
    · intro p y hf
      rw [View.has_gone, h.has p y hf]; simp [(hnx p y hf).1]
    · intro p y hf
      rw [View.pars_gone, if_neg (hnx p y hf).2]; exact h.pars p y hf
    · show v.out ++ sigs = _
      rw [e, List.append_assoc]
    · intro s hm hne
      rcases List.mem_append.1 hm with hm | hm
      · exact hl s hm hne
      · obtain ⟨-, p, hu⟩ := hs s hm
        exact ⟨p, x, hu, fun hf => (hnx p x hf).2 rfl⟩

theorem Hold.update (hE : HoldEnv E F) (hdiff : SetDiff E.diff) {f : Nat} {x : Id} {dir : Dir} {v v' : View} (h : Hold E F o v)
    (hu : E.update f x dir v = .ok v') : Hold E F o v' := update_closed hdiff (hold_closed hE) hu h

/-! ### From one environment to another -/

/-- `En` is between `E` and `E'`: where these agree, it agrees with them. -/
structure Mid (E E' En : VEnv) : Prop where
  root : En.root = E.root
  flat : En.flat = E.flat
  disp : ∀ y, E'.disp y = E.disp y → En.disp y = E.disp y
  par : ∀ y q, (q ∈ E'.par y ↔ q ∈ E.par y) → (q ∈ En.par y ↔ q ∈ E.par y)
  has : ∀ y q, q ∈ En.par y → En.has y = true
  parRoot : ∀ y, En.root ∉ En.par y

/-- What is known about the first and the last environment. -/
structure Pair (E E' : VEnv) : Prop where
  root : E'.root = E.root
  flat : E'.flat = E.flat
  has : ∀ y q, q ∈ E.par y → E.has y = true
  has' : ∀ y q, q ∈ E'.par y → E'.has y = true
  parRoot : ∀ y, E.root ∉ E.par y
  parRoot' : ∀ y, E.root ∉ E'.par y
  rootDisp : E.disp E.root = false
  rootDisp' : E'.disp E.root = false
  lost : ∀ y p, E'.disp p ≠ E.disp p → p ∈ E.par y → p ∉ E'.par y → E.disp p = true
  won : ∀ y p, E'.disp p ≠ E.disp p → p ∈ E'.par y → p ∉ E.par y → E'.disp p = true

/-- The node comes or goes. -/
def Flips (E E' : VEnv) (y : Id) : Prop := E'.disp y ≠ E.disp y

/-- The node comes, goes, or has other parents. -/
def Shifts (E E' : VEnv) (y : Id) : Prop := Flips E E' y ∨ E.disp y = true ∧ ∃ p, ¬ (p ∈ npAll E' y ↔ p ∈ npAll E y)

/-- A step of a row that is there before and after. -/
def Stands (E E' : VEnv) (p x : Id) : Prop := E.disp x = true ∧ E'.disp x = true ∧ p ∈ npAll E x ∧ p ∈ npAll E' x

theorem mem_candAll {E : VEnv} (hh : ∀ y q, q ∈ E.par y → E.has y = true) {y q : Id} :
    q ∈ candAll E y ↔ E.flat = false ∧ q ∈ E.par y ∧ E.disp q = true := by
  rw [mem_npCand]
  constructor
  · rintro ⟨⟨h1, -⟩, h2, -, h3⟩; exact ⟨h1, h2, h3⟩
  · rintro ⟨h1, h2, h3⟩; exact ⟨⟨h1, hh y q h2⟩, h2, rfl, h3⟩

variable {E' En : VEnv}

theorem Pair.cand (hP : Pair E E') {y q : Id} (hd : E.disp y = true) (hy : ¬ Shifts E E' y) : q ∈ candAll E' y ↔ q ∈ candAll E y := by
  have h : ∀ p, p ∈ npAll E' y ↔ p ∈ npAll E y := by
    intro p
    by_contra hc
    exact hy (Or.inr ⟨hd, p, hc⟩)
  have h1 := h q
  rw [mem_npAll, mem_npAll, hP.root] at h1
  have r : ∀ {p}, p ∈ candAll E y → p ≠ E.root := fun hq e => hP.parRoot y (e ▸ ((mem_candAll hP.has).1 hq).2.1)
  have r' : ∀ {p}, p ∈ candAll E' y → p ≠ E.root := fun hq e => hP.parRoot' y (e ▸ ((mem_candAll hP.has').1 hq).2.1)
  constructor
  · intro hq
    exact (h1.1 (Or.inl hq)).resolve_right fun e => r' hq e.1
  · intro hq
    exact (h1.2 (Or.inl hq)).resolve_right fun e => r hq e.1

theorem Mid.kid (hP : Pair E E') (hM : Mid E E' En) {y p : Id} (hf : En.flat = false) (hd : En.disp y = true) (hp : Flips E E' p) (hm : p ∈ En.par y) :
    Shifts E E' y := by
  by_contra hy
  have hne : E'.disp y = E.disp y := by
    by_contra hc; exact hy (Or.inl hc)
  have hdy : E.disp y = true := by rw [← hM.disp y hne]; exact hd
  have hfl : E.flat = false := by rw [← hM.flat]; exact hf
  have hfl' : E'.flat = false := by rw [hP.flat]; exact hfl
  have hc := hP.cand (q := p) hdy hy
  rw [mem_candAll hP.has', mem_candAll hP.has, hfl, hfl'] at hc
  by_cases he : p ∈ E'.par y ↔ p ∈ E.par y
  · have h1 := (hM.par y p he).1 hm
    have h2 := he.2 h1
    apply hp
    rw [Bool.eq_iff_iff]
    constructor
    · intro h3; exact (hc.1 ⟨rfl, h2, h3⟩).2.2
    · intro h3; exact (hc.2 ⟨rfl, h1, h3⟩).2.2
  · by_cases h1 : p ∈ E.par y
    · have h2 : p ∉ E'.par y := fun h2 => he ⟨fun _ => h1, fun _ => h2⟩
      exact h2 (hc.2 ⟨rfl, h1, hP.lost y p hp h1 h2⟩).2.1
    · have h2 : p ∈ E'.par y := by
        by_contra h2; exact he ⟨fun h => absurd h h2, fun h => absurd h h1⟩
      exact h1 (hc.1 ⟨rfl, h2, hP.won y p hp h2 h1⟩).2.1

theorem Mid.off (hP : Pair E E') (hM : Mid E E' En) : OffEnv En (Flips E E') (Shifts E E') := by
  refine ⟨?_, fun y h => Or.inl h, fun y p hf hd hp hm => hM.kid hP hf hd hp hm, hM.parRoot⟩
  rw [hM.root]
  intro h
  exact h (by rw [hP.rootDisp, hP.rootDisp'])

theorem Mid.cand (hP : Pair E E') (hM : Mid E E' En) {y q : Id} (hd : E.disp y = true) (hy : ¬ Shifts E E' y) :
    q ∈ candAll En y ↔ q ∈ candAll E y := by
  have hc := hP.cand (q := q) hd hy
  have hne : E'.disp y = E.disp y := by
    by_contra hc; exact hy (Or.inl hc)
  have hdn : En.disp y = true := by rw [hM.disp y hne]; exact hd
  rw [mem_candAll hP.has', mem_candAll hP.has, hP.flat] at hc
  rw [mem_candAll hM.has, mem_candAll hP.has, hM.flat]
  by_cases hf : E.flat = false
  · by_cases hX : Flips E E' q
    · constructor
      · rintro ⟨-, h2, -⟩
        exact absurd (hM.kid hP (by rw [hM.flat]; exact hf) hdn hX h2) hy
      · rintro ⟨-, h2, h3⟩
        have := (hc.2 ⟨hf, h2, h3⟩).2.2
        exact absurd (by rw [this, h3]) hX
    · have hX : E'.disp q = E.disp q := not_not.1 hX
      rw [hM.disp q hX]
      rw [hX] at hc
      by_cases hq : E.disp q = true
      · have he : q ∈ E'.par y ↔ q ∈ E.par y := ⟨fun h => (hc.1 ⟨hf, h, hq⟩).2.1, fun h => (hc.2 ⟨hf, h, hq⟩).2.1⟩
        rw [hM.par y q he]
      · simp [hq]
  · simp [hf]

theorem Mid.npAll (hP : Pair E E') (hM : Mid E E' En) {y : Id} (hd : E.disp y = true) (hy : ¬ Shifts E E' y) (p : Id) :
    p ∈ npAll En y ↔ p ∈ npAll E y := by
  have hn : candAll En y = [] ↔ candAll E y = [] := by
    rw [List.eq_nil_iff_forall_not_mem, List.eq_nil_iff_forall_not_mem]
    exact forall_congr' fun q => not_congr (hM.cand hP hd hy)
  rw [mem_npAll, mem_npAll, hM.cand hP hd hy, hn, hM.root]

theorem Mid.to (hP : Pair E E') (hM : Mid E E' En) {v : View} (h : Off E (Flips E E') (Shifts E E') o v) :
    Off En (Flips E E') (Shifts E E') o v := by
  refine ⟨by rw [hM.root]; exact h.rootIn, fun y h1 h2 => by rw [hM.disp y (not_not.1 h1)]; exact h.has y h1 (by rw [← hM.root]; exact h2), ?_, h.kids, h.out⟩
  intro y h1 h2 h3 p
  rw [hM.root] at h2
  have hd : E.disp y = true := by rw [← h.has y (fun hX => h1 (Or.inl hX)) h2]; exact h3
  rw [h.pars y h1 h2 h3 p, hM.npAll hP hd h1]

theorem Mid.from (hP : Pair E E') (hM : Mid E E' En) {v : View} (h : Off En (Flips E E') (Shifts E E') o v) :
    Off E (Flips E E') (Shifts E E') o v := by
  have hh : ∀ y, ¬ Flips E E' y → y ≠ E.root → v.has y = E.disp y := fun y h1 h2 => by
    rw [← hM.disp y (not_not.1 h1)]; exact h.has y h1 (by rw [hM.root]; exact h2)
  refine ⟨by rw [← hM.root]; exact h.rootIn, hh, ?_, h.kids, h.out⟩
  intro y h1 h2 h3 p
  have hd : E.disp y = true := by rw [← hh y (fun hX => h1 (Or.inl hX)) h2]; exact h3
  rw [h.pars y h1 (by rw [hM.root]; exact h2) h3 p, hM.npAll hP hd h1]

theorem Mid.hold (hP : Pair E E') (hM : Mid E E' En) : HoldEnv En (Stands E E') := by
  have hdq : ∀ q, E.disp q = true → E'.disp q = true → En.disp q = true := fun q h1 h2 => by rw [hM.disp q (by rw [h1, h2])]; exact h1
  refine ⟨fun p x h => ⟨hdq x h.1 h.2.1, ?_⟩, fun p x h => ?_, hM.parRoot⟩
  · rintro rfl
    have := h.1
    rw [hM.root, hP.rootDisp] at this; cases this
  · obtain ⟨-, -, h1, h2⟩ := h
    rw [mem_npAll] at h1 h2 ⊢
    rw [hP.root] at h2
    rw [hM.root]
    rcases h1 with h1 | ⟨rfl, h1⟩
    · left
      have c1 := (mem_candAll hP.has).1 h1
      rcases h2 with h2 | ⟨rfl, -⟩
      · have c2 := (mem_candAll hP.has').1 h2
        exact (mem_candAll hM.has).2 ⟨by rw [hM.flat]; exact c1.1, (hM.par x p ⟨fun _ => c1.2.1, fun _ => c2.2.1⟩).2 c1.2.1,
          hdq p c1.2.2 c2.2.2⟩
      · exact absurd c1.2.1 (hP.parRoot x)
    · rcases h2 with h2 | ⟨-, h2⟩
      · exact absurd ((mem_candAll hP.has').1 h2).2.1 (hP.parRoot' x)
      · right
        refine ⟨rfl, List.eq_nil_iff_forall_not_mem.2 fun q hq => ?_⟩
        obtain ⟨c1, c2, c3⟩ := (mem_candAll hM.has).1 hq
        rw [hM.flat] at c1
        have n1 : ¬ (q ∈ E.par x ∧ E.disp q = true) := fun hc => by
          have := (mem_candAll hP.has).2 ⟨c1, hc.1, hc.2⟩
          rw [h1] at this; cases this
        have n2 : ¬ (q ∈ E'.par x ∧ E'.disp q = true) := fun hc => by
          have := (mem_candAll hP.has').2 ⟨by rw [hP.flat]; exact c1, hc.1, hc.2⟩
          rw [h2] at this; cases this
        by_cases he : q ∈ E'.par x ↔ q ∈ E.par x
        · have m1 := (hM.par x q he).1 c2
          have m2 := he.2 m1
          have d1 : E.disp q = false := by
            cases hc : E.disp q with
            | false => rfl
            | true => exact absurd ⟨m1, hc⟩ n1
          have d2 : E'.disp q = false := by
            cases hc : E'.disp q with
            | false => rfl
            | true => exact absurd ⟨m2, hc⟩ n2
          rw [hM.disp q (by rw [d1, d2]), d1] at c3; cases c3
        · by_cases hX : E'.disp q = E.disp q
          · rw [hM.disp q hX] at c3
            by_cases m1 : q ∈ E.par x
            · exact n1 ⟨m1, c3⟩
            · exact n2 ⟨by by_contra m2; exact he ⟨fun h => absurd h m2, fun h => absurd h m1⟩, by rw [hX]; exact c3⟩
          · by_cases m1 : q ∈ E.par x
            · exact n1 ⟨m1, hP.lost x q hX m1 fun m2 => he ⟨fun _ => m1, fun _ => m2⟩⟩
            · have m2 : q ∈ E'.par x := by by_contra m2; exact he ⟨fun h => absurd h m2, fun h => absurd h m1⟩
              exact n2 ⟨m2, hP.won x q hX m2 m1⟩

theorem Fit.hold (hP : Pair E E') {v : View} (h : Fit E (fun _ => False) v) : Hold E (Stands E E') v.out v := by
  obtain ⟨r, ho, hv⟩ := h.inv
  have hp : ∀ p x, Stands E E' p x → p ∈ v.pars x := fun p x hs => (h.settled x hs.1 (fun h => h) p).2 hs.2.2.1
  exact ⟨hv.rootIn, fun p x hs => (hv.par x p (hp p x hs)).1, hp, [], by simp, by simp⟩

theorem Hold.root {v : View} (h : Hold E F o v) (hr : En.root = E.root) : Hold En F o v :=
  ⟨by rw [hr]; exact h.rootIn, h.has, h.pars, by rw [hr]; exact h.out⟩

/-! ### The trees an edit goes through -/

variable {V D : Type} {diff : List Id → List Id → List Id} {b : Bank (Id → V)} {d : Id → V} {t : Tree}

/-- Both invariants together. -/
def Undisturbed (E E' : VEnv) (o : List Sig) (v : View) : Prop := Off E (Flips E E') (Shifts E E') o v ∧ Hold E (Stands E E') o v

theorem Undisturbed.update (hP : Pair E E') (hM : Mid E E' En) (hdiff : SetDiff En.diff) {v v' : View} (h : Undisturbed E E' o v) {f : Nat} {x : Id} {dir : Dir}
    (hu : En.update f x dir v = .ok v') : Undisturbed E E' o v' :=
  ⟨hM.from hP ((hM.to hP h.1).update (hM.off hP) hdiff hu), ((h.2.root hM.root).update (hM.hold hP) hdiff hu).root hM.root.symm⟩

/-- All notifications of an edit. -/
theorem notes_undisturbed (hdiff : SetDiff diff) (hP : Pair E E') : ∀ (l : List Note) (ft ft' : FT),
    (∀ n ∈ l, ∀ v, Mid E E' (FT.env diff b n.snap d { ft with view := v })) → Res.forEach (FT.react diff b d) l ft = .ok ft' →
    Undisturbed E E' o ft.view → Undisturbed E E' o ft'.view := by
  intro l
  induction l with
  | nil => intro ft ft' _ h hi; cases h; exact hi
  | cons n l ih =>
    intro ft ft' hl h hi
    unfold Res.forEach FT.react at h
    cases hu : (FT.env diff b n.snap d ft).update (FT.depth n.snap ft.view) n.nid .both ft.view with
    | err e v => rw [hu] at h; cases h
    | ok v =>
      rw [hu] at h
      have h1 := hi.update hP (hl n (by simp) ft.view) (show SetDiff (FT.env diff b n.snap d ft).diff from hdiff) hu
      exact ih { ft with view := v } ft' (fun m hm w => hl m (by simp [hm]) w) h h1

/-- `n` lies between `t` and `t'`: where these agree, it agrees with them. -/
structure Between (t t' n : Tree) : Prop where
  has : ∀ y, t'.has y = t.has y → n.has y = t.has y
  par : ∀ y q, (q ∈ t'.getParents y ↔ q ∈ t.getParents y) → (q ∈ n.getParents y ↔ q ∈ t.getParents y)

theorem Between.left (t t' : Tree) : Between t t' t := ⟨fun _ _ => rfl, fun _ _ _ => Iff.rfl⟩

theorem Between.right (t t' : Tree) : Between t t' t' := ⟨fun _ h => h, fun _ _ h => h⟩

theorem has_of_getParents {t : Tree} {x p : Id} (h : p ∈ t.getParents x) : t.has x = true := by
  unfold Tree.getParents at h
  cases hn : t.node? x with
  | none => rw [hn] at h; cases h
  | some nd => exact has_of_some hn

theorem accepts_falsy {b : Bank D} {t : Tree} {d : D} {ap : List FName} {x : Id} (h : t.has x = false) : FT.accepts b t d ap x = false := by
  unfold FT.accepts; rw [h]; simp

theorem env_pair {t t' : Tree} {ft ft' : FT} (hb : OwnOn b ft.applied) (hr : ft'.root = ft.root) (hap : ft'.applied = ft.applied) (hfl : ft'.flat = ft.flat)
    (h : t.has ft.root = false) (h' : t'.has ft.root = false) : Pair (FT.env diff b t d ft) (FT.env diff b t' d ft') := by
  have hX : ∀ p, FT.accepts b t' d ft'.applied p ≠ FT.accepts b t d ft.applied p → t'.has p ≠ t.has p := by
    intro p hp e
    rw [hap] at hp
    exact hp (accepts_own hb e rfl)
  refine ⟨hr, hfl, fun y q => has_of_getParents, fun y q => has_of_getParents, ?_, ?_, accepts_falsy h, accepts_falsy h', ?_, ?_⟩
  · intro y hp
    have := mem_getParents_has hp
    change t.has ft.root = true at this
    rw [h] at this; cases this
  · intro y hp
    have := mem_getParents_has hp
    change t'.has ft.root = true at this
    rw [h'] at this; cases this
  · intro y p hp h1 h2
    have e := hX p hp
    have h3 := mem_getParents_has h1
    have h4 : t'.has p = false := by rw [h3] at e; simpa using e
    have h5 : (FT.env diff b t' d ft').disp p = false := accepts_falsy h4
    rw [h5] at hp
    simpa using hp
  · intro y p hp h1 h2
    have e := hX p hp
    have h3 := mem_getParents_has h1
    have h4 : t.has p = false := by rw [h3] at e; simpa using e.symm
    have h5 : (FT.env diff b t d ft).disp p = false := accepts_falsy h4
    rw [h5] at hp
    simpa using hp

theorem env_mid {t t' n : Tree} {ft ft' fn : FT} (hb : OwnOn b ft.applied) (hr : fn.root = ft.root) (hap' : ft'.applied = ft.applied) (hap : fn.applied = ft.applied)
    (hfl : fn.flat = ft.flat) (h : t.has ft.root = false) (h' : t'.has ft.root = false) (hn : Between t t' n) :
    Mid (FT.env diff b t d ft) (FT.env diff b t' d ft') (FT.env diff b n d fn) := by
  have hroot : n.has ft.root = false := by rw [hn.has ft.root (by rw [h, h'])]; exact h
  refine ⟨hr, hfl, ?_, hn.par, fun y q => has_of_getParents, ?_⟩
  · intro y e
    change FT.accepts b n d fn.applied y = FT.accepts b t d ft.applied y
    change FT.accepts b t' d ft'.applied y = FT.accepts b t d ft.applied y at e
    rw [hap]
    rw [hap'] at e
    by_cases hh : t'.has y = t.has y
    · exact accepts_own hb (hn.has y hh) rfl
    · cases h1 : t.has y with
      | true =>
        have h2 : t'.has y = false := by rw [h1] at hh; simpa using hh
        rw [accepts_falsy h2] at e
        rw [← e]
        cases h3 : n.has y with
        | false => exact accepts_falsy h3
        | true => rw [accepts_own hb (h3.trans h1.symm) rfl, ← e]
      | false =>
        rw [accepts_falsy h1]
        rw [accepts_falsy h1] at e
        have h2 : t'.has y = true := by rw [h1] at hh; simpa using hh
        cases h3 : n.has y with
        | false => exact accepts_falsy h3
        | true => rw [accepts_own hb (h3.trans h2.symm) rfl, e]
  · intro y hp
    have := mem_getParents_has hp
    change n.has fn.root = true at this
    rw [hr, hroot] at this; cases this

/-! ### Edits of relations -/

/-- From `t` to `t'` only relations in `L` are made and only relations in `M` broken. -/
def Mono (L M : Id → Id → Prop) (t t' : Tree) : Prop :=
  ∀ q y, (¬ L q y → q ∈ t'.getParents y → q ∈ t.getParents y) ∧ (¬ M q y → q ∈ t.getParents y → q ∈ t'.getParents y)

variable {L M : Id → Id → Prop}

theorem Mono.refl (t : Tree) : Mono L M t t := fun _ _ => ⟨fun _ h => h, fun _ h => h⟩

theorem Mono.trans {t1 t2 t3 : Tree} (h : Mono L M t1 t2) (h' : Mono L M t2 t3) : Mono L M t1 t3 :=
  fun q y => ⟨fun hl hq => (h q y).1 hl ((h' q y).1 hl hq), fun hm hq => (h' q y).2 hm ((h q y).2 hm hq)⟩

theorem Mono.between (hd : ∀ q y, L q y → ¬ M q y) {t t' n : Tree} (h : Mono L M t n) (h' : Mono L M n t') (hh : ∀ y, n.has y = t.has y) :
    Between t t' n := by
  refine ⟨fun y _ => hh y, fun y q he => ?_⟩
  by_cases hl : L q y
  · have hm := hd q y hl
    exact ⟨fun hq => he.1 ((h' q y).2 hm hq), (h q y).2 hm⟩
  · exact ⟨(h q y).1 hl, fun hq => (h' q y).1 hl (he.2 hq)⟩

/-- Every notification since `s0` was sent in a tree on the way. -/
def Steady (L M : Id → Id → Prop) (s0 s : St) : Prop :=
  (∀ y, s.t.has y = s0.t.has y) ∧ Mono L M s0.t s.t ∧
  ∃ l, s.log = s0.log ++ l ∧ ∀ n ∈ l, (∀ y, n.snap.has y = s0.t.has y) ∧ Mono L M s0.t n.snap ∧ Mono L M n.snap s.t

theorem Steady.emit {s0 s : St} (h : Steady L M s0 s) (ev : Ev) (x : Id) : Steady L M s0 (s.emit ev x) := by
  obtain ⟨h1, h2, l, h3, h4⟩ := h
  refine ⟨h1, h2, l ++ [⟨s.t, ev, x⟩], ?_, ?_⟩
  · show s.log ++ [_] = _
    rw [h3, List.append_assoc]
  · intro n hn
    rcases List.mem_append.1 hn with hn | hn
    · exact h4 n hn
    · rw [List.mem_singleton.1 hn]; exact ⟨h1, h2, Mono.refl _⟩

theorem Steady.tree {s0 s : St} (h : Steady L M s0 s) {t' : Tree} (hh : ∀ y, t'.has y = s.t.has y) (hm : Mono L M s.t t') :
    Steady L M s0 ⟨t', s.log⟩ := by
  obtain ⟨h1, h2, l, h3, h4⟩ := h
  exact ⟨fun y => (hh y).trans (h1 y), h2.trans hm, l, h3, fun n hn => ⟨(h4 n hn).1, (h4 n hn).2.1, (h4 n hn).2.2.trans hm⟩⟩

theorem steady_keeps (L M : Id → Id → Prop) (s0 : St) : KeepsGood L M (fun s => Good s.t ∧ Steady L M s0 s) where
  same := fun {s s'} h hl hh hp hg => by
    refine ⟨hg, ?_⟩
    have := h.2.tree (t' := s'.t) hh (fun q y => by rw [hg.wf.getParents_eq, h.1.wf.getParents_eq, hp]; exact ⟨fun _ h => h, fun _ h => h⟩)
    rw [← hl] at this
    exact this
  link := fun {s p c t'} h hg hc hn hg' hC => by
    obtain ⟨hp, hcc, ef⟩ := Tree.create_eq_some hc
    refine ⟨hg', ((h.2.tree ef.has fun q y => ?_).emit _ _).emit _ _⟩
    rw [hg.wf.getParents_eq, hg'.wf.getParents_eq, ef.parents]
    split
    · rename_i e
      subst e
      rw [mem_appendNew]
      refine ⟨fun hl hq => hq.resolve_right ?_, fun _ hq => Or.inl hq⟩
      rintro rfl; exact hl hC
    · exact ⟨fun _ h => h, fun _ h => h⟩
  cut := fun {s p c t'} h hg hp hcc hne ef hg' hC => by
    refine ⟨hg', ((h.2.tree ef.has fun q y => ?_).emit _ _).emit _ _⟩
    rw [hg.wf.getParents_eq, hg'.wf.getParents_eq, ef.parents]
    split
    · rename_i e
      subst e
      refine ⟨fun _ hq => List.mem_of_mem_erase hq, fun hm hq => (List.mem_erase_of_ne ?_).2 hq⟩
      rintro rfl; exact hm hC
    · exact ⟨fun _ h => h, fun _ h => h⟩
  modified := fun {s} h hg {x} hx => ⟨hg, h.2.emit _ _⟩

theorem links_not_cuts (op : Op) (q y : Id) (h : op.links q y) : ¬ op.cuts q y := by
  cases op <;> simp only [Op.links, Op.cuts] at h ⊢ <;> first | exact h.elim | (rintro ⟨h1, -⟩; exact h1 h.1) | exact fun h => h

theorem local_between {s : St} (h : Good s.t) (op : Op) (hl : op.isLocal = true) (hs : Safe s op) :
    ∃ l, (step s op).state.log = s.log ++ l ∧ ∀ n ∈ l, Between s.t (step s op).state.t n.snap := by
  obtain ⟨-, -, l, h3, h4⟩ := (step_keepsGood (steady_keeps op.links op.cuts s) h op hl hs (fun _ _ hc => hc) (fun _ _ hc => hc)
    ⟨h, fun _ => rfl, Mono.refl _, [], by simp, by simp⟩).2
  exact ⟨l, h3, fun n hn => (h4 n hn).2.1.between (links_not_cuts op) (h4 n hn).2.2 (h4 n hn).1⟩

/-! ### Removals -/

/-- `t'` has fewer nodes and relations than `t`. -/
structure Fewer (t' t : Tree) : Prop where
  has : ∀ y, t'.has y = true → t.has y = true
  par : ∀ y p, p ∈ t'.getParents y → p ∈ t.getParents y

theorem Fewer.refl (t : Tree) : Fewer t t := ⟨fun _ h => h, fun _ _ h => h⟩

theorem Fewer.trans {t1 t2 t3 : Tree} (h : Fewer t1 t2) (h' : Fewer t2 t3) : Fewer t1 t3 :=
  ⟨fun y hy => h'.has y (h.has y hy), fun y p hp => h'.par y p (h.par y p hp)⟩

theorem mem_getParents {t : Tree} {x p : Id} : p ∈ t.getParents x ↔
    (∃ nd, t.node? x = some nd ∧ nd.parentsEnabled = true ∧ nd.hasTree = true) ∧ p ∈ t.rawParents x ∧ t.has p = true := by
  unfold Tree.getParents Tree.rawParents
  cases hn : t.node? x with
  | none => simp
  | some nd =>
    simp only [Option.map_some, Option.getD_some, Tree.parentsOf, Option.some.injEq, exists_eq_left']
    cases h1 : nd.parentsEnabled <;> cases h2 : nd.hasTree <;> simp

theorem fewer_destroy {t t' : Tree} {p c : Id} (h : t.destroy p c = some t') : Fewer t' t := by
  obtain ⟨-, -, e⟩ := Tree.destroy_eq_some h
  refine ⟨fun y hy => by rw [← e.has]; exact hy, fun y q hq => ?_⟩
  rw [mem_getParents] at hq ⊢
  obtain ⟨⟨nd, h1, h2, h3⟩, h4, h5⟩ := hq
  refine ⟨?_, ?_, by rw [← e.has]; exact h5⟩
  · have := e.attrs y
    unfold Tree.nodeAttrs at this
    rw [h1] at this
    cases hn : t.node? y with
    | none => rw [hn] at this; cases this
    | some nd' =>
      rw [hn] at this
      simp only [Option.map_some, Option.some.injEq, Tree.attrs, Prod.mk.injEq] at this
      exact ⟨nd', rfl, by rw [← h2]; simp [this], by rw [← h3]; simp [this]⟩
  · rw [e.parents] at h4
    split at h4
    · rename_i e1; rw [e1]; exact List.mem_of_mem_erase h4
    · exact h4

theorem fewer_nodes {t t' : Tree} (h : t'.nodes = t.nodes) : Fewer t' t := by
  have hh : ∀ y, t'.has y = t.has y := by intro y; unfold Tree.has; rw [h]
  refine ⟨fun y hy => by rw [← hh]; exact hy, fun y p hp => ?_⟩
  rw [mem_getParents] at hp ⊢
  unfold Tree.rawParents Tree.node? at hp ⊢
  rw [h, hh] at hp
  exact hp

theorem fewer_del {t : Tree} (x : Id) : Fewer { t with nodes := t.nodes.del x } t := by
  have hh : ∀ y, ({ t with nodes := t.nodes.del x } : Tree).has y = (decide (y ≠ x) && t.has y) := by
    intro y; unfold Tree.has; simp only [Dict.has_del]
  refine ⟨fun y hy => by rw [hh] at hy; simp at hy; exact hy.2, fun y p hp => ?_⟩
  rw [mem_getParents] at hp ⊢
  rw [hh] at hp
  have hn : ({ t with nodes := t.nodes.del x } : Tree).node? y = if y = x then none else t.node? y := Dict.get?_del _ _ _
  unfold Tree.rawParents at hp ⊢
  rw [hn] at hp
  by_cases e : y = x
  · rw [if_pos e] at hp; simp at hp
  · rw [if_neg e] at hp
    exact ⟨hp.1, hp.2.1, by have := hp.2.2; simp at this; exact this.2⟩

/-- The trees of the notifications lie between the first one and the last one. -/
def Shrunk (s0 s : St) : Prop :=
  Fewer s.t s0.t ∧ ∃ l, s.log = s0.log ++ l ∧ ∀ n ∈ l, Fewer n.snap s0.t ∧ Fewer s.t n.snap

theorem Shrunk.tree {s0 s s' : St} (h : Shrunk s0 s) (hl : s'.log = s.log) (hf : Fewer s'.t s.t) : Shrunk s0 s' := by
  obtain ⟨h1, l, h2, h3⟩ := h
  exact ⟨hf.trans h1, l, hl.trans h2, fun n hn => ⟨(h3 n hn).1, hf.trans (h3 n hn).2⟩⟩

theorem Shrunk.emit {s0 s : St} (h : Shrunk s0 s) (ev : Ev) (x : Id) : Shrunk s0 (s.emit ev x) := by
  obtain ⟨h1, l, h2, h3⟩ := h
  refine ⟨h1, l ++ [⟨s.t, ev, x⟩], ?_, ?_⟩
  · show s.log ++ [_] = _
    rw [h2, List.append_assoc]
  · intro n hn
    rcases List.mem_append.1 hn with hn | hn
    · exact h3 n hn
    · rw [List.mem_singleton.1 hn]; exact ⟨h1, Fewer.refl _⟩

theorem shrunk_keeps (s0 : St) : KeepsCut (Shrunk s0) where
  nodes := fun h hn hl => h.tree hl (fewer_nodes hn)
  destroy := fun {s p c t'} h hd => h.tree (s' := { s with t := t' }) rfl (fewer_destroy hd)
  modified := fun h _ _ => h.emit _ _

theorem delNode_shrunk (s : St) (x : Id) (r : Bool) : Shrunk s (step s (.delNode x r)).state :=
  removeNode_keeps (shrunk_keeps s) (fun s' x h _ => (h.tree (s' := s'.mapTree fun t => { t with nodes := t.nodes.del x }) rfl (fewer_del x)).emit _ _)
    _ s x r ⟨Fewer.refl _, [], by simp, by simp⟩

theorem Fewer.between {t t' n : Tree} (h : Fewer t' n) (h' : Fewer n t) : Between t t' n := by
  refine ⟨fun y e => ?_, fun y q e => ⟨h'.par y q, fun hq => h.par y q (e.2 hq)⟩⟩
  rw [Bool.eq_iff_iff]
  exact ⟨h'.has y, fun hy => h.has y (by rw [e]; exact hy)⟩

/-! ### All edits -/

theorem step_between {s : St} (h : Good s.t) (hn : NoDangling s.t) (op : Op) (hc : Careful s op) :
    ∃ l, (step s op).state.log = s.log ++ l ∧ ∀ n ∈ l, Between s.t (step s op).state.t n.snap := by
  have hs := (hc.tidy h hn).safe h hn
  by_cases hl : op.isLocal = true
  · exact local_between h op hl hs
  · cases op with
    | addNode nd p =>
      show ∃ l, (addNode s nd p).state.log = s.log ++ l ∧ ∀ n ∈ l, Between s.t (addNode s nd p).state.t n.snap
      by_cases hx : s.t.has nd.id = true
      · rw [addNode_existing hx]; exact ⟨[], by simp, by simp⟩
      · obtain ⟨hm, hc⟩ := hc
        obtain ⟨-, -, -, hok⟩ := hc.resolve_left hx
        cases hr : addNode s nd p with
        | err e s' => rw [hr] at hok; cases hok
        | ok s' =>
          obtain ⟨t', rfl, -⟩ := addNode_arrived h hm.fresh (by simpa using hx) hr
          refine ⟨[⟨t', .added, nd.id⟩], rfl, fun n hn => ?_⟩
          rw [List.mem_singleton.1 hn]; exact Between.right _ _
    | delNode x r =>
      obtain ⟨-, l, h2, h3⟩ := delNode_shrunk s x r
      exact ⟨l, h2, fun n hn => (h3 n hn).2.between (h3 n hn).1⟩
    | _ => exact absurd rfl hl

/-- What an edit sends. -/
theorem edit_undisturbed (hdiff : SetDiff diff) {a a' : FApp V} (h : VState diff a) (own : OwnApplied a) (op : Op) (hf : EditFair a op) (he : a.edit diff op = .ok a') :
    Undisturbed (FT.env diff a.bank a.s.t a.data a.ft) (FT.env diff a'.bank a'.s.t a'.data a'.ft) a.ft.view.out a'.ft.view := by
  obtain ⟨l, h1, h2⟩ := step_between h.good h.tidy op hf.1
  obtain ⟨hroot, -, v, l', w1, w2, -⟩ := edit_watchOwn hdiff h own op hf
  have el : l' = l := List.append_cancel_left (w1.symm.trans h1)
  subst el
  unfold FApp.edit at he
  dsimp only at he
  rw [h1, List.drop_left, w2] at he
  cases he
  have hP := env_pair (diff := diff) (d := a.data) own (t := a.s.t) (t' := (step a.s op).state.t) (ft := a.ft) (ft' := { a.ft with view := v }) rfl rfl rfl h.rootFree hroot
  have hM := fun {n : Tree} (hn : Between a.s.t (step a.s op).state.t n) (w : View) =>
    env_mid (diff := diff) (d := a.data) own (ft := a.ft) (ft' := { a.ft with view := v }) (fn := { a.ft with view := w }) rfl rfl rfl rfl h.rootFree hroot hn
  have h0 := hM (Between.left _ _) a.ft.view
  exact notes_undisturbed hdiff hP l' a.ft _ (fun n hn w => hM (h2 n hn) w) w2 ⟨h.fit.off (h0.off hP), h.fit.hold hP⟩

theorem Pair.last (hP : Pair E E') : Mid E E' E' :=
  ⟨hP.root, hP.flat, fun _ h => h, fun _ _ h => h, hP.has', fun y => by rw [hP.root]; exact hP.parRoot' y⟩

/-- What an announced change sends. -/
theorem change_undisturbed (hdiff : SetDiff diff) {a a' : FApp V} (h : VState diff a) (x : Id) (w : V) (he : a.act diff (.change x w) = .ok a') :
    Undisturbed (FT.env diff a.bank a.s.t a.data a.ft) (FT.env diff a'.bank a'.s.t a'.data a'.ft) a.ft.view.out a'.ft.view := by
  have hP : ∀ v, Pair (FT.env diff a.bank a.s.t a.data a.ft)
      (FT.env diff a.bank a.s.t (fun y => if y = x then w else a.data y) { a.ft with view := v }) := fun v =>
    have hr : ∀ y, a.ft.root ∉ a.s.t.getParents y := fun y hp => by
      have := mem_getParents_has hp
      rw [h.rootFree] at this; cases this
    ⟨rfl, rfl, fun y q => has_of_getParents, fun y q => has_of_getParents, hr, hr, accepts_falsy h.rootFree, accepts_falsy h.rootFree,
      fun y p _ h1 h2 => absurd h1 h2, fun y p _ h1 h2 => absurd h1 h2⟩
  have hi : ∀ v, Undisturbed (FT.env diff a.bank a.s.t a.data a.ft)
      (FT.env diff a.bank a.s.t (fun y => if y = x then w else a.data y) { a.ft with view := v }) a.ft.view.out a.ft.view := fun v =>
    have hP := hP v
    have h0 : Mid (FT.env diff a.bank a.s.t a.data a.ft) (FT.env diff a.bank a.s.t (fun y => if y = x then w else a.data y) { a.ft with view := v })
      (FT.env diff a.bank a.s.t a.data a.ft) := ⟨rfl, rfl, fun _ _ => rfl, fun _ _ _ => Iff.rfl, hP.has, hP.parRoot⟩
    ⟨h.fit.off (h0.off hP), h.fit.hold hP⟩
  change FApp.edit diff _ _ = _ at he
  unfold FApp.edit at he
  dsimp only at he
  by_cases hx : x ≠ rootId ∧ a.s.t.has x = true
  · have es : (step a.s (.refreshNode x)).state = a.s.emit .modified x := by
      show (modifyNode a.s x).state = _
      unfold modifyNode; rw [if_pos hx]; rfl
    have el : (a.s.emit .modified x).log = a.s.log ++ [⟨a.s.t, .modified, x⟩] := rfl
    rw [es, el, List.drop_left] at he
    cases hf : Res.forEach (FT.react diff a.bank (fun y => if y = x then w else a.data y)) [⟨a.s.t, .modified, x⟩] a.ft with
    | err e ft => rw [hf] at he; cases he
    | ok ft =>
      rw [hf] at he
      cases he
      have e : ft = { a.ft with view := ft.view } := by
        unfold Res.forEach FT.react at hf
        cases hu : (FT.env diff a.bank a.s.t (fun y => if y = x then w else a.data y) a.ft).update (FT.depth a.s.t a.ft.view) x .both a.ft.view with
        | err e v => rw [hu] at hf; cases hf
        | ok v => rw [hu] at hf; cases hf; rfl
      have := notes_undisturbed (diff := diff) (b := a.bank) (d := fun y => if y = x then w else a.data y) hdiff (hP ft.view) _ a.ft ft
        (fun n hn v => by
          rw [List.mem_singleton] at hn
          subst hn
          exact (hP ft.view).last) hf (hi ft.view)
      rw [← e] at this
      exact this
  · have es : (step a.s (.refreshNode x)).state = a.s := by
      show (modifyNode a.s x).state = _
      unfold modifyNode; rw [if_neg hx]; rfl
    rw [es, List.drop_length] at he
    cases he
    exact hi a.ft.view

end Larch
