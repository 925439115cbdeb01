import Verif.Proofs.ViewRows

/-! # Updates of a view in which no node disappears -/

namespace Larch

open Spec Graph

/-! ### Elementary mutations of a view -/

namespace View

@[simp] theorem has_upd (v : View) (x : Id) (f : VNode → VNode) (y : Id) : (v.upd x f).has y = v.has y :=
  Dict.has_modify _ _ _ _

@[simp] theorem keys_upd (v : View) (x : Id) (f : VNode → VNode) : (v.upd x f).nodes.keys = v.nodes.keys :=
  Dict.keys_modify _ _ _

@[simp] theorem out_upd (v : View) (x : Id) (f : VNode → VNode) : (v.upd x f).out = v.out := rfl

theorem get_upd (v : View) (x : Id) (f : VNode → VNode) (y : Id) :
    (v.upd x f).nodes.get? y = if y = x then (v.nodes.get? x).map f else v.nodes.get? y := Dict.get?_modify _ _ _ _

theorem pars_updKids (v : View) (x : Id) (g : List Id → List Id) (y : Id) :
    (v.upd x fun n => { n with children := g n.children }).pars y = v.pars y := by
  unfold pars
  rw [get_upd]
  by_cases h : y = x
  · subst h; rw [if_pos rfl]; cases v.nodes.get? y <;> rfl
  · rw [if_neg h]

theorem kids_updPars (v : View) (x : Id) (g : VNode → List Id) (y : Id) :
    (v.upd x fun n => { n with parents := g n }).kids y = v.kids y := by
  unfold kids
  rw [get_upd]
  by_cases h : y = x
  · subst h; rw [if_pos rfl]; cases v.nodes.get? y <;> rfl
  · rw [if_neg h]

theorem kids_updKids (v : View) (x : Id) (g : List Id → List Id) (hx : v.has x = true) (y : Id) :
    (v.upd x fun n => { n with children := g n.children }).kids y = if y = x then g (v.kids x) else v.kids y := by
  obtain ⟨n, hn⟩ := get_of_has hx
  unfold kids
  rw [get_upd]
  by_cases h : y = x
  · subst h; rw [if_pos rfl, if_pos rfl, hn]; rfl
  · rw [if_neg h, if_neg h]

theorem pars_updPars (v : View) (x : Id) (g : VNode → List Id) (hx : v.has x = true) (y : Id) :
    (v.upd x fun n => { n with parents := g n }).pars y =
      if y = x then ((v.nodes.get? x).map g).getD [] else v.pars y := by
  obtain ⟨n, hn⟩ := get_of_has hx
  unfold pars
  rw [get_upd]
  by_cases h : y = x
  · subst h; rw [if_pos rfl, if_pos rfl, hn]; rfl
  · rw [if_neg h, if_neg h]

theorem kids_of_not_has {v : View} {x : Id} (h : v.has x = false) : v.kids x = [] := by
  unfold kids
  have : v.nodes.get? x = none := by
    unfold has Dict.has at h
    simpa using h
  rw [this]; rfl

theorem pars_of_not_has {v : View} {x : Id} (h : v.has x = false) : v.pars x = [] := by
  unfold pars
  have : v.nodes.get? x = none := by
    unfold has Dict.has at h
    simpa using h
  rw [this]; rfl

theorem has_of_kid {v : View} {x c : Id} (h : c ∈ v.kids x) : v.has x = true := by
  by_contra hx
  rw [kids_of_not_has (by simpa using hx)] at h; cases h

theorem has_of_par {v : View} {x p : Id} (h : p ∈ v.pars x) : v.has x = true := by
  by_contra hx
  rw [pars_of_not_has (by simpa using hx)] at h; cases h

end View

/-! ### The environment -/

/-- What an update relies on; `rank` grows along every relation of tree and view. -/
structure EOK (E : VEnv) (rank : Id → Nat) (M : Nat) : Prop where
  rootHas : E.has E.root = false
  dispHas : ∀ x, E.disp x = true → E.has x = true
  parHas : ∀ x p, p ∈ E.par x → E.has p = true ∧ E.has x = true
  parNd : ∀ x, (E.par x).Nodup
  parRank : ∀ x p, p ∈ E.par x → rank p < rank x
  chi : ∀ p c, E.has c = true → (c ∈ E.chi p ↔ p ∈ E.par c)
  rootRank : rank E.root = 0
  posRank : ∀ x, x ≠ E.root → 0 < rank x
  bound : ∀ x, rank x ≤ M
  diff : SetDiff E.diff

/-- The parents of `x` that are displayed if `W` tells which nodes are shown. -/
def npCand (E : VEnv) (W : Id → Bool) (x : Id) : List Id :=
  if E.flat = false ∧ E.has x = true then (E.par x).filter (fun p => W p && E.disp p) else []

/-- The same, with the root of the view standing in for nobody. -/
def npOf (E : VEnv) (W : Id → Bool) (x : Id) : List Id :=
  if npCand E W x = [] then [E.root] else npCand E W x

theorem newPars_eq (E : VEnv) (v : View) (x : Id) : E.newPars v x = npOf E v.has x := rfl

theorem mem_npCand {E : VEnv} {W : Id → Bool} {x p : Id} :
    p ∈ npCand E W x ↔ (E.flat = false ∧ E.has x = true) ∧ p ∈ E.par x ∧ W p = true ∧ E.disp p = true := by
  unfold npCand
  by_cases h : E.flat = false ∧ E.has x = true
  · rw [if_pos h, List.mem_filter]; simp [h]
  · rw [if_neg h]; simp [h]

theorem npOf_congr (E : VEnv) {W W' : Id → Bool} (x : Id) (h : ∀ p ∈ E.par x, E.disp p = true → W p = W' p) :
    npOf E W x = npOf E W' x := by
  unfold npOf npCand
  have : (E.par x).filter (fun p => W p && E.disp p) = (E.par x).filter (fun p => W' p && E.disp p) := by
    apply List.filter_congr
    intro p hp
    cases hd : E.disp p with
    | false => simp
    | true => simp [h p hp hd]
  rw [this]

theorem mem_npOf {E : VEnv} {W : Id → Bool} {x p : Id} (h : p ∈ npOf E W x) :
    p = E.root ∨ (E.flat = false ∧ p ∈ E.par x ∧ W p = true ∧ E.disp p = true) := by
  unfold npOf at h
  by_cases hc : npCand E W x = []
  · rw [if_pos hc] at h
    exact Or.inl (by simpa using h)
  · rw [if_neg hc] at h
    obtain ⟨h1, h2⟩ := mem_npCand.1 h
    exact Or.inr ⟨h1.1, h2⟩

theorem mem_npOf_of {E : VEnv} {W : Id → Bool} {x p : Id} (hf : E.flat = false) (hx : E.has x = true) (hp : p ∈ E.par x)
    (hW : W p = true) (hd : E.disp p = true) : p ∈ npOf E W x := by
  have : p ∈ npCand E W x := mem_npCand.2 ⟨⟨hf, hx⟩, hp, hW, hd⟩
  unfold npOf
  rw [if_neg (List.ne_nil_of_mem this)]
  exact this

theorem npOf_ne_nil (E : VEnv) (W : Id → Bool) (x : Id) : npOf E W x ≠ [] := by
  unfold npOf
  by_cases hc : npCand E W x = []
  · rw [if_pos hc]; simp
  · rw [if_neg hc]; exact hc

theorem EOK.npOf_nodup {E : VEnv} {rank : Id → Nat} {M : Nat} (hE : EOK E rank M) (W : Id → Bool) (x : Id) :
    (npOf E W x).Nodup := by
  unfold npOf
  by_cases hc : npCand E W x = []
  · rw [if_pos hc]; simp
  · rw [if_neg hc]
    unfold npCand
    split
    · exact (hE.parNd x).filter _
    · simp

theorem EOK.npOf_rank {E : VEnv} {rank : Id → Nat} {M : Nat} (hE : EOK E rank M) {W : Id → Bool} {x p : Id}
    (hx : x ≠ E.root) (h : p ∈ npOf E W x) : rank p < rank x := by
  rcases mem_npOf h with rfl | h
  · rw [hE.rootRank]; exact hE.posRank x hx
  · exact hE.parRank _ _ h.2.1

theorem EOK.par_ne_root {E : VEnv} {rank : Id → Nat} {M : Nat} (hE : EOK E rank M) {x p : Id} (h : p ∈ E.par x) :
    p ≠ E.root := by
  rintro rfl
  have := (hE.parHas _ _ h).1
  rw [hE.rootHas] at this; cases this

/-! ### Consistent views -/

/-- The parent/child pairs according to the children lists. -/
abbrev View.edge (v : View) : Id → Id → Prop := fun p c => c ∈ v.kids p

/-- A view in which everything fits together, except that the parents of the nodes `X` may disagree with the children
lists. -/
structure VInv (E : VEnv) (rank : Id → Nat) (X : Id → Prop) (v : View) : Prop where
  keys : v.nodes.keys.Nodup
  rootIn : v.has E.root = true
  rootPars : v.pars E.root = []
  sub : ∀ y, v.has y = true → y ≠ E.root → E.disp y = true
  par : ∀ y p, p ∈ v.pars y → v.has p = true ∧ rank p < rank y
  kid : ∀ p c, c ∈ v.kids p → v.has c = true ∧ rank p < rank c
  ndP : ∀ y, (v.pars y).Nodup
  ndK : ∀ y, (v.kids y).Nodup
  mirror : ∀ y, ¬ X y → ∀ p, p ∈ v.pars y ↔ y ∈ v.kids p
  rows : RowsSet v.out (RowE v.edge E.root) (v.under E.root)

/-- The view only grew, and every node kept its parents or got the ones displayed at some moment in between. -/
structure Grow (E : VEnv) (v v' : View) : Prop where
  has : ∀ y, v.has y = true → v'.has y = true
  snap : ∀ y, v'.pars y = v.pars y ∨
    ∃ W : Id → Bool, (∀ z, v.has z = true → W z = true) ∧ (∀ z, W z = true → v'.has z = true) ∧ v'.pars y = npOf E W y

theorem Grow.refl (E : VEnv) (v : View) : Grow E v v := ⟨fun _ h => h, fun _ => Or.inl rfl⟩

theorem Grow.trans {E : VEnv} {a b c : View} (h : Grow E a b) (h' : Grow E b c) : Grow E a c := by
  refine ⟨fun y hy => h'.has y (h.has y hy), fun y => ?_⟩
  rcases h'.snap y with e | ⟨W, w1, w2, w3⟩
  · rcases h.snap y with e' | ⟨W, w1, w2, w3⟩
    · exact Or.inl (e.trans e')
    · exact Or.inr ⟨W, w1, fun z hz => h'.has z (w2 z hz), e.trans w3⟩
  · exact Or.inr ⟨W, fun z hz => w1 z (h.has z hz), w2, w3⟩

/-- `pars x` is the snapshot of some moment between the two views. -/
def Snap (E : VEnv) (v v' : View) (x : Id) : Prop :=
  ∃ W : Id → Bool, (∀ z, v.has z = true → W z = true) ∧ (∀ z, W z = true → v'.has z = true) ∧ v'.pars x = npOf E W x

theorem Snap.after {E : VEnv} {a b c : View} {x : Id} (h : Snap E a b x) (h' : Grow E b c) (hab : Grow E a b) : Snap E a c x := by
  rcases h'.snap x with e | ⟨W, w1, w2, w3⟩
  · obtain ⟨W, w1, w2, w3⟩ := h
    exact ⟨W, w1, fun z hz => h'.has z (w2 z hz), e.trans w3⟩
  · exact ⟨W, fun z hz => w1 z (hab.has z hz), w2, w3⟩

theorem Snap.before {E : VEnv} {a b c : View} {x : Id} (h : Snap E b c x) (hab : Grow E a b) : Snap E a c x := by
  obtain ⟨W, w1, w2, w3⟩ := h
  exact ⟨W, fun z hz => w1 z (hab.has z hz), w2, w3⟩

/-- Nothing about `y` changed. -/
def SameAt (v v' : View) (y : Id) : Prop := v'.pars y = v.pars y ∧ v'.has y = v.has y ∧ ∀ p, y ∈ v'.kids p ↔ y ∈ v.kids p

theorem SameAt.refl (v : View) (y : Id) : SameAt v v y := ⟨rfl, rfl, fun _ => Iff.rfl⟩

theorem SameAt.trans {a b c : View} {y : Id} (h : SameAt a b y) (h' : SameAt b c y) : SameAt a c y :=
  ⟨h'.1.trans h.1, h'.2.1.trans h.2.1, fun p => (h'.2.2 p).trans (h.2.2 p)⟩

/-- Nothing changed at the nodes of rank `k` or more. -/
def FrameGe (rank : Id → Nat) (k : Nat) (v v' : View) : Prop := ∀ y, k ≤ rank y → SameAt v v' y

/-- Nothing changed at the nodes of the rank of `x` or more, except at `x`. -/
def FrameAt (rank : Id → Nat) (x : Id) (v v' : View) : Prop := ∀ y, rank x ≤ rank y → y ≠ x → SameAt v v' y

theorem FrameGe.refl (rank : Id → Nat) (k : Nat) (v : View) : FrameGe rank k v v := fun y _ => SameAt.refl v y
theorem FrameGe.trans {rank : Id → Nat} {k : Nat} {a b c : View} (h : FrameGe rank k a b) (h' : FrameGe rank k b c) :
    FrameGe rank k a c := fun y hy => (h y hy).trans (h' y hy)
theorem FrameAt.refl (rank : Id → Nat) (x : Id) (v : View) : FrameAt rank x v v := fun y _ _ => SameAt.refl v y
theorem FrameAt.trans {rank : Id → Nat} {x : Id} {a b c : View} (h : FrameAt rank x a b) (h' : FrameAt rank x b c) :
    FrameAt rank x a c := fun y hy hne => (h y hy hne).trans (h' y hy hne)
theorem FrameGe.at {rank : Id → Nat} {x : Id} {a b : View} (h : FrameGe rank (rank x) a b) : FrameAt rank x a b :=
  fun y hy _ => h y hy
theorem FrameAt.ge {rank : Id → Nat} {x : Id} {k : Nat} {a b : View} (h : FrameAt rank x a b) (hk : rank x < k) :
    FrameGe rank k a b := fun y hy => h y (by omega) (by rintro rfl; omega)

theorem VInv.sendOK {E : VEnv} {rank : Id → Nat} {M : Nat} (hE : EOK E rank M) {X : Id → Prop} {v : View}
    (h : VInv E rank X v) : SendOK E.root rank v :=
  ⟨⟨M, hE.bound⟩, fun p c hc => (h.kid p c hc).2, h.ndK⟩

theorem VInv.pathsOK {E : VEnv} {rank : Id → Nat} {X : Id → Prop} {v : View} (h : VInv E rank X v) {k : Nat}
    (hX : ∀ y, rank y ≤ k → ¬ X y) : PathsOK E.root rank v v.edge k :=
  ⟨h.par, h.ndP, fun y hy p => h.mirror y (hX y hy) p, fun y hy p hp => (h.mirror y (hX y hy) p).1 hp,
    fun p y hy => (h.kid p y hy).2⟩

theorem VInv.mono {E : VEnv} {rank : Id → Nat} {X X' : Id → Prop} {v : View} (h : VInv E rank X v)
    (hX : ∀ y, X y → X' y) : VInv E rank X' v :=
  { h with mirror := fun y hy => h.mirror y (fun hx => hy (hX y hx)) }

/-- Only signals were sent. -/
theorem VInv.of_out {E : VEnv} {rank : Id → Nat} {X : Id → Prop} {v v' : View} (h : VInv E rank X v)
    (hn : v'.nodes = v.nodes) (hr : RowsSet v'.out (RowE v'.edge E.root) (v'.under E.root)) : VInv E rank X v' := by
  have e1 := View.has_congr hn
  have e2 := View.pars_congr hn
  have e3 := View.kids_congr hn
  exact ⟨hn ▸ h.keys, e1 ▸ h.rootIn, e2 ▸ h.rootPars, e1 ▸ h.sub, by rw [e1, e2]; exact h.par,
    by rw [e1, e3]; exact h.kid, e2 ▸ h.ndP, e3 ▸ h.ndK, by rw [e2, e3]; exact h.mirror, hr⟩

theorem forEach_ok {α σ : Type} {body : α → σ → Res σ} (P : List α → σ → Prop)
    (h : ∀ a l s, P (a :: l) s → ∃ s', body a s = .ok s' ∧ P l s') :
    ∀ (l : List α) (s : σ), P l s → ∃ s', Res.forEach body l s = .ok s' ∧ P [] s' := by
  intro l
  induction l with
  | nil => intro s hs; exact ⟨s, rfl, hs⟩
  | cons a l ih =>
    intro s hs
    obtain ⟨s1, h1, h2⟩ := h a l s hs
    obtain ⟨s2, h3, h4⟩ := ih s1 h2
    exact ⟨s2, by rw [Res.forEach, h1]; exact h3, h4⟩

/-! ### One node gets its parents right -/

section Settle

variable {E : VEnv} {rank : Id → Nat} {M : Nat}

/-- What is assumed of the recursive calls upwards. -/
def UpSpec (E : VEnv) (rank : Id → Nat) (k : Nat) (up : Id → View → Res View) : Prop :=
  ∀ (p : Id) (v : View) (X : Id → Prop), rank p < k → VInv E rank X v → (∀ y, rank y ≤ rank p → ¬ X y) →
    ∃ v', up p v = .ok v' ∧ VInv E rank X v' ∧ Grow E v v' ∧ FrameGe rank k v v'

theorem ups_ok {k : Nat} {up : Id → View → Res View} (hup : UpSpec E rank k up) {X : Id → Prop} (hX : ∀ y, rank y < k → ¬ X y)
    (L : List Id) (hL : ∀ p ∈ L, rank p < k) (v : View) (hv : VInv E rank X v) :
    ∃ v', Res.forEach up L v = .ok v' ∧ VInv E rank X v' ∧ Grow E v v' ∧ FrameGe rank k v v' := by
  obtain ⟨v', h1, h2⟩ := forEach_ok (body := up)
    (fun l w => (∀ p ∈ l, rank p < k) ∧ VInv E rank X w ∧ Grow E v w ∧ FrameGe rank k v w)
    (by
      rintro p l w ⟨hl, h1, h2, h3⟩
      obtain ⟨w', a1, a2, a3, a4⟩ := hup p w X (hl p (by simp)) h1
        (fun y hy => hX y (by have := hl p (by simp); omega))
      exact ⟨w', a1, fun q hq => hl q (by simp [hq]), a2, h2.trans a3, h3.trans a4⟩)
    L v ⟨hL, hv, Grow.refl _ _, FrameGe.refl _ _ _⟩
  exact ⟨v', h1, h2.2⟩

/-- The children lists changed only in whether they mention `x`. -/
theorem VInv.of_kids {X : Id → Prop} {v v' : View} {x : Id} (h : VInv E rank X v) (hX : X x)
    (hkeys : v'.nodes.keys = v.nodes.keys) (hhas : v'.has = v.has) (hpars : v'.pars = v.pars)
    (hnd : ∀ y, (v'.kids y).Nodup) (hx : ∀ p, x ∈ v'.kids p → v.has x = true ∧ rank p < rank x)
    (hk : ∀ y, y ≠ x → ∀ p, y ∈ v'.kids p ↔ y ∈ v.kids p)
    (hr : RowsSet v'.out (RowE v'.edge E.root) (v'.under E.root)) : VInv E rank X v' := by
  refine ⟨hkeys ▸ h.keys, hhas ▸ h.rootIn, hpars ▸ h.rootPars, hhas ▸ h.sub, by rw [hhas, hpars]; exact h.par, ?_,
    hpars ▸ h.ndP, hnd, ?_, hr⟩
  · intro p c hc
    rw [hhas]
    by_cases hcx : c = x
    · subst hcx; exact hx p hc
    · exact h.kid p c ((hk c hcx p).1 hc)
  · intro y hy p
    rw [hpars, hk y (fun e => hy (e ▸ hX)) p]
    exact h.mirror y hy p

theorem leave_ok (hE : EOK E rank M) {up : Id → View → Res View} {x : Id} (hup : UpSpec E rank (rank x) up) {X : Id → Prop}
    (hX : ∀ y, rank y < rank x → ¬ X y) (hXx : X x) {v : View} (hv : VInv E rank X v) (g : Bool) {p : Id}
    (hp : x ∈ v.kids p) :
    ∃ v', E.leave up g x p v = .ok v' ∧ VInv E rank X v' ∧ Grow E v v' ∧ FrameAt rank x v v' ∧ v'.pars x = v.pars x ∧
      v'.has x = v.has x ∧ ∀ q, x ∈ v'.kids q ↔ x ∈ v.kids q ∧ q ≠ p := by
  obtain ⟨hx, hrk⟩ := hv.kid p x hp
  have hpin := View.has_of_kid hp
  obtain ⟨v1, a1, a2, a3⟩ := sendRemove_spec (hv.sendOK hE) (e := fun a b => b ∈ v.kids a ∧ ¬ (a = p ∧ b = x)) (e' := v.edge)
    (fun p c hc => (hv.kid p c hc).1) hpin hx hrk
    (hv.pathsOK (fun y hy => hX y (by omega)))
    (by
      intro a b
      by_cases hab : a = p ∧ b = x
      · obtain ⟨rfl, rfl⟩ := hab; simp [hp]
      · simp [hab])
    (by simp) (fun ext => Iff.rfl) hv.rows
  have e1 : v1.has = v.has := View.has_congr a2
  have e2 : v1.pars = v.pars := View.pars_congr a2
  have e3 : v1.kids = v.kids := View.kids_congr a2
  obtain ⟨n, hn⟩ := View.get_of_has (e1 ▸ hpin : v1.has p = true)
  have hkn : x ∈ n.children := by rw [← View.kids_of_get hn, e3]; exact hp
  set v2 := v1.upd p fun n => { n with children := n.children.erase x } with hv2
  have k2 : ∀ y, v2.kids y = if y = p then (v.kids p).erase x else v.kids y := by
    intro y
    have := View.kids_updKids v1 p (fun l => l.erase x) (e1 ▸ hpin) y
    rw [e3] at this
    exact this
  have hmem : ∀ c q, c ∈ v2.kids q ↔ c ∈ v.kids q ∧ ¬ (q = p ∧ c = x) := by
    intro c q
    rw [k2]
    by_cases hq : q = p
    · subst hq
      rw [if_pos rfl, (hv.ndK q).mem_erase_iff]; tauto
    · rw [if_neg hq]; simp [hq]
  have hv2inv : VInv E rank X v2 := by
    refine hv.of_kids (x := x) hXx ?_ ?_ ?_ ?_ ?_ ?_ ?_
    · rw [hv2, View.keys_upd, a2]
    · funext y; rw [hv2, View.has_upd, e1]
    · funext y; rw [← e2]; exact View.pars_updKids v1 p (fun l => l.erase x) y
    · intro y
      rw [k2]
      split
      · exact (hv.ndK p).erase x
      · exact hv.ndK y
    · intro q hq; exact hv.kid q x ((hmem x q).1 hq).1
    · intro y hy q
      rw [hmem]; simp [hy]
    · refine (RowsSet.fewerKids (v' := v2) (a3 : RowsSet v2.out _ _) fun y => ?_).congr fun l => ?_
      · rw [k2]; split
        · rename_i h; rw [h]; exact List.erase_sublist
        · exact List.Sublist.refl _
      unfold RowE View.edge
      rw [show (fun p_1 c => c ∈ v2.kids p_1) = (fun a b => b ∈ v.kids a ∧ ¬(a = p ∧ b = x)) from by
        funext a b; exact propext (hmem b a)]
  have hh2 : ∀ y, v2.has y = v.has y := by intro y; rw [hv2, View.has_upd, e1]
  have hp2 : ∀ y, v2.pars y = v.pars y := by
    intro y; rw [← e2]; exact View.pars_updKids v1 p (fun l => l.erase x) y
  have hdrop : v1.dropKid p x = .ok v2 := by
    unfold View.dropKid; rw [hn]; dsimp only; rw [if_pos hkn]
  have hgrow : Grow E v v2 := ⟨fun y hy => by rw [hh2]; exact hy, fun y => Or.inl (hp2 y)⟩
  have hframe : FrameAt rank x v v2 := fun y _ hne => ⟨hp2 y, hh2 y, fun q => by rw [hmem]; simp [hne]⟩
  have hxk : ∀ q, x ∈ v2.kids q ↔ x ∈ v.kids q ∧ q ≠ p := by
    intro q; rw [hmem]; simp
  unfold VEnv.leave
  rw [a1, Res.andThen_ok, hdrop, Res.andThen_ok]
  cases g with
  | false => exact ⟨v2, by simp, hv2inv, hgrow, hframe, hp2 x, hh2 x, hxk⟩
  | true =>
    obtain ⟨v3, b1, b2, b3, b4⟩ := hup p v2 X hrk hv2inv (fun y hy => hX y (by omega))
    obtain ⟨c1, c2, c3⟩ := b4 x (le_refl _)
    exact ⟨v3, by rw [if_pos rfl]; exact b1, b2, hgrow.trans b3, hframe.trans b4.at, c1.trans (hp2 x), c2.trans (hh2 x),
      fun q => (c3 q).trans (hxk q)⟩

theorem join_ok (hE : EOK E rank M) {up : Id → View → Res View} {x : Id} (hup : UpSpec E rank (rank x) up) {X : Id → Prop}
    (hX : ∀ y, rank y < rank x → ¬ X y) (hXx : X x) {v : View} (hv : VInv E rank X v) (g : Bool) {p : Id}
    (hpin : v.has p = true) (hx : v.has x = true) (hrk : rank p < rank x) (hp : x ∉ v.kids p) :
    ∃ v', E.join up g x p v = .ok v' ∧ VInv E rank X v' ∧ Grow E v v' ∧ FrameAt rank x v v' ∧ v'.pars x = v.pars x ∧
      v'.has x = v.has x ∧ ∀ q, x ∈ v'.kids q ↔ x ∈ v.kids q ∨ q = p := by
  set v1 := v.upd p fun n => { n with children := n.children ++ [x] } with hv1
  have k1 : ∀ y, v1.kids y = if y = p then v.kids p ++ [x] else v.kids y :=
    View.kids_updKids v p (fun l => l ++ [x]) hpin
  have hmem : ∀ c q, c ∈ v1.kids q ↔ c ∈ v.kids q ∨ (q = p ∧ c = x) := by
    intro c q
    rw [k1]
    by_cases hq : q = p
    · subst hq; simp
    · simp [hq]
  have hh1 : ∀ y, v1.has y = v.has y := fun y => View.has_upd _ _ _ _
  have hp1 : ∀ y, v1.pars y = v.pars y := View.pars_updKids v p (fun l => l ++ [x])
  have hnd : ∀ y, (v1.kids y).Nodup := by
    intro y
    rw [k1]
    split
    · rw [List.nodup_append]
      refine ⟨hv.ndK p, by simp, ?_⟩
      intro a ha b hb hab
      simp at hb; subst hb; subst hab; exact hp ha
    · exact hv.ndK y
  have hkid : ∀ q c, c ∈ v1.kids q → v.has c = true ∧ rank q < rank c := by
    intro q c hc
    rcases (hmem c q).1 hc with h | ⟨rfl, rfl⟩
    · exact hv.kid q c h
    · exact ⟨hx, hrk⟩
  obtain ⟨v2, a1, a2, a3⟩ := sendAdd_spec (root := E.root) (rank := rank) (v := v1)
    ⟨⟨M, hE.bound⟩, fun q c hc => (hkid q c hc).2, hnd⟩ (e := v.edge) (e' := v1.edge)
    (fun q c hc => by rw [hh1]; exact (hkid q c hc).1) (by rw [hh1]; exact hpin) (by rw [hh1]; exact hx) hrk
    ⟨fun y q hq => by rw [hp1] at hq; rw [hh1]; exact hv.par y q hq, fun y => by rw [hp1]; exact hv.ndP y,
      fun y hy q => by rw [hp1]; exact hv.mirror y (hX y (by omega)) q,
      fun y hy q hq => by
        rw [hp1] at hq
        exact (hmem y q).2 (Or.inl ((hv.mirror y (hX y (by omega)) q).1 hq)),
      fun q y hy => (hv.kid q y hy).2⟩
    (fun a b => hmem b a) hp (fun ext => Iff.rfl)
    (fun a _ => by
      have := hnd p
      rw [k1, if_pos rfl] at this ⊢
      exact last_before_none this)
    (RowsSet.moreKids (v := v) hv.rows hp k1)
  have e1 : ∀ y, v2.has y = v.has y := fun y => (congrFun (View.has_congr a2) y).trans (hh1 y)
  have e2 : ∀ y, v2.pars y = v.pars y := fun y => (congrFun (View.pars_congr a2) y).trans (hp1 y)
  have e3 : v2.kids = v1.kids := View.kids_congr a2
  have hv2 : VInv E rank X v2 := by
    refine hv.of_kids (x := x) hXx ?_ (funext e1) (funext e2) (by rw [e3]; exact hnd) ?_ ?_ ?_
    · rw [a2, hv1, View.keys_upd]
    · intro q hq; rw [e3] at hq; exact hkid q x hq
    · intro y hy q
      rw [e3, hmem]; simp [hy]
    · show RowsSet v2.out (RowE (fun p c => c ∈ v2.kids p) E.root) (v2.under E.root)
      rw [e3]; exact a3
  have hgrow : Grow E v v2 := ⟨fun y hy => by rw [e1]; exact hy, fun y => Or.inl (e2 y)⟩
  have hframe : FrameAt rank x v v2 := fun y _ hne => ⟨e2 y, e1 y, fun q => by rw [e3, hmem]; simp [hne]⟩
  have hxk : ∀ q, x ∈ v2.kids q ↔ x ∈ v.kids q ∨ q = p := by
    intro q; rw [e3, hmem]; simp
  unfold VEnv.join
  rw [if_neg (by simp [hpin]), a1, Res.andThen_ok]
  cases g with
  | false => exact ⟨v2, by simp, hv2, hgrow, hframe, e2 x, e1 x, hxk⟩
  | true =>
    obtain ⟨v3, b1, b2, b3, b4⟩ := hup p v2 X hrk hv2 (fun y hy => hX y (by omega))
    obtain ⟨c1, c2, c3⟩ := b4 x (le_refl _)
    exact ⟨v3, by rw [if_pos rfl]; exact b1, b2, hgrow.trans b3, hframe.trans b4.at, c1.trans (e2 x), c2.trans (e1 x),
      fun q => (c3 q).trans (hxk q)⟩

/-- Adding an entry without parents and children. -/
theorem VInv.insert {X : Id → Prop} {v : View} (hv : VInv E rank X v) {x : Id} (hd : E.disp x = true) (hx : v.has x = false) :
    VInv E rank X { v with nodes := v.nodes.set x {} } ∧ Grow E v { v with nodes := v.nodes.set x {} } ∧
      ({ v with nodes := v.nodes.set x {} } : View).has x = true ∧
      ∀ y, y ≠ x → SameAt v { v with nodes := v.nodes.set x {} } y := by
  set v1 : View := { v with nodes := v.nodes.set x {} } with hv1
  have hh : ∀ y, v1.has y = true ↔ v.has y = true ∨ y = x := by
    intro y
    show (v.nodes.set x {}).has y = true ↔ v.nodes.has y = true ∨ y = x
    rw [Dict.has_set]
    by_cases h : y = x <;> simp [h]
  have hkx : v.kids x = [] := View.kids_of_not_has hx
  have hpx : v.pars x = [] := View.pars_of_not_has hx
  have hk : ∀ y, v1.kids y = v.kids y := by
    intro y
    unfold View.kids at hkx ⊢
    rw [hv1]
    dsimp only
    rw [Dict.get?_set]
    by_cases h : y = x
    · rw [if_pos h, h, hkx]; rfl
    · rw [if_neg h]
  have hp : ∀ y, v1.pars y = v.pars y := by
    intro y
    unfold View.pars at hpx ⊢
    rw [hv1]
    dsimp only
    rw [Dict.get?_set]
    by_cases h : y = x
    · rw [if_pos h, h, hpx]; rfl
    · rw [if_neg h]
  refine ⟨⟨?_, (hh _).2 (Or.inl hv.rootIn), by rw [hp]; exact hv.rootPars, ?_, ?_, ?_, ?_, ?_, ?_, ?_⟩, ?_, (hh x).2 (Or.inr rfl), ?_⟩
  · show (v.nodes.set x {}).keys.Nodup
    rw [Dict.keys_set]
    split
    · exact hv.keys
    · rename_i hn
      rw [List.nodup_append]
      refine ⟨hv.keys, by simp, ?_⟩
      intro a ha b hb hab
      simp at hb; subst hb; subst hab
      exact hn ((Dict.mem_keys _ _).1 ha)
  · intro y hy hne
    rcases (hh y).1 hy with h | rfl
    · exact hv.sub y h hne
    · exact hd
  · intro y p hpy
    rw [hp] at hpy
    exact ⟨(hh p).2 (Or.inl (hv.par y p hpy).1), (hv.par y p hpy).2⟩
  · intro p c hc
    rw [hk] at hc
    exact ⟨(hh c).2 (Or.inl (hv.kid p c hc).1), (hv.kid p c hc).2⟩
  · intro y; rw [hp]; exact hv.ndP y
  · intro y; rw [hk]; exact hv.ndK y
  · intro y hy p; rw [hp, hk]; exact hv.mirror y hy p
  · refine (RowsSet.sameKids (v' := v1) (hv.rows : RowsSet v1.out _ _) hk).congr fun l => ?_
    show RowE (fun p c => c ∈ v.kids p) E.root l ↔ RowE (fun p c => c ∈ v1.kids p) E.root l
    rw [show v1.kids = v.kids from funext hk]
  · exact ⟨fun y hy => (hh y).2 (Or.inl hy), fun y => Or.inl (hp y)⟩
  · intro y hy
    refine ⟨hp y, ?_, fun p => by rw [hk]⟩
    rw [Bool.eq_iff_iff, hh]; simp [hy]

/-- As `settle_ok` below; in addition, where the parents of a new node come from. -/
theorem settle_ok_new (hE : EOK E rank M) {up : Id → View → Res View} {x : Id} (hup : UpSpec E rank (rank x) up) {X : Id → Prop}
    (hX : ∀ y, rank y ≤ rank x → ¬ X y) {v : View} (hv : VInv E rank X v) (dir : Dir) (hroot : x ≠ E.root)
    (hd : E.disp x = true) :
    ∃ v', E.settle up x dir v = .ok v' ∧ VInv E rank X v' ∧ Grow E v v' ∧ FrameAt rank x v v' ∧ v'.has x = true ∧
      Snap E v v' x ∧ (v.has x = false → ∃ v2, Res.forEach up ((E.par x).filter fun p =>
          decide (p ∉ E.newPars { v with nodes := v.nodes.set x {} } x ∧
            p ∉ ({ v with nodes := v.nodes.set x {} } : View).pars x)) { v with nodes := v.nodes.set x {} } = .ok v2 ∧
        Grow E v2 v' ∧ Snap E v2 v' x) := by
  have hX' : ∀ y, rank y < rank x → ¬ X y := fun y hy => hX y (by omega)
  -- the entry exists
  obtain ⟨v2, h2, hv2, hg2, hf2, hx2⟩ : ∃ v2,
      (if (!v.has x) = true then Res.forEach up ((E.par x).filter fun p =>
          decide (p ∉ E.newPars (if (!v.has x) = true then { v with nodes := v.nodes.set x {} } else v) x ∧
            p ∉ (if (!v.has x) = true then ({ v with nodes := v.nodes.set x {} } : View) else v).pars x))
          (if (!v.has x) = true then { v with nodes := v.nodes.set x {} } else v)
        else .ok (if (!v.has x) = true then { v with nodes := v.nodes.set x {} } else v)) = .ok v2 ∧
      VInv E rank X v2 ∧ Grow E v v2 ∧ FrameAt rank x v v2 ∧ v2.has x = true := by
    cases hx : v.has x with
    | true => exact ⟨v, by simp, hv, Grow.refl _ _, FrameAt.refl _ _ _, hx⟩
    | false =>
      obtain ⟨a1, a2, a3, a4⟩ := hv.insert hd hx
      obtain ⟨v2, b1, b2, b3, b4⟩ := ups_ok hup hX' ((E.par x).filter fun p =>
          decide (p ∉ E.newPars { v with nodes := v.nodes.set x {} } x ∧
            p ∉ ({ v with nodes := v.nodes.set x {} } : View).pars x))
        (fun p hp => hE.parRank x p (List.mem_filter.1 hp).1) _ a1
      exact ⟨v2, by simpa using b1, b2, a2.trans b3, FrameAt.trans (fun y _ hne => a4 y hne) b4.at,
        (b4 x (le_refl _)).2.1.trans a3⟩
  obtain ⟨n, hn⟩ := View.get_of_has hx2
  have hcur : n.parents = v2.pars x := (View.pars_of_get hn).symm
  -- the parents are set
  have hnp : ∀ p ∈ npOf E v2.has x, v2.has p = true ∧ rank p < rank x := by
    intro p hp
    refine ⟨?_, hE.npOf_rank hroot hp⟩
    rcases mem_npOf hp with rfl | h
    · exact hv2.rootIn
    · exact h.2.2.1
  have hfil : (E.newPars v2 x).filter v2.has = npOf E v2.has x := by
    rw [newPars_eq, List.filter_eq_self]
    exact fun p hp => (hnp p hp).1
  set v3 := v2.upd x fun n => { n with parents := (E.newPars v2 x).filter v2.has } with hv3
  have p3 : ∀ y, v3.pars y = if y = x then npOf E v2.has x else v2.pars y := by
    intro y
    have := View.pars_updPars v2 x (fun _ => (E.newPars v2 x).filter v2.has) hx2 y
    rw [hn] at this
    rw [← hfil]
    exact this
  have k3 : ∀ y, v3.kids y = v2.kids y := View.kids_updPars v2 x (fun _ => (E.newPars v2 x).filter v2.has)
  have c3 : ∀ y, v3.has y = v2.has y := fun y => View.has_upd _ _ _ _
  have hv3 : VInv E rank (fun y => X y ∨ y = x) v3 := by
    refine ⟨by rw [hv3, View.keys_upd]; exact hv2.keys, by rw [c3]; exact hv2.rootIn,
      by rw [p3, if_neg hroot.symm]; exact hv2.rootPars, fun y => by rw [c3]; exact hv2.sub y, ?_,
      fun p c => by rw [k3, c3]; exact hv2.kid p c, ?_, fun y => by rw [k3]; exact hv2.ndK y, ?_, ?_⟩
    · intro y p hp
      rw [c3]
      rw [p3] at hp
      by_cases hy : y = x
      · rw [if_pos hy] at hp; subst hy; exact hnp p hp
      · rw [if_neg hy] at hp; exact hv2.par y p hp
    · intro y
      rw [p3]
      split
      · exact hE.npOf_nodup _ _
      · exact hv2.ndP y
    · intro y hy p
      rw [p3, k3, if_neg (fun e => hy (Or.inr e))]
      exact hv2.mirror y (fun e => hy (Or.inl e)) p
    · refine (RowsSet.sameKids (v' := v3) (hv2.rows : RowsSet v3.out _ _) k3).congr fun l => ?_
      show RowE (fun p c => c ∈ v2.kids p) E.root l ↔ RowE (fun p c => c ∈ v3.kids p) E.root l
      rw [show v3.kids = v2.kids from funext k3]
  have hX3 : ∀ y, rank y < rank x → ¬ (X y ∨ y = x) := by
    rintro y hy (h | rfl)
    · exact hX' y hy h
    · omega
  have hg3 : Grow E v2 v3 := by
    refine ⟨fun y hy => by rw [c3]; exact hy, fun y => ?_⟩
    rw [p3]
    by_cases hy : y = x
    · rw [if_pos hy, hy]; exact Or.inr ⟨v2.has, fun _ h => h, fun z hz => by rw [c3]; exact hz, rfl⟩
    · rw [if_neg hy]; exact Or.inl rfl
  have hf3 : FrameAt rank x v2 v3 := fun y _ hy => ⟨by rw [p3, if_neg hy], c3 y, fun p => by rw [k3]⟩
  have hsnap3 : Snap E v2 v3 x :=
    ⟨v2.has, fun _ h => h, fun z hz => by rw [c3]; exact hz, by rw [p3, if_pos rfl]⟩
  -- the directions
  generalize hdir : (if dir = Dir.down ∧ E.root ∈ E.diff (E.newPars v2 x) n.parents then Dir.both else dir) = dir'
  have hL := hE.diff n.parents (E.newPars v2 x)
  have hA := hE.diff (E.newPars v2 x) n.parents
  have hS := hE.diff (E.newPars v2 x) (E.diff (E.newPars v2 x) n.parents)
  generalize hLe : E.diff n.parents (E.newPars v2 x) = L at hL
  generalize hAe : E.diff (E.newPars v2 x) n.parents = A at hA hS hdir
  generalize hSe : E.diff (E.newPars v2 x) A = S at hS
  obtain ⟨hLn, hLm⟩ := hL
  obtain ⟨hAn, hAm⟩ := hA
  obtain ⟨hSn, hSm⟩ := hS
  rw [newPars_eq] at hLm hAm hSm
  have hxk2 : ∀ p, p ∈ n.parents ↔ x ∈ v2.kids p := by
    intro p; rw [hcur]; exact hv2.mirror x (hX x (le_refl _)) p
  -- leaving
  obtain ⟨v4, h4, -, -, hv4, hg4, hf4, hp4, hh4, hk4⟩ := forEach_ok (body := E.leave up dir'.goesUp x)
    (fun l w => l.Nodup ∧ (∀ p ∈ l, p ∈ L) ∧ VInv E rank (fun y => X y ∨ y = x) w ∧ Grow E v3 w ∧ FrameAt rank x v3 w ∧
      w.pars x = npOf E v2.has x ∧ w.has x = true ∧ ∀ p, x ∈ w.kids p ↔ (p ∈ n.parents ∧ p ∉ L) ∨ p ∈ l)
    (by
      rintro p l w ⟨i1, i2, i3, i4, i5, i6, i7, i8⟩
      obtain ⟨w', j1, j2, j3, j4, j5, j6, j7⟩ := leave_ok hE hup hX3 (Or.inr rfl) i3 dir'.goesUp
        ((i8 p).2 (Or.inr (by simp)))
      rw [List.nodup_cons] at i1
      refine ⟨w', j1, i1.2, fun q hq => i2 q (by simp [hq]), j2, i4.trans j3, i5.trans j4, j5.trans i6, j6.trans i7, ?_⟩
      intro q
      rw [j7, i8]
      have hpL : p ∈ L := i2 p (by simp)
      by_cases hq : q = p
      · subst hq; simp [hpL, i1.1]
      · simp [hq])
    L v3 ⟨hLn, fun _ h => h, hv3, Grow.refl _ _, FrameAt.refl _ _ _, by rw [p3, if_pos rfl], by rw [c3]; exact hx2,
      fun p => by
        rw [k3, ← hxk2]
        constructor
        · intro h
          by_cases hpL : p ∈ L
          · exact Or.inr hpL
          · exact Or.inl ⟨h, hpL⟩
        · rintro (h | h)
          · exact h.1
          · exact ((hLm p).1 h).1⟩
  -- joining
  obtain ⟨v5, h5, -, -, hv5, hg5, hf5, hp5, hh5, hk5⟩ := forEach_ok (body := E.join up dir'.goesUp x)
    (fun l w => l.Nodup ∧ (∀ p ∈ l, p ∈ A) ∧ VInv E rank (fun y => X y ∨ y = x) w ∧ Grow E v4 w ∧ FrameAt rank x v4 w ∧
      w.pars x = npOf E v2.has x ∧ w.has x = true ∧ ∀ p, x ∈ w.kids p ↔ (p ∈ n.parents ∧ p ∉ L) ∨ (p ∈ A ∧ p ∉ l))
    (by
      rintro p l w ⟨i1, i2, i3, i4, i5, i6, i7, i8⟩
      have hpA : p ∈ A := i2 p (by simp)
      have hpnew := ((hAm p).1 hpA)
      rw [List.nodup_cons] at i1
      obtain ⟨w', j1, j2, j3, j4, j5, j6, j7⟩ := join_ok hE hup hX3 (Or.inr rfl) i3 dir'.goesUp (p := p)
        (by
          refine i4.has p (hg4.has p ?_)
          rw [c3]; exact (hnp p hpnew.1).1)
        i7 (hnp p hpnew.1).2
        (by rw [i8]; simp [hpnew.2])
      refine ⟨w', j1, i1.2, fun q hq => i2 q (by simp [hq]), j2, i4.trans j3, i5.trans j4, j5.trans i6, j6.trans i7, ?_⟩
      intro q
      rw [j7, i8]
      by_cases hq : q = p
      · subst hq; simp [hpA, i1.1]
      · simp [hq])
    A v4 ⟨hAn, fun _ h => h, hv4, Grow.refl _ _, FrameAt.refl _ _ _, hp4, hh4, fun p => by rw [hk4]; simp⟩
  have hmir : ∀ p, p ∈ npOf E v2.has x ↔ x ∈ v5.kids p := by
    intro p
    rw [hk5]
    have e1 := hLm p
    have e2 := hAm p
    by_cases h : p ∈ n.parents <;> by_cases h' : p ∈ npOf E v2.has x <;> simp_all
  have hv5' : VInv E rank X v5 := by
    refine { hv5 with mirror := fun y hy p => ?_ }
    by_cases hyx : y = x
    · subst hyx; rw [hp5]; exact hmir p
    · exact hv5.mirror y (by rintro (h | h); exact hy h; exact hyx h) p
  have hgAll : Grow E v v5 := hg2.trans (hg3.trans (hg4.trans hg5))
  have hfAll : FrameAt rank x v v5 := hf2.trans (hf3.trans (hf4.trans hf5))
  have hs5 : Snap E v v5 x :=
    (hsnap3.before hg2).after (hg4.trans hg5) (hg2.trans hg3)
  -- staying
  obtain ⟨v6, h6, hv6, hg6, hf6, hh6⟩ : ∃ v6, (if dir'.goesUp = true then Res.forEach up S v5 else .ok v5) = .ok v6 ∧
      VInv E rank X v6 ∧ Grow E v5 v6 ∧ FrameAt rank x v5 v6 ∧ v6.has x = true := by
    cases dir'.goesUp with
    | false => exact ⟨v5, by simp, hv5', Grow.refl _ _, FrameAt.refl _ _ _, hh5⟩
    | true =>
      obtain ⟨v6, b1, b2, b3, b4⟩ := ups_ok hup hX' S (fun p hp => (hnp p ((hSm p).1 hp).1).2) v5 hv5'
      exact ⟨v6, by rw [if_pos rfl]; exact b1, b2, b3, b4.at, ((b4 x (le_refl _)).2.1).trans hh5⟩
  -- the final signal
  have hfinal : ∃ v', (if (!v.has x) = true then Res.ok v6
      else match v6.paths E.root x with
        | .error e => .err e v6
        | .ok ps => .ok (v6.send .modified x ps)) = .ok v' ∧ v'.nodes = v6.nodes ∧ RowsSet v'.out (RowE v'.edge E.root) (v'.under E.root) := by
    cases v.has x with
    | false => exact ⟨v6, by simp, rfl, hv6.rows⟩
    | true =>
      obtain ⟨ps, q1, q2, q3⟩ := paths_spec (hv6.pathsOK hX) (y := x) (le_refl _) hh6
      refine ⟨v6.send .modified x ps, by rw [q1]; simp, View.send_nodes _ _ _ _, ?_⟩
      have hk : (v6.send .modified x ps).edge = v6.edge := by
        unfold View.edge; rw [View.kids_congr (View.send_nodes _ _ _ _)]
      rw [hk, View.under_congr (View.send_nodes _ _ _ _)]
      have hlast : ∀ a ∈ ps, a ≠ [] ∧ a.getLast? = some x := by
        intro a ha
        obtain ⟨b1, b2⟩ := (q3 a).1 ha
        cases a with
        | nil =>
          simp at b2; exact absurd b2.symm hroot
        | cons b l => exact ⟨by simp, by simpa using b2⟩
      exact hv6.rows.modifiedMany ps (fun a ha => (hlast a ha).2) (fun a ha => ⟨(hlast a ha).1, ((q3 a).1 ha).1⟩)
  obtain ⟨v', h7, hn7, hr7⟩ := hfinal
  have hv7 : VInv E rank X v' := hv6.of_out hn7 hr7
  have e1 : v'.has = v6.has := View.has_congr hn7
  have e2 : v'.pars = v6.pars := View.pars_congr hn7
  have e3 : v'.kids = v6.kids := View.kids_congr hn7
  have hg7 : Grow E v6 v' := ⟨fun y hy => by rw [e1]; exact hy, fun y => Or.inl (by rw [e2])⟩
  refine ⟨v', ?_, hv7, hgAll.trans (hg6.trans hg7), hfAll.trans (hf6.trans fun y _ _ => ⟨by rw [e2], by rw [e1], fun p => by rw [e3]⟩),
    by rw [e1]; exact hh6, hs5.after (hg6.trans hg7) hgAll, fun hx => ⟨v2, by simpa [hx] using h2,
      hg3.trans (hg4.trans (hg5.trans (hg6.trans hg7))),
      hsnap3.after (hg4.trans (hg5.trans (hg6.trans hg7))) hg3⟩⟩
  unfold VEnv.settle
  dsimp only
  rw [h2, Res.andThen_ok, hn]
  dsimp only
  rw [hAe, hdir, hLe, hSe, h4, Res.andThen_ok, h5, Res.andThen_ok, h6, Res.andThen_ok]
  exact h7

theorem settle_ok (hE : EOK E rank M) {up : Id → View → Res View} {x : Id} (hup : UpSpec E rank (rank x) up) {X : Id → Prop}
    (hX : ∀ y, rank y ≤ rank x → ¬ X y) {v : View} (hv : VInv E rank X v) (dir : Dir) (hroot : x ≠ E.root)
    (hd : E.disp x = true) :
    ∃ v', E.settle up x dir v = .ok v' ∧ VInv E rank X v' ∧ Grow E v v' ∧ FrameAt rank x v v' ∧ v'.has x = true ∧
      Snap E v v' x := by
  obtain ⟨v', h1, h2, h3, h4, h5, h6, -⟩ := settle_ok_new hE hup hX hv dir hroot hd
  exact ⟨v', h1, h2, h3, h4, h5, h6⟩

/-! ### The whole update -/

theorem update_up_ok (hE : EOK E rank M) : ∀ (f : Nat) (x : Id) (v : View) (X : Id → Prop), rank x < f → VInv E rank X v →
    (∀ y, rank y ≤ rank x → ¬ X y) →
    ∃ v', E.update f x .up v = .ok v' ∧ VInv E rank X v' ∧ Grow E v v' ∧ FrameAt rank x v v' ∧
      (x ≠ E.root → E.disp x = true → v'.has x = true ∧ Snap E v v' x) := by
  intro f
  induction f with
  | zero => intro x v X hf; omega
  | succ f ih =>
    intro x v X hf hv hX
    have hup : UpSpec E rank (rank x) (fun p v => E.update f p .up v) := by
      intro p w Y hp hw hY
      obtain ⟨w', a1, a2, a3, a4, -⟩ := ih p w Y (by omega) hw hY
      exact ⟨w', a1, a2, a3, a4.ge hp⟩
    unfold VEnv.update
    by_cases hr : x = E.root
    · rw [if_pos hr]
      exact ⟨v, rfl, hv, Grow.refl _ _, FrameAt.refl _ _ _, fun h => absurd hr h⟩
    rw [if_neg hr]
    cases hd : E.disp x with
    | true =>
      rw [if_neg (by simp), if_pos rfl]
      obtain ⟨v', a1, a2, a3, a4, a5, a6⟩ := settle_ok hE hup hX hv .up hr hd
      rw [a1, Res.andThen_ok, if_neg (by simp [a5]), if_neg (by simp [Dir.goesDown])]
      exact ⟨v', rfl, a2, a3, a4, fun _ _ => ⟨a5, a6⟩⟩
    | false =>
      have hx : v.has x = false := by
        by_contra h
        have := hv.sub x (by simpa using h) hr
        rw [hd] at this; cases this
      rw [if_pos ⟨hx, rfl⟩]
      cases hh : E.has x with
      | false => exact ⟨v, by simp, hv, Grow.refl _ _, FrameAt.refl _ _ _, fun _ h => by cases h⟩
      | true =>
        rw [if_pos rfl]
        obtain ⟨v', b1, b2, b3, b4⟩ := ups_ok hup (fun y hy => hX y (by omega)) (E.par x) (hE.parRank x) v hv
        exact ⟨v', b1, b2, b3, b4.at, fun _ h => by cases h⟩

theorem EOK.upSpec (hE : EOK E rank M) {f k : Nat} (hk : k ≤ f) : UpSpec E rank k (fun p v => E.update f p .up v) := by
  intro p w Y hp hw hY
  obtain ⟨w', a1, a2, a3, a4, -⟩ := update_up_ok hE f p w Y (by omega) hw hY
  exact ⟨w', a1, a2, a3, a4.ge hp⟩

theorem mem_newKids (hE : EOK E rank M) {x c : Id} : c ∈ E.newKids x ↔ E.flat = false ∧ x ∈ E.par c ∧ E.disp c = true := by
  unfold VEnv.newKids
  by_cases h : E.flat = false ∧ E.has x = true
  · rw [if_pos h, List.mem_filter]
    constructor
    · rintro ⟨h1, h2⟩
      exact ⟨h.1, (hE.chi x c (hE.dispHas c h2)).1 h1, h2⟩
    · rintro ⟨h1, h2, h3⟩
      exact ⟨(hE.chi x c (hE.dispHas c h3)).2 h2, h3⟩
  · rw [if_neg h]
    constructor
    · intro h; cases h
    · rintro ⟨h1, h2, -⟩
      exact absurd ⟨h1, (hE.parHas c x h2).1⟩ h

/-- A displayed parent stays one while the view grows. -/
theorem Grow.par_stays (hE : EOK E rank M) {v v' : View} (h : Grow E v v') {x c : Id} (hc : x ∈ v.pars c)
    (hf : E.flat = false) (hx : v.has x = true) (hd : E.disp x = true) (hp : x ∈ E.par c) : x ∈ v'.pars c := by
  rcases h.snap c with e | ⟨W, w1, w2, w3⟩
  · rw [e]; exact hc
  · rw [w3]; exact mem_npOf_of hf (hE.parHas c x hp).2 hp (w1 x hx) hd

theorem Snap.par_in (hE : EOK E rank M) {v v' : View} {x c : Id} (h : Snap E v v' c) (hf : E.flat = false)
    (hx : v.has x = true) (hd : E.disp x = true) (hp : x ∈ E.par c) : x ∈ v'.pars c := by
  obtain ⟨W, w1, w2, w3⟩ := h
  rw [w3]; exact mem_npOf_of hf (hE.parHas c x hp).2 hp (w1 x hx) hd

theorem update_down_ok (hE : EOK E rank M) : ∀ (f : Nat) (x : Id) (dir : Dir) (v : View), 2 * M + 2 ≤ f + rank x →
    dir.goesDown = true → VInv E rank (fun _ => False) v →
    ∃ v', E.update f x dir v = .ok v' ∧ VInv E rank (fun _ => False) v' ∧ Grow E v v' ∧
      (x ≠ E.root → E.disp x = true → v'.has x = true ∧ Snap E v v' x ∧
        ∀ c ∈ E.newKids x, v'.has c = true ∧ x ∈ v'.pars c) := by
  intro f
  induction f with
  | zero =>
    intro x dir v hf
    have := hE.bound x
    omega
  | succ f ih =>
    intro x dir v hf hdir hv
    have hxM := hE.bound x
    have hup : UpSpec E rank (rank x) (fun p v => E.update f p .up v) := hE.upSpec (by omega)
    unfold VEnv.update
    by_cases hr : x = E.root
    · rw [if_pos hr]
      exact ⟨v, rfl, hv, Grow.refl _ _, fun h => absurd hr h⟩
    rw [if_neg hr]
    cases hd : E.disp x with
    | true =>
      rw [if_neg (by simp), if_pos rfl]
      obtain ⟨v1, a1, a2, a3, a4, a5, a6⟩ := settle_ok hE hup (fun _ _ h => h) hv dir hr hd
      rw [a1, Res.andThen_ok, if_neg (by simp [a5]), if_pos hdir]
      have hNK : ∀ c ∈ E.newKids x, E.flat = false ∧ x ∈ E.par c ∧ E.disp c = true := fun c hc => (mem_newKids hE).1 hc
      generalize E.newKids x = NK at *
      obtain ⟨v', b1, b2, b3, b4, b5⟩ := forEach_ok
        (body := fun (c : Id) (v : View) => if c ∉ v.kids x then E.update f c .down v else Res.ok v)
        (fun l w => (∀ c ∈ l, c ∈ NK) ∧ VInv E rank (fun _ => False) w ∧ Grow E v1 w ∧
          ∀ c ∈ NK, c ∉ l → w.has c = true ∧ x ∈ w.pars c)
        (by
          rintro c l w ⟨i1, i2, i3, i4⟩
          obtain ⟨hfl, hpc, hdc⟩ := hNK c (i1 c (by simp))
          have hxw : w.has x = true := i3.has x a5
          have hcr : c ≠ E.root := by
            rintro rfl
            have := hE.dispHas _ hdc
            rw [hE.rootHas] at this; cases this
          by_cases hk : c ∈ w.kids x
          · rw [if_neg (by simpa using hk)]
            refine ⟨w, rfl, fun q hq => i1 q (by simp [hq]), i2, i3, ?_⟩
            intro q hq hql
            by_cases hqc : q = c
            · subst hqc
              exact ⟨(i2.kid x q hk).1, (i2.mirror q (fun h => h) x).2 hk⟩
            · exact i4 q hq (by simp [hqc, hql])
          · rw [if_pos hk]
            obtain ⟨w', j1, j2, j3, j4⟩ := ih c .down w (by have := hE.parRank c x hpc; omega) rfl i2
            obtain ⟨k1, k2, -⟩ := j4 hcr hdc
            refine ⟨w', j1, fun q hq => i1 q (by simp [hq]), j2, i3.trans j3, ?_⟩
            intro q hq hql
            by_cases hqc : q = c
            · subst hqc
              exact ⟨k1, k2.par_in hE hfl hxw hd hpc⟩
            · obtain ⟨m1, m2⟩ := i4 q hq (by simp [hqc, hql])
              obtain ⟨n1, n2, n3⟩ := hNK q hq
              exact ⟨j3.has q m1, j3.par_stays hE m2 n1 hxw hd n2⟩)
        NK v1 ⟨fun _ h => h, a2, Grow.refl _ _, fun c h h' => absurd h h'⟩
      exact ⟨v', b1, b3, a3.trans b4, fun _ _ => ⟨b4.has x a5, a6.after b4 a3, fun c hc => b5 c hc (by simp)⟩⟩
    | false =>
      have hx : v.has x = false := by
        by_contra h
        have := hv.sub x (by simpa using h) hr
        rw [hd] at this; cases this
      rw [if_pos ⟨hx, rfl⟩]
      cases hh : E.has x with
      | false => exact ⟨v, by simp, hv, Grow.refl _ _, fun _ h => by cases h⟩
      | true =>
        rw [if_pos rfl]
        obtain ⟨v', b1, b2, b3, b4⟩ := ups_ok hup (fun y hy h => h) (E.par x) (hE.parRank x) v hv
        exact ⟨v', b1, b2, b3, fun _ h => by cases h⟩

/-! ### Everything displayed is shown where it belongs -/

/-- The parents `x` should have once everything displayed is shown. -/
def npAll (E : VEnv) (x : Id) : List Id := npOf E (fun _ => true) x

/-- The parents of `y` in the view are the right ones. -/
def SettledAt (E : VEnv) (v : View) (y : Id) : Prop := ∀ p, p ∈ v.pars y ↔ p ∈ npAll E y

theorem npOf_all {W : Id → Bool} (x : Id) (h : ∀ p ∈ E.par x, E.disp p = true → W p = true) : npOf E W x = npAll E x :=
  npOf_congr E x (fun p hp hd => h p hp hd)

theorem npOf_flat {W : Id → Bool} {x : Id} (h : E.flat = true) : npOf E W x = [E.root] := by
  unfold npOf npCand
  simp [h]

/-- An update of `x` in a view that shows everything else: afterwards everything is shown, and every node is where it
belongs unless it was misplaced before and has nothing to do with `x`. -/
theorem update_settles (hE : EOK E rank M) {f : Nat} {x : Id} {dir : Dir} {v : View} (hf : 2 * M + 2 ≤ f + rank x)
    (hdir : dir.goesDown = true) (hv : VInv E rank (fun _ => False) v)
    (hall : ∀ y, E.disp y = true → y ≠ x → v.has y = true) (hr : x ≠ E.root) (D : Id → Prop)
    (hset : ∀ y, E.disp y = true → y ≠ x → ¬ D y → (E.flat = true ∨ v.has x = true ∨ E.disp x = false ∨ x ∉ E.par y) → SettledAt E v y) :
    ∃ v', E.update f x dir v = .ok v' ∧ VInv E rank (fun _ => False) v' ∧ (∀ y, E.disp y = true → v'.has y = true) ∧
      ∀ y, E.disp y = true → (y ≠ x → ¬ D y) → SettledAt E v' y := by
  obtain ⟨v', h1, h2, h3, h4⟩ := update_down_ok hE f x dir v hf hdir hv
  refine ⟨v', h1, h2, ?_, ?_⟩
  · intro y hy
    by_cases hyx : y = x
    · subst hyx; exact (h4 hr hy).1
    · exact h3.has y (hall y hy hyx)
  · intro y hy hD p
    have hself : ∀ q ∈ E.par x, q ≠ x := by
      rintro q hq rfl
      exact absurd (hE.parRank _ _ hq) (by omega)
    by_cases hyx : y = x
    · subst hyx
      obtain ⟨-, ⟨W, w1, w2, w3⟩, -⟩ := h4 hr hy
      rw [w3, npOf_all y (fun q hq hdq => w1 q (hall q hdq (hself q hq)))]
    · rcases h3.snap y with e | ⟨W, w1, w2, w3⟩
      · rw [e]
        by_cases hc : E.flat = true ∨ v.has x = true ∨ E.disp x = false ∨ x ∉ E.par y
        · exact hset y hy hyx (hD hyx) hc p
        · push Not at hc
          obtain ⟨c0, c1, c2, c3⟩ := hc
          have c2' : E.disp x = true := by simpa using c2
          have hfl : E.flat = false := by simpa using c0
          have := ((h4 hr c2').2.2 y ((mem_newKids hE).2 ⟨hfl, c3, hy⟩)).2
          rw [e] at this
          exact absurd (hv.par y x this).1 c1
      · rw [w3]
        have : npOf E W y = npAll E y := by
          by_cases hft : E.flat = true
          · rw [npAll, npOf_flat hft, npOf_flat hft]
          apply npOf_all
          intro q hq hdq
          by_cases hqx : q = x
          · subst hqx
            by_cases c1 : v.has q = true
            · exact w1 q c1
            · cases hfl : E.flat with
              | false =>
                have := ((h4 hr hdq).2.2 y ((mem_newKids hE).2 ⟨hfl, hq, hy⟩)).2
                rw [w3] at this
                rcases mem_npOf this with h | h
                · exact absurd h hr
                · exact h.2.2.1
              | true => exact absurd hfl hft
          · exact w1 q (hall q hdq hqx)
        rw [this]

end Settle
end Larch
