import Verif.Proofs.Live

/-!
# Live applications do what applications do whose views only record signals
-/

namespace Larch

open Spec

variable {V : Type} {G : Id → Prop} {root : Id} {P : View → Sig → Prop} {diff : List Id → List Id → List Id}

/-- The outcome of an action whose callbacks ended like `t`. -/
def AgreesApp {σ : Type} (r : Res (Live V σ)) (t : Res σ) (a' : FApp V) : Prop :=
  match t with
  | .ok s => r = .ok ⟨a', s⟩
  | .err e s => ∃ u, r = .err e ⟨u, s⟩

/-- The live action `g` goes from `a` to `a'`, and its callbacks are called as `P` says; it raises only if they do. If the
nodes displayed have the property `G`, then those displayed afterwards and those signalled have it. -/
def FollowsApp (G : Id → Prop) (root : Id) (P : View → Sig → Prop) (a a' : FApp V) (g : (σ : Type) → Handler σ → Live V σ → Res (Live V σ)) : Prop :=
  ∃ tr : Calls, (∀ c ∈ tr, P c.1 c.2) ∧ a'.ft.view.out = a.ft.view.out ++ tr.map Prod.snd ∧
    (All G root a.ft.view → All G root a'.ft.view ∧ ∀ c ∈ tr, G c.2.nid) ∧
    ∀ (σ : Type) (cb : Handler σ) (s : σ), AgreesApp (g σ cb ⟨a, s⟩) (callAll cb tr s) a'

theorem FollowsApp.pure {a a' : FApp V} {g : (σ : Type) → Handler σ → Live V σ → Res (Live V σ)}
    (ho : a'.ft.view = a.ft.view) (h : ∀ σ cb s, g σ cb ⟨a, s⟩ = .ok ⟨a', s⟩) : FollowsApp G root P a a' g :=
  ⟨[], by simp, by simp [ho], fun hv => ⟨by rw [ho]; exact hv, by simp⟩, fun σ cb s => h σ cb s⟩

theorem FollowsApp.andThen {a a1 a' : FApp V} {g k : (σ : Type) → Handler σ → Live V σ → Res (Live V σ)}
    (h1 : FollowsApp G root P a a1 g) (h2 : FollowsApp G root P a1 a' k) : FollowsApp G root P a a' (fun σ cb w => (g σ cb w).andThen (k σ cb)) := by
  obtain ⟨t1, p1, o1, k1, f1⟩ := h1
  obtain ⟨t2, p2, o2, k2, f2⟩ := h2
  refine ⟨t1 ++ t2, fun c hc => (List.mem_append.1 hc).elim (p1 c) (p2 c), by rw [o2, o1]; simp, fun hv => ⟨(k2 (k1 hv).1).1,
    fun c hc => (List.mem_append.1 hc).elim ((k1 hv).2 c) ((k2 (k1 hv).1).2 c)⟩, fun σ cb s => ?_⟩
  rw [callAll_append]
  have e1 := f1 σ cb s
  cases ht : callAll cb t1 s with
  | err e s' =>
    rw [ht] at e1
    obtain ⟨u, hu⟩ := e1
    exact ⟨u, by show (g σ cb ⟨a, s⟩).andThen (k σ cb) = _; rw [hu]; rfl⟩
  | ok s' =>
    rw [ht] at e1
    have e1' : g σ cb ⟨a, s⟩ = .ok ⟨a1, s'⟩ := e1
    show AgreesApp ((g σ cb ⟨a, s⟩).andThen (k σ cb)) (callAll cb t2 s') a'
    rw [e1']
    exact f2 σ cb s'

theorem FollowsApp.congr {a a' : FApp V} {g k : (σ : Type) → Handler σ → Live V σ → Res (Live V σ)} (h : FollowsApp G root P a a' g)
    (e : ∀ σ cb s, k σ cb ⟨a, s⟩ = g σ cb ⟨a, s⟩) : FollowsApp G root P a a' k := by
  obtain ⟨tr, p, o, k, f⟩ := h
  exact ⟨tr, p, o, k, fun σ cb s => by rw [e]; exact f σ cb s⟩

/-- An operation of the view. -/
theorem FollowsApp.ofView {a a1 : FApp V} {ft : FT} {v' : View} {g : (σ : Type) → Handler σ → LView σ → Res (LView σ)}
    (h : Follows G root P ft.view v' g) (ho : ft.view = a.ft.view) :
    FollowsApp G root P a { a1 with ft := { ft with view := v' } } (fun σ cb w => Live.withView a1 ft (g σ cb ⟨ft.view, w.aux⟩)) := by
  obtain ⟨tr, p, o, k, f⟩ := h
  refine ⟨tr, p, by rw [← ho]; exact o, by rw [← ho]; exact k, fun σ cb s => ?_⟩
  have := f σ cb s
  cases ht : callAll cb tr s with
  | err e s' =>
    rw [ht] at this
    obtain ⟨u, hu⟩ := this
    exact ⟨{ a1 with ft := { ft with view := u } }, by dsimp only; rw [hu]; rfl⟩
  | ok s' =>
    rw [ht] at this
    have e : g σ cb ⟨ft.view, s⟩ = .ok ⟨v', s'⟩ := this
    show Live.withView a1 ft (g σ cb ⟨ft.view, s⟩) = _
    rw [e]
    rfl

theorem withView_eq {ft ft' : FT} {r : Res View} (h : ft.withView r = .ok ft') : ∃ v, r = .ok v ∧ ft' = { ft with view := v } := by
  cases r with
  | err e v => cases h
  | ok v => cases h; exact ⟨v, rfl, rfl⟩

theorem reacts_follow {s : St} {b : Bank (Id → V)} {d : Id → V} : ∀ {l : List Note} {ft ft' : FT},
    (∀ n ∈ l, ∀ y, n.snap.has y = true → G y) →
    Res.forEach (FT.react diff b d) l ft = .ok ft' →
    FollowsApp G ft.root (Seen ft.root) ⟨s, d, b, ft⟩ ⟨s, d, b, ft'⟩ (fun _ cb => Res.forEach (Live.react diff cb) l) := by
  intro l
  induction l with
  | nil => intro ft ft' _ h; cases h; exact FollowsApp.pure rfl (fun _ _ _ => rfl)
  | cons n l ih =>
    intro ft ft' hg h
    unfold Res.forEach at h
    cases hr : FT.react diff b d n ft with
    | err e u => rw [hr] at h; cases h
    | ok ft1 =>
      rw [hr] at h
      obtain ⟨v, h1, rfl⟩ := withView_eq hr
      have f1 := FollowsApp.ofView (a := ⟨s, d, b, ft⟩) (a1 := ⟨s, d, b, ft⟩) (update_follows (fun y hy => hg n (by simp) y (accepts_has hy)) _ _ _ _ _ h1) rfl
      exact (f1.andThen (ih (fun m hm => hg m (by simp [hm])) h)).congr (fun _ _ _ => rfl)

theorem edit_follows {a a' : FApp V} {op : Op}
    (hg : ∀ n ∈ (step a.s op).state.log.drop a.s.log.length, ∀ y, n.snap.has y = true → G y) (h : a.edit diff op = .ok a') :
    FollowsApp G a.ft.root (Seen a.ft.root) a a' (fun _ cb w => w.edit diff cb op) := by
  obtain ⟨ft, h1, rfl⟩ := withFT_ok h
  have f1 := reacts_follow (s := (step a.s op).state) hg h1
  obtain ⟨tr, p, o, k, f⟩ := f1
  exact ⟨tr, p, o, k, fun σ cb s => f σ cb s⟩

theorem refilter_app_follows {a : FApp V} {ft ft' : FT} (hg : ∀ y, a.s.t.has y = true → G y)
    (ho : ft.view = a.ft.view) (h : ft.refilter diff a.bank a.s.t a.data = .ok ft') :
    FollowsApp G ft.root (Seen ft.root) a { a with ft := ft' } (fun _ cb w => w.refilter diff cb ft) := by
  obtain ⟨v, h1, rfl⟩ := withView_eq h
  exact (FollowsApp.ofView (a := a) (a1 := a) (refilter_follows (fun y hy => hg y (accepts_has hy)) h1) ho).congr (fun _ _ _ => rfl)

theorem apply_follows {a a' : FApp V} (hg : ∀ y, a.s.t.has y = true → G y) {n : FName} {p : Option Params} {rs rf : Bool} (h : a.act diff (.apply n p rs rf) = .ok a') :
    FollowsApp G a.ft.root (Seen a.ft.root) a a' (fun _ cb w => w.applyFilter diff cb n p rs rf) := by
  unfold FApp.act FT.applyFilter at h
  dsimp only at h
  by_cases e1 : (FT.givesParams p && (a.bank.getFilter n).isNone) = true
  · rw [if_pos e1] at h; cases h
  rw [if_neg e1] at h
  generalize hft1 : (if rs = true then ({ a.ft with applied := [] } : FT) else a.ft) = ft1 at h
  have r1 : ft1.root = a.ft.root ∧ ft1.view = a.ft.view := by rw [← hft1]; split <;> exact ⟨rfl, rfl⟩
  generalize hb1 : (if FT.givesParams p = true then a.bank.setParameters n p else a.bank) = b1 at h
  generalize hft2 : (if decide (n ∉ ft1.applied) = true then ({ ft1 with applied := ft1.applied ++ [n] } : FT) else ft1) = ft2 at h
  have r2 : ft2.root = a.ft.root ∧ ft2.view = a.ft.view := by rw [← hft2]; split <;> exact r1
  by_cases e2 : (rf && (FT.givesParams p || decide (n ∉ ft1.applied))) = true
  · rw [if_pos e2] at h
    obtain ⟨ft', h1, rfl⟩ := withFT_ok h
    have f1 := refilter_app_follows (a := { a with bank := b1 }) (ft := ft2) hg r2.2 h1
    rw [r2.1] at f1
    obtain ⟨tr, p', o, k, f⟩ := f1
    refine ⟨tr, p', o, k, fun σ cb s => ?_⟩
    have e : Live.applyFilter diff cb ⟨a, s⟩ n p rs rf = Live.refilter diff cb ft2 ⟨{ a with bank := b1 }, s⟩ := by
      unfold Live.applyFilter
      dsimp only
      rw [if_neg e1, hft1, hb1, hft2, if_pos e2]
    dsimp only
    rw [e]
    exact f σ cb s
  · rw [if_neg e2] at h
    cases h
    refine FollowsApp.pure r2.2 (fun σ cb s => ?_)
    unfold Live.applyFilter
    dsimp only
    rw [if_neg e1, hft1, hb1, hft2, if_neg e2]

theorem unapply_follows {a a' : FApp V} (hg : ∀ y, a.s.t.has y = true → G y) {n : FName} {rf : Bool} (h : a.act diff (.unapply n rf) = .ok a') :
    FollowsApp G a.ft.root (Seen a.ft.root) a a' (fun _ cb w => w.unapplyFilter diff cb n rf) := by
  change a.withFT (a.ft.unapplyFilter diff a.bank a.s.t a.data n rf).2 = _ at h
  unfold FT.unapplyFilter at h
  by_cases e1 : n ∈ a.ft.applied
  · rw [if_pos e1] at h
    cases rf with
    | true =>
      obtain ⟨ft', h1, rfl⟩ := withFT_ok h
      have f1 := refilter_app_follows (a := a) (ft := { a.ft with applied := a.ft.applied.erase n }) hg rfl h1
      exact f1.congr (fun σ cb s => by
        show Live.unapplyFilter diff cb ⟨a, s⟩ n true = _
        unfold Live.unapplyFilter
        rw [if_pos e1]
        rfl)
    | false =>
      cases h
      refine FollowsApp.pure rfl (fun σ cb s => ?_)
      unfold Live.unapplyFilter
      rw [if_pos e1]
      rfl
  · rw [if_neg e1] at h
    cases h
    refine FollowsApp.pure rfl (fun σ cb s => ?_)
    unfold Live.unapplyFilter
    rw [if_neg e1]

theorem reset_follows {a a' : FApp V} (hg : ∀ y, a.s.t.has y = true → G y) {rf : Bool} (h : a.act diff (.reset rf) = .ok a') :
    FollowsApp G a.ft.root (Seen a.ft.root) a a' (fun _ cb w => w.resetFilters diff cb rf) := by
  unfold FApp.act FT.resetFilters at h
  cases rf with
  | true =>
    obtain ⟨ft', h1, rfl⟩ := withFT_ok h
    exact (refilter_app_follows (a := a) (ft := { a.ft with applied := [] }) hg rfl h1).congr (fun _ _ _ => rfl)
  | false => cases h; exact FollowsApp.pure rfl (fun _ _ _ => rfl)

theorem currentState_follows {a a' : FApp V} (h : a.act diff .currentState = .ok a') :
    FollowsApp G a.ft.root (Seen a.ft.root) a a' (fun _ cb w => w.currentState cb) := by
  unfold FApp.act FT.currentState at h
  obtain ⟨ft', h1, rfl⟩ := withFT_ok h
  obtain ⟨v, h2, rfl⟩ := withView_eq h1
  have f1 := Follows.forEachInv (G := G) (root := a.ft.root) (P := Seen a.ft.root) (fun u => u.nodes = a.ft.view.nodes)
    (bodyL := fun σ cb x (u : LView σ) => u.sendAdd cb a.ft.root x a.ft.root) (fun x hx u u' hu hb => by
      have f := sendAdd_follows (G := G) (Or.inl rfl) (by unfold View.kids at hx ⊢; rw [hu]; exact hx) hb
      refine ⟨?_, f⟩
      unfold View.sendAdd at hb
      cases hs : u.paths a.ft.root a.ft.root with
      | error e => rw [hs] at hb; cases hb
      | ok starts =>
        rw [hs] at hb
        obtain ⟨sigs, rfl, -⟩ := addLoop_sends starts x _ u u' _ (by simp) hb
        exact hu) rfl h2
  exact (FollowsApp.ofView (a := a) (a1 := a) f1 rfl).congr (fun _ _ _ => rfl)

/-- The nodes of the tree have the property `G` at every moment of the action. -/
def AllNow (G : Id → Prop) (a : FApp V) : FAct V → Prop
  | .edit op => ∀ n ∈ (step a.s op).state.log.drop a.s.log.length, ∀ y, n.snap.has y = true → G y
  | .change x _ => ∀ n ∈ (step a.s (.refreshNode x)).state.log.drop a.s.log.length, ∀ y, n.snap.has y = true → G y
  | _ => ∀ y, a.s.t.has y = true → G y

/-- Every action: the live application does the same, and its callbacks find the view in order. -/
theorem act_follows {a a' : FApp V} {c : FAct V} (hg : AllNow G a c) (h : a.act diff c = .ok a') :
    FollowsApp G a.ft.root (Seen a.ft.root) a a' (fun _ cb w => w.appAct diff cb c) := by
  cases c with
  | edit op => exact edit_follows hg h
  | change x v =>
    obtain ⟨tr, p, o, k, f⟩ := edit_follows (a := { a with data := fun y => if y = x then v else a.data y }) hg h
    exact ⟨tr, p, o, k, fun σ cb s => f σ cb s⟩
  | bank c => cases h; exact FollowsApp.pure rfl (fun _ _ _ => rfl)
  | setParams n p => cases h; exact FollowsApp.pure rfl (fun _ _ _ => rfl)
  | apply n p rs rf => exact apply_follows hg h
  | unapply n rf => exact unapply_follows hg h
  | reset rf => exact reset_follows hg h
  | currentState => exact currentState_follows h

end Larch
