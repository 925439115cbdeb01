import Verif.Spec.Rough
import Verif.Proofs.Rough
import Verif.Proofs.BelowApp
import Verif.Proofs.Midway
import Verif.Proofs.Now
import Verif.Proofs.Minimal
import Verif.Proofs.LiveApp

/-!
# Histories in which filters raise
-/

namespace Larch

open Graph Spec

variable {V D : Type} {diff : List Id → List Id → List Id}

/-! ### The questions -/

theorem askFilters_truthful (b : Bank D) (t : Tree) (d : D) (bad : Raises) (v : View) (x : Id) : ∀ (l : List FName) (r : Bool),
    FT.askFilters b t d bad v x l = .ok r → r = l.all fun n => match b.getFilter n with
      | some f => f.isDisplayed t d x
      | none => false := by
  intro l
  induction l with
  | nil => intro r h; cases h; rfl
  | cons n l ih =>
    intro r h
    unfold FT.askFilters at h
    rw [List.all_cons]
    cases hg : b.getFilter n with
    | none => rw [hg] at h; cases h; rfl
    | some f =>
      rw [hg] at h
      dsimp only at h ⊢
      cases hb : bad n v x with
      | some e => rw [hb] at h; cases h
      | none =>
        rw [hb] at h
        dsimp only at h
        cases hd : f.isDisplayed t d x with
        | false => rw [hd] at h; cases h; rfl
        | true => rw [hd] at h; rw [Bool.true_and]; exact ih r h

theorem asks_truthful (b : Bank D) (t : Tree) (d : D) (bad : Raises) (applied : List FName) (v : View) (x : Id) (r : Bool)
    (h : FT.asks b t d bad applied v x = .ok r) : r = FT.accepts b t d applied x := by
  unfold FT.asks at h
  unfold FT.accepts
  by_cases hc : x.falsy = false ∧ t.has x = true
  · rw [if_pos hc] at h
    rw [askFilters_truthful b t d bad v x applied r h, hc.1, hc.2]
    rfl
  · rw [if_neg hc] at h
    cases h
    cases h1 : x.falsy with
    | true => rfl
    | false =>
      cases h2 : t.has x with
      | false => rfl
      | true => exact absurd ⟨h1, h2⟩ hc

theorem askFilters_never (b : Bank D) (t : Tree) (d : D) (v : View) (x : Id) (l : List FName) :
    ∃ r, FT.askFilters b t d .never v x l = .ok r := by
  induction l with
  | nil => exact ⟨_, rfl⟩
  | cons n l ih =>
    unfold FT.askFilters
    cases b.getFilter n with
    | none => exact ⟨_, rfl⟩
    | some f =>
      dsimp only [Raises.never]
      split
      · exact ih
      · exact ⟨_, rfl⟩

theorem asks_never (b : Bank D) (t : Tree) (d : D) (applied : List FName) (v : View) (x : Id) :
    FT.asks b t d .never applied v x = .ok (FT.accepts b t d applied x) := by
  have : ∃ r, FT.asks b t d .never applied v x = .ok r := by
    unfold FT.asks
    split
    · exact askFilters_never b t d v x applied
    · exact ⟨_, rfl⟩
  obtain ⟨r, hr⟩ := this
  rw [hr, ← asks_truthful b t d .never applied v x r hr]

/-! ### Nothing raises -/

section

variable {E : VEnv} {ask : View → Id → Except Err Bool}

theorem askAll_total {ask : Id → Except Err Bool} {disp : Id → Bool} (h : ∀ x, ask x = .ok (disp x)) (l : List Id) :
    askAll ask l = .ok (l.filter disp) := by
  induction l with
  | nil => rfl
  | cons x l ih => unfold askAll; rw [h, ih, List.filter_cons]

theorem newKidsR_total (h : ∀ v x, ask v x = .ok (E.disp x)) (v : View) (x : Id) : E.newKidsR ask v x = .ok (E.newKids x) := by
  have : ∃ l, E.newKidsR ask v x = .ok l := by
    unfold VEnv.newKidsR
    split
    · exact ⟨_, askAll_total (h v) _⟩
    · exact ⟨_, rfl⟩
  obtain ⟨l, hl⟩ := this
  rw [hl, newKidsR_ok (fun v x b hb => by rw [h] at hb; cases hb; rfl) hl]

theorem newParsR_total (h : ∀ v x, ask v x = .ok (E.disp x)) (v : View) (x : Id) : E.newParsR ask v x = .ok (E.newPars v x) := by
  have : ∃ l, E.newParsR ask v x = .ok l := by
    unfold VEnv.newParsR
    by_cases hc : E.flat = false ∧ E.has x = true
    · rw [if_pos hc, askAll_total (h v)]; exact ⟨_, rfl⟩
    · rw [if_neg hc]; exact ⟨_, rfl⟩
  obtain ⟨l, hl⟩ := this
  rw [hl, newParsR_ok (fun v x b hb => by rw [h] at hb; cases hb; rfl) hl]

theorem settleR_total (h : ∀ v x, ask v x = .ok (E.disp x)) (up : Id → View → Res View) (x : Id) (dir : Dir) (v : View) :
    E.settleR ask up x dir v = E.settle up x dir v := by
  unfold VEnv.settleR VEnv.settle
  simp only [newParsR_total h]
  rfl

theorem updateR_total (h : ∀ v x, ask v x = .ok (E.disp x)) : ∀ (f : Nat) (x : Id) (dir : Dir) (v : View),
    E.updateR ask f x dir v = E.update f x dir v := by
  intro f
  induction f with
  | zero => intro x dir v; rfl
  | succ f ih =>
    intro x dir v
    unfold VEnv.updateR VEnv.update
    simp only [h, ih, settleR_total h, newKidsR_total h]

theorem fillLoopR_total (h : ∀ v x, ask v x = .ok (E.disp x)) (depth : Nat) : ∀ (f : Nat) (v : View) (q : List Id),
    E.fillLoopR ask depth f v q = E.fillLoop depth f v q := by
  intro f
  induction f with
  | zero => intro v q; cases q <;> rfl
  | succ f ih =>
    intro v q
    cases q with
    | nil => rfl
    | cons x q => unfold VEnv.fillLoopR VEnv.fillLoop; simp only [updateR_total h, ih]

/-- What the view asks is all that counts. -/
theorem updateR_disp (dp : Id → Bool) : ∀ (f : Nat) (x : Id) (dir : Dir) (v : View),
    ({ E with disp := dp } : VEnv).updateR ask f x dir v = E.updateR ask f x dir v := by
  intro f
  induction f with
  | zero => intro x dir v; rfl
  | succ f ih =>
    intro x dir v
    have hu : ∀ dir, (fun (p : Id) (v : View) => ({ E with disp := dp } : VEnv).updateR ask f p dir v) =
        fun p v => E.updateR ask f p dir v := fun dir => by funext p v; exact ih p dir v
    unfold VEnv.updateR
    simp only [hu, ih]
    rfl

theorem fillLoopR_disp (dp : Id → Bool) (depth : Nat) : ∀ (f : Nat) (v : View) (q : List Id),
    ({ E with disp := dp } : VEnv).fillLoopR ask depth f v q = E.fillLoopR ask depth f v q := by
  intro f
  induction f with
  | zero => intro v q; cases q <;> rfl
  | succ f ih =>
    intro v q
    cases q with
    | nil => rfl
    | cons x q => unfold VEnv.fillLoopR; simp only [updateR_disp, ih]

theorem refilterR_disp (dp : Id → Bool) (depth rounds : Nat) (v : View) :
    ({ E with disp := dp } : VEnv).refilterR ask depth rounds v = E.refilterR ask depth rounds v := by
  unfold VEnv.refilterR
  simp only [fillLoopR_disp]

end

theorem reactR_never (b : Bank D) (d : D) (n : Note) (ft : FT) : FT.reactR diff b d .never n ft = FT.react diff b d n ft := by
  unfold FT.reactR FT.react
  rw [updateR_total (fun v x => asks_never b n.snap d ft.applied v x)]

theorem refilterR_never (b : Bank D) (t : Tree) (d : D) (ft : FT) : ft.refilterR diff b t d .never = ft.refilter diff b t d := by
  unfold FT.refilterR FT.refilter VEnv.refilterR VEnv.refilter
  simp only [fillLoopR_total (E := FT.env diff b t d { ft with flat := FT.anyFlat b ft.applied })
    (fun v x => asks_never b t d ft.applied v x)]

/-! ### Refiltering -/

section

variable {E : VEnv} {ask : View → Id → Except Err Bool} {rank : Id → Nat} {M : Nat}

theorem fillLoop_short (hE : EOK E rank M) (hask : Truthful E ask) {W : Id → Nat} (hF : FillOK E W) {depth : Nat} (hd : 2 * M + 2 ≤ depth) :
    ∀ (f : Nat) (q : List Id) (v : View), (q.map W).sum ≤ f → (∀ x ∈ q, E.has x = true) → VInv E rank (fun _ => False) v →
      CutShort (Ajar E rank) (E.fillLoop depth f v q) (E.fillLoopR ask depth f v q) := by
  intro f
  induction f with
  | zero =>
    intro q v hf hq hv
    cases q with
    | nil => exact .same _
    | cons x q =>
      rw [List.map_cons, List.sum_cons, hF.walks] at hf
      omega
  | succ f ih =>
    intro q v hf hq hv
    cases q with
    | nil => exact .same _
    | cons x q =>
      rw [List.map_cons, List.sum_cons, hF.walks] at hf
      have hx := hq x (by simp)
      unfold VEnv.fillLoop VEnv.fillLoopR
      refine CutShort.andThen (update_down_short hE hask depth x .both v (by omega) rfl hv) fun w hw => ?_
      obtain ⟨v1, a1, a2, -, -⟩ := update_down_ok hE depth x .both v (by omega) rfl hv
      rw [a1] at hw; cases hw
      have c : ¬ E.has x = false := by simp [hx]
      rw [if_neg c, if_neg c]
      refine ih (q ++ E.chi x) w (by rw [List.map_append, List.sum_append]; omega) ?_ a2
      intro y hy
      rcases List.mem_append.1 hy with h | h
      · exact hq y (by simp [h])
      · exact hF.chiHas x y h

theorem refilter_short (hE : EOK E rank M) (hask : Truthful E ask) {W : Id → Nat} (hF : FillOK E W) {depth rounds : Nat}
    (hd : 2 * M + 2 ≤ depth) (hr : (E.top.map W).sum ≤ rounds) {rank' : Id → Nat} {M' : Nat} {v : View}
    (hv : Husk E.root rank' M' v) : CutShort (Ajar E rank) (E.refilter depth rounds v) (E.refilterR ask depth rounds v) := by
  obtain ⟨v1, a1, a2, a3⟩ := clear_ok hv
  unfold VEnv.refilter VEnv.refilterR
  rw [a1]
  exact fillLoop_short hE hask hF hd rounds E.top _ hr hF.topHas (rootOnly_inv hE rfl a3)

/-- Nodes about which the filters raise are taken as accepted. -/
noncomputable def lenient (ask : View → Id → Except Err Bool) (x : Id) : Bool :=
  haveI := Classical.dec (∀ v, ask v x ≠ .ok false)
  decide (∀ v, ask v x ≠ .ok false)

theorem lenient_iff {x : Id} : lenient ask x = true ↔ ∀ v, ask v x ≠ .ok false := by
  unfold lenient
  simp

theorem lenient_truthful (h : Truthful E ask) : Truthful { E with disp := lenient ask } ask := by
  intro v x b hb
  show b = lenient ask x
  cases b with
  | true =>
    symm
    rw [lenient_iff]
    intro w hw
    have e1 := h w x false hw
    have e2 := h v x true hb
    rw [← e1] at e2; cases e2
  | false =>
    symm
    rw [Bool.eq_false_iff]
    intro hc
    exact lenient_iff.1 hc v hb

end

theorem env_lenient (hdiff : SetDiff diff) (b : Bank D) {t : Tree} (h : WF t) (d : D) (bad : Raises) (ft : FT)
    (hr : t.has ft.root = false) : EB { FT.env diff b t d ft with disp := lenient (FT.asks b t d bad ft.applied) } := by
  have hE := env_ok hdiff b h d ft hr
  refine ⟨hE.rootHas, ?_, hE.parHas, hE.parNd, hE.chi, hE.diff⟩
  intro x hx
  show t.has x = true
  by_contra hc
  refine lenient_iff.1 hx ft.view ?_
  unfold FT.asks
  rw [if_neg (fun h => hc h.2)]

theorem env_truthful (b : Bank D) (t : Tree) (d : D) (bad : Raises) (ft : FT) :
    Truthful (FT.env diff b t d ft) (FT.asks b t d bad ft.applied) := fun v x r h => asks_truthful b t d bad ft.applied v x r h

/-- `refilter` of any view that can be emptied: it ends as without exceptions, or leaves a view that can be emptied. -/
theorem refilterR_husk (hdiff : SetDiff diff) (b : Bank D) {t : Tree} (h : Good t) (d : D) (bad : Raises) (ft : FT)
    (hr : t.has ft.root = false) {rank' : Id → Nat} {M' : Nat} (hv : Husk ft.root rank' M' ft.view) :
    (∃ ft', ft.refilterR diff b t d bad = .ok ft' ∧ ft.refilter diff b t d = .ok ft') ∨
      ∃ e v, ft.refilterR diff b t d bad = .err e { ft with flat := FT.anyFlat b ft.applied, view := v } ∧
        ∃ rank M, Husk ft.root rank M v := by
  generalize hft : ({ ft with flat := FT.anyFlat b ft.applied } : FT) = ft1
  have hroot : ft1.root = ft.root := by rw [← hft]
  have happ : ft1.applied = ft.applied := by rw [← hft]
  have hvw : ft1.view = ft.view := by rw [← hft]
  have hEB := env_lenient hdiff b h.wf d bad ft1 (by rw [hroot]; exact hr)
  rw [happ] at hEB
  obtain ⟨ht, -, hac⟩ := exists_height t.rawParents t.nodes.keys t.rawParents_keys h.wf.acyclic
  have hg : ∀ y, (View.rootOnly ft.root).get? y = if y = ft.root then some {} else none := by
    intro y; rw [View.rootOnly, Dict.get?_set]; rfl
  have hp : ∀ y, (⟨View.rootOnly ft.root, []⟩ : View).pars y = [] := by
    intro y; unfold View.pars; dsimp only; rw [hg]; split <;> rfl
  have hpe : (FT.env diff b t d ft1).par = t.rawParents := env_par h.wf
  obtain ⟨rank, e1, -⟩ := hEB.rank (v := ⟨View.rootOnly ft.root, []⟩) (hp _) (r := ht)
    ⟨by show ∀ x, ∀ p ∈ (FT.env diff b t d ft1).par x, _; rw [hpe]; exact hac, fun y p hpy => by rw [hp] at hpy; cases hpy⟩
    t.nodes.keys (env_keys (diff := diff) (b := b) (d := d) (ft := ft1) h.wf)
  have hlen : (View.rootOnly ft.root).entries.length = 1 := rfl
  have hF := fill_ok (diff := diff) b h d ft1
  have hcut := refilter_short (depth := FT.depth t ft.view) (rounds := FT.rounds t) (v := ft.view) (rank' := rank') (M' := M')
    (ask := FT.asks b t d bad ft.applied) (W := FT.treeWalks t (t.nodes.entries.length + 2)) e1
    (lenient_truthful (by have := env_truthful (diff := diff) b t d bad ft1; rw [happ] at this; exact this))
    ⟨hF.chiHas, hF.topHas, hF.walks, hF.reach⟩
    (by unfold FT.depth; simp only [Dict.keys_length]; rw [hlen]; omega) (le_refl _)
    (by show Husk ft1.root _ _ _; rw [hroot]; exact hv)
  rw [refilterR_disp] at hcut
  have hR : ft.refilterR diff b t d bad =
      ft1.withView ((FT.env diff b t d ft1).refilterR (FT.asks b t d bad ft.applied) (FT.depth t ft.view) (FT.rounds t) ft.view) := by
    unfold FT.refilterR
    dsimp only
    rw [hft]
  have hN : ft.refilter diff b t d =
      ft1.withView ((FT.env diff b t d ft1).refilter (FT.depth t ft.view) (FT.rounds t) ft.view) := by
    unfold FT.refilter
    dsimp only
    rw [hft]
  rcases hcut with hc | ⟨e, w, hc, X, hw⟩
  · cases hres : (FT.env diff b t d ft1).refilterR (FT.asks b t d bad ft.applied) (FT.depth t ft.view) (FT.rounds t) ft.view with
    | ok v' =>
      left
      refine ⟨{ ft1 with view := v' }, by rw [hR, hres]; rfl, ?_⟩
      have := refilter_reached (E := FT.env diff b t d ft1) (ask := FT.asks b t d bad ft.applied)
        (by have := env_truthful (diff := diff) b t d bad ft1; rw [happ] at this; exact this) hres
      rw [hN, this]; rfl
    | err e v' =>
      exfalso
      rw [hres] at hc
      obtain ⟨u, k1, -⟩ := refilter_ok e1 (W := FT.treeWalks t (t.nodes.entries.length + 2)) ⟨hF.chiHas, hF.topHas, hF.walks, hF.reach⟩
        (depth := FT.depth t ft.view) (rounds := FT.rounds t) (v := ft.view) (rank' := rank') (M' := M')
        (by unfold FT.depth; simp only [Dict.keys_length]; rw [hlen]; omega) (le_refl _)
        (by show Husk ft1.root _ _ _; rw [hroot]; exact hv)
      rw [k1] at hc; cases hc
  · right
    refine ⟨e, w, ?_, rank, _, by have := hw.husk e1; rw [← hroot]; exact this⟩
    rw [hR, hc, ← hft]; rfl

/-! ### Notifications -/

/-- The view hears a notification after which nothing on display is to be hidden: it ends as without exceptions, or can be emptied. -/
theorem reactR_cut {b : Bank (Id → V)} (hdiff : SetDiff diff) {n : Note} (hw : WF n.snap) {d : Id → V} {ft : FT}
    (bad : Raises) (hroot : n.snap.has ft.root = false) {E0 : VEnv} {r : Id → Nat} (hE0 : E0.root = ft.root)
    (ho : ∀ x, ∀ p ∈ n.snap.rawParents x, r p < r x) (hv : VInv E0 r (fun _ => False) ft.view)
    (hx : ∀ y, ft.view.has y = true → y ≠ ft.root → NotRejected b n.snap d bad ft.applied y) :
    (∃ ft', FT.reactR diff b d bad n ft = .ok ft' ∧ FT.react diff b d n ft = .ok ft') ∨
      ∃ e v, FT.reactR diff b d bad n ft = .err e { ft with view := v } ∧ ∃ rank M, Husk ft.root rank M v := by
  have hEB := env_lenient hdiff b hw d bad ft hroot
  have hrp : ft.view.pars ft.root = [] := by rw [← hE0]; exact hv.rootPars
  obtain ⟨rank, e1, e2⟩ := hEB.rank (v := ft.view) hrp (r := r)
    ⟨by show ∀ x, ∀ p ∈ (FT.env diff b n.snap d ft).par x, _; rw [env_par hw]; exact ho, fun y p hp => (hv.par y p hp).2⟩
    n.snap.nodes.keys (env_keys (diff := diff) (b := b) (d := d) (ft := ft) hw)
  have hsub : ∀ y, ft.view.has y = true → y ≠ E0.root → lenient (FT.asks b n.snap d bad ft.applied) y = true := by
    intro y hy hyr
    rw [lenient_iff]
    exact hx y hy (by rw [← hE0]; exact hyr)
  have hv' : VInv { FT.env diff b n.snap d ft with disp := lenient (FT.asks b n.snap d bad ft.applied) } rank (fun _ => False) ft.view :=
    (hv.rerank e2).congrE hE0.symm hsub
  have hcut := update_down_short (ask := FT.asks b n.snap d bad ft.applied) e1 (lenient_truthful (env_truthful (diff := diff) b n.snap d bad ft))
    (FT.depth n.snap ft.view) n.nid .both ft.view (by unfold FT.depth; rw [Dict.keys_length]; omega) rfl hv'
  rw [updateR_disp] at hcut
  rcases hcut with hc | ⟨e, w, hc, X, hX⟩
  · cases hres : (FT.env diff b n.snap d ft).updateR (FT.asks b n.snap d bad ft.applied) (FT.depth n.snap ft.view) n.nid .both ft.view with
    | ok v' =>
      left
      refine ⟨{ ft with view := v' }, by unfold FT.reactR; rw [hres]; rfl, ?_⟩
      have := update_reached (env_truthful (diff := diff) b n.snap d bad ft) _ _ _ _ _ hres
      unfold FT.react; rw [this]; rfl
    | err e v' =>
      exfalso
      rw [hres] at hc
      obtain ⟨u, k1, -⟩ := update_down_ok e1 (FT.depth n.snap ft.view) n.nid .both ft.view (by unfold FT.depth; rw [Dict.keys_length]; omega) rfl hv'
      rw [k1] at hc; cases hc
  · right
    exact ⟨e, w, by unfold FT.reactR; rw [hc]; rfl, rank, _, hX.husk e1⟩

/-- The data of a node change and it is not to be hidden: the view ends as without exceptions, or can be emptied. -/
theorem reactR_husk {b : Bank (Id → V)} (hdiff : SetDiff diff) {t : Tree} (hw : WF t) {d d' : Id → V} {ft : FT}
    (bad : Raises) (hroot : t.has ft.root = false) {x : Id}
    (h : Fit (FT.env diff b t d ft) (fun _ => False) ft.view) (ev : Ev)
    (hx : ∀ y, ft.view.has y = true → y ≠ ft.root → NotRejected b t d' bad ft.applied y) :
    (∃ ft', FT.reactR diff b d' bad ⟨t, ev, x⟩ ft = .ok ft' ∧ FT.react diff b d' ⟨t, ev, x⟩ ft = .ok ft') ∨
      ∃ e v, FT.reactR diff b d' bad ⟨t, ev, x⟩ ft = .err e { ft with view := v } ∧ ∃ rank M, Husk ft.root rank M v := by
  obtain ⟨r, ho, hv⟩ := h.inv
  exact reactR_cut hdiff (n := ⟨t, ev, x⟩) hw bad hroot rfl (by have := ho.1; rw [env_par hw] at this; exact this) hv hx

theorem reactR_reached {b : Bank (Id → V)} {d : Id → V} {bad : Raises} {n : Note} {ft ft' : FT}
    (h : FT.reactR diff b d bad n ft = .ok ft') : FT.react diff b d n ft = .ok ft' := by
  obtain ⟨v, h1, rfl⟩ := withView_eq h
  have := update_reached (env_truthful (diff := diff) b n.snap d bad ft) _ _ _ _ _ h1
  unfold FT.react; rw [this]; rfl

/-- Only what is to be shown comes into the view. -/
theorem update_shown {E : VEnv} (hdiff : SetDiff E.diff) {G : Id → Prop} (hG : ∀ y, E.disp y = true → G y) {f : Nat} {x : Id} {dir : Dir}
    {v v' : View} (h : E.update f x dir v = .ok v') (hv : ∀ y, v.has y = true → y ≠ E.root → G y) :
    ∀ y, v'.has y = true → y ≠ E.root → G y := by
  refine update_closed (I := fun v => ∀ y, v.has y = true → y ≠ E.root → G y) (D := fun _ _ => True) (A := fun _ _ => True) hdiff
    ⟨fun _ _ _ h => h, ?_, ?_, fun _ _ _ _ _ _ _ _ => trivial, fun _ _ _ _ _ _ _ _ => trivial, fun _ _ _ _ _ _ _ => trivial,
      fun _ _ _ _ h _ _ => h, fun _ _ _ _ h _ _ => h, fun _ _ _ _ h _ _ => h, ?_, ?_, ?_, ?_⟩ h hv
  · intro v x h _ hd _ y hy hr
    by_cases hyx : y = x
    · rw [hyx]; exact hG x hd
    · refine h y ?_ hr
      unfold View.has at hy ⊢
      dsimp only at hy
      rw [Dict.has_set] at hy
      simpa [hyx] using hy
  · intro v x h _ _ _ y hy
    rw [View.has_upd] at hy; exact h y hy
  · intro v p x h y hy
    rw [View.has_upd] at hy; exact h y hy
  · intro v p x h _ _ y hy
    rw [View.has_upd] at hy; exact h y hy
  · intro v x c h _ _ _ _ y hy
    rw [View.has_upd] at hy; exact h y hy
  · intro v x sigs h _ _ _ _ y hy
    refine h y ?_
    unfold View.has at hy ⊢
    dsimp only at hy
    rw [Dict.has_del] at hy
    simp only [Bool.and_eq_true] at hy
    simp_all

/-- After some notifications the view shows only what the filters have accepted at one of these moments, or what it has shown before. -/
theorem reacts_shown (hdiff : SetDiff diff) {b : Bank (Id → V)} {d : Id → V} : ∀ (l : List Note) {ft ft' : FT} {G : Id → Prop},
    Res.forEach (FT.react diff b d) l ft = .ok ft' → (∀ y, ft.view.has y = true → y ≠ ft.root → G y) →
    (∃ v, ft' = { ft with view := v }) ∧
    ∀ y, ft'.view.has y = true → y ≠ ft.root → G y ∨ ∃ m ∈ l, FT.accepts b m.snap d ft.applied y = true := by
  intro l
  induction l with
  | nil => intro ft ft' G h hv; cases h; exact ⟨⟨ft.view, rfl⟩, fun y hy hr => .inl (hv y hy hr)⟩
  | cons n l ih =>
    intro ft ft' G h hv
    rw [Res.forEach] at h
    cases hn : FT.react diff b d n ft with
    | err e u => rw [hn] at h; cases h
    | ok ft1 =>
      rw [hn] at h
      obtain ⟨v1, h1, rfl⟩ := withView_eq hn
      have hs := update_shown (E := FT.env diff b n.snap d ft) hdiff (G := fun y => G y ∨ FT.accepts b n.snap d ft.applied y = true)
        (fun y hy => .inr hy) h1 (fun y hy hr => .inl (hv y hy hr))
      obtain ⟨⟨v, e⟩, k⟩ := ih (ft := { ft with view := v1 }) h hs
      refine ⟨⟨v, e⟩, fun y hy hr => ?_⟩
      rcases k y hy hr with (hg | ha) | ⟨m, hm, ha⟩
      · exact .inl hg
      · exact .inr ⟨n, by simp, ha⟩
      · exact .inr ⟨m, by simp [hm], ha⟩

/-! ### Histories -/

/-- The view can be emptied. -/
structure HState (a : FApp V) : Prop where
  good : Good a.s.t
  tidy : NoDangling a.s.t
  bank : BankInv a.bank
  rootFree : a.s.t.has a.ft.root = false
  husk : ∃ rank M, Husk a.ft.root rank M a.ft.view

theorem VState.hstate (hdiff : SetDiff diff) {a : FApp V} (h : VState diff a) : HState a := by
  obtain ⟨rank, M, hw⟩ := h.fit.whole hdiff h.good.wf h.rootFree
  exact ⟨h.good, h.tidy, h.bank, h.rootFree, rank, M, hw.husk⟩

/-- The view of the application is right, or can at least be emptied. -/
structure RState (diff : List Id → List Id → List Id) (r : RoughApp V) : Prop where
  whole : r.hurt = false → VState diff r.app
  husk : HState r.app

theorem HState.refilterR (hdiff : SetDiff diff) {a : FApp V} (h : HState a) (b : Bank (Id → V)) (hb : BankInv b)
    (ap : List FName) (bad : Raises) (g : Bool) :
    RState diff (RoughApp.settle { a with bank := b } g (({ a.ft with applied := ap } : FT).refilterR diff b a.s.t a.data bad)) ∧
    ∃ ft', ({ a.ft with applied := ap } : FT).refilter diff b a.s.t a.data = .ok ft' ∧
      VState diff { a with bank := b, ft := ft' } := by
  obtain ⟨rank, M, hw⟩ := h.husk
  obtain ⟨v, e, hfit⟩ := refilter_fit hdiff b h.good a.data { a.ft with applied := ap } h.rootFree hw
  have hv : VState diff { a with bank := b, ft := { a.ft with applied := ap, flat := FT.anyFlat b ap, view := v } } :=
    ⟨h.good, h.tidy, hb, h.rootFree, rfl, hfit⟩
  refine ⟨?_, _, e, hv⟩
  rcases refilterR_husk hdiff b h.good a.data bad { a.ft with applied := ap } h.rootFree hw with ⟨ft', k1, k2⟩ | ⟨e', w, k1, k2⟩
  · rw [e] at k2
    cases k2
    rw [k1]
    exact ⟨fun _ => hv, hv.hstate hdiff⟩
  · rw [k1]
    exact ⟨fun hc => (by cases hc), h.good, h.tidy, hb, h.rootFree, k2⟩

/-- The bank and the list of filters change, the view does not. -/
theorem HState.rebank {a : FApp V} (h : HState a) (b : Bank (Id → V)) (hb : BankInv b) (ap : List FName) :
    HState { a with bank := b, ft := { a.ft with applied := ap } } :=
  ⟨h.good, h.tidy, hb, h.rootFree, h.husk⟩

theorem change_rstate (hdiff : SetDiff diff) {r : RoughApp V} (h : RState diff r) (x : Id) (w : V) (bad : Raises)
    (hf : RoughFair r (.does (.change x w) bad)) : RState diff (r.step diff (.does (.change x w) bad)) := by
  have hh : r.hurt = false := by
    cases hc : r.hurt with
    | false => rfl
    | true => exact (hf.1 hc).elim
  have hv := h.whole hh
  obtain ⟨a', c1, c2⟩ := change_vstate hdiff hv x w (hf.2.1 hh).1
  have hx := (hf.2.1 hh).2 x w rfl
  unfold RoughApp.step
  dsimp only
  have c1' : FApp.edit diff ({ r.app with data := fun y => if y = x then w else r.app.data y } : FApp V) (.refreshNode x) = .ok a' := c1
  unfold FApp.edit at c1'
  dsimp only at c1'
  by_cases hx' : x ≠ rootId ∧ r.app.s.t.has x = true
  · have es : (step r.app.s (.refreshNode x)).state = r.app.s.emit .modified x := by
      show (modifyNode r.app.s x).state = _
      unfold modifyNode; rw [if_pos hx']; rfl
    have el : (r.app.s.emit .modified x).log = r.app.s.log ++ [⟨r.app.s.t, .modified, x⟩] := rfl
    rw [es, el, List.drop_left] at c1' ⊢
    have hone : ∀ (f : Note → FT → Res FT) n ft, Res.forEach f [n] ft = f n ft := by
      intro f n ft
      rw [Res.forEach]
      cases f n ft <;> rfl
    rw [hone] at c1' ⊢
    have hgo : (∃ ft', FT.reactR diff r.app.bank (fun y => if y = x then w else r.app.data y) bad ⟨r.app.s.t, .modified, x⟩ r.app.ft = .ok ft' ∧
        FT.react diff r.app.bank (fun y => if y = x then w else r.app.data y) ⟨r.app.s.t, .modified, x⟩ r.app.ft = .ok ft') ∨
        ∃ e v, FT.reactR diff r.app.bank (fun y => if y = x then w else r.app.data y) bad ⟨r.app.s.t, .modified, x⟩ r.app.ft =
          .err e { r.app.ft with view := v } ∧ ∃ rank M, Husk r.app.ft.root rank M v := by
      rcases hx with hx | hx
      · subst hx
        cases hq : FT.react diff r.app.bank (fun y => if y = x then w else r.app.data y) ⟨r.app.s.t, .modified, x⟩ r.app.ft with
        | ok ft' => exact Or.inl ⟨_, by rw [reactR_never]; exact hq, rfl⟩
        | err e ft' => rw [hq] at c1'; cases c1'
      · refine reactR_husk hdiff hv.good.wf bad hv.rootFree hv.fit .modified fun y hy hyr => ?_
        by_cases hyx : y = x ∨ ¬ FewerApplied r.app
        · exact hx y hy hyr hyx
        · push Not at hyx
          intro v hc
          have e3 := asks_truthful r.app.bank r.app.s.t _ bad r.app.ft.applied v y false hc
          obtain ⟨rk, -, hvi⟩ := hv.fit.inv
          have e4 : FT.accepts r.app.bank r.app.s.t r.app.data r.app.ft.applied y = true := hvi.sub y hy hyr
          rw [accepts_kids hyx.2 hv.good.wf hv.good.wf rfl (d := r.app.data) (if_neg hyx.1).symm fun z => Iff.rfl, e4] at e3
          cases e3
    rcases hgo with ⟨ft', k1, k2⟩ | ⟨e, v, k1, k2⟩
    · rw [k1]
      rw [k2] at c1'
      cases c1'
      exact ⟨fun _ => c2, c2.hstate hdiff⟩
    · rw [k1]
      exact ⟨fun hc => (by cases hc), hv.good, hv.tidy, hv.bank, hv.rootFree, k2⟩
  · have es : (step r.app.s (.refreshNode x)).state = r.app.s := by
      show (modifyNode r.app.s x).state = _
      unfold modifyNode; rw [if_neg hx']; rfl
    rw [es, List.drop_length] at c1' ⊢
    cases c1'
    exact ⟨fun _ => c2, c2.hstate hdiff⟩

/-- An edit during which a filter may raise. -/
theorem edit_rstate (hdiff : SetDiff diff) {r : RoughApp V} (h : RState diff r) (op : Op) (bad : Raises)
    (hf : RoughFair r (.does (.edit op) bad)) : RState diff (r.step diff (.does (.edit op) bad)) := by
  have hh : r.hurt = false := by
    cases hc : r.hurt with
    | false => rfl
    | true => exact (hf.1 hc).elim
  have hv := h.whole hh
  have hvf := (hf.2.1 hh).1
  obtain ⟨a', c1, c2⟩ := act_vstate hdiff hv (.edit op) hvf
  have c1' : FApp.edit diff r.app op = .ok a' := c1
  have hi := Now.step_interleaves (tell := FT.reactR diff r.app.bank r.app.data bad) r.app.s r.app.ft op
  obtain ⟨notes, hl, hi⟩ := hi
  unfold FApp.edit at c1'
  dsimp only at c1'
  unfold RoughApp.step
  dsimp only
  rw [hl, List.drop_left] at c1' ⊢
  rcases hi with ⟨o', k1, k2⟩ | ⟨pre, n, post, o1, e, o2, k1, k2, k3, k4⟩
  · have k1' := forEach_reached (fun _ _ _ h => reactR_reached h) k1
    rw [k1'] at c1'
    have hs : (Now.step (Now.quietly (FT.reactR diff r.app.bank r.app.data bad)) ⟨r.app.s, r.app.ft⟩ op).state = ⟨(step r.app.s op).state, o'⟩ := by
      rw [k2]; cases step r.app.s op <;> rfl
    rw [hs, k1]
    cases c1'
    exact ⟨fun _ => c2, c2.hstate hdiff⟩
  · have k2' := forEach_reached (fun _ _ _ h => reactR_reached h) k2
    obtain ⟨hroot, hm, -⟩ := edit_watch hdiff hv op hvf
    obtain ⟨rk, ho, hvi⟩ := hv.fit.inv
    obtain ⟨⟨v, rfl⟩, hsh⟩ := reacts_shown hdiff pre (G := fun y => FT.accepts r.app.bank r.app.s.t r.app.data r.app.ft.applied y = true)
      k2' (fun y hy hr => hvi.sub y hy hr)
    have hM := hm pre n post v (by rw [hl, k1]) k2'
    rcases (hf.2.2 hh) op rfl with hb | ⟨hd, hst⟩
    · -- nothing raises
      exfalso
      rw [hb, reactR_never] at k3
      rw [k1, forEach_append, k2', Res.andThen, Res.forEach, k3] at c1'
      cases c1'
    have hca : Careful r.app.s op := hvf.1.1
    obtain ⟨-, l1, g1, g2⟩ := step_goodSince (L := r.app.s.log) hv.good hv.tidy op hca hd ⟨hv.good, [], by simp, by simp⟩
    obtain ⟨-, l2, g3, g4⟩ := step_tidySince (L := r.app.s.log) hv.good hv.tidy op hca hd ⟨hv.tidy, [], by simp, by simp⟩
    have e1 : l1 = notes := List.append_cancel_left (g1.symm.trans hl)
    have e2 : l2 = notes := List.append_cancel_left (g3.symm.trans hl)
    rw [e1] at g2
    rw [e2] at g4
    have hn : n ∈ notes := by rw [k1]; simp
    obtain ⟨E0, rk1, q1, q2, q3⟩ := hM.inv
    have hnr : ∀ y, v.has y = true → y ≠ r.app.ft.root → NotRejected r.app.bank n.snap r.app.data bad r.app.ft.applied y := by
      intro y hy hyr
      have hsome : ∃ t, (t = r.app.s.t ∨ ∃ m ∈ pre, t = m.snap) ∧ WF t ∧ FT.accepts r.app.bank t r.app.data r.app.ft.applied y = true := by
        rcases hsh y hy hyr with ha | ⟨m, hm', ha⟩
        · exact ⟨_, .inl rfl, hv.good.wf, ha⟩
        · exact ⟨_, .inr ⟨m, hm', rfl⟩, (g2 m (by rw [k1]; simp [hm'])).wf, ha⟩
      obtain ⟨t, ht, htw, ha⟩ := hsome
      rcases hst with own | hst
      · intro u hc
        have e3 := asks_truthful r.app.bank n.snap r.app.data bad r.app.ft.applied u y false hc
        have hny : n.snap.has y = true := by
          by_cases hyn : y = n.nid
          · rw [hyn]; exact (g4 n hn).2
          · exact hM.has y hy hyr hyn
        rw [accepts_own own (t := t) (d := r.app.data) (by rw [hny, accepts_has ha]) rfl, ha] at e3
        cases e3
      · exact hst pre n post (by rw [hl, k1]) y t ht ((accepts_iff (a := { r.app with s := ⟨t, []⟩ }) htw y).1 ha)
    rcases reactR_cut hdiff (n := n) (ft := { r.app.ft with view := v }) hM.wf bad hM.rootFree q1 q2 q3 hnr with ⟨ft', z1, -⟩ | ⟨e', w, z1, z2⟩
    · rw [z1] at k3; cases k3
    · rw [z1] at k3
      cases k3
      rw [k4]
      have htold : Res.forEach (FT.reactR diff r.app.bank r.app.data bad) notes r.app.ft = .err e { r.app.ft with view := w } := by
        rw [k1, forEach_append, k2, Res.andThen, Res.forEach, z1]; rfl
      rw [htold]
      refine ⟨fun hc => ?_, (g2 n hn), (g4 n hn).1, hv.bank, hM.rootFree, z2⟩
      have : (r.hurt || true) = false := hc
      simp at this

theorem step_rstate (hdiff : SetDiff diff) {r : RoughApp V} (h : RState diff r) (c : RoughAct V) (hf : RoughFair r c) :
    RState diff (r.step diff c) := by
  cases c with
  | refilter bad => exact (h.husk.refilterR hdiff r.app.bank h.husk.bank r.app.ft.applied bad false).1
  | does c bad =>
    have plain : (∀ op, c ≠ .edit op) → (∀ x w, c ≠ .change x w) → (∀ n p rs rf, c ≠ .apply n p rs rf) → (∀ n rf, c ≠ .unapply n rf) → (∀ rf, c ≠ .reset rf) →
        (Mending c → ∃ a', r.app.act diff c = .ok a' ∧ HState a') → RState diff (r.step diff (.does c bad)) := by
      intro n0 n1 n2 n3 n4 hm
      have hs : r.step diff (.does c bad) = match r.app.act diff c with
          | .ok a' => ⟨a', r.hurt⟩
          | .err _ a' => ⟨a', true⟩ := by
        cases c with
        | change x w => exact absurd rfl (n1 x w)
        | apply n p rs rf => exact absurd rfl (n2 n p rs rf)
        | unapply n rf => exact absurd rfl (n3 n rf)
        | reset rf => exact absurd rfl (n4 rf)
        | edit op => exact absurd rfl (n0 op)
        | bank _ => rfl
        | setParams _ _ => rfl
        | currentState => rfl
      rw [hs]
      cases hh : r.hurt with
      | false =>
        obtain ⟨a', k1, k2⟩ := act_vstate hdiff (h.whole hh) c (hf.2.1 hh).1
        rw [k1]
        exact ⟨fun _ => k2, k2.hstate hdiff⟩
      | true =>
        obtain ⟨a', k1, k2⟩ := hm (hf.1 hh)
        rw [k1]
        exact ⟨fun hc => (by cases hc), k2⟩
    cases c with
    | edit op => exact edit_rstate hdiff h op bad hf
    | currentState => exact plain (by simp) (by simp) (by simp) (by simp) (by simp) fun hm => hm.elim
    | change x w => exact change_rstate hdiff h x w bad hf
    | bank c =>
      refine plain (by simp) (by simp) (by simp) (by simp) (by simp) fun hm => ⟨_, rfl, ?_⟩
      refine ⟨h.husk.good, h.husk.tidy, bank_call _ h.husk.bank c, h.husk.rootFree, h.husk.husk⟩
    | setParams n p =>
      refine plain (by simp) (by simp) (by simp) (by simp) (by simp) fun hm => ⟨_, rfl, ?_⟩
      exact ⟨h.husk.good, h.husk.tidy, setParameters_inv h.husk.bank n _, h.husk.rootFree,
        h.husk.husk⟩
    | apply n p rs rf =>
      unfold RoughApp.step FT.applyFilterR
      dsimp only
      by_cases herr : (FT.givesParams p && (r.app.bank.getFilter n).isNone) = true
      · -- the filter is unknown
        rw [if_pos herr]
        refine ⟨fun hc => (by cases hc), ?_⟩
        have e1 : ∃ ap, (if rs then { r.app.ft with applied := [] } else r.app.ft : FT) = { r.app.ft with applied := ap } := by
          split; exacts [⟨_, rfl⟩, ⟨r.app.ft.applied, rfl⟩]
        obtain ⟨ap, e1⟩ := e1
        rw [e1]
        exact h.husk.rebank _ h.husk.bank ap
      · rw [if_neg herr]
        generalize hb1 : (if FT.givesParams p then r.app.bank.setParameters n p else r.app.bank) = b1
        have hbi : BankInv b1 := by rw [← hb1]; split; exacts [setParameters_inv h.husk.bank n p, h.husk.bank]
        have e1 : (if rs then { r.app.ft with applied := [] } else r.app.ft : FT) =
            { r.app.ft with applied := if rs then [] else r.app.ft.applied } := by
          cases rs <;> rfl
        rw [e1]
        generalize hap : (if rs then [] else r.app.ft.applied : List FName) = ap1
        dsimp only
        have e2 : ∃ ap, (if decide (n ∉ ap1) = true then ({ r.app.ft with applied := ap1 ++ [n] } : FT) else { r.app.ft with applied := ap1 }) =
            { r.app.ft with applied := ap } := by
          split; exacts [⟨_, rfl⟩, ⟨_, rfl⟩]
        obtain ⟨ap2, e2⟩ := e2
        by_cases hc : (rf && (FT.givesParams p || decide (n ∉ ap1))) = true
        · rw [if_pos hc, e2]
          exact (h.husk.refilterR hdiff b1 hbi ap2 bad _).1
        · rw [if_neg hc]
          have hc' : (rf && (FT.givesParams p || decide (n ∉ ap1))) = false := by simpa using hc
          rw [hc']
          dsimp only
          refine ⟨?_, ?_⟩
          · intro hh
            have hh' : r.hurt = false := by
              have : (r.hurt && !false) = false := hh
              simpa using this
            obtain ⟨rfl, -⟩ := (hf.2.1 hh').1
            rw [Bool.true_and, Bool.or_eq_false_iff] at hc'
            have hn : n ∈ ap1 := by simpa using hc'.2
            have hrs : rs = false := by
              cases rs with
              | false => rfl
              | true => rw [← hap] at hn; cases hn
            subst hrs
            have hap' : ap1 = r.app.ft.applied := hap.symm
            have hb1' : b1 = r.app.bank := by rw [← hb1, hc'.1]; rfl
            show VState diff { r.app with bank := b1, ft := if decide (n ∉ ap1) = true then ({ r.app.ft with applied := ap1 ++ [n] } : FT) else { r.app.ft with applied := ap1 } }
            rw [hb1', hap', if_neg (by rw [hap'] at hn; simpa using hn)]
            exact h.whole hh'
          · show HState { r.app with bank := b1, ft := if decide (n ∉ ap1) = true then ({ r.app.ft with applied := ap1 ++ [n] } : FT) else { r.app.ft with applied := ap1 } }
            rw [e2]
            exact h.husk.rebank _ hbi ap2
    | unapply n rf =>
      unfold RoughApp.step FT.unapplyFilterR
      dsimp only
      by_cases hn : n ∈ r.app.ft.applied
      · rw [if_pos hn]
        dsimp only
        cases rf with
        | true =>
          rw [if_pos rfl]
          exact (h.husk.refilterR hdiff r.app.bank h.husk.bank _ bad _).1
        | false =>
          refine ⟨fun hh => ?_, h.husk.rebank _ h.husk.bank _⟩
          have hh' : r.hurt = false := by
            have : (r.hurt && !false) = false := hh
            simpa using this
          exact absurd (hf.2.1 hh').1 (by intro hc; cases hc)
      · rw [if_neg hn]
        refine ⟨fun hh => h.whole ?_, h.husk⟩
        have : (r.hurt && !(rf && decide (n ∈ r.app.ft.applied))) = false := hh
        rw [decide_eq_false hn] at this
        simpa using this
    | reset rf =>
      unfold RoughApp.step FT.resetFiltersR
      dsimp only
      cases rf with
      | true =>
        rw [if_pos rfl]
        exact (h.husk.refilterR hdiff r.app.bank h.husk.bank _ bad _).1
      | false =>
        refine ⟨fun hh => ?_, h.husk.rebank _ h.husk.bank _⟩
        have hh' : r.hurt = false := by
          have : (r.hurt && !false) = false := hh
          simpa using this
        exact absurd (hf.2.1 hh').1 (by intro hc; cases hc)

theorem run_rstate (hdiff : SetDiff diff) : ∀ (cs : List (RoughAct V)) {r : RoughApp V}, RState diff r → RoughFairRun diff cs r →
    RState diff (r.run diff cs) := by
  intro cs
  induction cs with
  | nil => intro r h _; exact h
  | cons c cs ih => intro r h hf; exact ih (step_rstate hdiff h c hf.1) hf.2

end Larch
