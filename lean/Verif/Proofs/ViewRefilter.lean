import Verif.Proofs.ViewRead

/-!
# `refilter` of any view that holds together
-/

namespace Larch

open Graph Spec

variable {D : Type} {diff : List Id → List Id → List Id}

/-- The clearing part of `refilter` succeeds whatever was sent before, and does not touch the nodes. -/
theorem clear_any {ft : FT} (h : ViewOK ft) :
    ∃ o, Res.forEach (fun x v => v.sendRemove ft.root x ft.root) (ft.view.kids ft.root).reverse ft.view =
      .ok ⟨ft.view.nodes, o⟩ := by
  obtain ⟨sent, -, -, hrows⟩ := h.announce
  obtain ⟨rank, M, hF⟩ := h.frame
  obtain ⟨v', a1, a2, -⟩ := clear_ok ((hF.reout sent).whole hrows.plain).husk
  have hb := Blind.forEach (fun x => View.sendRemove_blind ft.root x ft.root) (ft.view.kids ft.root).reverse
  have h1 := hb sent ⟨ft.view.nodes, []⟩
  have e1 : View.pre sent ⟨ft.view.nodes, []⟩ = ⟨ft.view.nodes, sent⟩ := by unfold View.pre; simp
  rw [e1] at h1
  have a1' : Res.forEach (fun x v => v.sendRemove ft.root x ft.root) (ft.view.kids ft.root).reverse ⟨ft.view.nodes, sent⟩ = .ok v' := a1
  rw [a1'] at h1
  have h2 := hb ft.view.out ⟨ft.view.nodes, []⟩
  have e2 : View.pre ft.view.out ⟨ft.view.nodes, []⟩ = ft.view := by unfold View.pre; simp
  rw [e2] at h2
  cases hc : Res.forEach (fun x (v : View) => v.sendRemove ft.root x ft.root) (ft.view.kids ft.root).reverse
      (⟨ft.view.nodes, []⟩ : View) with
  | err e s => rw [hc] at h1; cases h1
  | ok u =>
    rw [hc] at h1 h2
    have hu : v' = View.pre sent u := by injection h1
    have hn : u.nodes = ft.view.nodes := by
      have : v'.nodes = u.nodes := by rw [hu]; rfl
      rw [← this]; exact a2
    refine ⟨ft.view.out ++ u.out, ?_⟩
    rw [h2]
    show Res.ok (View.mk u.nodes _) = _
    rw [hn]

/-- `refilter` of any view that holds together, with any filters. -/
theorem refilter_any (hdiff : SetDiff diff) (b : Bank D) {t : Tree} (h : Good t) (d : D) (ft : FT) (hr : t.has ft.root = false)
    (hv : ViewOK ft) :
    ∃ v o, ft.refilter diff b t d = .ok { ft with flat := FT.anyFlat b ft.applied, view := v } ∧
      Fit (FT.env diff b t d { ft with flat := FT.anyFlat b ft.applied }) (fun _ => False) ⟨v.nodes, o⟩ ∧
      (RowsSet ft.view.out (RowE ft.view.edge ft.root) (fun _ => []) → o = v.out) := by
  obtain ⟨rank, M, hF⟩ := hv.frame
  by_cases hrows : RowsSet ft.view.out (RowE ft.view.edge ft.root) (fun _ => [])
  · obtain ⟨v, e, hf⟩ := refilter_fit hdiff b h d ft hr (hF.whole hrows).husk
    exact ⟨v, v.out, e, hf, fun _ => rfl⟩
  · obtain ⟨sent, -, -, hrows'⟩ := hv.announce
    obtain ⟨v, e, hf⟩ := refilter_fit hdiff b h d { ft with view := ⟨ft.view.nodes, sent⟩ } hr ((hF.reout sent).whole hrows'.plain).husk
    unfold FT.refilter at e
    dsimp only at e
    have hb := (FT.env diff b t d { ft with flat := FT.anyFlat b ft.applied }).refilter_blind (FT.depth t ft.view) (FT.rounds t)
    have h1 := hb sent ⟨ft.view.nodes, []⟩
    have e1 : View.pre sent ⟨ft.view.nodes, []⟩ = ⟨ft.view.nodes, sent⟩ := by unfold View.pre; simp
    rw [e1] at h1
    have h2 := hb ft.view.out ⟨ft.view.nodes, []⟩
    have e2 : View.pre ft.view.out ⟨ft.view.nodes, []⟩ = ft.view := by unfold View.pre; simp
    rw [e2] at h2
    have e' : FT.withView { ft with flat := FT.anyFlat b ft.applied, view := ⟨ft.view.nodes, sent⟩ }
        ((FT.env diff b t d { ft with flat := FT.anyFlat b ft.applied }).refilter (FT.depth t ft.view) (FT.rounds t)
          ⟨ft.view.nodes, sent⟩) = .ok { ft with flat := FT.anyFlat b ft.applied, view := v } := e
    rw [h1] at e'
    cases hc : (FT.env diff b t d { ft with flat := FT.anyFlat b ft.applied }).refilter (FT.depth t ft.view) (FT.rounds t)
        ⟨ft.view.nodes, []⟩ with
    | err e s => rw [hc] at e'; cases e'
    | ok u =>
      rw [hc] at e' h2
      unfold Res.onState FT.withView at e'
      have hu : v = View.pre sent u := by
        injection e' with e'
        have := congrArg FT.view e'
        exact this.symm
      refine ⟨View.pre ft.view.out u, v.out, ?_, ?_, fun h => absurd h hrows⟩
      · unfold FT.refilter
        dsimp only
        rw [h2]
        rfl
      · have : (⟨(View.pre ft.view.out u).nodes, v.out⟩ : View) = v := by rw [hu]; rfl
        rw [this]
        exact hf

theorem withView_ok {ft ft' : FT} {r : Res View} (h : ft.withView r = .ok ft') : r = .ok ft'.view ∧ ft' = { ft with view := ft'.view } := by
  unfold FT.withView at h
  cases r with
  | err e v => cases h
  | ok v => cases h; exact ⟨rfl, rfl⟩

/-- The result does not depend on what was displayed before. -/
theorem refilter_same (b : Bank D) {t : Tree} (d : D) {ft ft' fa fb : FT} (hr : ft.root = ft'.root)
    (ha : ft.applied = ft'.applied) (hv : ViewOK ft) (hv' : ViewOK ft')
    (e1 : ft.refilter diff b t d = .ok fa) (e2 : ft'.refilter diff b t d = .ok fb) : fa.view.nodes = fb.view.nodes := by
  obtain ⟨o1, c1⟩ := clear_any hv
  obtain ⟨o2, c2⟩ := clear_any hv'
  unfold FT.refilter at e1 e2
  dsimp only at e1 e2
  have e1 := (withView_ok e1).1
  have e2 := (withView_ok e2).1
  have hE : FT.env diff b t d { ft' with flat := FT.anyFlat b ft'.applied } =
      FT.env diff b t d { ft with flat := FT.anyFlat b ft.applied } := by
    unfold FT.env
    dsimp only
    rw [hr, ha]
  rw [hE] at e2
  have hroot : (FT.env diff b t d { ft with flat := FT.anyFlat b ft.applied }).root = ft.root := rfl
  generalize FT.env diff b t d { ft with flat := FT.anyFlat b ft.applied } = E at e1 e2 hroot
  unfold VEnv.refilter at e1 e2
  rw [hroot] at e1 e2
  rw [c1, Res.andThen_ok] at e1
  rw [hr, c2, Res.andThen_ok, ← hr] at e2
  have hb := fun dep o => E.fillLoop_blind dep (FT.rounds t) E.top o ⟨View.rootOnly ft.root, []⟩
  have key : ∀ dep o v, E.fillLoop dep (FT.rounds t) ⟨View.rootOnly ft.root, o⟩ E.top = .ok v →
      ∃ u, E.fillLoop dep (FT.rounds t) ⟨View.rootOnly ft.root, []⟩ E.top = .ok u ∧ v.nodes = u.nodes := by
    intro dep o v hvv
    have := hb dep o
    have ep : View.pre o ⟨View.rootOnly ft.root, []⟩ = ⟨View.rootOnly ft.root, o⟩ := by unfold View.pre; simp
    rw [ep] at this
    dsimp only at this
    rw [hvv] at this
    cases hc : E.fillLoop dep (FT.rounds t) ⟨View.rootOnly ft.root, []⟩ E.top with
    | err e s => rw [hc] at this; cases this
    | ok u => rw [hc] at this; injection this with this; exact ⟨u, rfl, by rw [this]; rfl⟩
  obtain ⟨u1, k1, n1⟩ := key _ _ _ e1
  obtain ⟨u2, k2, n2⟩ := key _ _ _ e2
  have m1 := E.fillLoop_upto (le_max_left (FT.depth t ft.view) (FT.depth t ft'.view)) _ _ _ _ k1
  have m2 := E.fillLoop_upto (le_max_right (FT.depth t ft.view) (FT.depth t ft'.view)) _ _ _ _ k2
  rw [m1] at m2
  cases m2
  rw [n1, n2]

end Larch
