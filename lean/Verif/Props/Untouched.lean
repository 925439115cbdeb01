import Verif.Proofs.Untouched
import Verif.Props.FilteredTree
import Verif.Props.Fewer
import Verif.Spec.Untouched

/-!
# C51: edits leave alone the rows they do not concern

Only `_partial`: the conditions are those of C24 to C27 (`ViewFair`), and when the tree is edited the applied filters look only at a
node's own data. Applying and unapplying filters is excluded: it
deletes every row and adds the rows again (`C51_refuted_filter`). For filters on children it is false (`C51_refuted_children`).
-/

namespace Larch

open Spec

variable {V : Type} {diff : List Id → List Id → List Id}

theorem Fit.has_eq {E : VEnv} {v : View} (h : Fit E (fun _ => False) v) {y : Id} (hr : y ≠ E.root) : v.has y = E.disp y := by
  obtain ⟨r, ho, hv⟩ := h.inv
  cases hd : E.disp y with
  | true => exact h.all y hd
  | false =>
    by_contra hc
    have := hv.sub y (by simpa using hc) hr
    rw [hd] at this; cases this

theorem Uses.step {root : Id} {l : List Id} {p x : Id} {R : Id → Id → Prop} (h : Uses root l p x) (hc : List.IsChain R (root :: l)) : R p x := by
  have := hc.infix h
  simpa using this

/-- A step of a row of a right view. -/
theorem Fit.step {E : VEnv} {v : View} (h : Fit E (fun _ => False) v) {p x : Id} (hx : x ∈ v.kids p) : E.disp x = true ∧ p ∈ npAll E x := by
  obtain ⟨r, ho, hv⟩ := h.inv
  have hp := (hv.mirror x (fun h => h) p).2 hx
  have hxr : x ≠ E.root := by rintro rfl; rw [hv.rootPars] at hp; cases hp
  have hd := hv.sub x (hv.kid p x hx).1 hxr
  exact ⟨hd, (h.settled x hd (fun h => h) p).1 hp⟩

/-- What the invariants say about the signals. -/
theorem Undisturbed.needed {a a' : FApp V} (h : VState diff a) (h' : VState diff a') (hr : a'.ft.root = a.ft.root)
    (hu : Undisturbed (FT.env diff a.bank a.s.t a.data a.ft) (FT.env diff a'.bank a'.s.t a'.data a'.ft) a.ft.view.out a'.ft.view) :
    ∃ l, a'.ft.view.out = a.ft.view.out ++ l ∧ OnlyNeeded a.ft a'.ft l := by
  obtain ⟨⟨-, -, -, -, l, e, h1⟩, -, -, -, l', e', h2⟩ := hu
  rw [e] at e'
  have := List.append_cancel_left e'
  subst this
  refine ⟨l, e, ?_, ?_⟩
  · intro s hs hne
    obtain ⟨z, hz, hz'⟩ := h1 s hs hne
    refine ⟨z, hz, ?_⟩
    have hzr : z ≠ a.ft.root := by
      rintro rfl
      have d1 : (FT.env diff a.bank a.s.t a.data a.ft).disp a.ft.root = false := accepts_falsy h.rootFree
      have d2 : (FT.env diff a'.bank a'.s.t a'.data a'.ft).disp a.ft.root = false := accepts_falsy (by rw [← hr]; exact h'.rootFree)
      rcases hz' with hz' | ⟨hz', -⟩
      · exact hz' (by rw [d1, d2])
      · rw [d1] at hz'; cases hz'
    have e1 := h.fit.has_eq (y := z) hzr
    have e2 := h'.fit.has_eq (y := z) (by show z ≠ a'.ft.root; rw [hr]; exact hzr)
    by_cases hd : a'.ft.view.has z = a.ft.view.has z
    · rw [e1, e2] at hd
      obtain ⟨hz1, p, hp⟩ := hz'.resolve_left (fun h => h hd)
      refine Or.inr ⟨p, ?_⟩
      rw [h.fit.settled z hz1 (fun h => h) p, h'.fit.settled z (by rw [hd]; exact hz1) (fun h => h) p]
      exact hp
    · exact Or.inl hd
  · rintro s hs hne ⟨⟨-, r1⟩, -, r2⟩
    obtain ⟨p, x, hp, hF⟩ := h2 s hs hne
    rw [hr] at r2
    have s1 := h.fit.step (hp.step r1)
    have s2 := h'.fit.step (hp.step r2)
    exact hF ⟨s1.1, s2.1, s1.2, s2.2⟩

theorem reacts_view (b : Bank (Id → V)) (d : Id → V) (l : List Note) : ∀ ft : FT,
    ∃ v, (Res.forEach (FT.react diff b d) l ft).state = { ft with view := v } := by
  induction l with
  | nil => intro ft; exact ⟨ft.view, rfl⟩
  | cons n l ih =>
    intro ft
    have h1 : ∃ v, (FT.react diff b d n ft).state = { ft with view := v } := by
      unfold FT.react FT.withView
      split
      · exact ⟨_, rfl⟩
      · exact ⟨_, rfl⟩
    obtain ⟨v, hv⟩ := h1
    unfold Res.forEach
    cases e : FT.react diff b d n ft with
    | err e' s => rw [e] at hv; exact ⟨v, hv⟩
    | ok s =>
      rw [e] at hv
      have hv' : s = { ft with view := v } := hv
      subst hv'
      obtain ⟨v', hv'⟩ := ih { ft with view := v }
      exact ⟨v', by rw [Res.andThen_ok, hv']⟩

/-- An edit leaves the filters alone. -/
theorem edit_same (a : FApp V) (op : Op) : (a.act diff (.edit op)).state.bank = a.bank ∧ (a.act diff (.edit op)).state.data = a.data ∧
    (a.act diff (.edit op)).state.ft.applied = a.ft.applied ∧ (a.act diff (.edit op)).state.ft.root = a.ft.root := by
  show (FApp.withFT _ (Res.forEach _ _ _)).state.bank = _ ∧ (FApp.withFT _ (Res.forEach _ _ _)).state.data = _ ∧
    (FApp.withFT _ (Res.forEach _ _ _)).state.ft.applied = _ ∧ (FApp.withFT _ (Res.forEach _ _ _)).state.ft.root = _
  obtain ⟨v, hv⟩ := reacts_view (diff := diff) a.bank a.data ((Larch.step a.s op).state.log.drop a.s.log.length) a.ft
  generalize Res.forEach _ _ _ = r at hv ⊢
  cases r with
  | ok ft => cases hv; exact ⟨rfl, rfl, rfl, rfl⟩
  | err e ft => cases hv; exact ⟨rfl, rfl, rfl, rfl⟩

theorem edit_needed (hdiff : SetDiff diff) {a a' : FApp V} (h : VState diff a) (c : FAct V) (hc : IsEdit c) (hf : ViewFair a c)
    (hown : ∀ op, c = .edit op → OwnApplied a) (he : a.act diff c = .ok a') : ∃ l, a'.ft.view.out = a.ft.view.out ++ l ∧ OnlyNeeded a.ft a'.ft l := by
  obtain ⟨a1, e1, h1⟩ := act_vstate hdiff h c hf
  rw [he] at e1
  cases e1
  cases c with
  | edit op =>
    refine (edit_undisturbed hdiff h (hown op rfl) op hf.1 he).needed h h1 ?_
    have := (edit_same (diff := diff) a op).2.2.2
    rw [he] at this
    exact this
  | change x w =>
    refine (change_undisturbed hdiff h x w he).needed h h1 ?_
    have := (edit_same (diff := diff) { a with data := fun y => if y = x then w else a.data y } (.refreshNode x)).2.2.2
    change (a.act diff (.change x w)).state.ft.root = a.ft.root at this
    rw [he] at this
    exact this
  | _ => exact absurd hc id

/-- C51, in full: after every fair history, every further edit and every announced change sends only the signals that are
needed. -/
theorem C51_edits_partial {ops : List Op} {bcs : List (Bank.Call (Id → V))} {root : Id} (h : ViewStart ops root)
    (hdiff : SetDiff diff) (d : Id → V) :
    ∃ ft, FT.new diff (Bank.run {} bcs) (runOps St.init ops).t d root true = .ok ft ∧
      ∀ cs, ViewFairRun diff cs ⟨runOps St.init ops, d, Bank.run {} bcs, ft⟩ →
        ∃ a, FApp.run diff cs ⟨runOps St.init ops, d, Bank.run {} bcs, ft⟩ = .ok a ∧
          ∀ c, IsEdit c → ViewFair a c → (∀ op, c = .edit op → OwnApplied a) → ∃ a' sent, a.act diff c = .ok a' ∧ a'.ft.view.out = a.ft.view.out ++ sent ∧
            OnlyNeeded a.ft a'.ft sent := by
  obtain ⟨ft, e, hr⟩ := h.run hdiff d
  refine ⟨ft, e, fun cs hf => ?_⟩
  obtain ⟨a, ea, hv⟩ := hr cs hf
  refine ⟨a, ea, fun c hc hf hown => ?_⟩
  obtain ⟨a', e1, h1⟩ := act_vstate hdiff hv c hf
  obtain ⟨l, e2, h2⟩ := edit_needed hdiff hv c hc hf hown e1
  exact ⟨a', l, e1, e2, h2⟩

/-! ### A concrete case -/

theorem viewApp_run (cs : List (FAct Nat)) (h : ViewFairRun someDiff cs viewApp) :
    ∃ a, FApp.run someDiff cs viewApp = .ok a ∧ VState someDiff a := by
  obtain ⟨ft, e, hr⟩ := viewStart.run someDiff_ok (fun _ => 0)
  have : viewApp = ⟨runOps St.init viewOps, fun _ => 0, Bank.run {} countBank, ft⟩ := by
    unfold viewApp; rw [e]; rfl
  rw [this] at h ⊢
  exact hr cs h

/-- The events and paths sent by an action. -/
def sentBy (a : FApp Nat) (c : FAct Nat) : List (SigEv × List Id) :=
  ((a.act someDiff c).state.ft.view.out.drop a.ft.view.out.length).map fun s => (s.ev, s.path)

/-- 1 is hidden, 2 > 3 > 4 are displayed. 4 becomes a child of 2, too: one row is added and none deleted. Then 3 is moved to
the top: the rows through 3 are deleted and added, and the row of 4 below 2 is left alone. -/
def touchedHistory : List (FAct Nat) := viewHistory.take 5 ++ [.edit (.newRelationship (.str 2) (.str 4))]

theorem touchedHistory_fair : ViewFairRun someDiff touchedHistory viewApp := by
  obtain ⟨a1, a2, a3, a4, a5, -⟩ := viewHistory_fair
  refine ⟨a1, a2, a3, a4, a5, ⟨⟨Tree.allEnabled_accept (by decide) _ _, ?_, ?_⟩, .inl (ownBank_run _ countBank_own).2.applied⟩, trivial⟩
  · intro nd p h; cases h
  · intro x h; cases h

example : ∃ a, FApp.run someDiff touchedHistory viewApp = .ok a ∧ ∃ a' sent, a.act someDiff (.edit (.moveNode (.str 3) .none)) = .ok a' ∧
    a'.ft.view.out = a.ft.view.out ++ sent ∧ OnlyNeeded a.ft a'.ft sent := by
  obtain ⟨a, ea, hv⟩ := viewApp_run _ touchedHistory_fair
  have hown : OwnApplied (FApp.run someDiff touchedHistory viewApp).state := (ownBank_run _ countBank_own).2.applied
  rw [ea] at hown
  have hf : ViewFair a (.edit (.moveNode (.str 3) .none)) :=
    ⟨⟨trivial, (fun _ _ e => by cases e), (fun _ e => by cases e)⟩, .inl hown⟩
  obtain ⟨a', e1, -⟩ := act_vstate someDiff_ok hv _ hf
  obtain ⟨l, e2, h2⟩ := edit_needed someDiff_ok hv (.edit (.moveNode (.str 3) .none)) trivial hf (fun _ _ => hown) e1
  exact ⟨a, ea, a', l, e1, e2, h2⟩

example : (sentBy (FApp.run someDiff (viewHistory.take 5) viewApp).state (.edit (.newRelationship (.str 2) (.str 4)))).filter (·.1 ≠ .modified) =
      [(.added, [.str 2, .str 4])] ∧
    (sentBy (FApp.run someDiff touchedHistory viewApp).state (.edit (.moveNode (.str 3) .none))).filter (·.1 ≠ .modified) =
      [(.deleted, [.str 2, .str 3, .str 4]), (.deleted, [.str 2, .str 3]), (.added, [.str 3]), (.added, [.str 3, .str 4])] := by decide

/-! ### The limits -/

/-- **C51 is false for filters**: applying a filter that hides nothing deletes every row and adds it again. -/
theorem C51_refuted_filter : ViewFairRun someDiff [.apply (.plain 1) none false true] viewApp ∧
    (∀ z, (viewApp.act someDiff (.apply (.plain 1) none false true)).state.ft.view.nodes.get? z = viewApp.ft.view.nodes.get? z) ∧
    (sentBy viewApp (.apply (.plain 1) none false true)).filter (·.1 ≠ .modified) =
      [(.deleted, [.str 1, .str 2]), (.deleted, [.str 1]), (.added, [.str 1]), (.added, [.str 1, .str 2])] := by
  refine ⟨⟨⟨rfl, fun h => by cases h⟩, trivial⟩, fun z => ?_, by decide⟩
  have : (viewApp.act someDiff (.apply (.plain 1) none false true)).state.ft.view.nodes = viewApp.ft.view.nodes := by rfl
  rw [this]

/-- **C51 is false for filters on children**: the leaves are shown, 2 is the only child of 1, and the subtree of 1 is removed. When 2
has gone and 1 has not, 1 is a leaf: a row is added and deleted for a node that is displayed neither before nor afterwards. -/
theorem C51_refuted_children :
    let a := (FApp.run someDiff [.apply (.plain 1) none false true] leafApp).state
    ViewFairRun someDiff [.apply (.plain 1) none false true, .edit (.delNode (.str 1) true)] leafApp ∧ FewerApplied a ∧
    a.ft.view.has (.str 1) = false ∧ (a.act someDiff (.edit (.delNode (.str 1) true))).state.ft.view.has (.str 1) = false ∧
    sentBy a (.edit (.delNode (.str 1) true)) = [(.added, [.str 1]), (.deleted, [.str 2]), (.deleted, [.str 1])] := by
  refine ⟨FewerFairRun.fair ⟨⟨rfl, fun h => by cases h⟩, few_edit ⟨by decide, ?_⟩ ?_ ?_ rfl (by decide) ?_, trivial⟩,
    leaf_applied _ (by decide) rfl, by decide, by decide, by decide⟩
  · intro y hy
    have := descendants_in [.str 2] (by decide) y hy
    simp only [List.mem_singleton] at this
    subst this
    intro p hp
    left
    exact List.mem_singleton.1 (hp : p ∈ [Id.str 1])
  · intro nd p h; cases h
  · intro x h y hy
    cases h
    have := descendants_in [.str 2] (by decide) y hy
    simp only [List.mem_singleton] at this
    subst this; decide
  · intro nd p h; cases h

end Larch
