import Verif.Spec.Subtree
import Verif.Props.Leftover
import Verif.Props.Removal
import Verif.Props.Untouched

/-!
# C80: removing a subtree from a view

The loop over the parents of a removed node steps over every second of them (`tree.py:236-239`), and the views are told only about
the others. While a subtree is removed, the views therefore show some of its nodes below parents that they have lost. This ends
well if no node below the removed one has more than three parents, and can end with `KeyError` if one has four.
-/

namespace Larch

open Graph Spec

variable {V : Type} {diff : List Id → List Id → List Id}

theorem isChain_restrict {R R' : Id → Id → Prop} {Q : Id → Prop} (h : ∀ p c, R' p c ↔ R p c ∧ Q c) : ∀ (l : List Id) (r : Id),
    List.IsChain R' (r :: l) ↔ List.IsChain R (r :: l) ∧ ∀ y ∈ l, Q y
  | [], r => by simp
  | c :: l, r => by
    rw [List.isChain_cons_cons, List.isChain_cons_cons, isChain_restrict h l c, h]
    simp only [List.mem_cons, forall_eq_or_imp]
    tauto

theorem loses_subtree {T T' : Tree → Prop} {a a' : FApp V} (h : VOver T diff a) (h' : VOver T' diff a') {x : Id}
    (hx : a.s.t.has x = true) (own : OwnApplied a) (e : a.act diff (.edit (.delNode x true)) = .ok a') : LosesSubtree a a' x := by
  obtain ⟨e1, e2, e3, e4⟩ := edit_same (diff := diff) a (.delNode x true)
  rw [e] at e1 e2 e3 e4
  change a'.bank = a.bank at e1
  change a'.data = a.data at e2
  change a'.ft.applied = a.ft.applied at e3
  change a'.ft.root = a.ft.root at e4
  obtain ⟨s', s1, s2, -⟩ := C10_recursive_removal a.s h.good x hx
  have es : a'.s = s' := by
    have : a'.s = (step a.s (.delNode x true)).state := by
      have e' : FApp.withFT _ (Res.forEach _ _ _) = .ok a' := e
      generalize Res.forEach _ _ _ = r at e'
      cases r with
      | ok ft => cases e'; rfl
      | err er ft => cases e'
    rw [this, s1]; rfl
  have hw : ∀ y, Wanted a' y ↔ Wanted a y ∧ y ≠ x ∧ ¬ Descendant a.s.t y x := by
    intro y
    unfold Wanted
    rw [e1, e2, e3, es, s2.nodes]
    constructor
    · rintro ⟨⟨w1, w2⟩, w3⟩
      refine ⟨⟨w1, fun n hn => ?_⟩, w2⟩
      obtain ⟨f, f1, f2⟩ := w3 n hn
      refine ⟨f, f1, ?_⟩
      unfold Filter.isDisplayed at f2 ⊢
      rw [w1]
      rw [(s2.nodes y).2 ⟨w1, w2⟩] at f2
      rw [own n hn f f1 a.s.t s'.t a.data a.data y _ rfl]
      exact f2
    · rintro ⟨⟨w1, w3⟩, w2⟩
      refine ⟨⟨w1, w2⟩, fun n hn => ?_⟩
      obtain ⟨f, f1, f2⟩ := w3 n hn
      refine ⟨f, f1, ?_⟩
      unfold Filter.isDisplayed at f2 ⊢
      rw [w1] at f2
      rw [(s2.nodes y).2 ⟨w1, w2⟩]
      rw [own n hn f f1 a.s.t s'.t a.data a.data y _ rfl] at f2
      exact f2
  have sh := h.rebuilt.showsExactly
  have sh' := h'.rebuilt.showsExactly
  have rs := h.rebuilt.rightShape
  have rs' := h'.rebuilt.rightShape
  have shown : ∀ y, y ≠ a.ft.root → (a'.ft.view.has y = true ↔ a.ft.view.has y = true ∧ y ≠ x ∧ ¬ Descendant a.s.t y x) := by
    intro y hy
    rw [sh'.shown y (by rw [e4]; exact hy), sh.shown y hy]
    exact hw y
  have hfl : FlatView a' ↔ FlatView a := by unfold FlatView; rw [e1, e3]
  have par : ∀ y, Wanted a' y → ∀ p, p ∈ a'.ft.view.pars y ↔ p ∈ a.ft.view.pars y := by
    intro y hy p
    have hy0 := (hw y).1 hy
    have hyx := hy0.2
    have hp : ∀ q, WantedParent a' q y ↔ WantedParent a q y := by
      intro q
      unfold WantedParent IsParent
      rw [hfl, hw q, es, s2.parents y (by rw [← es]; exact hy.1)]
      constructor
      · rintro ⟨p1, p2, p3, -⟩; exact ⟨p1, p2, p3⟩
      · rintro ⟨p1, p2, p3⟩
        have hc : IsChild a.s.t q y := (h.good.wf.agree.mirror q y).2 p2
        refine ⟨p1, p2, p3, ?_, ?_⟩
        · rintro rfl; exact hyx.2 (.single hc)
        · intro hd; exact hyx.2 (hd.tail hc)
    rw [rs'.parents y hy p, rs.parents y hy0.1 p, hp, e4]
    simp only [hp]
  refine ⟨shown, fun y hy hv => par y ((sh'.shown y (by rw [e4]; exact hy)).1 hv), fun l => ?_⟩
  unfold IsRow
  rw [e4, isChain_restrict (R := fun p c => c ∈ a.ft.view.kids p) (Q := fun y => y ≠ x ∧ ¬ Descendant a.s.t y x)]
  · tauto
  · intro p c
    rw [rs'.mirror, rs.mirror]
    have wanted : ∀ {b : FApp V}, ShowsExactly b → RightShape b → p ∈ b.ft.view.pars c → Wanted b c := by
      intro b hs hr hp
      refine (hs.shown c ?_).1 (View.has_of_par hp)
      rintro rfl
      rw [hr.top] at hp; cases hp
    constructor
    · intro hp
      have := wanted sh' rs' hp
      exact ⟨(par c this p).1 hp, ((hw c).1 this).2⟩
    · rintro ⟨hp, hc⟩
      exact (par c ((hw c).2 ⟨wanted sh rs hp, hc⟩) p).2 hp

/-- C80: whatever happened before under the conditions of C76, removing a node with everything below it succeeds if no node below
it has more than three parents, and the view loses exactly this part. The node itself can have any number of parents. -/
theorem C80_removal_partial {ops : List Op} {bcs : List (Bank.Call (Id → V))} {root : Id} (h : Along Considerate St.init ops)
    (hr : (runOps St.init ops).t.has root = false) (hdiff : SetDiff diff) (d : Id → V) :
    ∃ ft, FT.new diff (Bank.run {} bcs) (runOps St.init ops).t d root true = .ok ft ∧
      ∀ cs, LeftFairRun diff cs ⟨runOps St.init ops, d, Bank.run {} bcs, ft⟩ →
        ∃ a, FApp.run diff cs ⟨runOps St.init ops, d, Bank.run {} bcs, ft⟩ = .ok a ∧
          ∀ x, OwnApplied a → a.s.t.has x = true → (∀ y, Descendant a.s.t y x → (a.s.t.getParents y).length ≤ 3) →
            ∃ a', a.act diff (.edit (.delNode x true)) = .ok a' ∧ LosesSubtree a a' x ∧ Sound a'.s.t ∧ ShowsExactly a' ∧ RightShape a' ∧
              ObserverAgrees a' := by
  have h0 : BankInv ({} : Bank (Id → V)) := ⟨rfl, by simp [KV.keys]⟩
  obtain ⟨ft, e, hv⟩ := new_vover hdiff (runOps_considerate ops St.init init_good h) (T := fun _ => True) trivial d (Bank.run {} bcs)
    (bank_run bcs _ h0) root hr
  refine ⟨ft, e, fun cs hf => ?_⟩
  obtain ⟨a, ea, ha⟩ := left_run hdiff cs hv hf
  refine ⟨a, ea, fun x own hx h3 => ?_⟩
  obtain ⟨a', e', h'⟩ := left_act hdiff ha (.edit (.delNode x true)) ⟨⟨trivial, by rintro _ _ ⟨⟩⟩, own, by rintro _ _ ⟨⟩, by
    rintro z ⟨⟩; exact h3⟩
  exact ⟨a', e', loses_subtree ha h' hx own e', h'.good.sound, h'.rebuilt.showsExactly, h'.rebuilt.rightShape, h'.observerAgrees⟩

/-! ### Three parents -/

/-- Two levels below node 3: node 5 has the parents 6, 7 and 4, node 6 the parents 3 and 8, and node 8 the parents 4 and, outside
of the subtree, 9. -/
def threeParents : List Op :=
  [ .addNode (.new (.str 3) .none) .none, .addNode (.new (.str 4) .none) .none, .addNode (.new (.str 5) .none) .none,
    .addNode (.new (.str 6) .none) .none, .addNode (.new (.str 7) .none) .none, .addNode (.new (.str 8) .none) .none,
    .addNode (.new (.str 9) .none) .none,
    .newRelationship (.str 3) (.str 4), .newRelationship (.str 3) (.str 6), .newRelationship (.str 3) (.str 7),
    .newRelationship (.str 6) (.str 5), .newRelationship (.str 7) (.str 5), .newRelationship (.str 4) (.str 5),
    .newRelationship (.str 4) (.str 8), .newRelationship (.str 8) (.str 6), .newRelationship (.str 9) (.str 8) ]

set_option maxRecDepth 4000 in
theorem threeParents_considerate : Along Considerate St.init threeParents := by
  refine (decent_considerate threeParents (S := fun _ => False) init_good (Known.init _) (fun _ _ h => h) (by decide) ?_).1
  exact ⟨decent_add (Made.new _ _) (by decide), decent_add (Made.new _ _) (by decide), decent_add (Made.new _ _) (by decide),
    decent_add (Made.new _ _) (by decide), decent_add (Made.new _ _) (by decide), decent_add (Made.new _ _) (by decide),
    decent_add (Made.new _ _) (by decide),
    Tree.allEnabled_accept (by decide) _ _, Tree.allEnabled_accept (by decide) _ _, Tree.allEnabled_accept (by decide) _ _,
    Tree.allEnabled_accept (by decide) _ _, Tree.allEnabled_accept (by decide) _ _, Tree.allEnabled_accept (by decide) _ _,
    Tree.allEnabled_accept (by decide) _ _, Tree.allEnabled_accept (by decide) _ _, Tree.allEnabled_accept (by decide) _ _, trivial⟩

/-- The view of this tree, with a filter that hides 7. -/
def threeView : FT := (FT.new someDiff (Bank.run {} countBank) (runOps St.init threeParents).t (fun x => if x = .str 7 then 1 else 0) (.str 100) true).state

def threeApp : FApp Nat := (FApp.run someDiff [.apply (.plain 1) none false true]
  ⟨runOps St.init threeParents, fun x => if x = .str 7 then 1 else 0, Bank.run {} countBank, threeView⟩).state

theorem threeApp_small : ∀ y, Descendant threeApp.s.t y (.str 3) → (threeApp.s.t.getParents y).length ≤ 3 := by
  intro y hy
  have h1 : y ∈ [Id.str 8, .str 5, .str 7, .str 6, .str 4] := descendants_in _ (by decide +kernel) y hy
  have h2 : ∀ y ∈ [Id.str 8, .str 5, .str 7, .str 6, .str 4], (threeApp.s.t.getParents y).length ≤ 3 := by decide +kernel
  exact h2 y h1

theorem apply_bank (a : FApp V) (n : FName) (rs rf : Bool) : (FApp.run diff [.apply n none rs rf] a).state.bank = a.bank := by
  have h1 : (a.ft.applyFilter diff a.bank a.s.t a.data n none rs rf).2.1 = a.bank := by
    unfold FT.applyFilter FT.givesParams
    dsimp only
    rw [if_neg (by simp)]
    rw [apply_ite Prod.snd, apply_ite Prod.fst]
    exact ite_self _
  have h2 : ∀ (b : FApp V) (r : Res FT), (b.withFT r).state.bank = b.bank := by
    intro b r; cases r <;> rfl
  have h3 : (a.act diff (.apply n none rs rf)).state.bank = a.bank := by
    show (FApp.withFT _ _).state.bank = _
    rw [h2]; exact h1
  unfold FApp.run
  cases hr : a.act diff (.apply n none rs rf) with
  | ok s => rw [hr] at h3; exact h3
  | err e s => rw [hr] at h3; exact h3

/-- In the tree 5 has three parents, in the view two of them; when 3 is removed, only 9 is left. -/
example : (threeApp.s.t.getParents (.str 5)).length = 3 ∧ threeApp.ft.view.pars (.str 5) = [.str 6, .str 4] ∧
    ∃ a', threeApp.act someDiff (.edit (.delNode (.str 3) true)) = .ok a' ∧ LosesSubtree threeApp a' (.str 3) ∧
      a'.ft.view.kids (.str 100) = [.str 9] := by
  refine ⟨by decide +kernel, by decide +kernel, ?_⟩
  obtain ⟨ft, e, hall⟩ := C80_removal_partial (diff := someDiff) (bcs := countBank) (root := .str 100) threeParents_considerate (by decide +kernel)
    someDiff_ok (fun x => if x = .str 7 then 1 else 0)
  have hft : ft = threeView := by unfold threeView; rw [e]; rfl
  rw [hft] at hall
  obtain ⟨a, ea, hr⟩ := hall [.apply (.plain 1) none false true] ⟨⟨rfl, fun h => (by cases h)⟩, trivial⟩
  have ha : a = threeApp := by unfold threeApp; rw [ea]; rfl
  have hbank : threeApp.bank = Bank.run {} countBank := apply_bank _ _ _ _
  rw [ha] at hr
  obtain ⟨a', e', hl, -⟩ := hr (.str 3) (countBank_applied hbank) (by decide +kernel) threeApp_small
  refine ⟨a', e', hl, ?_⟩
  have : (threeApp.act someDiff (.edit (.delNode (.str 3) true))).state.ft.view.kids (.str 100) = [.str 9] := by decide +kernel
  rw [e'] at this
  exact this

/-! ### Four parents -/

/-- The tree of `manyParents` before the removal. -/
def fourApp : FApp Nat := (FApp.run someDiff ((manyParents.take 14).map .edit) (emptyApp fun _ => 0)).state

theorem raises_of {α : Type} {r : Res α} {e : Err} (h : (match r with | .err e' _ => decide (e' = e) | _ => false) = true) : ∃ s, r = .err e s := by
  cases r with
  | ok s => cases h
  | err e' s => exact ⟨s, by rw [of_decide_eq_true h]⟩

/-- C80 is false for nodes with four parents: no filter is applied, all edits are careful, all parents of what is below the
removed node are removed, too, nobody has more than four of them, and the view raises `KeyError`. -/
theorem C80_refuted_four : ∃ (ops : List Op) (x : Id) (a : FApp Nat), Along Careful St.init (ops ++ [.delNode x true]) ∧
    FApp.run someDiff (ops.map .edit) (emptyApp fun _ => 0) = .ok a ∧ a.ft.applied = [] ∧
    (∀ y, Descendant a.s.t y x → (a.s.t.getParents y).length ≤ 4) ∧
    ∃ a', a.act someDiff (.edit (.delNode x true)) = .err .keyError a' := by
  refine ⟨manyParents.take 14, .str 3, fourApp, manyParents_careful, ?_, by decide +kernel, ?_, raises_of (by decide +kernel)⟩
  · have h : (FApp.run someDiff ((manyParents.take 14).map .edit) (emptyApp fun _ => 0)).isOk = true := by decide +kernel
    unfold fourApp
    generalize FApp.run _ _ _ = r at h
    cases r with
    | ok s => rfl
    | err e s => cases h
  · intro y hy
    have h1 : y ∈ [Id.str 8, .str 5, .str 7, .str 6, .str 4] := descendants_in _ (by decide +kernel) y hy
    have h2 : ∀ y ∈ [Id.str 8, .str 5, .str 7, .str 6, .str 4], (fourApp.s.t.getParents y).length ≤ 4 := by decide +kernel
    exact h2 y h1

end Larch
