import Verif.Props.ViewReading
import Verif.Spec.Batch

/-!
# C24–C27 with filter changes that are not refreshed at once
-/

namespace Larch

open Graph Spec

variable {V : Type} {diff : List Id → List Id → List Id}

/-- The view is right for some filters, and for the applied ones if it is fresh. -/
structure BState (diff : List Id → List Id → List Id) (fresh : Bool) (a : FApp V) : Prop where
  bank : BankInv a.bank
  some : ∃ b ap, VState diff { a with bank := b, ft := { a.ft with applied := ap } }
  right : fresh = true → VState diff a

theorem VState.bstate {a : FApp V} (h : VState diff a) (fresh : Bool) : BState diff fresh a :=
  ⟨h.bank, ⟨a.bank, a.ft.applied, h⟩, fun _ => h⟩

theorem BState.anyFilters {fresh : Bool} {a : FApp V} (h : BState diff fresh a) {b : Bank (Id → V)} (hb : BankInv b)
    (ap : List FName) : BState diff false { a with bank := b, ft := { a.ft with applied := ap } } := by
  obtain ⟨b0, ap0, h0⟩ := h.some
  exact ⟨hb, ⟨b0, ap0, h0⟩, fun hf => by cases hf⟩

/-- A refresh brings the view up to date. -/
theorem BState.refilter (hdiff : SetDiff diff) {fresh : Bool} {a : FApp V} (h : BState diff fresh a) {b : Bank (Id → V)}
    (hb : BankInv b) (ap : List FName) :
    ∃ ft', ({ a.ft with applied := ap } : FT).refilter diff b a.s.t a.data = .ok ft' ∧ VState diff { a with bank := b, ft := ft' } := by
  obtain ⟨b0, ap0, h0⟩ := h.some
  obtain ⟨ft', e, h1⟩ := refilter_vstate hdiff h0 b hb ap
  exact ⟨ft', e, h1⟩

theorem act_bstate (hdiff : SetDiff diff) {fresh : Bool} {a : FApp V} (h : BState diff fresh a) (c : FAct V)
    (hf : BatchFair fresh a c) : ∃ a', a.act diff c = .ok a' ∧ BState diff (freshAfter fresh a c) a' := by
  -- an action that `ViewFair` covers
  have old : fresh = true → ViewFair a c → ∃ a', a.act diff c = .ok a' ∧ BState diff (freshAfter fresh a c) a' := by
    intro hfr hvf
    obtain ⟨a', e, h'⟩ := act_vstate hdiff (h.right hfr) c hvf
    exact ⟨a', e, h'.bstate _⟩
  cases c with
  | edit op => exact old hf.1 hf.2
  | change x v => exact old hf.1 hf.2
  | bank c =>
    cases c with
    | add n func p =>
      by_cases hfr : fresh = true ∧ (n ∈ a.ft.applied → (a.bank.getFilter n).isSome = true)
      · exact old hfr.1 hfr.2
      · refine ⟨_, rfl, ?_⟩
        have : freshAfter fresh a (.bank (.add n func p)) = false := by
          unfold freshAfter
          rw [Bool.eq_false_iff]
          intro hc
          simp only [Bool.and_eq_true, Bool.or_eq_true, decide_eq_true_eq] at hc
          exact hfr ⟨hc.1, fun hn => hc.2.resolve_left fun h => h hn⟩
        rw [this]
        exact h.anyFilters (bank_call a.bank h.bank (.add n func p)) a.ft.applied
    | remove n =>
      by_cases hfr : fresh = true ∧ n ∉ a.ft.applied
      · exact old hfr.1 hfr.2
      · refine ⟨_, rfl, ?_⟩
        have : freshAfter fresh a (.bank (.remove n)) = false := by
          unfold freshAfter
          rw [Bool.eq_false_iff]
          intro hc
          simp only [Bool.and_eq_true, decide_eq_true_eq] at hc
          exact hfr hc
        rw [this]
        exact h.anyFilters (bank_call a.bank h.bank (.remove n)) a.ft.applied
  | setParams n p =>
    by_cases hfr : fresh = true ∧ n ∉ a.ft.applied
    · exact old hfr.1 hfr.2
    · refine ⟨_, rfl, ?_⟩
      have : freshAfter fresh a (.setParams n p) = false := by
        unfold freshAfter
        rw [Bool.eq_false_iff]
        intro hc
        simp only [Bool.and_eq_true, decide_eq_true_eq] at hc
        exact hfr hc
      rw [this]
      exact h.anyFilters (setParameters_inv h.bank n _) a.ft.applied
  | apply n p rs rf =>
    show ∃ a', FApp.withFT { a with bank := (a.ft.applyFilter diff a.bank a.s.t a.data n p rs rf).2.1 }
      (a.ft.applyFilter diff a.bank a.s.t a.data n p rs rf).2.2 = .ok a' ∧ _
    unfold FT.applyFilter
    dsimp only
    rw [if_neg (by
      rw [Bool.and_eq_true]
      rintro ⟨g1, g2⟩
      have := hf g1
      cases hg : a.bank.getFilter n with
      | none => rw [hg] at this; cases this
      | some f => rw [hg] at g2; cases g2)]
    generalize hb1 : (if FT.givesParams p then a.bank.setParameters n p else a.bank) = b1
    have hbi : BankInv b1 := by rw [← hb1]; split; exacts [setParameters_inv h.bank n p, h.bank]
    generalize hft1 : (if rs then { a.ft with applied := [] } else a.ft : FT) = ft1
    have e1 : ft1 = { a.ft with applied := if rs then [] else a.ft.applied } := by rw [← hft1]; split <;> rfl
    generalize hap : (if rs then [] else a.ft.applied) = ap1 at e1
    subst e1
    dsimp only
    have e2 : ∃ ap, (if decide (n ∉ ap1) = true then ({ a.ft with applied := ap1 ++ [n] } : FT) else { a.ft with applied := ap1 }) =
        { a.ft with applied := ap } := by
      split; exacts [⟨_, rfl⟩, ⟨_, rfl⟩]
    have hch : (FT.givesParams p || decide (n ∉ ap1)) = (FT.givesParams p || rs || decide (n ∉ a.ft.applied)) := by
      rw [← hap]
      cases rs <;> simp
    rw [show freshAfter fresh a (.apply n p rs rf) =
      if FT.givesParams p || rs || decide (n ∉ a.ft.applied) then rf else fresh from rfl, ← hch]
    cases hc : (FT.givesParams p || decide (n ∉ ap1)) with
    | true =>
      obtain ⟨ap2, e2⟩ := e2
      rw [e2]
      cases rf with
      | true =>
        simp only [Bool.and_self, if_true]
        obtain ⟨ft', r1, r2⟩ := h.refilter hdiff hbi ap2
        rw [r1]
        exact ⟨_, rfl, r2.bstate _⟩
      | false =>
        simp only [Bool.false_and, Bool.false_eq_true, if_false, if_true]
        exact ⟨_, rfl, h.anyFilters hbi ap2⟩
    | false =>
      simp only [Bool.and_false, Bool.false_eq_true, if_false]
      rw [hch] at hc
      simp only [Bool.or_eq_false_iff, decide_eq_false_iff_not, not_not] at hc
      obtain ⟨⟨hg, rfl⟩, hn⟩ := hc
      have hap' : ap1 = a.ft.applied := hap.symm
      subst hap'
      rw [← hb1, hg]
      refine ⟨_, rfl, ?_⟩
      simp only [hn, not_true, decide_false, Bool.false_eq_true, if_false]
      exact h
  | unapply n rf =>
    show ∃ a', a.withFT (a.ft.unapplyFilter diff a.bank a.s.t a.data n rf).2 = .ok a' ∧ _
    unfold FT.unapplyFilter
    rw [show freshAfter fresh a (.unapply n rf) = if n ∈ a.ft.applied then rf else fresh from rfl]
    by_cases hn : n ∈ a.ft.applied
    · rw [if_pos hn, if_pos hn]
      cases rf with
      | true =>
        dsimp only
        obtain ⟨ft', r1, r2⟩ := h.refilter hdiff h.bank (a.ft.applied.erase n)
        rw [if_pos rfl, r1]
        exact ⟨_, rfl, r2.bstate _⟩
      | false => exact ⟨_, rfl, h.anyFilters h.bank _⟩
    · rw [if_neg hn, if_neg hn]
      exact ⟨_, rfl, h⟩
  | reset rf =>
    show ∃ a', a.withFT (a.ft.resetFilters diff a.bank a.s.t a.data rf) = .ok a' ∧ _
    rw [show freshAfter fresh a (.reset rf) = (rf || (fresh && decide (a.ft.applied = []))) from rfl]
    unfold FT.resetFilters
    dsimp only
    cases rf with
    | true =>
      obtain ⟨ft', r1, r2⟩ := h.refilter hdiff h.bank []
      rw [if_pos rfl, r1]
      exact ⟨_, rfl, r2.bstate _⟩
    | false =>
      rw [if_neg (by simp)]
      refine ⟨_, rfl, ?_⟩
      by_cases he : fresh = true ∧ a.ft.applied = []
      · have e : ({ a.ft with applied := [] } : FT) = a.ft := by
          rcases hft : a.ft with ⟨r, ap, fl, v⟩
          have := he.2
          rw [hft] at this
          cases this; rfl
        rw [e, he.1, he.2]
        exact (h.right he.1).bstate _
      · have : (false || (fresh && decide (a.ft.applied = []))) = false := by
          rw [Bool.false_or, Bool.eq_false_iff]
          intro hc
          simp only [Bool.and_eq_true, decide_eq_true_eq] at hc
          exact he hc
        rw [this]
        exact h.anyFilters h.bank []
  | currentState => exact hf.elim

theorem run_bstate (hdiff : SetDiff diff) (cs : List (FAct V)) (fresh : Bool) (a : FApp V) (h : BState diff fresh a)
    (hf : BatchFairRun diff fresh cs a) :
    ∃ a', FApp.run diff cs a = .ok a' ∧ BState diff (freshEnd diff fresh cs a) a' := by
  induction cs generalizing a fresh with
  | nil => exact ⟨a, rfl, h⟩
  | cons c cs ih =>
    obtain ⟨a1, e1, h1⟩ := act_bstate hdiff h c hf.1
    have hf2 := hf.2
    rw [e1] at hf2
    obtain ⟨a2, e2, h2⟩ := ih _ a1 h1 hf2
    refine ⟨a2, by unfold FApp.run; rw [e1]; exact e2, ?_⟩
    unfold freshEnd
    rw [e1]
    exact h2

/-- A view that was not filled is the right one for a filter that accepts nothing. -/
theorem unfilled_bstate {s : St} (h : Good s.t) (hn : NoDangling s.t) (d : Id → V) (b : Bank (Id → V)) (hb : BankInv b)
    (root : Id) (hr : s.t.has root = false) (hdiff : SetDiff diff) :
    BState diff false ⟨s, d, b, ⟨root, [], false, ⟨View.rootOnly root, []⟩⟩⟩ := by
  refine ⟨hb, ⟨{}, [.plain 0], h, hn, ⟨rfl, by simp [KV.keys]⟩, hr, rfl, ?_⟩, (fun hf => by cases hf)⟩
  have hE : EB (FT.env diff ({} : Bank (Id → V)) s.t d ⟨root, [.plain 0], false, ⟨View.rootOnly root, []⟩⟩) :=
    env_ok hdiff {} h.wf d _ hr
  have hd : ∀ x, (FT.env diff ({} : Bank (Id → V)) s.t d ⟨root, [.plain 0], false, ⟨View.rootOnly root, []⟩⟩).disp x = false := by
    intro x
    show FT.accepts ({} : Bank (Id → V)) s.t d [.plain 0] x = false
    unfold FT.accepts
    rw [Bool.eq_false_iff]
    intro hc
    rw [Bool.and_eq_true, List.all_eq_true] at hc
    have := hc.2 (.plain 0) (by simp)
    cases this
  have hp : ∀ y, (⟨View.rootOnly root, []⟩ : View).pars y = [] := by
    intro y; unfold View.pars View.rootOnly; dsimp only; rw [Dict.get?_set]; split <;> rfl
  obtain ⟨r, ho⟩ := orders_of_super hE (hp _) (by rw [env_par h.wf]; exact h.wf.acyclic) s.t.nodes.keys (env_keys h.wf)
    (fun y p hy => by rw [hp] at hy; cases hy)
  obtain ⟨rank, h1, h2⟩ := hE.rank (hp _) ho s.t.nodes.keys (env_keys h.wf)
  exact ⟨⟨rank, ⟨h1.parRank, h2⟩, rootOnly_inv h1 rfl RowsSet.nil⟩, fun y hy => (by rw [hd] at hy; cases hy),
    fun y hy => (by rw [hd] at hy; cases hy)⟩

/-- A view is created, with or without being filled, after any careful history of the tree; then follows any history in which
filters are changed by anybody, with or without refresh, and the tree and the data are touched while the view is up to date.
No action fails in the view; an observer has exactly its rows, whether or not it is up to date; and if it is up to date, it
displays exactly the wanted nodes in the right shape. -/
theorem batched_run {ops : List Op} {bcs : List (Bank.Call (Id → V))} {root : Id} (h : ViewStart ops root)
    (hdiff : SetDiff diff) (d : Id → V) (refresh : Bool) :
    ∃ ft, FT.new diff (Bank.run {} bcs) (runOps St.init ops).t d root refresh = .ok ft ∧
      ∀ cs, BatchFairRun diff refresh cs ⟨runOps St.init ops, d, Bank.run {} bcs, ft⟩ →
        ∃ a, FApp.run diff cs ⟨runOps St.init ops, d, Bank.run {} bcs, ft⟩ = .ok a ∧
          BState diff (freshEnd diff refresh cs ⟨runOps St.init ops, d, Bank.run {} bcs, ft⟩) a := by
  have h0 : BankInv ({} : Bank (Id → V)) := ⟨rfl, by simp [KV.keys]⟩
  obtain ⟨hg, hn⟩ := runOps_careful ops St.init init_good init_noDangling h.careful
  have hb := bank_run bcs _ h0
  cases refresh with
  | true =>
    obtain ⟨ft, e, hv⟩ := new_vstate hdiff hg hn d (Bank.run {} bcs) hb root h.rootFree
    exact ⟨ft, e, fun cs hf => run_bstate hdiff cs true _ (hv.bstate _) hf⟩
  | false => exact ⟨_, rfl, fun cs hf => run_bstate hdiff cs false _ (unfilled_bstate hg hn d _ hb root h.rootFree hdiff) hf⟩

theorem BState.observerAgrees {fresh : Bool} {a : FApp V} (h : BState diff fresh a) : ObserverAgrees a := by
  obtain ⟨b, ap, h0⟩ := h.some
  exact h0.observerAgrees

/-- C24 with unrefreshed filter changes: whenever the view is up to date, it displays exactly the wanted nodes. -/
theorem C24_batched_partial {ops : List Op} {bcs : List (Bank.Call (Id → V))} {root : Id} (h : ViewStart ops root)
    (hdiff : SetDiff diff) (d : Id → V) (refresh : Bool) :
    ∃ ft, FT.new diff (Bank.run {} bcs) (runOps St.init ops).t d root refresh = .ok ft ∧
      ∀ cs, BatchFairRun diff refresh cs ⟨runOps St.init ops, d, Bank.run {} bcs, ft⟩ →
        freshEnd diff refresh cs ⟨runOps St.init ops, d, Bank.run {} bcs, ft⟩ = true →
        ∃ a, FApp.run diff cs ⟨runOps St.init ops, d, Bank.run {} bcs, ft⟩ = .ok a ∧ ShowsExactly a := by
  obtain ⟨ft, e, hr⟩ := batched_run h hdiff d refresh
  refine ⟨ft, e, fun cs hf hfr => ?_⟩
  obtain ⟨a, ea, hv⟩ := hr cs hf
  exact ⟨a, ea, (hv.right hfr).rebuilt.showsExactly⟩

/-- C25 with unrefreshed filter changes: whenever the view is up to date, it has the right shape. -/
theorem C25_batched_partial {ops : List Op} {bcs : List (Bank.Call (Id → V))} {root : Id} (h : ViewStart ops root)
    (hdiff : SetDiff diff) (d : Id → V) (refresh : Bool) :
    ∃ ft, FT.new diff (Bank.run {} bcs) (runOps St.init ops).t d root refresh = .ok ft ∧
      ∀ cs, BatchFairRun diff refresh cs ⟨runOps St.init ops, d, Bank.run {} bcs, ft⟩ →
        freshEnd diff refresh cs ⟨runOps St.init ops, d, Bank.run {} bcs, ft⟩ = true →
        ∃ a, FApp.run diff cs ⟨runOps St.init ops, d, Bank.run {} bcs, ft⟩ = .ok a ∧ RightShape a := by
  obtain ⟨ft, e, hr⟩ := batched_run h hdiff d refresh
  refine ⟨ft, e, fun cs hf hfr => ?_⟩
  obtain ⟨a, ea, hv⟩ := hr cs hf
  exact ⟨a, ea, (hv.right hfr).rebuilt.rightShape⟩

/-- C26 and C27 with unrefreshed filter changes: no action fails, and an observer has exactly the rows of the view, whether the
view is up to date or not. -/
theorem C26_batched_partial {ops : List Op} {bcs : List (Bank.Call (Id → V))} {root : Id} (h : ViewStart ops root)
    (hdiff : SetDiff diff) (d : Id → V) (refresh : Bool) :
    ∃ ft, FT.new diff (Bank.run {} bcs) (runOps St.init ops).t d root refresh = .ok ft ∧
      ∀ cs, BatchFairRun diff refresh cs ⟨runOps St.init ops, d, Bank.run {} bcs, ft⟩ →
        ∃ a, FApp.run diff cs ⟨runOps St.init ops, d, Bank.run {} bcs, ft⟩ = .ok a ∧ ObserverAgrees a := by
  obtain ⟨ft, e, hr⟩ := batched_run h hdiff d refresh
  refine ⟨ft, e, fun cs hf => ?_⟩
  obtain ⟨a, ea, hv⟩ := hr cs hf
  exact ⟨a, ea, hv.observerAgrees⟩

/-- The application of `viewApp`, with a view that is not filled. -/
def lazyApp : FApp Nat := ⟨runOps St.init viewOps, fun x => if x = .str 1 then 3 else 4, Bank.run {} countBank,
  ⟨.str 100, [], false, ⟨View.rootOnly (.str 100), []⟩⟩⟩

/-- A view is created unfilled and gets two filters, the second one with a refresh. Then a filter in use is given new parameters
by somebody else, the other one is taken away without refresh, and the view is refreshed at last by applying the first one
again with parameters; then a node is added. -/
def lazyHistory : List (FAct Nat) :=
  [ .apply (.plain 1) none false false, .apply (.plain 2) none false true, .setParams (.plain 1) { negate := some true },
    .unapply (.plain 2) false, .apply (.plain 1) (some { negate := some true }) false true,
    .edit (.addNode (.new (.str 3) .none) (.str 1)) ]

theorem lazyHistory_fair : BatchFairRun someDiff false lazyHistory lazyApp := by
  refine ⟨fun h => (by cases h), fun h => (by cases h), trivial, trivial, fun _ => (by decide), ⟨by decide, ⟨careful_add (Made.new _ _) (by decide), ?_, ?_⟩, .inl ?_⟩, trivial⟩
  · intro nd p h; cases h; decide
  · intro x h; cases h
  · refine OwnBank.applied (setParameters_own ?_ (setParameters_own ?_ (ownBank_run _ countBank_own).2 (.plain 1) (some { negate := some true }))
      (.plain 1) (some { negate := some true }))
    · exact setParameters_inv (ownBank_run _ countBank_own).1 _ _
    · exact (ownBank_run _ countBank_own).1

/-- The concrete case: first only 2 is shown (even and big), in the end only 1 (not even); 3 is hidden. -/
example : ∃ a, FApp.run someDiff lazyHistory lazyApp = .ok a ∧ ShowsExactly a ∧ RightShape a ∧ ObserverAgrees a ∧
    a.ft.view.kids (.str 100) = [.str 1] ∧
    (FApp.run someDiff (lazyHistory.take 2) lazyApp).state.ft.view.kids (.str 100) = [.str 2] ∧
    (FApp.run someDiff (lazyHistory.take 1) lazyApp).state.ft.view.kids (.str 100) = [] := by
  obtain ⟨ft, e, h⟩ := batched_run viewStart someDiff_ok (fun x => if x = .str 1 then 3 else 4) false
  cases e
  obtain ⟨a, ea, hv⟩ := h lazyHistory lazyHistory_fair
  have ea' : FApp.run someDiff lazyHistory lazyApp = .ok a := ea
  refine ⟨a, ea, (hv.right rfl).rebuilt.showsExactly, (hv.right rfl).rebuilt.rightShape, hv.observerAgrees, ?_, by decide, by decide⟩
  have : (FApp.run someDiff lazyHistory lazyApp).state = a := by rw [ea']; rfl
  rw [← this]; decide

end Larch
