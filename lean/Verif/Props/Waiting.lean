import Verif.Props.Batch
import Verif.Proofs.Waiting
import Verif.Spec.Waiting

/-!
# C81: the tree can be edited while a view waits for its refresh
-/

namespace Larch

open Graph Spec

variable {V : Type} {diff : List Id → List Id → List Id}

/-- The same, but all nodes may be shown. -/
def VEnv.lenient (E : VEnv) : VEnv := { E with disp := fun _ => true }

theorem Slack.lenient {E : VEnv} {N D : Id → Prop} {v : View} (h : Slack E N D v) : Slack E.lenient N D v := by
  obtain ⟨r, ho, hv⟩ := h.inv
  exact ⟨⟨r, ho, hv.congrE rfl fun _ _ _ => rfl⟩, h.near, h.few⟩

/-- The view holds together, and it is right if it is fresh. -/
structure WState (diff : List Id → List Id → List Id) (fresh : Bool) (a : FApp V) : Prop where
  good : Good a.s.t
  tidy : NoDangling a.s.t
  bank : BankInv a.bank
  rootFree : a.s.t.has a.ft.root = false
  slack : Slack (FT.env diff a.bank a.s.t a.data a.ft).lenient (fun _ => False) (fun _ => False) a.ft.view
  right : fresh = true → VState diff a

theorem VState.wstate {a : FApp V} (h : VState diff a) (fresh : Bool) : WState diff fresh a :=
  ⟨h.good, h.tidy, h.bank, h.rootFree, h.fit.slack.lenient, fun _ => h⟩

theorem SlackState.wstate {a : FApp V} (h : SlackState diff a) (hb : BankInv a.bank) {fresh : Bool} (hf : fresh = true → VState diff a) :
    WState diff fresh a :=
  ⟨h.good, h.tidy, hb, h.rootFree, h.slack.lenient, hf⟩

theorem WState.slackState {fresh : Bool} {a : FApp V} (h : WState diff fresh a) (hn : NothingToGo a) : SlackState diff a := by
  refine ⟨h.good, h.tidy, h.rootFree, ?_, h.slack.near, h.slack.few⟩
  obtain ⟨r, ho, hv⟩ := h.slack.inv
  exact ⟨r, ho, hv.congrE rfl fun y hy hr => (accepts_iff h.good.wf y).2 (hn y hr hy)⟩

theorem WState.anyFilters {fresh : Bool} {a : FApp V} (h : WState diff fresh a) {b : Bank (Id → V)} (hb : BankInv b)
    (ap : List FName) : WState diff false { a with bank := b, ft := { a.ft with applied := ap } } :=
  ⟨h.good, h.tidy, hb, h.rootFree, h.slack, fun hf => by cases hf⟩

theorem WState.anyData {fresh : Bool} {a : FApp V} (h : WState diff fresh a) (d : Id → V) : WState diff false { a with data := d } :=
  ⟨h.good, h.tidy, h.bank, h.rootFree, h.slack, fun hf => by cases hf⟩

theorem WState.weaken {fresh fr : Bool} {a : FApp V} (h : WState diff fresh a) (hf : fr = true → fresh = true) : WState diff fr a :=
  ⟨h.good, h.tidy, h.bank, h.rootFree, h.slack, fun e => h.right (hf e)⟩

theorem WState.whole (hdiff : SetDiff diff) {fresh : Bool} {a : FApp V} (h : WState diff fresh a) :
    ∃ rank M, Whole a.ft.root rank M a.ft.view := by
  obtain ⟨r, ho, hv⟩ := h.slack.inv
  have hE := env_ok hdiff a.bank h.good.wf a.data a.ft h.rootFree
  obtain ⟨rank, e1, e2⟩ := hE.rank hv.rootPars ho a.s.t.nodes.keys (env_keys h.good.wf)
  exact ⟨rank, _, e1.bound, e1.rootRank, e1.posRank, hv.keys, hv.rootIn, hv.rootPars, (hv.rerank e2).par, (hv.rerank e2).kid, hv.ndP, hv.ndK,
      fun y p => hv.mirror y (fun h => h) p, hv.rows.plain⟩

/-- A refresh brings the view up to date. -/
theorem WState.refilter (hdiff : SetDiff diff) {fresh : Bool} {a : FApp V} (h : WState diff fresh a) {b : Bank (Id → V)}
    (hb : BankInv b) (ap : List FName) :
    ∃ ft', ({ a.ft with applied := ap } : FT).refilter diff b a.s.t a.data = .ok ft' ∧ VState diff { a with bank := b, ft := ft' } := by
  obtain ⟨rank, M, hw⟩ := h.whole hdiff
  obtain ⟨v, e, hfit⟩ := refilter_fit hdiff b h.good a.data { a.ft with applied := ap } h.rootFree hw.husk
  exact ⟨_, e, h.good, h.tidy, hb, h.rootFree, rfl, hfit⟩

theorem WState.observerAgrees {fresh : Bool} {a : FApp V} (h : WState diff fresh a) : ObserverAgrees a := by
  obtain ⟨r, -, hv⟩ := h.slack.inv
  obtain ⟨rows, h1, h2, h3, -⟩ := hv.rows
  exact ⟨rows, h1, h2, h3⟩

theorem act_wstate (hdiff : SetDiff diff) {fresh : Bool} {a : FApp V} (h : WState diff fresh a) (c : FAct V)
    (hf : WaitFair fresh a c) : ∃ a', a.act diff c = .ok a' ∧ WState diff (freshAfter fresh a c) a' := by
  -- an action that `ViewFair` covers
  have old : fresh = true → ViewFair a c → ∃ a', a.act diff c = .ok a' ∧ WState diff (freshAfter fresh a c) a' := by
    intro hfr hvf
    obtain ⟨a', e, h'⟩ := act_vstate hdiff (h.right hfr) c hvf
    exact ⟨a', e, h'.wstate _⟩
  cases c with
  | edit op =>
    rcases hf with hf | ⟨own, hf, hpl, hng⟩
    · exact old hf.1 hf.2
    · by_cases hfr : fresh = true
      · exact old hfr ⟨hf, .inl own⟩
      · obtain ⟨a', e, ⟨eb, -, -⟩, h', -⟩ := edit_slackState hdiff (h.slackState hng) own op hf hpl
        exact ⟨a', e, h'.wstate (by rw [eb]; exact h.bank) fun hc => absurd hc hfr⟩
  | change x v =>
    rcases hf with hf | ⟨own, hng⟩
    · exact old hf.1 hf.2
    · by_cases hfr : fresh = true
      · exact old hfr (.inl own)
      · obtain ⟨a', e, ⟨eb, -, -⟩, h', -⟩ := edit_slackState hdiff ((h.anyData _).slackState hng) own (.refreshNode x)
          ⟨trivial, fun _ _ e => (by cases e), fun _ e => (by cases e)⟩ (fun _ e => (by cases e))
        exact ⟨a', e, h'.wstate (by rw [eb]; exact h.bank) fun hc => absurd hc hfr⟩
  | bank c =>
    cases c with
    | add n func p =>
      by_cases hfr : fresh = true ∧ (n ∈ a.ft.applied → (a.bank.getFilter n).isSome = true)
      · exact old hfr.1 hfr.2
      · refine ⟨_, rfl, ?_⟩
        have : freshAfter fresh a (.bank (.add n func p)) = false := by
          unfold freshAfter
          rw [Bool.eq_false_iff]
          intro hc
          simp only [Bool.and_eq_true, Bool.or_eq_true, decide_eq_true_eq] at hc
          exact hfr ⟨hc.1, fun hn => hc.2.resolve_left fun h => h hn⟩
        rw [this]
        exact h.anyFilters (bank_call a.bank h.bank (.add n func p)) a.ft.applied
    | remove n =>
      by_cases hfr : fresh = true ∧ n ∉ a.ft.applied
      · exact old hfr.1 hfr.2
      · refine ⟨_, rfl, ?_⟩
        have : freshAfter fresh a (.bank (.remove n)) = false := by
          unfold freshAfter
          rw [Bool.eq_false_iff]
          intro hc
          simp only [Bool.and_eq_true, decide_eq_true_eq] at hc
          exact hfr hc
        rw [this]
        exact h.anyFilters (bank_call a.bank h.bank (.remove n)) a.ft.applied
  | setParams n p =>
    by_cases hfr : fresh = true ∧ n ∉ a.ft.applied
    · exact old hfr.1 hfr.2
    · refine ⟨_, rfl, ?_⟩
      have : freshAfter fresh a (.setParams n p) = false := by
        unfold freshAfter
        rw [Bool.eq_false_iff]
        intro hc
        simp only [Bool.and_eq_true, decide_eq_true_eq] at hc
        exact hfr hc
      rw [this]
      exact h.anyFilters (setParameters_inv h.bank n _) a.ft.applied
  | apply n p rs rf =>
    show ∃ a', FApp.withFT { a with bank := (a.ft.applyFilter diff a.bank a.s.t a.data n p rs rf).2.1 }
      (a.ft.applyFilter diff a.bank a.s.t a.data n p rs rf).2.2 = .ok a' ∧ _
    unfold FT.applyFilter
    dsimp only
    rw [if_neg (by
      rw [Bool.and_eq_true]
      rintro ⟨g1, g2⟩
      have := hf g1
      cases hg : a.bank.getFilter n with
      | none => rw [hg] at this; cases this
      | some f => rw [hg] at g2; cases g2)]
    generalize hb1 : (if FT.givesParams p then a.bank.setParameters n p else a.bank) = b1
    have hbi : BankInv b1 := by rw [← hb1]; split; exacts [setParameters_inv h.bank n p, h.bank]
    generalize hft1 : (if rs then { a.ft with applied := [] } else a.ft : FT) = ft1
    have e1 : ft1 = { a.ft with applied := if rs then [] else a.ft.applied } := by rw [← hft1]; split <;> rfl
    generalize hap : (if rs then [] else a.ft.applied) = ap1 at e1
    subst e1
    dsimp only
    have e2 : ∃ ap, (if decide (n ∉ ap1) = true then ({ a.ft with applied := ap1 ++ [n] } : FT) else { a.ft with applied := ap1 }) =
        { a.ft with applied := ap } := by
      split; exacts [⟨_, rfl⟩, ⟨_, rfl⟩]
    have hch : (FT.givesParams p || decide (n ∉ ap1)) = (FT.givesParams p || rs || decide (n ∉ a.ft.applied)) := by
      rw [← hap]
      cases rs <;> simp
    rw [show freshAfter fresh a (.apply n p rs rf) =
      if FT.givesParams p || rs || decide (n ∉ a.ft.applied) then rf else fresh from rfl, ← hch]
    cases hc : (FT.givesParams p || decide (n ∉ ap1)) with
    | true =>
      obtain ⟨ap2, e2⟩ := e2
      rw [e2]
      cases rf with
      | true =>
        simp only [Bool.and_self, if_true]
        obtain ⟨ft', r1, r2⟩ := h.refilter hdiff hbi ap2
        rw [r1]
        exact ⟨_, rfl, r2.wstate _⟩
      | false =>
        simp only [Bool.false_and, Bool.false_eq_true, if_false, if_true]
        exact ⟨_, rfl, h.anyFilters hbi ap2⟩
    | false =>
      simp only [Bool.and_false, Bool.false_eq_true, if_false]
      rw [hch] at hc
      simp only [Bool.or_eq_false_iff, decide_eq_false_iff_not, not_not] at hc
      obtain ⟨⟨hg, rfl⟩, hn⟩ := hc
      have hap' : ap1 = a.ft.applied := hap.symm
      subst hap'
      rw [← hb1, hg]
      refine ⟨_, rfl, ?_⟩
      simp only [hn, not_true, decide_false, Bool.false_eq_true, if_false]
      exact h
  | unapply n rf =>
    show ∃ a', a.withFT (a.ft.unapplyFilter diff a.bank a.s.t a.data n rf).2 = .ok a' ∧ _
    unfold FT.unapplyFilter
    rw [show freshAfter fresh a (.unapply n rf) = if n ∈ a.ft.applied then rf else fresh from rfl]
    by_cases hn : n ∈ a.ft.applied
    · rw [if_pos hn, if_pos hn]
      cases rf with
      | true =>
        dsimp only
        obtain ⟨ft', r1, r2⟩ := h.refilter hdiff h.bank (a.ft.applied.erase n)
        rw [if_pos rfl, r1]
        exact ⟨_, rfl, r2.wstate _⟩
      | false => exact ⟨_, rfl, h.anyFilters h.bank _⟩
    · rw [if_neg hn, if_neg hn]
      exact ⟨_, rfl, h⟩
  | reset rf =>
    show ∃ a', a.withFT (a.ft.resetFilters diff a.bank a.s.t a.data rf) = .ok a' ∧ _
    rw [show freshAfter fresh a (.reset rf) = (rf || (fresh && decide (a.ft.applied = []))) from rfl]
    unfold FT.resetFilters
    dsimp only
    cases rf with
    | true =>
      obtain ⟨ft', r1, r2⟩ := h.refilter hdiff h.bank []
      rw [if_pos rfl, r1]
      exact ⟨_, rfl, r2.wstate _⟩
    | false =>
      rw [if_neg (by simp)]
      refine ⟨_, rfl, ?_⟩
      by_cases he : fresh = true ∧ a.ft.applied = []
      · have e : ({ a.ft with applied := [] } : FT) = a.ft := by
          rcases hft : a.ft with ⟨r, ap, fl, v⟩
          have := he.2
          rw [hft] at this
          cases this; rfl
        rw [e, he.1, he.2]
        exact (h.right he.1).wstate _
      · have : (false || (fresh && decide (a.ft.applied = []))) = false := by
          rw [Bool.false_or, Bool.eq_false_iff]
          intro hc
          simp only [Bool.and_eq_true, decide_eq_true_eq] at hc
          exact he hc
        rw [this]
        exact h.anyFilters h.bank []
  | currentState => exact hf.elim

theorem run_wstate (hdiff : SetDiff diff) (cs : List (FAct V)) (fresh : Bool) (a : FApp V) (h : WState diff fresh a)
    (hf : WaitFairRun diff fresh cs a) :
    ∃ a', FApp.run diff cs a = .ok a' ∧ WState diff (freshEnd diff fresh cs a) a' := by
  induction cs generalizing a fresh with
  | nil => exact ⟨a, rfl, h⟩
  | cons c cs ih =>
    obtain ⟨a1, e1, h1⟩ := act_wstate hdiff h c hf.1
    have hf2 := hf.2
    rw [e1] at hf2
    obtain ⟨a2, e2, h2⟩ := ih _ a1 h1 hf2
    refine ⟨a2, by unfold FApp.run; rw [e1]; exact e2, ?_⟩
    unfold freshEnd
    rw [e1]
    exact h2

theorem BState.wstate {fresh : Bool} {a : FApp V} (h : BState diff fresh a) : WState diff fresh a := by
  obtain ⟨b, ap, h0⟩ := h.some
  exact ⟨h0.good, h0.tidy, h.bank, h0.rootFree, h0.fit.slack.lenient, h.right⟩

theorem waiting_run {ops : List Op} {bcs : List (Bank.Call (Id → V))} {root : Id} (h : ViewStart ops root)
    (hdiff : SetDiff diff) (d : Id → V) (refresh : Bool) :
    ∃ ft, FT.new diff (Bank.run {} bcs) (runOps St.init ops).t d root refresh = .ok ft ∧
      ∀ cs, WaitFairRun diff refresh cs ⟨runOps St.init ops, d, Bank.run {} bcs, ft⟩ →
        ∃ a, FApp.run diff cs ⟨runOps St.init ops, d, Bank.run {} bcs, ft⟩ = .ok a ∧
          WState diff (freshEnd diff refresh cs ⟨runOps St.init ops, d, Bank.run {} bcs, ft⟩) a := by
  obtain ⟨ft, e, hr⟩ := batched_run (bcs := bcs) h hdiff d refresh
  refine ⟨ft, e, fun cs hf => ?_⟩
  obtain ⟨a, e1, h1⟩ := hr [] trivial
  cases e1
  exact run_wstate hdiff cs refresh _ h1.wstate hf

/-- C81: a view is created, filled or not, after any careful history of the tree; then follows any history in which filters are
changed by anybody, with or without refresh, and the tree and the data are edited also while the view is out of date, as long as
nothing has to leave the view. No action fails, and an observer has exactly the rows of the view at all times.
Missing for the literal claim: the restrictions of `WaitFair`, see the refutation below. -/
theorem C81_alive_partial {ops : List Op} {bcs : List (Bank.Call (Id → V))} {root : Id} (h : ViewStart ops root)
    (hdiff : SetDiff diff) (d : Id → V) (refresh : Bool) :
    ∃ ft, FT.new diff (Bank.run {} bcs) (runOps St.init ops).t d root refresh = .ok ft ∧
      ∀ cs, WaitFairRun diff refresh cs ⟨runOps St.init ops, d, Bank.run {} bcs, ft⟩ →
        ∃ a, FApp.run diff cs ⟨runOps St.init ops, d, Bank.run {} bcs, ft⟩ = .ok a ∧ ObserverAgrees a := by
  obtain ⟨ft, e, hr⟩ := waiting_run h hdiff d refresh
  refine ⟨ft, e, fun cs hf => ?_⟩
  obtain ⟨a, ea, hv⟩ := hr cs hf
  exact ⟨a, ea, hv.observerAgrees⟩

/-- C81: after the next refresh the view displays exactly the wanted nodes, in the right shape. -/
theorem C81_refreshed_partial {ops : List Op} {bcs : List (Bank.Call (Id → V))} {root : Id} (h : ViewStart ops root)
    (hdiff : SetDiff diff) (d : Id → V) (refresh : Bool) :
    ∃ ft, FT.new diff (Bank.run {} bcs) (runOps St.init ops).t d root refresh = .ok ft ∧
      ∀ cs, WaitFairRun diff refresh cs ⟨runOps St.init ops, d, Bank.run {} bcs, ft⟩ →
        freshEnd diff refresh cs ⟨runOps St.init ops, d, Bank.run {} bcs, ft⟩ = true →
        ∃ a, FApp.run diff cs ⟨runOps St.init ops, d, Bank.run {} bcs, ft⟩ = .ok a ∧ ShowsExactly a ∧ RightShape a := by
  obtain ⟨ft, e, hr⟩ := waiting_run h hdiff d refresh
  refine ⟨ft, e, fun cs hf hfr => ?_⟩
  obtain ⟨a, ea, hv⟩ := hr cs hf
  exact ⟨a, ea, (hv.right hfr).rebuilt.showsExactly, (hv.right hfr).rebuilt.rightShape⟩

/-- C81: a view that lacks nodes follows the edits as far as it knows of them. Nothing has to leave it after the edit, nothing
that it showed is lost, and it shows every wanted node that the tree has announced. -/
theorem C81_follows_partial {ops : List Op} {bcs : List (Bank.Call (Id → V))} {root : Id} (h : ViewStart ops root)
    (hdiff : SetDiff diff) (d : Id → V) (refresh : Bool) :
    ∃ ft, FT.new diff (Bank.run {} bcs) (runOps St.init ops).t d root refresh = .ok ft ∧
      ∀ cs a op, WaitFairRun diff refresh cs ⟨runOps St.init ops, d, Bank.run {} bcs, ft⟩ →
        FApp.run diff cs ⟨runOps St.init ops, d, Bank.run {} bcs, ft⟩ = .ok a →
        OwnApplied a → EditFair a op → PlainRemoval a op → NothingToGo a →
        ∃ a', a.act diff (.edit op) = .ok a' ∧ FollowsWaiting a a' := by
  obtain ⟨ft, e, hr⟩ := waiting_run h hdiff d refresh
  refine ⟨ft, e, fun cs a op hf ha own he hpl hng => ?_⟩
  obtain ⟨a1, ea, hv⟩ := hr cs hf
  rw [ha] at ea
  cases ea
  have hl := hv.slackState hng
  obtain ⟨a', e', ⟨eb, ed, ef⟩, h', hs⟩ := edit_slackState hdiff hl own op he hpl
  obtain ⟨r, -, hi⟩ := h'.slack.inv
  refine ⟨a', e', fun x hx hs => (accepts_iff h'.good.wf x).1 (hi.sub x hs hx), fun x hx hxv hxt => ?_, fun n hn hw => hs _ (.inr ⟨n, hn, rfl⟩) hw⟩
  refine hs x (.inl hxv) ((accepts_iff h'.good.wf x).1 ?_)
  have h1 := (accepts_iff hl.good.wf x).2 (hng x hx hxv)
  rw [eb, ed, ef, accepts_own own (hxt.trans (accepts_has h1).symm) rfl]
  exact h1

/-! ### A concrete history -/

theorem nothingToGo_of {a : FApp V}
    (h : ∀ x ∈ a.ft.view.nodes.keys, x ≠ a.ft.root → FT.accepts a.bank a.s.t a.data a.ft.applied x = true) : NothingToGo a := by
  intro x hx hs
  have := h x ((Dict.mem_keys _ _).2 hs) hx
  unfold FT.accepts at this
  simp only [Bool.and_eq_true, List.all_eq_true] at this
  obtain ⟨⟨-, h2⟩, h3⟩ := this
  refine ⟨h2, fun n hn => ?_⟩
  have := h3 n hn
  cases hg : a.bank.getFilter n with
  | none => rw [hg] at this; cases this
  | some f => rw [hg] at this; exact ⟨f, rfl, this⟩

/-- 3 is below 1 and below 2, which is below 1; 5 is apart. -/
def waitOps : List Op := [.addNode (.new (.str 1) .none) .none, .addNode (.new (.str 2) .none) (.str 1),
  .addNode (.new (.str 3) .none) (.str 2), .newRelationship (.str 1) (.str 3), .addNode (.new (.str 5) .none) .none]

theorem waitStart : ViewStart waitOps (.str 100) :=
  ⟨⟨careful_add (Made.new _ _) (by decide), careful_add (Made.new _ _) (by decide), careful_add (Made.new _ _) (by decide),
    Tree.allEnabled_accept (by decide) _ _, careful_add (Made.new _ _) (by decide), trivial⟩, by decide⟩

def waitData : Id → Nat := fun x => if x = .str 1 then 3 else 4

def waitApp : FApp Nat := ⟨runOps St.init waitOps, waitData, Bank.run {} countBank,
  ⟨.str 100, [], false, ⟨View.rootOnly (.str 100), []⟩⟩⟩

/-- The view is empty and gets a filter; 3 is touched; 1 becomes even; the filter is taken away; a relation and a node are removed, a
node is added; at last the view is refreshed. -/
def waitHistory : List (FAct Nat) :=
  [ .apply (.plain 1) none false false, .edit (.refreshNode (.str 3)), .change (.str 1) 4, .unapply (.plain 1) false,
    .edit (.breakRelationship (.str 2) (.str 3)), .edit (.delNode (.str 2) false), .edit (.addNode (.new (.str 4) .none) .none),
    .reset true ]

theorem waitHistory_fair : WaitFairRun someDiff false waitHistory waitApp := by
  have own : ∀ a : FApp Nat, a.bank = Bank.run {} countBank → OwnApplied a := fun a e =>
    OwnBank.applied (by rw [e]; exact (ownBank_run _ countBank_own).2)
  refine ⟨fun h => (by cases h), .inr ⟨own _ rfl, ⟨trivial, ?_, ?_⟩, ?_, nothingToGo_of (by decide)⟩,
    .inr ⟨own _ rfl, nothingToGo_of (by decide)⟩, trivial, .inr ⟨own _ rfl, ⟨trivial, ?_, ?_⟩, ?_, nothingToGo_of (by decide)⟩,
    .inr ⟨own _ rfl, ⟨?_, ?_, ?_⟩, ?_, nothingToGo_of (by decide)⟩,
    .inr ⟨own _ rfl, ⟨careful_add (Made.new _ _) (by decide), ?_, ?_⟩, ?_, nothingToGo_of (by decide)⟩, trivial, trivial⟩
  all_goals first
    | (intro nd p h; cases h; decide)
    | (intro nd p h; cases h; done)
    | (intro x h; cases h)
    | (show (Tree.getParents _ (.str 2)).length ≤ 1; decide)

/-- The concrete case: first the view shows nothing, then 3 below 2, then both below 1, in the end 1, 3 below it, 4 and 5. -/
example : ∃ a, FApp.run someDiff waitHistory waitApp = .ok a ∧ ShowsExactly a ∧ RightShape a ∧ ObserverAgrees a ∧
    a.ft.view.kids (.str 100) = [.str 1, .str 5, .str 4] ∧ a.ft.view.kids (.str 1) = [.str 3] ∧
    (FApp.run someDiff (waitHistory.take 2) waitApp).state.ft.view.kids (.str 100) = [.str 2] ∧
    (FApp.run someDiff (waitHistory.take 3) waitApp).state.ft.view.kids (.str 100) = [.str 1] ∧
    (FApp.run someDiff (waitHistory.take 7) waitApp).state.ft.view.kids (.str 100) = [.str 1, .str 4] := by
  obtain ⟨ft, e, h⟩ := waiting_run (bcs := countBank) waitStart someDiff_ok waitData false
  cases e
  obtain ⟨a, ea, hv⟩ := h waitHistory waitHistory_fair
  have ea' : FApp.run someDiff waitHistory waitApp = .ok a := ea
  have hs : (FApp.run someDiff waitHistory waitApp).state = a := by rw [ea']; rfl
  refine ⟨a, ea, (hv.right rfl).rebuilt.showsExactly, (hv.right rfl).rebuilt.rightShape, hv.observerAgrees, ?_, ?_, by decide,
    by decide, by decide⟩
  · rw [← hs]; decide
  · rw [← hs]; decide

/-- An edit after the part of the history in which the view is out of date. -/
example : ∃ a', (FApp.run someDiff (waitHistory.take 3) waitApp).state.act someDiff (.edit (.delNode (.str 5) true)) = .ok a' ∧
    FollowsWaiting (FApp.run someDiff (waitHistory.take 3) waitApp).state a' := by
  obtain ⟨ft, e, h⟩ := C81_follows_partial (bcs := countBank) waitStart someDiff_ok waitData false
  cases e
  have hf := waitHistory_fair
  refine h (waitHistory.take 3) _ _ ⟨hf.1, hf.2.1, hf.2.2.1, trivial⟩ rfl
    (OwnBank.applied (ownBank_run _ countBank_own).2) ⟨⟨by decide, ?_⟩, ?_, ?_⟩ ?_ (nothingToGo_of (by decide))
  · intro y hy
    have := descendants_in [] (by decide) y hy
    cases this
  · intro nd p h; cases h
  · intro x h y hy
    cases h
    have := descendants_in [] (by decide) y hy
    cases this
  · intro x h y hy
    cases h
    have := descendants_in [] (by decide) y hy
    cases this

/-! ### When something has to leave -/

/-- 3 is below 1 and below 2, which is below 1, and only 3 is even. -/
def staleApp : FApp Nat := ⟨runOps St.init waitOps, fun x => if x = .str 3 then 4 else 3, Bank.run {} countBank,
  (FT.new someDiff (Bank.run {} countBank) (runOps St.init waitOps).t (fun x => if x = .str 3 then 4 else 3) (.str 100) true).state⟩

theorem not_agrees_of {a : FApp V} (h : (replay a.ft.view.out []).isSome = false) : ¬ ObserverAgrees a := by
  rintro ⟨rows, e, -⟩
  rw [e] at h
  cases h

/-- C81 is false when a shown node has to leave the view: a filter is applied without refresh that hides 1 and 2. Then `modify_node`
raises `ValueError` for 1 as well as for 2 and 3, and although the next refresh succeeds, an observer has lost track of the view. -/
theorem C81_refuted_leaving : ∀ x ∈ [Id.str 1, Id.str 2, Id.str 3], ∃ a, FApp.run someDiff
    [ .apply (.plain 1) none false false, .edit (.refreshNode x) ] staleApp = .err .valueError a ∧
    ∃ a', a.act someDiff (.reset true) = .ok a' ∧ ¬ ObserverAgrees a' := by
  intro x hx
  simp only [List.mem_cons, List.not_mem_nil, or_false] at hx
  rcases hx with rfl | rfl | rfl
  · exact ⟨_, rfl, _, rfl, not_agrees_of (by decide)⟩
  · exact ⟨_, rfl, _, rfl, not_agrees_of (by decide)⟩
  · exact ⟨_, rfl, _, rfl, not_agrees_of (by decide)⟩

end Larch
