import Verif.Proofs.RoughApp
import Verif.Props.NestedView

/-!
# C68: filters that raise
-/

namespace Larch

open Graph Spec

variable {V D : Type} {diff : List Id → List Id → List Id}

theorem attempts_husk (hdiff : SetDiff diff) : ∀ (as : List (Attempt V)) (ft : FT),
    (∀ c ∈ as, Good c.t ∧ c.t.has ft.root = false) → (∃ rank M, Husk ft.root rank M ft.view) →
    (attempts diff as ft).root = ft.root ∧ ∃ rank M, Husk ft.root rank M (attempts diff as ft).view := by
  intro as
  induction as with
  | nil => intro ft _ h; exact ⟨rfl, h⟩
  | cons c as ih =>
    intro ft hg h
    have hc := hg c (by simp)
    obtain ⟨rank, M, hw⟩ := h
    have key : ∀ ft', ft'.root = ft.root → (∃ rank M, Husk ft'.root rank M ft'.view) →
        (({ ft with applied := c.applied } : FT).refilterR diff c.bank c.t c.data c.bad).state = ft' →
        (attempts diff (c :: as) ft).root = ft.root ∧ ∃ rank M, Husk ft.root rank M (attempts diff (c :: as) ft).view := by
      intro ft' h1 h2 h3
      have e : attempts diff (c :: as) ft = attempts diff as ft' := by
        rw [← h3]; rfl
      obtain ⟨k1, k2⟩ := ih ft' (fun c' hc' => by rw [h1]; exact hg c' (by simp [hc'])) h2
      rw [e, k1]
      exact ⟨h1, h1 ▸ k2⟩
    rcases refilterR_husk hdiff c.bank hc.1 c.data c.bad { ft with applied := c.applied } hc.2 hw with ⟨ft', k1, k2⟩ | ⟨e, v, k1, k2⟩
    · obtain ⟨v, r1, r2⟩ := refilter_fit hdiff c.bank hc.1 c.data { ft with applied := c.applied } hc.2 hw
      rw [r1] at k2
      cases k2
      refine key { ft with applied := c.applied, flat := FT.anyFlat c.bank c.applied, view := v } rfl ?_ (by rw [k1]; rfl)
      obtain ⟨rk, m, hw'⟩ := r2.whole hdiff hc.1.wf (show c.t.has ({ ft with applied := c.applied, flat := FT.anyFlat c.bank c.applied } : FT).root = false from hc.2)
      exact ⟨rk, m, hw'.husk⟩
    · exact key { ft with applied := c.applied, flat := FT.anyFlat c.bank c.applied, view := v } rfl k2 (by rw [k1]; rfl)

/-- **C68**, refilters: a view is refiltered any number of times, each time with any filters, any data and any consistent tree, and any
of the filters raises at any point. The next refilter in which nothing raises ends normally, with exactly the accepted nodes on
display, where they should be, and the observers have the same rows although some of the earlier refilters were cut short. -/
theorem C68_refilter (hdiff : SetDiff diff) (root : Id) (as : List (Attempt V)) (has : ∀ c ∈ as, Good c.t ∧ c.t.has root = false)
    (s : St) (hg : Good s.t) (hr : s.t.has root = false) (d : Id → V) (b : Bank (Id → V)) (applied : List FName) :
    ∃ ft, ({ attempts diff as { root := root, view := ⟨View.rootOnly root, []⟩ } with applied := applied } : FT).refilterR
        diff b s.t d .never = .ok ft ∧ ft.applied = applied ∧ ft.root = root ∧ ViewRight (⟨s, d, b, ft⟩ : FApp V) := by
  obtain ⟨e1, rank, M, e2⟩ := attempts_husk hdiff as { root := root, view := ⟨View.rootOnly root, []⟩ } has
    ⟨_, _, (whole_rootOnly root).husk⟩
  have e1' : (attempts diff as { root := root, view := ⟨View.rootOnly root, []⟩ }).root = root := e1
  generalize attempts diff as { root := root, view := ⟨View.rootOnly root, []⟩ } = ft0 at e1' e2
  subst e1'
  obtain ⟨v, k1, k2⟩ := refilter_fit hdiff b hg d { ft0 with applied := applied } hr e2
  refine ⟨{ ft0 with applied := applied, flat := FT.anyFlat b applied, view := v }, by rw [refilterR_never]; exact k1, rfl, rfl, ?_⟩
  have hR : Rebuilt diff (⟨s, d, b, { ft0 with applied := applied, flat := FT.anyFlat b applied, view := v }⟩ : FApp V) :=
    ⟨hg, hr, rfl, v.out, k2⟩
  refine ⟨hR.showsExactly, hR.rightShape, ?_⟩
  obtain ⟨r, -, hv⟩ := k2.inv
  exact hv.rows.agrees

theorem ViewStart.rstate {ops : List Op} {bcs : List (Bank.Call (Id → V))} {root : Id} (h : ViewStart ops root)
    (hdiff : SetDiff diff) (d : Id → V) :
    ∃ ft, FT.new diff (Bank.run {} bcs) (runOps St.init ops).t d root true = .ok ft ∧
      RState diff (⟨⟨runOps St.init ops, d, Bank.run {} bcs, ft⟩, false⟩ : RoughApp V) := by
  obtain ⟨ft, e, hr⟩ := h.run (bcs := bcs) hdiff d
  obtain ⟨a, ea, hv⟩ := hr [] trivial
  cases ea
  exact ⟨ft, e, fun _ => hv, hv.hstate hdiff⟩

/-- **C68** (partial), histories: the application edits the tree, changes data and filters, and refilters, and filters may raise
when filters are applied, unapplied or reset, in `refilter`, when the data of a node change, and in the middle of an edit of the tree,
which then ends there. Whenever no exception has left the view behind since the last refilter that reached its end, the view is right.
And at every moment a refilter in which nothing raises ends normally and makes the view right.

Missing: exceptions while a node on display has to be hidden (`C68_refuted_parent`, `C68_refuted_child`) or a node is
removed (`C68_refuted_removal`), edits of the tree between an exception and the next refilter (`C68_refuted_edit`), and the
restrictions of `ViewFair`. -/
theorem C68_repaired_partial {ops : List Op} {bcs : List (Bank.Call (Id → V))} {root : Id} (h : ViewStart ops root)
    (hdiff : SetDiff diff) (d : Id → V) :
    ∃ ft, FT.new diff (Bank.run {} bcs) (runOps St.init ops).t d root true = .ok ft ∧
      ∀ cs, RoughFairRun diff cs ⟨⟨runOps St.init ops, d, Bank.run {} bcs, ft⟩, false⟩ →
        let r := RoughApp.run diff cs ⟨⟨runOps St.init ops, d, Bank.run {} bcs, ft⟩, false⟩
        (r.hurt = false → ViewRight r.app) ∧ (r.step diff (.refilter .never)).hurt = false ∧
          ViewRight (r.step diff (.refilter .never)).app := by
  obtain ⟨ft, e, hr⟩ := h.rstate (bcs := bcs) hdiff d
  refine ⟨ft, e, fun cs hf => ?_⟩
  dsimp only
  have hR := run_rstate hdiff cs hr hf
  refine ⟨fun hh => (hR.whole hh).viewRight, ?_⟩
  obtain ⟨-, ft', k1, k2⟩ := hR.husk.refilterR hdiff _ hR.husk.bank
    (RoughApp.run diff cs ⟨⟨runOps St.init ops, d, Bank.run {} bcs, ft⟩, false⟩).app.ft.applied .never false
  generalize RoughApp.run diff cs ⟨⟨runOps St.init ops, d, Bank.run {} bcs, ft⟩, false⟩ = r at k1 k2
  have k1' : r.app.ft.refilterR diff r.app.bank r.app.s.t r.app.data .never = .ok ft' := by rw [refilterR_never]; exact k1
  unfold RoughApp.step
  dsimp only
  rw [k1']
  exact ⟨rfl, k2.viewRight⟩

/-- Where nothing raises, this model is the one of C24–C28. -/
theorem C68_nothing_raises (a a' : FApp V) (hurt : Bool) (c : FAct V) (h : a.act diff c = .ok a') :
    ((⟨a, hurt⟩ : RoughApp V).step diff (.does c .never)).app = a' ∧
      (hurt = false → ((⟨a, hurt⟩ : RoughApp V).step diff (.does c .never)).hurt = false) := by
  have settle_ok : ∀ (a0 : FApp V) (g : Bool) (o : Res FT), a0.withFT o = .ok a' →
      RoughApp.settle a0 g o = ⟨a', g⟩ := by
    intro a0 g o ho
    cases o with
    | ok ft => cases ho; rfl
    | err e ft => cases ho
  cases c with
  | edit op =>
    have e : FT.reactR diff a.bank a.data .never = FT.react diff a.bank a.data := by
      funext n ft; exact reactR_never _ _ _ _
    obtain ⟨notes, hl, hi⟩ := Now.step_interleaves (tell := FT.reactR diff a.bank a.data .never) a.s a.ft op
    have h' : FApp.edit diff a op = .ok a' := h
    unfold FApp.edit at h'
    dsimp only at h'
    rw [hl, List.drop_left, ← e] at h'
    unfold RoughApp.step
    dsimp only
    rw [hl, List.drop_left]
    rcases hi with ⟨o', k1, k2⟩ | ⟨pre, n, post, o1, e1, o2, k1, k2, k3, k4⟩
    · have hs : (Now.step (Now.quietly (FT.reactR diff a.bank a.data .never)) ⟨a.s, a.ft⟩ op).state = ⟨(step a.s op).state, o'⟩ := by
        rw [k2]; cases step a.s op <;> rfl
      rw [k1] at h' ⊢
      rw [hs]
      cases h'
      exact ⟨rfl, fun hh => by rw [hh]; rfl⟩
    · rw [k1, forEach_append, k2, Res.andThen, Res.forEach, k3] at h'
      cases h'
  | bank op => unfold RoughApp.step; dsimp only; rw [h]; exact ⟨rfl, id⟩
  | setParams n p => unfold RoughApp.step; dsimp only; rw [h]; exact ⟨rfl, id⟩
  | currentState => unfold RoughApp.step; dsimp only; rw [h]; exact ⟨rfl, id⟩
  | change x w =>
    unfold RoughApp.step
    dsimp only
    have e : (fun (n : Note) (ft : FT) => FT.reactR diff a.bank (fun y => if y = x then w else a.data y) .never n ft) =
        fun n ft => FT.react diff a.bank (fun y => if y = x then w else a.data y) n ft := by
      funext n ft; exact reactR_never _ _ _ _
    rw [settle_ok _ hurt _ (by rw [show FT.reactR diff a.bank (fun y => if y = x then w else a.data y) .never = _ from e]; exact h)]
    exact ⟨rfl, id⟩
  | apply n p rs rf =>
    have e : a.ft.applyFilterR diff a.bank a.s.t a.data .never n p rs rf = a.ft.applyFilter diff a.bank a.s.t a.data n p rs rf := by
      unfold FT.applyFilterR FT.applyFilter; simp only [refilterR_never]
    have h' : ({ a with bank := (a.ft.applyFilter diff a.bank a.s.t a.data n p rs rf).2.1 } : FApp V).withFT
        (a.ft.applyFilter diff a.bank a.s.t a.data n p rs rf).2.2 = .ok a' := h
    unfold RoughApp.step
    dsimp only
    rw [e]
    generalize a.ft.applyFilter diff a.bank a.s.t a.data n p rs rf = o at h'
    rw [settle_ok { a with bank := o.2.1 } _ o.2.2 h']
    exact ⟨rfl, fun hh => by rw [hh]; rfl⟩
  | unapply n rf =>
    have e : a.ft.unapplyFilterR diff a.bank a.s.t a.data .never n rf = a.ft.unapplyFilter diff a.bank a.s.t a.data n rf := by
      unfold FT.unapplyFilterR FT.unapplyFilter; simp only [refilterR_never]
    unfold RoughApp.step
    dsimp only
    rw [e, settle_ok _ _ _ h]
    exact ⟨rfl, fun hh => by rw [hh]; rfl⟩
  | reset rf =>
    have e : a.ft.resetFiltersR diff a.bank a.s.t a.data .never rf = a.ft.resetFilters diff a.bank a.s.t a.data rf := by
      unfold FT.resetFiltersR FT.resetFilters; simp only [refilterR_never]
    unfold RoughApp.step
    dsimp only
    rw [e, settle_ok _ _ _ h]
    exact ⟨rfl, fun hh => by rw [hh]; rfl⟩

/-! ### Concrete cases -/

/-- Any filter raises when it is asked about `x`. -/
def raisesAt (x : Id) : Raises := fun _ _ y => if y = x then some .typeError else none

/-- 3 is below 1 and 2, and 4 below 3. -/
def roughOps : List Op := [.addNode (.new (.str 1) .none) .none, .addNode (.new (.str 2) .none) .none,
  .addNode (.new (.str 3) .none) (.str 1), .newRelationship (.str 2) (.str 3), .addNode (.new (.str 4) .none) (.str 3)]

theorem roughStart : ViewStart roughOps (.str 100) :=
  ⟨⟨careful_add (Made.new _ _) (by decide), careful_add (Made.new _ _) (by decide), careful_add (Made.new _ _) (by decide),
    Tree.allEnabled_accept (by decide) _ _, careful_add (Made.new _ _) (by decide), trivial⟩, by decide⟩

/-- The application: the data of every node are 0, and no filter is applied yet. -/
def roughApp : RoughApp Nat := ⟨⟨runOps St.init roughOps, fun _ => 0, Bank.run {} countBank,
  (FT.new someDiff (Bank.run {} countBank) (runOps St.init roughOps).t (fun _ => 0) (.str 100) true).state⟩, false⟩

/-- A filter is applied and raises about node 3, the application gives up on it and refilters, and raises again about node 2; it takes the filter
away altogether and resets. Then a filter that works, and a data change during which it raises about a node that is to be shown. -/
def roughHistory : List (RoughAct Nat) :=
  [ .does (.change (.str 1) 3) .never, .does (.apply (.plain 1) none false true) (raisesAt (.str 3)), .refilter (raisesAt (.str 2)),
    .does (.bank (.remove (.plain 1))) .never, .does (.bank (.add (.plain 1) isEven none)) .never,
    .does (.unapply (.plain 1) true) (raisesAt (.str 4)), .does (.apply (.plain 1) none false true) .never,
    .does (.change (.str 1) 4) (raisesAt (.str 3)) ]

theorem roughHistory_fair : RoughFairRun someDiff roughHistory roughApp := by
  have hbank : ∀ n f p, Bank.Call.add n f p ∈ countBank ++ [.remove (.plain 1), .add (.plain 1) isEven none] → OwnData f := by
    intro n f p hm
    rcases List.mem_append.1 hm with hm | hm
    · exact countBank_own n f p hm
    · simp only [List.mem_cons, List.not_mem_nil, or_false, reduceCtorEq, false_or, Bank.Call.add.injEq] at hm
      rw [hm.2.1]; exact isEven_own
  have own := (ownBank_run _ hbank).2
  refine ⟨⟨(fun h => nomatch h), fun _ => ⟨.inl (ownBank_run _ countBank_own).2.applied, fun x w _ => .inl rfl⟩, (fun _ _ h => nomatch h)⟩,
    ⟨(fun h => nomatch h), fun _ => ⟨⟨rfl, (fun h => nomatch h)⟩, (fun _ _ h => nomatch h)⟩, (fun _ _ h => nomatch h)⟩,
    trivial, ⟨fun _ => trivial, fun h => absurd h (by decide), (fun _ _ h => nomatch h)⟩,
    ⟨fun _ => trivial, fun h => absurd h (by decide), (fun _ _ h => nomatch h)⟩, ⟨fun _ => trivial, fun h => absurd h (by decide), (fun _ _ h => nomatch h)⟩,
    ⟨fun h => absurd h (by decide), fun _ => ⟨⟨rfl, (fun h => nomatch h)⟩, (fun _ _ h => nomatch h)⟩, (fun _ _ h => nomatch h)⟩,
    ⟨fun h => absurd h (by decide), fun _ => ⟨.inl (OwnBank.applied own), fun x w hc => ?_⟩, (fun _ _ h => nomatch h)⟩, trivial⟩
  cases hc
  right
  intro z h _ hz
  rcases hz with rfl | hz
  · exact absurd h (by decide)
  · exact absurd (OwnApplied.fewer (OwnBank.applied own)) hz

/-- The exceptions leave the view with some of its nodes only. -/
example : (roughApp.run someDiff (roughHistory.take 2)).hurt = true ∧
    (roughApp.run someDiff (roughHistory.take 2)).app.ft.view.nodes.keys = [.str 100, .str 2] ∧
    (roughApp.run someDiff (roughHistory.take 3)).app.ft.view.nodes.keys = [.str 100] ∧
    (roughApp.run someDiff (roughHistory.take 7)).hurt = false ∧
    (roughApp.run someDiff roughHistory).hurt = true ∧
    (roughApp.run someDiff roughHistory).app.ft.view.nodes.keys = [.str 100, .str 2, .str 3, .str 4, .str 1] := by decide +kernel

example : ViewRight ((roughApp.run someDiff roughHistory).step someDiff (.refilter .never)).app := by
  obtain ⟨ft, e, h⟩ := C68_repaired_partial roughStart someDiff_ok (fun _ => 0)
  have : roughApp = ⟨⟨runOps St.init roughOps, fun _ => 0, Bank.run {} countBank, ft⟩, false⟩ := by
    unfold roughApp; rw [e]; rfl
  rw [this]
  exact (h roughHistory (this ▸ roughHistory_fair)).2.2

/-- With a filter in use, node 5 is added below 3 and the filter raises about it; the application refilters. Then 4 is moved from 3 to 2,
and the filter raises about 2. -/
def roughEdits : List (RoughAct Nat) :=
  [ .does (.apply (.plain 1) none false true) .never,
    .does (.edit (.addNode (.new (.str 5) .none) (.str 3))) (raisesAt (.str 5)), .refilter .never,
    .does (.edit (.moveNode (.str 4) (.str 2))) (raisesAt (.str 2)) ]

theorem roughEdits_fair : RoughFairRun someDiff roughEdits roughApp := by
  have own := (ownBank_run (V := Nat) _ countBank_own).2
  refine ⟨⟨(fun h => nomatch h), fun _ => ⟨⟨rfl, (fun h => nomatch h)⟩, (fun _ _ h => nomatch h)⟩, (fun _ _ h => nomatch h)⟩,
    ⟨fun h => absurd h (by decide), fun _ => ⟨⟨⟨careful_add (Made.new _ _) (by decide), ?_, (fun _ h => nomatch h)⟩, .inl (OwnBank.applied own)⟩, (fun _ _ h => nomatch h)⟩,
      fun _ op h => .inr ⟨?_, .inl (OwnBank.applied own)⟩⟩,
    trivial,
    ⟨fun h => absurd h (by decide), fun _ => ⟨⟨⟨trivial, (fun _ _ h => nomatch h), (fun _ h => nomatch h)⟩, .inl (OwnBank.applied own)⟩, (fun _ _ h => nomatch h)⟩,
      fun _ op h => .inr ⟨?_, .inl (OwnBank.applied own)⟩⟩, trivial⟩
  · intro nd p e; cases e; decide
  · cases h; exact fun _ _ h => nomatch h
  · cases h; exact fun _ _ h => nomatch h

/-- After the first exception node 5 is in the tree and not in the view. After the second one, 4 is at the top of the tree: the edit
has ended between taking 4 away from 3 and putting it below 2. -/
example : (roughApp.run someDiff (roughEdits.take 2)).hurt = true ∧ (roughApp.run someDiff (roughEdits.take 2)).app.s.t.has (.str 5) = true ∧
    (roughApp.run someDiff (roughEdits.take 2)).app.ft.view.has (.str 5) = false ∧
    (roughApp.run someDiff (roughEdits.take 3)).hurt = false ∧ (roughApp.run someDiff (roughEdits.take 3)).app.ft.view.has (.str 5) = true ∧
    (roughApp.run someDiff roughEdits).hurt = true ∧ (roughApp.run someDiff roughEdits).app.s.t.getParents (.str 4) = [] ∧
    (roughApp.run someDiff roughEdits).app.s.t.rootChildren = [.str 1, .str 2, .str 4] := by decide +kernel

example : ViewRight ((roughApp.run someDiff roughEdits).step someDiff (.refilter .never)).app := by
  obtain ⟨ft, e, h⟩ := C68_repaired_partial roughStart someDiff_ok (fun _ => 0)
  have : roughApp = ⟨⟨runOps St.init roughOps, fun _ => 0, Bank.run {} countBank, ft⟩, false⟩ := by
    unfold roughApp; rw [e]; rfl
  rw [this]
  exact (h roughEdits (this ▸ roughEdits_fair)).2.2

/-- A refilter that fails about node 3, one that fails about node 1, and then one that works. -/
def roughAttempts : List (Attempt Nat) :=
  [⟨(runOps St.init roughOps).t, fun _ => 0, Bank.run {} countBank, [.plain 1], raisesAt (.str 3)⟩,
   ⟨(runOps St.init roughOps).t, fun _ => 0, Bank.run {} countBank, [.plain 1, .plain 2], raisesAt (.str 1)⟩]

example : (attempts someDiff (roughAttempts.take 1) { root := .str 100, view := ⟨View.rootOnly (.str 100), []⟩ }).view.nodes.keys =
      [.str 100, .str 1] ∧
    (attempts someDiff (roughAttempts.take 1) { root := .str 100, view := ⟨View.rootOnly (.str 100), []⟩ }).view.out =
      [⟨.added, .str 1, [.str 1]⟩] ∧
    (attempts someDiff roughAttempts { root := .str 100, view := ⟨View.rootOnly (.str 100), []⟩ }).view.nodes.keys = [.str 100] := by
  decide +kernel

example : ∃ ft, ({ attempts someDiff roughAttempts { root := .str 100, view := ⟨View.rootOnly (.str 100), []⟩ } with
    applied := [.plain 1] } : FT).refilterR someDiff (Bank.run {} countBank) (runOps St.init roughOps).t (fun _ => 0) .never = .ok ft ∧
    ViewRight (⟨runOps St.init roughOps, fun _ => 0, Bank.run {} countBank, ft⟩ : FApp Nat) := by
  have hg := (runOps_careful roughOps St.init init_good init_noDangling roughStart.careful).1
  obtain ⟨ft, e, -, -, h⟩ := C68_refilter someDiff_ok (.str 100) roughAttempts
    (by
      intro c hc
      rcases List.mem_cons.1 hc with rfl | hc
      · exact ⟨hg, by decide⟩
      · rw [List.mem_singleton.1 hc]; exact ⟨hg, by decide⟩)
    (runOps St.init roughOps) hg (by decide) (fun _ => 0) (Bank.run {} countBank) [.plain 1]
  exact ⟨ft, e, h⟩

/-! ### The limits -/

/-- The filter is in use. -/
def roughBefore : RoughApp Nat := roughApp.run someDiff [.does (.apply (.plain 1) none false true) .never]

/-- C68 is false when a node on display has to be hidden and a filter raises about one of its parents: node 3 leaves the view, node 1
forgets it, the filter raises about node 1, and node 2 never hears of it. From then on every refilter raises `KeyError`,
although no filter raises any more, and the view stays as it was. -/
theorem C68_refuted_parent : RoughFairRun someDiff [.does (.apply (.plain 1) none false true) .never] roughApp ∧
    ViewFair roughBefore.app (.change (.str 3) 3) ∧ roughBefore.hurt = false ∧
    let r := roughBefore.step someDiff (.does (.change (.str 3) 3) (raisesAt (.str 1)))
    (∃ ft, r.app.ft.refilter someDiff r.app.bank r.app.s.t r.app.data = .err .keyError ft) ∧
      (r.step someDiff (.refilter .never)).hurt = true ∧
      ∃ ft, (r.step someDiff (.refilter .never)).app.ft.refilter someDiff r.app.bank r.app.s.t r.app.data = .err .keyError ft := by
  refine ⟨⟨⟨(fun h => nomatch h), fun _ => ⟨⟨rfl, (fun h => nomatch h)⟩, (fun _ _ h => nomatch h)⟩, (fun _ _ h => nomatch h)⟩, trivial⟩, .inl (ownBank_run _ countBank_own).2.applied, rfl, ?_⟩
  exact ⟨⟨_, rfl⟩, rfl, ⟨_, rfl⟩⟩

/-- C68 is false when a node on display has to be hidden and a filter raises about one of its children: the child's rows have
been taken from the observers, but it is still a child, so the next refilter takes them again. -/
theorem C68_refuted_child : ViewFair roughBefore.app (.change (.str 3) 3) ∧ roughBefore.hurt = false ∧
    let r := roughBefore.step someDiff (.does (.change (.str 3) 3) (raisesAt (.str 4)))
    (r.step someDiff (.refilter .never)).hurt = false ∧ ¬ ObserverAgrees (r.step someDiff (.refilter .never)).app := by
  refine ⟨.inl (ownBank_run _ countBank_own).2.applied, rfl, rfl, ?_⟩
  rintro ⟨rows, h, -⟩
  have : replay ((roughBefore.step someDiff (.does (.change (.str 3) 3) (raisesAt (.str 4)))).step someDiff (.refilter .never)).app.ft.view.out [] = none := by
    decide +kernel
  rw [this] at h
  cases h

/-- The filter is in use, and 3 is below 1 only. -/
def roughOne : RoughApp Nat := roughBefore.step someDiff (.does (.edit (.removeParent (.str 3) (.str 2))) .never)

/-- C68 is false when a filter raises while a node is removed. Node 3 is taken from between 1 and 4, and the filter raises about 4, which has
lost its parent and is not yet at the top of the tree. No refilter shows it any more. -/
theorem C68_refuted_removal : RoughFairRun someDiff
      [.does (.apply (.plain 1) none false true) .never, .does (.edit (.removeParent (.str 3) (.str 2))) .never] roughApp ∧
    ViewFair roughOne.app (.edit (.delNode (.str 3) false)) ∧ roughOne.hurt = false ∧
    let r := roughOne.step someDiff (.does (.edit (.delNode (.str 3) false)) (raisesAt (.str 4)))
    r.app.s.t.has (.str 4) = true ∧ (r.step someDiff (.refilter .never)).hurt = false ∧
      ¬ ShowsExactly (r.step someDiff (.refilter .never)).app := by
  have own := (ownBank_run (V := Nat) _ countBank_own).2
  refine ⟨⟨⟨(fun h => nomatch h), fun _ => ⟨⟨rfl, (fun h => nomatch h)⟩, (fun _ _ h => nomatch h)⟩, (fun _ _ h => nomatch h)⟩,
    ⟨fun h => absurd h (by decide +kernel), fun _ => ⟨⟨⟨trivial, (fun _ _ h => nomatch h), (fun _ h => nomatch h)⟩, .inl (OwnBank.applied own)⟩,
      (fun _ _ h => nomatch h)⟩, fun _ _ _ => .inl rfl⟩, trivial⟩,
    ⟨⟨show (roughOne.app.s.t.getParents (.str 3)).length ≤ 1 by decide +kernel, (fun _ _ h => nomatch h), (fun _ h => nomatch h)⟩,
      .inl (OwnBank.applied own)⟩, by decide +kernel, by decide +kernel, by decide +kernel, fun h => ?_⟩
  have h2 := (h.1 (.str 4) (by decide)).2 ⟨by decide +kernel, fun n hn => ?_⟩
  · exact absurd h2 (by decide +kernel)
  · have : n = .plain 1 := by simpa using (show n ∈ [FName.plain 1] from hn)
    subst this
    exact ⟨_, rfl, rfl⟩

/-- Node 5 comes below 1; node 3 is hidden and then shown again, while the filter raises about 5. -/
def roughShown : List (RoughAct Nat) :=
  [ .does (.edit (.addNode (.new (.str 5) .none) (.str 1))) .never, .does (.change (.str 3) 3) .never,
    .does (.apply (.plain 1) none false true) .never, .does (.change (.str 3) 4) (raisesAt (.str 5)) ]

/-- C68 is false when the tree is edited between the exception and the refilter. Node 3 appears below 1 and 2; the filter raises when 1 has
heard of it and 2 has not. Then node 6 is added below 3, and its row below 2 and 3 is announced, where the observers
know of no row. -/
theorem C68_refuted_edit : RoughFairRun someDiff roughShown roughApp ∧
    let r := (roughApp.run someDiff roughShown).step someDiff (.does (.edit (.addNode (.new (.str 6) .none) (.str 3))) .never)
    (r.step someDiff (.refilter .never)).hurt = false ∧ ¬ ObserverAgrees (r.step someDiff (.refilter .never)).app := by
  have own := (ownBank_run (V := Nat) _ countBank_own).2
  refine ⟨⟨⟨(fun h => nomatch h), fun _ => ⟨⟨⟨careful_add (Made.new _ _) (by decide), ?_, (fun _ h => nomatch h)⟩, .inl (OwnBank.applied own)⟩, (fun _ _ h => nomatch h)⟩,
      fun _ _ _ => .inl rfl⟩,
    ⟨fun h => absurd h (by decide +kernel), fun _ => ⟨.inl (OwnBank.applied own), fun _ _ _ => .inl rfl⟩, (fun _ _ h => nomatch h)⟩,
    ⟨fun h => absurd h (by decide +kernel), fun _ => ⟨⟨rfl, (fun h => nomatch h)⟩, (fun _ _ h => nomatch h)⟩, (fun _ _ h => nomatch h)⟩,
    ⟨fun h => absurd h (by decide +kernel), fun _ => ⟨.inl (OwnBank.applied own), fun x w hc => .inr ?_⟩, (fun _ _ h => nomatch h)⟩, trivial⟩, ?_⟩
  · intro nd p e; cases e; decide
  · cases hc
    intro z h _ hz
    rcases hz with rfl | hz
    · exact absurd h (by decide +kernel)
    · exact absurd (OwnApplied.fewer (OwnBank.applied own)) hz
  · refine ⟨by decide +kernel, ?_⟩
    rintro ⟨rows, h, -⟩
    have : replay (((roughApp.run someDiff roughShown).step someDiff (.does (.edit (.addNode (.new (.str 6) .none) (.str 3))) .never)).step someDiff
        (.refilter .never)).app.ft.view.out [] = none := by decide +kernel
    rw [this] at h
    cases h

/-- Applying the filter again is not enough after an exception: it is in the list already, so nothing is refiltered, although
nothing raises any more. -/
theorem C68_refuted_again : let r := roughApp.step someDiff (.does (.apply (.plain 1) none false true) (raisesAt (.str 3)))
    r.hurt = true ∧ ¬ ShowsExactly (r.step someDiff (.does (.apply (.plain 1) none false true) .never)).app := by
  refine ⟨rfl, fun h => ?_⟩
  have h2 := (h.1 (.str 2) (by decide)).2 ⟨by decide, fun n hn => ?_⟩
  · exact absurd h2 (by decide +kernel)
  · have : n = .plain 1 := by simpa using (show n ∈ [FName.plain 1] from hn)
    subst this
    exact ⟨_, rfl, rfl⟩

end Larch
