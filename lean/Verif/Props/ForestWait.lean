import Verif.Proofs.ForestWait
import Verif.Proofs.Leftover

/-!
# C82: a forest can be edited in any way while a view waits for its refresh
-/

namespace Larch

open Graph Spec

variable {V : Type} {diff : List Id → List Id → List Id}

/-- What comes of a call that sets filters: the view stays as it is or is made anew. -/
theorem FState.filters (hdiff : SetDiff diff) {fresh fr : Bool} {a a' : FApp V} (h : FState diff fresh a) (hw : WState diff fr a')
    (hs : a'.s = a.s) (hv : VState diff a' ∨ a'.ft.root = a.ft.root ∧ a'.ft.flat = a.ft.flat ∧ a'.ft.view = a.ft.view) :
    FState diff fr a' := by
  rcases hv with hv | ⟨h1, h2, h3⟩
  · exact hv.fstate hdiff (by rw [hs]; exact h.forest) fr
  · exact h.still hs hw.bank h1 h2 h3 hw.right

theorem act_fstate (hdiff : SetDiff diff) {fresh : Bool} {a : FApp V} (h : FState diff fresh a) (c : FAct V)
    (hf : ForestFair a c) : ∃ a', a.act diff c = .ok a' ∧ FState diff (keepsUp fresh a c) a' := by
  have hW := h.wstate hdiff
  have edit : ∀ {a : FApp V} (_ : FState diff false a) (op : Op), Forest (step a.s op).state.t → EditFair a op →
      ∃ a', a.edit diff op = .ok a' ∧ FState diff false a' := by
    intro a h op ho hf
    obtain ⟨hroot, v, l, G, h1, h2, h3, h4⟩ := edit_trails hdiff h.good h.tidy h.rootFree h.loose h.forest op hf ho
    have ht := hf.1.tidy h.good h.tidy
    have hg := step_good h.good op (ht.safe h.good h.tidy)
    unfold FApp.edit
    dsimp only
    rw [h1, List.drop_left, h2]
    refine ⟨_, rfl, hg, step_noDangling h.good h.tidy op ht, h.bank, hroot, ho, ?_, fun hc => by cases hc⟩
    refine h4.move rfl rfl (fun y _ hy => (h3.tight y id).2 hy) fun y _ p hp => ?_
    show p ∈ (FT.env diff a.bank (step a.s op).state.t a.data a.ft).par y
    rw [env_par hg.wf]
    exact (h3.tight y id).1 p hp
  have tree : ∀ {a a' : FApp V} {op : Op}, a.edit diff op = .ok a' → a'.s = (step a.s op).state := fun e => act_tree rfl e
  have touch : ∀ x, (step a.s (.refreshNode x)).state.t = a.s.t := fun x => by
    show (modifyNode a.s x).state.t = a.s.t
    unfold modifyNode; split <;> rfl
  have old : keepsUp fresh a c = freshAfter fresh a c →
      (freshAfter fresh a c = false → ∀ a', a.act diff c = .ok a' → a'.ft.root = a.ft.root ∧ a'.ft.flat = a.ft.flat ∧ a'.ft.view = a.ft.view) →
      (∀ a', a.act diff c = .ok a' → a'.s = a.s) → WaitFair fresh a c →
      ∃ a', a.act diff c = .ok a' ∧ FState diff (keepsUp fresh a c) a' := by
    intro h0 h1 h2 hf
    rw [h0]
    obtain ⟨a', e, h'⟩ := act_wstate hdiff hW _ hf
    refine ⟨a', e, h.filters hdiff h' (h2 a' e) ?_⟩
    cases hfr : freshAfter fresh a c with
    | true => exact .inl (h'.right hfr)
    | false => exact .inr (h1 hfr a' e)
  have ok : ∀ {a a' : FApp V} {r : Res FT}, a.withFT r = .ok a' → ∃ ft, r = .ok ft ∧ a' = { a with ft := ft } := by
    intro a a' r e
    cases r with
    | ok ft => cases e; exact ⟨ft, rfl, rfl⟩
    | err er ft => cases e
  cases c with
  | edit op =>
    obtain ⟨he, ho⟩ := hf
    show ∃ a', a.edit diff op = .ok a' ∧ FState diff (fresh && _) a'
    cases hk : keepsUp fresh a (.edit op) with
    | true =>
      have hk' := hk
      unfold keepsUp at hk'
      rw [Bool.and_eq_true, @decide_eq_true_iff _ (Classical.propDecidable _)] at hk'
      obtain ⟨a', e, h'⟩ := act_vstate hdiff (h.right hk'.1) (.edit op) hk'.2
      exact ⟨a', e, h'.fstate hdiff (by rw [tree e]; exact ho) _⟩
    | false =>
      obtain ⟨a', e, h'⟩ := edit (h.still rfl h.bank rfl rfl rfl fun hc => by cases hc) op ho he
      change (fresh && _) = false at hk
      rw [hk]
      exact ⟨a', e, h'⟩
  | change x v =>
    cases hk : keepsUp fresh a (.change x v) with
    | true =>
      have hk' := hk
      unfold keepsUp at hk'
      rw [Bool.and_eq_true, @decide_eq_true_iff _ (Classical.propDecidable _)] at hk'
      obtain ⟨a', e, h'⟩ := act_vstate hdiff (h.right hk'.1) (.change x v) hk'.2
      refine ⟨a', e, h'.fstate hdiff ?_ _⟩
      rw [tree (a := { a with data := fun y => if y = x then v else a.data y }) e]
      show Forest (step a.s _).state.t
      rw [touch]; exact h.forest
    | false =>
      exact edit (h.still (a' := { a with data := fun y => if y = x then v else a.data y }) rfl h.bank rfl rfl rfl fun hc => by cases hc)
        (.refreshNode x) (by show Forest (step a.s _).state.t; rw [touch]; exact h.forest)
        ⟨trivial, fun _ _ e => (by cases e), fun _ e => (by cases e)⟩
  | currentState => exact hf.elim
  | bank c => exact old rfl (fun _ a' e => by cases e; exact ⟨rfl, rfl, rfl⟩) (fun a' e => by cases e; rfl) hf
  | setParams n p => exact old rfl (fun _ a' e => by cases e; exact ⟨rfl, rfl, rfl⟩) (fun a' e => by cases e; rfl) hf
  | apply n p rs rf =>
    refine old rfl (fun hfr a' e => ?_) (fun a' e => ?_) hf
    · change FApp.withFT { a with bank := (a.ft.applyFilter diff a.bank a.s.t a.data n p rs rf).2.1 }
        (a.ft.applyFilter diff a.bank a.s.t a.data n p rs rf).2.2 = _ at e
      obtain ⟨ft, e1, rfl⟩ := ok e
      dsimp only
      clear e
      change (if FT.givesParams p || rs || decide (n ∉ a.ft.applied) then rf else fresh) = false at hfr
      unfold FT.applyFilter at e1
      by_cases h1 : (FT.givesParams p && (a.bank.getFilter n).isNone) = true
      · dsimp only at e1
        rw [if_pos h1] at e1
        cases e1
      · dsimp only at e1
        rw [if_neg h1] at e1
        generalize hft1 : (if rs = true then { a.ft with applied := [] } else a.ft : FT) = ft1 at e1
        have e0 : ft1.root = a.ft.root ∧ ft1.flat = a.ft.flat ∧ ft1.view = a.ft.view ∧
            (decide (n ∉ ft1.applied) = true → rs = true ∨ n ∉ a.ft.applied) := by
          rw [← hft1]
          cases rs
          · exact ⟨rfl, rfl, rfl, fun hc => .inr (by simpa using hc)⟩
          · exact ⟨rfl, rfl, rfl, fun _ => .inl rfl⟩
        by_cases h2 : (rf && (FT.givesParams p || decide (n ∉ ft1.applied))) = true
        · exfalso
          rw [Bool.and_eq_true, Bool.or_eq_true] at h2
          obtain ⟨rfl, hc⟩ := h2
          rw [if_pos] at hfr
          · cases hfr
          · rcases hc with hc | hc
            · simp [hc]
            · rcases e0.2.2.2 hc with hc | hc <;> simp [hc]
        · rw [if_neg h2] at e1
          cases e1
          split <;> exact ⟨e0.1, e0.2.1, e0.2.2.1⟩
    · obtain ⟨ft, -, rfl⟩ := ok e
      rfl
  | unapply n rf =>
    refine old rfl (fun hfr a' e => ?_) (fun a' e => ?_) hf
    · obtain ⟨ft, e1, rfl⟩ := ok e
      unfold FT.unapplyFilter at e1
      split at e1
      · rename_i hn
        change (if n ∈ a.ft.applied then rf else fresh) = false at hfr
        rw [if_pos hn] at hfr
        subst hfr
        cases e1; exact ⟨rfl, rfl, rfl⟩
      · cases e1; exact ⟨rfl, rfl, rfl⟩
    · obtain ⟨ft, -, rfl⟩ := ok e
      rfl
  | reset rf =>
    refine old rfl (fun hfr a' e => ?_) (fun a' e => ?_) hf
    · obtain ⟨ft, e1, rfl⟩ := ok e
      unfold FT.resetFilters at e1
      change (rf || _) = false at hfr
      rw [Bool.or_eq_false_iff] at hfr
      obtain ⟨rfl, -⟩ := hfr
      cases e1; exact ⟨rfl, rfl, rfl⟩
    · obtain ⟨ft, -, rfl⟩ := ok e
      rfl

theorem run_fstate (hdiff : SetDiff diff) (cs : List (FAct V)) (fresh : Bool) (a : FApp V) (h : FState diff fresh a)
    (hf : ForestFairRun diff cs a) :
    ∃ a', FApp.run diff cs a = .ok a' ∧ FState diff (upToDate diff fresh cs a) a' := by
  induction cs generalizing a fresh with
  | nil => exact ⟨a, rfl, h⟩
  | cons c cs ih =>
    obtain ⟨a1, e1, h1⟩ := act_fstate hdiff h c hf.1
    have hf2 := hf.2
    rw [e1] at hf2
    obtain ⟨a2, e2, h2⟩ := ih _ a1 h1 hf2
    refine ⟨a2, by unfold FApp.run; rw [e1]; exact e2, ?_⟩
    unfold upToDate
    rw [e1]
    exact h2

theorem BState.fstate (hdiff : SetDiff diff) {fresh : Bool} {a : FApp V} (h : BState diff fresh a) (ho : Forest a.s.t) :
    FState diff fresh a := by
  obtain ⟨b, ap, h0⟩ := h.some
  exact (h0.fstate hdiff ho false).still rfl h.bank rfl rfl rfl h.right

theorem forest_run {ops : List Op} {bcs : List (Bank.Call (Id → V))} {root : Id} (h : ViewStart ops root)
    (ho : Forest (runOps St.init ops).t) (hdiff : SetDiff diff) (d : Id → V) (refresh : Bool) :
    ∃ ft, FT.new diff (Bank.run {} bcs) (runOps St.init ops).t d root refresh = .ok ft ∧
      ∀ cs, ForestFairRun diff cs ⟨runOps St.init ops, d, Bank.run {} bcs, ft⟩ →
        ∃ a, FApp.run diff cs ⟨runOps St.init ops, d, Bank.run {} bcs, ft⟩ = .ok a ∧
          FState diff (upToDate diff refresh cs ⟨runOps St.init ops, d, Bank.run {} bcs, ft⟩) a := by
  obtain ⟨ft, e, hr⟩ := batched_run (bcs := bcs) h hdiff d refresh
  refine ⟨ft, e, fun cs hf => ?_⟩
  obtain ⟨a, e1, h1⟩ := hr [] trivial
  cases e1
  exact run_fstate hdiff cs refresh _ (h1.fstate hdiff ho) hf

theorem FState.holds {fresh : Bool} {a : FApp V} (h : FState diff fresh a) : HoldsTogether a := by
  refine ⟨fun x hx hv => h.loose.real x hv hx, fun x hx hv => ?_, h.loose.rootPars,
    fun p x => ⟨fun hk => (h.loose.dn p id x hk).2, fun hk => h.loose.up x id p hk⟩, h.loose.ndK⟩
  obtain ⟨p, hp⟩ := List.exists_mem_of_ne_nil _ (h.loose.full x hv hx id)
  refine ⟨p, h.loose.one x p hp, (h.loose.par x p hp).1, ?_⟩
  rcases (h.loose.par x p hp).2 with e | ⟨-, e⟩
  · exact .inl e
  · exact .inr e

/-- What is touched is looked at. -/
theorem touch_heard (hdiff : SetDiff diff) {fresh : Bool} {a a' : FApp V} (h : FState diff fresh a) {x : Id} (hx : a.s.t.has x = true)
    (e : a.edit diff (.refreshNode x) = .ok a') : a'.ft.view.has x = true ↔ Wanted a' x := by
  have hr : x ≠ a.ft.root := by rintro rfl; rw [h.rootFree] at hx; cases hx
  have hr' : x ≠ rootId := by rintro rfl; rw [h.good.wf.not_has_root] at hx; cases hx
  have hs : step a.s (.refreshNode x) = .ok (a.s.emit .modified x) := by
    show modifyNode a.s x = _
    unfold modifyNode
    rw [if_pos ⟨hr', hx⟩]
  have hroof : (FT.env diff a.bank a.s.t a.data a.ft).roof = ⟨a.s.t.rawParents, a.s.t.has⟩ := by
    unfold VEnv.roof
    rw [env_par h.good.wf]
    rfl
  obtain ⟨v', G', a1, -, -, a4⟩ := LooseIn.heard hdiff h.good.wf h.rootFree
    (covers_self h.good.wf h.forest h.rootFree) (show LooseIn _ _ a.ft.view by rw [← hroof]; exact h.loose) hr
  unfold FApp.edit at e
  dsimp only at e
  rw [hs] at e
  have hl : (Res.ok (a.s.emit .modified x)).state.log.drop a.s.log.length = [⟨a.s.t, .modified, x⟩] := by
    show (a.s.log ++ [_]).drop _ = _
    rw [List.drop_left]
  rw [hl] at e
  have hre : Res.forEach (FT.react diff a.bank a.data) [⟨a.s.t, .modified, x⟩] a.ft = .ok { a.ft with view := v' } := by
    show (FT.react diff a.bank a.data ⟨a.s.t, .modified, x⟩ a.ft).andThen _ = _
    rw [react_eq (n := ⟨a.s.t, .modified, x⟩) (ft := a.ft) a1]
    rfl
  rw [hre] at e
  cases e
  refine Iff.trans ?_ (accepts_iff h.good.wf x)
  show v'.has x = true ↔ _
  rw [a4]
  exact Iff.rfl

/-- C82: in a forest no action fails, the view holds together and an observer has exactly its rows at all times, whatever the filters
look at and however long the view is out of date. -/
theorem C82_alive {ops : List Op} {bcs : List (Bank.Call (Id → V))} {root : Id} (h : ViewStart ops root)
    (ho : Forest (runOps St.init ops).t) (hdiff : SetDiff diff) (d : Id → V) (refresh : Bool) :
    ∃ ft, FT.new diff (Bank.run {} bcs) (runOps St.init ops).t d root refresh = .ok ft ∧
      ∀ cs, ForestFairRun diff cs ⟨runOps St.init ops, d, Bank.run {} bcs, ft⟩ →
        ∃ a, FApp.run diff cs ⟨runOps St.init ops, d, Bank.run {} bcs, ft⟩ = .ok a ∧ ObserverAgrees a ∧ HoldsTogether a := by
  obtain ⟨ft, e, hr⟩ := forest_run h ho hdiff d refresh
  refine ⟨ft, e, fun cs hf => ?_⟩
  obtain ⟨a, ea, hv⟩ := hr cs hf
  exact ⟨a, ea, (hv.wstate hdiff).observerAgrees, hv.holds⟩

/-- C82: after the next refresh the view displays exactly the wanted nodes, in the right shape, and it stays so as long as the filters
let it follow the edits. -/
theorem C82_refreshed {ops : List Op} {bcs : List (Bank.Call (Id → V))} {root : Id} (h : ViewStart ops root)
    (ho : Forest (runOps St.init ops).t) (hdiff : SetDiff diff) (d : Id → V) (refresh : Bool) :
    ∃ ft, FT.new diff (Bank.run {} bcs) (runOps St.init ops).t d root refresh = .ok ft ∧
      ∀ cs, ForestFairRun diff cs ⟨runOps St.init ops, d, Bank.run {} bcs, ft⟩ →
        upToDate diff refresh cs ⟨runOps St.init ops, d, Bank.run {} bcs, ft⟩ = true →
        ∃ a, FApp.run diff cs ⟨runOps St.init ops, d, Bank.run {} bcs, ft⟩ = .ok a ∧ ShowsExactly a ∧ RightShape a := by
  obtain ⟨ft, e, hr⟩ := forest_run h ho hdiff d refresh
  refine ⟨ft, e, fun cs hf hfr => ?_⟩
  obtain ⟨a, ea, hv⟩ := hr cs hf
  exact ⟨a, ea, (hv.right hfr).rebuilt.showsExactly, (hv.right hfr).rebuilt.rightShape⟩

/-- C82: a node of the tree that is touched, or whose data is changed, is shown afterwards exactly if the filters accept it, also by
a view that waits for its refresh. -/
theorem C82_touched {ops : List Op} {bcs : List (Bank.Call (Id → V))} {root : Id} (h : ViewStart ops root)
    (ho : Forest (runOps St.init ops).t) (hdiff : SetDiff diff) (d : Id → V) (refresh : Bool) :
    ∃ ft, FT.new diff (Bank.run {} bcs) (runOps St.init ops).t d root refresh = .ok ft ∧
      ∀ cs a x, ForestFairRun diff cs ⟨runOps St.init ops, d, Bank.run {} bcs, ft⟩ →
        FApp.run diff cs ⟨runOps St.init ops, d, Bank.run {} bcs, ft⟩ = .ok a → a.s.t.has x = true →
        ∀ c, (c = .edit (.refreshNode x) ∨ ∃ v, c = .change x v) →
        ∃ a', a.act diff c = .ok a' ∧ (a'.ft.view.has x = true ↔ Wanted a' x) := by
  obtain ⟨ft, e, hr⟩ := forest_run h ho hdiff d refresh
  refine ⟨ft, e, fun cs a x hf ha hx c hc => ?_⟩
  obtain ⟨a1, ea, hv⟩ := hr cs hf
  rw [ha] at ea
  cases ea
  have touch : (step a.s (.refreshNode x)).state.t = a.s.t := by
    show (modifyNode a.s x).state.t = a.s.t
    unfold modifyNode; split <;> rfl
  rcases hc with rfl | ⟨v, rfl⟩
  · obtain ⟨a', e', -⟩ := act_fstate hdiff hv (.edit (.refreshNode x))
      ⟨⟨trivial, fun _ _ e => (by cases e), fun _ e => (by cases e)⟩, by rw [touch]; exact hv.forest⟩
    exact ⟨a', e', touch_heard hdiff hv hx e'⟩
  · obtain ⟨a', e', -⟩ := act_fstate hdiff hv (.change x v) trivial
    exact ⟨a', e', touch_heard hdiff (hv.still (fr := false) (a' := { a with data := fun y => if y = x then v else a.data y })
      rfl hv.bank rfl rfl rfl fun hc => by cases hc) hx e'⟩

/-- A refresh brings the view up to date, whatever happened before. -/
theorem upToDate_reset (cs : List (FAct V)) (fresh : Bool) (a : FApp V) : upToDate diff fresh (cs ++ [.reset true]) a = true := by
  induction cs generalizing fresh a with
  | nil => rfl
  | cons c cs ih => exact ih _ _

/-! ### A concrete history -/

/-- The filter asks whether the data of all parents is even. It does not look at the node itself. -/
def parentEven : Tree → (Id → Nat) → Id → Option Params → Bool := fun t d x _ => (t.getParents x).all fun p => decide (d p % 2 = 0)

def forestBank : List (Bank.Call (Id → Nat)) := [.add (.plain 1) parentEven none, .add (.plain 2) isEven none]

/-- 3 is below 2, which is below 1; 5 is apart. -/
def forestOps : List Op := [.addNode (.new (.str 1) .none) .none, .addNode (.new (.str 2) .none) (.str 1),
  .addNode (.new (.str 3) .none) (.str 2), .addNode (.new (.str 5) .none) .none]

theorem forestStart : ViewStart forestOps (.str 100) :=
  ⟨⟨careful_add (Made.new _ _) (by decide), careful_add (Made.new _ _) (by decide), careful_add (Made.new _ _) (by decide),
    careful_add (Made.new _ _) (by decide), trivial⟩, by decide⟩

def forestData : Id → Nat := fun x => if x = .str 1 then 3 else 4

def forestApp : FApp Nat := ⟨runOps St.init forestOps, forestData, Bank.run {} forestBank,
  (FT.new someDiff (Bank.run {} forestBank) (runOps St.init forestOps).t forestData (.str 100) true).state⟩

/-- A filter is applied without refresh, and 2 has to leave; 2 is touched; 3 moves below 5, whose data changes; 1 is removed with all
that is below it; at last the view is refreshed. -/
def forestHistory : List (FAct Nat) :=
  [ .apply (.plain 1) none false false, .edit (.refreshNode (.str 2)), .edit (.setParent (.str 3) (.str 5)), .change (.str 5) 3,
    .edit (.delNode (.str 1) true), .edit (.addNode (.new (.str 4) .none) (.str 5)), .reset true ]

theorem forest_keys {t : Tree} (h : ∀ x ∈ t.nodes.keys, (t.getParents x).length ≤ 1) : Forest t := by
  intro x p q hp hq
  have hp' : p ∈ t.getParents x := hp
  have hq' : q ∈ t.getParents x := hq
  have hx : x ∈ t.nodes.keys := by
    rw [Dict.mem_keys]
    unfold Tree.getParents Tree.node? at hp'
    cases e : t.nodes.get? x with
    | none => rw [e] at hp'; cases hp'
    | some nd => unfold Dict.has; rw [e]; rfl
  have := h x hx
  generalize t.getParents x = l at *
  match l with
  | [] => cases hp'
  | [a] => simp at hp' hq'; rw [hp', hq']
  | a :: b :: l => simp at this

theorem forestHistory_fair : ForestFairRun someDiff forestHistory forestApp := by
  refine ⟨fun h => (by cases h), ⟨⟨trivial, ?_, ?_⟩, forest_keys (by decide)⟩, ⟨⟨?_, ?_, ?_⟩, forest_keys (by decide)⟩, trivial,
    ⟨⟨⟨by decide, ?_⟩, ?_, ?_⟩, forest_keys (by decide)⟩,
    ⟨⟨careful_add (Made.new _ _) (by decide), ?_, ?_⟩, forest_keys (by decide)⟩, trivial, trivial⟩
  all_goals first
    | (intro nd p h; cases h; decide)
    | (intro nd p h; cases h; done)
    | (intro x h; cases h; done)
    | skip
  · exact trivial
  · intro y hy p hp
    have := descendants_in [.str 2] (by decide) y hy
    simp only [List.mem_singleton] at this
    subst this
    have hp : p ∈ [Id.str 1] := hp
    exact .inl (List.mem_singleton.1 hp)
  · intro x h y hy
    cases h
    have := descendants_in [.str 2] (by decide) y hy
    simp only [List.mem_singleton] at this
    subst this
    decide

/-- The concrete case: while the view waits, 2 leaves it, so that 3 comes to the top, then 3 goes below 5, and 1 vanishes. -/
example : ∃ a, FApp.run someDiff forestHistory forestApp = .ok a ∧ ShowsExactly a ∧ RightShape a ∧ ObserverAgrees a ∧ HoldsTogether a := by
  obtain ⟨ft, e, h⟩ := forest_run (bcs := forestBank) forestStart (forest_keys (by decide)) someDiff_ok forestData true
  have hft : (⟨runOps St.init forestOps, forestData, Bank.run {} forestBank, ft⟩ : FApp Nat) = forestApp := by
    unfold forestApp
    rw [e]
    rfl
  rw [hft] at h
  obtain ⟨a, ea, hv⟩ := h forestHistory forestHistory_fair
  have hr := hv.right (upToDate_reset (forestHistory.take 6) true forestApp)
  exact ⟨a, ea, hr.rebuilt.showsExactly, hr.rebuilt.rightShape, (hv.wstate someDiff_ok).observerAgrees, hv.holds⟩

example : (FApp.run someDiff (forestHistory.take 1) forestApp).state.ft.view.kids (.str 100) = [.str 1, .str 5] ∧
    (FApp.run someDiff (forestHistory.take 2) forestApp).state.ft.view.kids (.str 100) = [.str 1, .str 5, .str 3] ∧
    (FApp.run someDiff (forestHistory.take 3) forestApp).state.ft.view.kids (.str 5) = [.str 3] ∧
    (FApp.run someDiff (forestHistory.take 5) forestApp).state.ft.view.kids (.str 100) = [.str 5] ∧
    (FApp.run someDiff forestHistory forestApp).state.ft.view.kids (.str 5) = [.str 3, .str 4] := by
  decide

/-- 2 is touched while the view waits, and leaves it. -/
example : ∃ a', (FApp.run someDiff (forestHistory.take 1) forestApp).state.act someDiff (.edit (.refreshNode (.str 2))) = .ok a' ∧
    (a'.ft.view.has (.str 2) = true ↔ Wanted a' (.str 2)) := by
  obtain ⟨ft, e, h⟩ := C82_touched (bcs := forestBank) forestStart (forest_keys (by decide)) someDiff_ok forestData true
  have hft : (⟨runOps St.init forestOps, forestData, Bank.run {} forestBank, ft⟩ : FApp Nat) = forestApp := by
    unfold forestApp
    rw [e]
    rfl
  rw [hft] at h
  exact h (forestHistory.take 1) _ _ ⟨forestHistory_fair.1, trivial⟩ rfl (by decide) _ (.inl rfl)

end Larch
