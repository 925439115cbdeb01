import Verif.Proofs.Answers
import Verif.Props.Suite

/-!
# C73: what counts is whether the answer of a filter function is true
-/

namespace Larch

open Spec

variable {V : Type} {D : Type} {diff : List Id → List Id → List Id}

/-- C73: an application without counters, or with filter functions that answer `True`, `False`, 0 or an odd number, behaves in
every history as if all its filter functions ended with `return bool(...)`. Missing for the literal claim: other answers
together with counters, see the refutations below. -/
theorem C73_bools_partial (cs : List (RAct V)) (h : PlainWhereCounted cs) (d : Id → V) :
    match RSuite.run diff cs (RSuite.init d), Suite.run diff (cs.map withBools) (Suite.init d) with
    | .ok a, .ok b => a.s = b.s ∧ a.data = b.data ∧ a.names = b.names ∧ a.objs = b.objs
    | .err e a, .err e' b => e = e' ∧ a.s = b.s ∧ a.data = b.data ∧ a.names = b.names ∧ a.objs = b.objs
    | _, _ => False := by
  have := init_same (diff := diff) cs h d
  rw [← this]
  cases RSuite.run diff cs (RSuite.init d) with
  | ok a => exact ⟨rfl, rfl, rfl, rfl⟩
  | err e a => exact ⟨rfl, rfl, rfl, rfl, rfl⟩

theorem trueOf_of (a : RSuite V) (l : List FName) (x : Id) :
    TrueOf a l x ↔ a.s.t.has x = true ∧ ∀ n ∈ l, ∃ f, a.bools.bank.getFilter n = some f ∧ f.isDisplayed a.s.t a.data x = true := by
  unfold TrueOf
  refine and_congr_right fun _ => forall₂_congr fun n _ => ?_
  rw [show a.bools.bank.getFilter n = _ from RBank.bools_get a.bank n]
  constructor
  · rintro ⟨f, hf, ht⟩
    exact ⟨f.bools, by rw [hf]; rfl, by rw [RFilter.bools_displayed]; exact ht⟩
  · rintro ⟨f, hf, ht⟩
    cases hg : a.bank.getFilter n with
    | none => rw [hg] at hf; cases hf
    | some g =>
      rw [hg] at hf
      cases hf
      exact ⟨g, rfl, by rw [← RFilter.bools_displayed]; exact ht⟩

/-- C73: in every fair history of such an application nothing raises, the views that are up to date show exactly the nodes for
which all answers are true, and the counters count exactly those. Missing for the literal claim: as above, and what is missing
in C54. -/
theorem C73_truth_partial (hdiff : SetDiff diff) (d : Id → V) (cs : List (RAct V)) (h : PlainWhereCounted cs)
    (hf : SuiteFairRun diff (fun _ => true) (cs.map withBools) (Suite.init d)) :
    ∃ a, RSuite.run diff cs (RSuite.init d) = .ok a ∧
      GoesByTruth (freshAtEnd diff (fun _ => true) (cs.map withBools) (Suite.init d)) a := by
  obtain ⟨b, e, hb⟩ := C54_all_right_partial hdiff d (cs.map withBools) hf
  have hs := init_same (diff := diff) cs h d
  rw [e] at hs
  cases hr : RSuite.run diff cs (RSuite.init d) with
  | err er a => rw [hr] at hs; cases hs
  | ok a =>
    rw [hr] at hs
    have hs : a.bools = b := by injection hs
    subst hs
    refine ⟨a, rfl, ⟨fun k v hk ho hfr => ?_, fun k c ho => ?_⟩⟩
    · obtain ⟨-, ft, hft, -, -, hs⟩ := hb.views k v hk ho
      obtain ⟨l, el, hn, hl⟩ := (hs hfr).1.listed
      exact ⟨ft, hft, l, el, hn, fun x => (hl x).trans (trueOf_of a ft.applied x).symm⟩
    · obtain ⟨l, hn, hl, hc⟩ := hb.counts k c ho
      exact ⟨l, hn, fun x => (hl x).trans (trueOf_of a c.applied x).symm, hc⟩

/-! ### What a counter does with any answers -/

theorem rLoop_number {b : RBank D} {t : Tree} {d : D} {x : Id} {l : List FName} {v : PyVal} (hv : Bit v)
    (h : ∀ n ∈ l, ∃ f, b.getFilter n = some f ∧ IsNumber (f.isDisplayed t d x)) :
    ∃ u, VC.rLoop b t d x l v = .ok u ∧
      (u.truth = true ↔ v.truth = true ∧ ∀ n ∈ l, ∃ f, b.getFilter n = some f ∧ IsOdd (f.isDisplayed t d x)) := by
  induction l generalizing v with
  | nil => exact ⟨v, rfl, by simp⟩
  | cons n l ih =>
    obtain ⟨f, hf, hn⟩ := h n (by simp)
    unfold VC.rLoop
    rw [hf]
    dsimp only
    have hm := meet_bit (w := f.isDisplayed t d x) hv
    obtain ⟨c, hc, ho⟩ : ∃ c, (f.isDisplayed t d x).lastBit = some c ∧ (c = true ↔ IsOdd (f.isDisplayed t d x)) := by
      generalize f.isDisplayed t d x = w at hn
      cases w with
      | none => cases hn
      | other t => cases hn
      | bool b => exact ⟨b, rfl, Iff.rfl⟩
      | int k => exact ⟨_, rfl, by simp [IsOdd]⟩
    rw [hc] at hm
    obtain ⟨u, e, hu, ht⟩ := hm
    rw [e]
    obtain ⟨w, e2, h2⟩ := ih hu fun m hm => h m (by simp [hm])
    refine ⟨w, e2, h2.trans ?_⟩
    rw [ht, Bool.and_eq_true, ho, List.forall_mem_cons, and_assoc]
    refine and_congr_right fun _ => and_congr_left fun _ => ⟨fun h => ⟨f, hf, h⟩, ?_⟩
    rintro ⟨g, hg, hx⟩
    rw [hf] at hg
    cases hg
    exact hx

/-- C73: if all answers are of the types `bool` and `int`, then a counter that looks at a node counts it afterwards exactly if
every answer is `True` or an odd number; other nodes are left alone. -/
theorem C73_counter_numbers (b : RBank D) (t : Tree) (d : D) (x : Id) (v : VC) (hv : v.nodes.Nodup)
    (h : ∀ n ∈ v.applied, ∃ f, b.getFilter n = some f ∧ IsNumber (f.isDisplayed t d x)) :
    ∃ v', VC.rModify b t d x v = .ok v' ∧ v'.nodes.Nodup ∧ (∀ y, y ≠ x → (y ∈ v'.nodes ↔ y ∈ v.nodes)) ∧
      (x ∈ v'.nodes ↔ ∀ n ∈ v.applied, ∃ f, b.getFilter n = some f ∧ IsOdd (f.isDisplayed t d x)) := by
  obtain ⟨u, e, hu⟩ := rLoop_number (v := .bool true) (.inl ⟨_, rfl⟩) h
  unfold VC.rModify
  rw [e]
  dsimp only
  cases ht : u.truth with
  | true =>
    have hx := (hu.1 ht).2
    rw [if_pos rfl]
    refine ⟨_, rfl, ?_⟩
    unfold VC.add VC.callback
    split
    · rename_i hm
      refine ⟨List.nodup_append.2 ⟨hv, by simp, fun a ha b hb => ?_⟩, fun y hy => by simp [hy], by simpa using hx⟩
      rw [List.mem_singleton] at hb
      subst hb
      rintro rfl
      exact hm ha
    · rename_i hm
      exact ⟨hv, fun _ _ => Iff.rfl, ⟨fun _ => hx, fun _ => not_not.1 hm⟩⟩
  | false =>
    have hx : ¬ ∀ n ∈ v.applied, ∃ f, b.getFilter n = some f ∧ IsOdd (f.isDisplayed t d x) := fun h => by
      rw [hu.2 ⟨rfl, h⟩] at ht; cases ht
    rw [if_neg (by simp)]
    refine ⟨_, rfl, ?_⟩
    unfold VC.delete VC.callback
    split
    · exact ⟨hv.erase x, fun y hy => List.mem_erase_of_ne hy, ⟨fun h => absurd h (List.Nodup.not_mem_erase hv), fun h => absurd h hx⟩⟩
    · rename_i hm
      exact ⟨hv, fun _ _ => Iff.rfl, ⟨fun h => absurd h hm, fun h => absurd h hx⟩⟩

theorem rLoop_other {b : RBank D} {t : Tree} {d : D} {x : Id} {l : List FName} {v : PyVal} (hv : Bit v)
    (h : ∀ n ∈ l, (b.getFilter n).isSome = true)
    (ho : ∃ n ∈ l, ∃ f, b.getFilter n = some f ∧ ¬ IsNumber (f.isDisplayed t d x)) :
    VC.rLoop b t d x l v = .error .typeError := by
  induction l generalizing v with
  | nil => obtain ⟨n, hn, -⟩ := ho; cases hn
  | cons n l ih =>
    obtain ⟨f, hf⟩ := Option.isSome_iff_exists.1 (h n (by simp))
    unfold VC.rLoop
    rw [hf]
    dsimp only
    have hm := meet_bit (w := f.isDisplayed t d x) hv
    cases hb : (f.isDisplayed t d x).lastBit with
    | none =>
      rw [hb] at hm
      rw [hm]
    | some c =>
      rw [hb] at hm
      obtain ⟨u, e, hu, -⟩ := hm
      rw [e]
      refine ih hu (fun m hm => h m (by simp [hm])) ?_
      obtain ⟨m, hm, g, hg, hx⟩ := ho
      rcases List.mem_cons.1 hm with rfl | hm
      · rw [hf] at hg
        cases hg
        exfalso
        apply hx
        generalize f.isDisplayed t d x = w at hb
        cases w with
        | none => cases hb
        | other t => cases hb
        | bool b => trivial
        | int k => trivial
      · exact ⟨m, hm, g, hg, hx⟩

/-- C73: if one of the answers is of another type (`None`, a string, a list, ...), then the counter raises `TypeError` and stays as
it was. -/
theorem C73_counter_raises (b : RBank D) (t : Tree) (d : D) (x : Id) (v : VC) (h : ∀ n ∈ v.applied, (b.getFilter n).isSome = true)
    (ho : ∃ n ∈ v.applied, ∃ f, b.getFilter n = some f ∧ ¬ IsNumber (f.isDisplayed t d x)) :
    VC.rModify b t d x v = .err .typeError v := by
  unfold VC.rModify
  rw [rLoop_other (v := .bool true) (.inl ⟨_, rfl⟩) h ho]

/-! ### Concrete applications -/

/-- A filter that answers with the number it finds in the node's data, and one that answers `None` for some nodes. -/
def dataAnswer : Tree → (Id → Nat) → Id → Option Params → PyVal := fun _ d x _ => .int (d x)
def noneAnswer : Tree → (Id → Nat) → Id → Option Params → PyVal := fun _ d x _ => if d x = 0 then .none else .other true

/-- `lambda node: node.data % 2`, an answer that is 0 or 1. -/
def oddAnswer : Tree → (Id → Nat) → Id → Option Params → PyVal := fun _ d x _ => .int (d x % 2 : Nat)

/-- A view and a counter with the same filter. -/
def answerHistory (f : Tree → (Id → Nat) → Id → Option Params → PyVal) : List (RAct Nat) :=
  [ .bank (.add (.plain 1) f none), .edit (.addNode (.new (.str 1) .none) .none), .edit (.addNode (.new (.str 2) .none) (.str 1)),
    .getView none true, .getCount none true, .change (.str 1) 2, .change (.str 2) 1,
    .onView 1 (.apply (.plain 1) none false true), .onCount 2 (.apply (.plain 1) true) ]

theorem dataAnswer_own {f : Tree → (Id → Nat) → Id → Option Params → PyVal} (h : ∀ t t' d d' x p, d x = d' x → f t d x p = f t' d' x p) :
    OwnData (asBool f) := fun t t' d d' x p e => by unfold asBool; rw [h t t' d d' x p e]

/-- What a view lists, and what a counter has counted. -/
def listedBy (a : RSuite V) (k : Nat) : Option (List Id) :=
  match a.objs[k]? with
  | some (.view v) => v.ft.bind fun ft => ft.allNodes.toOption
  | _ => none

def countedBy (a : RSuite V) (k : Nat) : Option (List FName × Nat) :=
  match a.objs[k]? with
  | some (.count c) => some (c.applied, c.nNodes)
  | _ => none

theorem ok_of_isOk {σ : Type} {r : Res σ} (h : r.isOk = true) : r = .ok r.state := by
  cases r with
  | ok s => rfl
  | err e s => cases h

theorem oddHistory_plain : PlainWhereCounted (answerHistory oddAnswer) := by
  refine .inr fun n f p hm t d x q => ?_
  simp only [answerHistory, List.mem_cons, RAct.bank.injEq, RBank.Call.add.injEq, reduceCtorEq, List.not_mem_nil, or_false] at hm
  obtain ⟨-, rfl, -⟩ := hm
  show ((d x % 2 : Nat) : Int) = 0 ∨ ((d x % 2 : Nat) : Int) % 2 = 1
  omega

theorem oddHistory_fair : SuiteFairRun someDiff (fun _ => true) ((answerHistory oddAnswer).map withBools) (Suite.init fun _ => 0) :=
  ownFairRun_init someDiff_ok ⟨dataAnswer_own fun _ _ d d' x _ e => by unfold oddAnswer; rw [e],
    ⟨noneToGo_of (by decide), careful_add (Made.new _ _) (by decide), small_not_root (by decide), fun _ e => by cases e⟩,
    ⟨noneToGo_of (by decide), careful_add (Made.new _ _) (by decide), small_not_root (by decide), fun _ e => by cases e⟩,
    trivial, rfl, noneToGoData_of (by decide), noneToGoData_of (by decide), ⟨by decide, fun h => (by cases h)⟩, rfl, trivial⟩

example : PlainWhereCounted (answerHistory oddAnswer) ∧
    SuiteFairRun someDiff (fun _ => true) ((answerHistory oddAnswer).map withBools) (Suite.init fun _ => 0) ∧
    ∃ a, RSuite.run someDiff (answerHistory oddAnswer) (RSuite.init fun _ => 0) = .ok a ∧
      listedBy a 1 = some [.str 2] ∧ countedBy a 2 = some ([.plain 1], 1) :=
  ⟨oddHistory_plain, oddHistory_fair, _, ok_of_isOk (by decide +kernel), by decide +kernel, by decide +kernel⟩

/-- A bank with the two filters, and a tree with one node. -/
def answerBank : RBank (Id → Nat) := { custom := [(.plain 1, ⟨dataAnswer, {}⟩), (.plain 2, ⟨noneAnswer, {}⟩)] }
def oneNode : Tree := (runOps St.init [.addNode (.new (.str 1) .none) .none]).t

/-- The concrete cases of the two rules: the answer 3 counts, the answer 4 does not, and `None` raises. -/
example : (∀ n ∈ [FName.plain 1], ∃ f, answerBank.getFilter n = some f ∧ IsNumber (f.isDisplayed oneNode (fun _ => 4) (.str 1))) ∧
    (VC.rModify answerBank oneNode (fun _ => 3) (.str 1) { applied := [.plain 1] }).state.nodes = [.str 1] ∧
    (VC.rModify answerBank oneNode (fun _ => 4) (.str 1) { applied := [.plain 1], nodes := [.str 1] }).state.nodes = [] ∧
    ∃ f, answerBank.getFilter (.plain 2) = some f ∧ ¬ IsNumber (f.isDisplayed oneNode (fun _ => 0) (.str 1)) := by
  refine ⟨fun n hn => ?_, by decide +kernel, by decide +kernel, _, rfl, fun h => h⟩
  cases List.mem_singleton.1 hn
  exact ⟨_, rfl, trivial⟩

/-- C73 is false of counters: for a node where the filter answers 2, the view shows the node and the counter does not count it. -/
theorem C73_refuted_even : ∃ a, RSuite.run someDiff (answerHistory dataAnswer) (RSuite.init fun _ => 0) = .ok a ∧
    listedBy a 1 = some [.str 1, .str 2] ∧ countedBy a 2 = some ([.plain 1], 1) ∧
    TrueOf a [.plain 1] (.str 1) ∧ TrueOf a [.plain 1] (.str 2) := by
  refine ⟨_, ok_of_isOk (by decide +kernel), by decide +kernel, by decide +kernel, ?_⟩
  have key : ∀ x, x = Id.str 1 ∨ x = Id.str 2 →
      (RSuite.run someDiff (answerHistory dataAnswer) (RSuite.init fun _ => 0)).state.s.t.has x = true ∧
      (((RSuite.run someDiff (answerHistory dataAnswer) (RSuite.init fun _ => 0)).state.bank.getFilter (.plain 1)).any fun f =>
        (f.isDisplayed (RSuite.run someDiff (answerHistory dataAnswer) (RSuite.init fun _ => 0)).state.s.t
          (RSuite.run someDiff (answerHistory dataAnswer) (RSuite.init fun _ => 0)).state.data x).truth) = true := by
    rintro x (rfl | rfl) <;> exact ⟨by decide +kernel, by decide +kernel⟩
  generalize (RSuite.run someDiff (answerHistory dataAnswer) (RSuite.init fun _ => 0)).state = a at key ⊢
  have : ∀ x, x = Id.str 1 ∨ x = Id.str 2 → TrueOf a [.plain 1] x := by
    intro x hx
    obtain ⟨h1, h2⟩ := key x hx
    refine ⟨h1, fun n hn => ?_⟩
    cases List.mem_singleton.1 hn
    exact (Option.any_eq_true ..).1 h2
  exact ⟨this _ (.inl rfl), this _ (.inr rfl)⟩

/-- The history in which a node is added while a view and a counter have a filter that answers with objects. -/
def noneHistory : List (RAct Nat) :=
  [ .bank (.add (.plain 1) noneAnswer none), .getView none true, .getCount none true,
    .onView 1 (.apply (.plain 1) none false true), .onCount 2 (.apply (.plain 1) true),
    .edit (.addNode (.new (.str 1) .none) .none) ]

/-- Nor does it hold if a filter answers `None` or an object instead of a truth value: then the counter raises, and the exception
comes out of the method that edits the tree, although the view is content with the answer. -/
theorem C73_refuted_none : ∃ a, RSuite.run someDiff noneHistory (RSuite.init fun _ => 7) = .err .typeError a ∧
    listedBy a 1 = some [.str 1] := by
  have h : (match RSuite.run someDiff noneHistory (RSuite.init fun _ => 7) with
    | .err e a => decide (e = .typeError) && decide (listedBy a 1 = some [.str 1])
    | .ok _ => false) = true := by decide +kernel
  revert h
  cases RSuite.run someDiff noneHistory (RSuite.init fun _ => 7) with
  | ok a => intro h; cases h
  | err e a =>
    intro h
    simp only [Bool.and_eq_true, decide_eq_true_eq] at h
    obtain ⟨rfl, h⟩ := h
    exact ⟨a, rfl, h⟩

end Larch
