import Verif.Model.Index
import Verif.Spec.Index
import Verif.Props.ViewChildren

/-!
# C79: children by number, for every integer
-/

namespace Larch

open Graph Spec

variable {V : Type} {D : Type} {diff : List Id → List Id → List Id}

theorem getElem_split {l : List Id} {n : Nat} {c : Id} : l[n]? = some c ↔ ∃ b a, l = b ++ c :: a ∧ n = b.length := by
  constructor
  · intro h
    obtain ⟨hn, he⟩ := List.getElem?_eq_some_iff.1 h
    refine ⟨l.take n, l.drop (n + 1), ?_, ?_⟩
    · rw [← he, ← List.drop_eq_getElem_cons hn, List.take_append_drop]
    · rw [List.length_take]; omega
  · rintro ⟨b, a, rfl, rfl⟩
    simp

theorem pyGet_iff (l : List Id) (i : Int) (c : Id) : pyGet l i = some c ↔ NumberIn l i c := by
  unfold pyGet NumberIn
  split
  · rename_i hi
    rw [getElem_split]
    constructor
    · rintro ⟨b, a, e, h⟩; exact ⟨b, a, e, .inl (by omega)⟩
    · rintro ⟨b, a, e, h | h⟩
      · exact ⟨b, a, e, by omega⟩
      · omega
  · rename_i hi
    split
    · rename_i hl
      rw [getElem_split]
      constructor
      · rintro ⟨b, a, e, h⟩
        have := congrArg List.length e
        rw [List.length_append, List.length_cons] at this
        exact ⟨b, a, e, .inr (by omega)⟩
      · rintro ⟨b, a, e, h | h⟩
        · omega
        · have := congrArg List.length e
          rw [List.length_append, List.length_cons] at this
          exact ⟨b, a, e, by omega⟩
    · rename_i hl
      constructor
      · rintro ⟨⟩
      · rintro ⟨b, a, e, h | h⟩
        · omega
        · have := congrArg List.length e
          rw [List.length_append, List.length_cons] at this
          omega

theorem pyGet_high {l : List Id} {i : Int} (h : (l.length : Int) ≤ i) : pyGet l i = none := by
  unfold pyGet
  rw [if_pos (by omega), List.getElem?_eq_none (by omega)]

theorem pyGet_low {l : List Id} {i : Int} (h : i < -(l.length : Int)) : pyGet l i = none := by
  unfold pyGet
  rw [if_neg (by omega), if_neg (by omega)]

theorem pyGet_nat {α : Type} (l : List α) (n : Nat) : pyGet l n = l[n]? := by
  unfold pyGet
  rw [if_pos (by omega), Int.toNat_natCast]

theorem picks_of {l : List Id} {i : Int} {low : Err} {r : Except Err Id}
    (h : r = if (l.length : Int) ≤ i then .error .valueError else match pyGet l i with | some c => .ok c | none => .error low) :
    Picks l i low r := by
  refine ⟨fun c => ?_, fun hi => ?_, fun hi => ?_⟩
  · rw [h, ← pyGet_iff]
    split
    · rename_i hi
      rw [pyGet_high hi]; simp
    · cases pyGet l i <;> simp
  · rw [h, if_pos hi]
  · rw [h, if_neg (by omega), pyGet_low hi]

/-- The functions of the other modules are these, at numbers that are not negative. -/
theorem C79_natural (t : Tree) (v : VT) (x : Id) (n : Nat) : v.nthChildInt t x n = v.nthChild t x n := by
  have e1 : ∀ nd : Node, Tree.nthChildInt nd n = Tree.nthChild nd n := by
    intro nd; unfold Tree.nthChildInt Tree.nthChild; rw [pyGet_nat]; rfl
  have e2 : ∀ ft : FT, ft.nthChildInt x n = ft.nthChild x n := by
    intro ft; unfold FT.nthChildInt FT.nthChild; simp only [pyGet_nat]; rfl
  unfold VT.nthChildInt VT.nthChild
  simp only [e1, e2, gt_iff_lt, Int.ofNat_lt, Int.ofNat_le]
  rfl

theorem nthInt_list (l : List Id) (nd : Node) (i : Int) (h : nd.children = l) :
    Picks l i .valueError (if (l.length : Int) > i then Tree.nthChildInt nd i else .error .valueError) := by
  refine picks_of ?_
  unfold Tree.nthChildInt
  rw [h]
  by_cases hi : (l.length : Int) ≤ i
  · rw [if_pos hi, if_neg (by omega)]
  · rw [if_neg hi, if_pos (by omega)]; rfl

/-- C79, the main view: after every history as in C39 and for every integer, `node_nth_child` gives the child with this number,
counted from the back if it is negative, and raises `ValueError` if there is none. -/
theorem C79_main_partial (hdiff : SetDiff diff) (d : Id → V) (cs : List (MAct V)) (hf : MainFairRun diff cs (MApp.init d)) :
    ∃ a, MApp.run diff cs (MApp.init d) = .ok a ∧
      (∀ x, a.s.t.has x = true → ∀ i, Picks (a.s.t.getChildren x) i .valueError (a.vt.nthChildInt a.s.t x i)) ∧
      ∀ i, Picks a.s.t.rootChildren i .valueError (a.vt.nthChildInt a.s.t .none i) := by
  obtain ⟨a, e, h⟩ := (MState.init diff d).run hdiff cs _ hf
  refine ⟨a, e, fun x hx i => ?_, fun i => ?_⟩
  · obtain ⟨nd, hnd, hgn⟩ := getNode_ok hx
    have hch : a.s.t.getChildren x = a.s.t.childrenOf nd := by unfold Tree.getChildren; rw [hnd]; rfl
    have hid := h.good.wf.ids x hx
    unfold VT.nthChildInt
    rw [if_pos h.static, if_neg (by simp [hid.1, hid.2]), hgn]
    dsimp only
    rw [← hch]
    exact nthInt_list _ nd i (by rw [hch, childrenOf_raw h.good.wf h.tidy hnd])
  · unfold VT.nthChildInt
    rw [if_pos h.static, if_pos (by rfl)]
    dsimp only
    exact nthInt_list _ _ i (rootChildren_eq h.good).symm

/-- C79, other views: in every view that holds together (C31–C33), for every displayed node and the virtual root. A number that is
too low raises `IndexError` here. -/
theorem C79_view_partial (t : Tree) (ft : FT) (h : ViewOK ft) (x : Id) (hx : ft.view.has x = true) (hf : x.falsy = false) (i : Int) :
    Picks (ft.view.kids x) i .indexError ((VT.ofFT ft).nthChildInt t x i) := by
  have hn : x ≠ .none := by rintro rfl; cases hf
  obtain ⟨m, hm, hmc, -⟩ := view_node hx
  refine picks_of ?_
  show (match ft.nChildren x false with
      | .error e => Except.error e
      | .ok realn => if (realn : Int) ≤ i then Except.error Err.valueError else ft.nthChildInt x i) = _
  rw [(C32_direct ft h x hn).1]
  dsimp only
  split
  · rfl
  · unfold FT.nthChildInt
    rw [hm]
    dsimp only
    rw [hmc]
    cases pyGet (ft.view.kids x) i <;> rfl

/-- A node that is not displayed has no children: `ValueError`, but `KeyError` if the number is negative. -/
theorem C79_hidden (t : Tree) (ft : FT) (x : Id) (hx : ft.view.has x = false) (hn : x ≠ .none) (i : Int) :
    (VT.ofFT ft).nthChildInt t x i = .error (if 0 ≤ i then .valueError else .keyError) := by
  show (match ft.nChildren x false with
      | .error e => Except.error e
      | .ok realn => if (realn : Int) ≤ i then Except.error Err.valueError else ft.nthChildInt x i) = _
  have h1 : ft.nChildren x false = .ok 0 := by
    unfold FT.nChildren FT.orRoot
    dsimp only
    rw [if_neg hn, if_pos hx]
  have h2 : ft.view.nodes.get? x = none := by
    change ft.view.nodes.has x = false at hx
    unfold Dict.has at hx
    cases hg : ft.view.nodes.get? x with
    | none => rfl
    | some m => rw [hg] at hx; cases hx
  rw [h1]
  unfold FT.nthChildInt
  rw [h2]
  dsimp only
  by_cases hi : 0 ≤ i
  · rw [if_pos hi, if_pos (by simpa using hi)]
  · rw [if_neg hi, if_neg (by simpa using hi)]

/-- The children of 1 are 2 and 3 in `mainHistory`, of 2 they are 3 and 4 in `shownApp`. -/
example : ∃ a, MApp.run someDiff mainHistory (MApp.init fun _ => 0) = .ok a ∧ a.s.t.has (.str 1) = true ∧
    a.vt.nthChildInt a.s.t (.str 1) 1 = .ok (.str 3) ∧ a.vt.nthChildInt a.s.t (.str 1) (-2) = .ok (.str 2) ∧
    a.vt.nthChildInt a.s.t (.str 1) (-3) = .error .valueError ∧
    ∀ i, Picks [.str 2, .str 3] i .valueError (a.vt.nthChildInt a.s.t (.str 1) i) := by
  obtain ⟨a, e, h, -⟩ := C79_main_partial someDiff_ok (fun _ => 0) mainHistory mainHistory_fair
  have hx : (MApp.run someDiff mainHistory (MApp.init fun _ => 0)).state = a := by rw [e]; rfl
  have h1 : a.s.t.has (.str 1) = true := by rw [← hx]; rfl
  have h2 : a.s.t.getChildren (.str 1) = [.str 2, .str 3] := by rw [← hx]; rfl
  refine ⟨a, e, h1, by rw [← hx]; rfl, by rw [← hx]; rfl, by rw [← hx]; rfl, fun i => ?_⟩
  rw [← h2]
  exact h _ h1 i

example : ViewOK shownApp.ft ∧ shownApp.ft.view.has (.str 2) = true ∧
    (VT.ofFT shownApp.ft).nthChildInt shownApp.s.t (.str 2) (-1) = .ok (.str 4) ∧
    (VT.ofFT shownApp.ft).nthChildInt shownApp.s.t (.str 2) (-3) = .error .indexError ∧
    ∀ i, Picks (shownApp.ft.view.kids (.str 2)) i .indexError ((VT.ofFT shownApp.ft).nthChildInt shownApp.s.t (.str 2) i) :=
  ⟨shownApp_ok, by decide, by decide, by decide, C79_view_partial _ _ shownApp_ok _ (by decide) (by decide)⟩

/-- C79 is not literally true: numbers below zero are accepted and count from the end, in the main view and in others. -/
theorem C79_refuted_negative : (∃ a, MApp.run someDiff mainHistory (MApp.init fun _ => 0) = .ok a ∧
      a.vt.nthChildInt a.s.t (.str 1) (-1) = .ok (.str 3)) ∧
    (VT.ofFT shownApp.ft).nthChildInt shownApp.s.t (.str 2) (-1) = .ok (.str 4) :=
  ⟨⟨_, rfl, rfl⟩, by decide⟩

/-- Numbers that are too low do not raise the same exception everywhere: `ValueError` in the main view, `IndexError` in another
view of the same tree, and `KeyError` if the node is not displayed. -/
theorem C79_refuted_error : (∃ a, MApp.run someDiff mainHistory (MApp.init fun _ => 0) = .ok a ∧
      a.vt.nthChildInt a.s.t (.str 1) (-9) = .error .valueError) ∧
    (VT.ofFT shownApp.ft).nthChildInt shownApp.s.t (.str 2) (-9) = .error .indexError ∧
    (VT.ofFT shownApp.ft).nthChildInt shownApp.s.t (.str 77) (-9) = .error .keyError :=
  ⟨⟨_, rfl, rfl⟩, by decide, by decide⟩

end Larch
