import Verif.Spec.ViewChildren
import Verif.Props.ViewTree

/-!
# C40: walking through the children of a displayed node
-/

namespace Larch

open Graph Spec

variable {D : Type} {diff : List Id → List Id → List Id}

theorem idxOf_split {l l' : List Id} {x : Id} (h : (l ++ x :: l').Nodup) : (l ++ x :: l')[(l ++ x :: l').idxOf x + 1]? = l'.head? := by
  have hx : x ∉ l := fun hm => (List.disjoint_of_nodup_append h) hm (by simp)
  rw [List.idxOf_append_of_notMem hx, List.idxOf_cons_self, List.getElem?_append_right (by omega)]
  cases l' with
  | nil => simp
  | cons a l' => simp [show l.length + 0 + 1 - l.length = 1 by omega]

theorem view_node {v : View} {x : Id} (h : v.has x = true) :
    ∃ m, v.nodes.get? x = some m ∧ m.children = v.kids x ∧ m.parents = v.pars x := by
  change v.nodes.has x = true at h
  unfold Dict.has at h
  obtain ⟨m, hm⟩ := Option.isSome_iff_exists.1 h
  refine ⟨m, hm, ?_, ?_⟩
  · unfold View.kids; rw [hm]; rfl
  · unfold View.pars; rw [hm]; rfl

theorem view_nextNode {ft : FT} (h : ViewOK ft) {p x : Id} (hp : p.falsy = false) {l l' : List Id}
    (hc : ft.view.kids p = l ++ x :: l') : ft.nextNode x p = .ok l'.head? := by
  have hxm : x ∈ ft.view.kids p := by rw [hc]; simp
  have hpx : p ∈ ft.view.pars x := (h.mirror p x).1 hxm
  have hx : ft.view.has x = true := h.shown p x hxm
  have hph : ft.view.has p = true := View.has_of_kids hxm
  have hr : x ≠ ft.root := by rintro rfl; rw [h.top] at hpx; cases hpx
  obtain ⟨m, hm, -, hmp⟩ := view_node hx
  obtain ⟨q, hq, hqc, -⟩ := view_node hph
  unfold FT.nextNode
  rw [if_neg hr, hm]
  dsimp only
  rw [if_neg (by simp [hp]), if_neg (by rw [hmp]; simpa using hpx)]
  dsimp only
  rw [hq]
  dsimp only
  rw [hqc, if_pos hxm, hc, idxOf_split (by rw [← hc]; exact h.children_once p)]

theorem viewVisits_of_next {t : Tree} {v : VT} {parent : Id} (cs : List Id)
    (hnext : ∀ l x l', cs = l ++ x :: l' → v.nextNode t x parent = .ok l'.head?) :
    ∀ (l' : List Id) (l : List Id) (x : Id), cs = l ++ x :: l' → ViewVisits t v parent x (x :: l') := by
  intro l'
  induction l' with
  | nil => intro l x e; exact .last (hnext l x [] e)
  | cons y l' ih =>
    intro l x e
    exact .more (hnext l x (y :: l') e) (ih (l ++ [x]) y (by rw [e]; simp))

/-- C40: in every view that holds together (C31–C33 show that views do), for every displayed node and for the virtual root, all the
ways of reading the children agree, and `next_node` walks through all of them once. -/
theorem C40_children (b : Bank D) (t : Tree) (d : D) (ft : FT) (h : ViewOK ft) (x : Id) (hx : ft.view.has x = true) (hf : x.falsy = false) :
    SameChildren diff b t d (VT.ofFT ft) x (ft.view.kids x) := by
  have hn : x ≠ .none := by rintro rfl; cases hf
  obtain ⟨m, hm, hmc, -⟩ := view_node hx
  have hnum := (C32_direct ft h x hn).1
  have hor : ft.orRoot x = x := by unfold FT.orRoot; rw [if_neg hn]
  refine ⟨?_, h.children_once x, hnum, ?_, fun n => ?_, fun c cs hc => ?_⟩
  · show ft.allChildren x = _
    unfold FT.allChildren
    rw [hor, hm]
    exact congrArg _ hmc
  · show ft.hasChild x = _
    unfold FT.hasChild
    rw [hm]
    dsimp only
    rw [hmc]
    simp [List.length_pos_iff]
  · show (match ft.nChildren x false with
      | .error e => Except.error e
      | .ok realn => if realn ≤ n then Except.error Err.valueError else ft.nthChild x n) = _
    rw [hnum]
    dsimp only
    split
    · rename_i hle
      rw [List.getElem?_eq_none hle]
    · rename_i hle
      unfold FT.nthChild
      rw [hm]
      dsimp only
      rw [hmc]
      obtain ⟨c, hc⟩ : ∃ c, (ft.view.kids x)[n]? = some c := ⟨_, List.getElem?_eq_getElem (by omega)⟩
      rw [hc]
  · rw [hc]
    refine viewVisits_of_next (ft.view.kids x) (fun l y l' e => ?_) cs [] c hc
    exact view_nextNode h hf e

/-- C40 with `None` as the parent: `next_node` takes the first parent, so a node with one parent is walked through in the same way. -/
theorem C40_next_node_none (t : Tree) (ft : FT) (h : ViewOK ft) (p : Id) (hp : p.falsy = false)
    (hone : ∀ c ∈ ft.view.kids p, ft.view.pars c = [p]) (c : Id) (cs : List Id) (hc : ft.view.kids p = c :: cs) :
    ViewVisits t (VT.ofFT ft) .none c (c :: cs) := by
  refine viewVisits_of_next (ft.view.kids p) (fun l y l' e => ?_) cs [] c hc
  have hy : y ∈ ft.view.kids p := by rw [e]; simp
  have hyh := h.shown p y hy
  have hp2 := view_nextNode h hp e
  have hr : y ≠ ft.root := by
    rintro rfl
    have := hone _ hy
    rw [h.top] at this; cases this
  obtain ⟨m, hm, -, hmp⟩ := view_node hyh
  rw [hone y hy] at hmp
  show ft.nextNode y .none = _
  rw [← hp2]
  unfold FT.nextNode
  rw [if_neg hr, if_neg hr, hm]
  dsimp only
  rw [if_pos (by rfl), hmp, if_neg (by simp [hp]), if_neg (by simp)]

/-- The concrete case: `shownApp` of `Props/ViewReading.lean`. -/
example : ViewOK shownApp.ft ∧ shownApp.ft.view.has (.str 2) = true ∧
    SameChildren someDiff shownApp.bank shownApp.s.t shownApp.data (VT.ofFT shownApp.ft) (.str 2) [.str 3, .str 4] ∧
    (VT.ofFT shownApp.ft).nextNode shownApp.s.t (.str 3) (.str 2) = .ok (some (.str 4)) := by
  have h : SameChildren someDiff shownApp.bank shownApp.s.t shownApp.data (VT.ofFT shownApp.ft) (.str 2) (shownApp.ft.view.kids (.str 2)) :=
    C40_children _ _ _ _ shownApp_ok (.str 2) (by decide) (by decide)
  have e : shownApp.ft.view.kids (.str 2) = [.str 3, .str 4] := by decide
  rw [e] at h
  exact ⟨shownApp_ok, by decide, h, by decide⟩

/-- C40 is not literally true for the top level, which is asked for with `None`: there are children, but `node_has_child(None)` and
`node_nth_child(None, 0)` raise `KeyError` (`filteredtree.py:553-554, 573-574`). -/
theorem C40_refuted_none :
    (VT.ofFT shownApp.ft).allChildren shownApp.s.t .none = .ok [.str 2] ∧
    ((VT.ofFT shownApp.ft).nChildren someDiff shownApp.bank shownApp.s.t shownApp.data .none false).1 = .ok 1 ∧
    (VT.ofFT shownApp.ft).hasChild shownApp.s.t .none = .error .keyError ∧
    (VT.ofFT shownApp.ft).nthChild shownApp.s.t .none 0 = .error .keyError := by
  decide

/-- C40 with `None` as the parent is not true for a child with two parents: the children of 2 are 3 and 4, but from 3 the walk looks
below 1 and ends at once. -/
theorem C40_refuted_parent : ∃ ft, FT.new someDiff ({} : Bank (Id → Nat))
    (runOps St.init [ .addNode (.new (.str 1) .none) .none, .addNode (.new (.str 2) .none) .none,
      .addNode (.new (.str 3) .none) (.str 1), .newRelationship (.str 2) (.str 3), .addNode (.new (.str 4) .none) (.str 2) ]).t
      (fun _ => 0) anonRoot true = .ok ft ∧
    ft.allChildren (.str 2) = .ok [.str 3, .str 4] ∧ ft.nextNode (.str 3) .none = .ok none ∧
    ft.nextNode (.str 3) (.str 2) = .ok (some (.str 4)) :=
  ⟨_, rfl, by decide, by decide, by decide⟩

end Larch
