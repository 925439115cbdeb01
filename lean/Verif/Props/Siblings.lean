import Verif.Props.Loading
import Verif.Spec.Siblings

/-!
# C89: the order of siblings in a hierarchy
-/

namespace Larch

open Graph Spec

theorem Hier.kidsAt {s : St} (h : Hier s) (y : Id) : kidsAt s.t y = if y = .none then s.t.root.children else s.t.rawChildren y := by
  unfold Spec.kidsAt
  rw [h.tops, h.kids]

theorem Hier.noNone {s : St} (h : Hier s) {x : Id} (hx : s.t.has x = true) : x ≠ .none := by
  rintro rfl
  have := (h.good.1.wf.ids _ hx).1; cases this

theorem Resettles.refl (t : Tree) (x q : Id) : Resettles t t x q q := fun y => by rw [if_pos rfl]

theorem Hier.relateShift {s : St} (h : Hier s) {p c : Id} (h0 : s.t.getParents c = []) (hp : s.t.has p = true) (hc : s.t.has c = true)
    (hne : p ≠ c) : newRelationship s p c = .err .circular s ∨ ∃ s', newRelationship s p c = .ok s' ∧ Resettles s.t s'.t c .none p := by
  obtain ⟨hg, -⟩ := h.good
  have hst : Hier (newRelationship s p c).state := (h.step (.newRelationship p c) ⟨h0, hp, hc⟩).2
  by_cases hre : ReachEq s.t.rawParents p c
  · exact .inl (newRelationship_refused hg.wf hg.pend hne hp hc hre)
  · obtain ⟨t', ht', e⟩ := newRelationship_linked hg.wf hg.root hg.pend hp hc hre
    have ef := (Tree.create_eq_some ht').2.2
    rw [e] at hst
    have hst : Hier (((⟨t', s.log⟩ : St).emit .modified p).emit .modified c) := hst
    refine .inr ⟨_, e, fun y => ?_⟩
    rw [hst.kidsAt, h.kidsAt, if_neg (h.noNone hp)]
    show (if y = .none then t'.root.children else t'.rawChildren y) = _
    by_cases hy : y = .none
    · rw [if_pos hy, if_pos hy, if_pos hy, ef.root]
    · rw [if_neg hy, if_neg hy, if_neg hy, ef.children]
      split
      · rename_i hyp
        rw [hyp]
        unfold appendNew
        rw [if_neg]
        intro hm
        rw [← h.kids] at hm
        have hm : p ∈ s.t.getParents c := (hg.wf.isParent p c).2 ((hg.wf.isChild p c).1 hm)
        rw [h0] at hm; cases hm
      · rfl

theorem Hier.breakShift {s : St} (h : Hier s) {p c : Id} (hpc : IsParent s.t p c) :
    ∃ s', breakRelationship s p c = .ok s' ∧ Hier s' ∧ (∀ y, s'.t.has y = s.t.has y) ∧ s'.t.getParents c = [] ∧ Resettles s.t s'.t c p .none := by
  obtain ⟨hg, -⟩ := h.good
  have hm := (hg.wf.isParent p c).1 hpc
  have hp := hg.wf.has_parent hm
  have hc := Tree.has_of_mem_rawParents hm
  have hne : p ≠ c := by
    rintro rfl
    exact hg.wf.upInv.noCycle p (.single hpc)
  have hst : Hier (breakRelationship s p c).state := (h.step (.breakRelationship p c) trivial).2
  obtain ⟨t', e, -, ef⟩ := breakRelationship_spec hg hp hc hne
  have h1 : s.t.rawParents c = [p] := by
    have hl := Forest.single hg.wf h.forest c
    match hr : s.t.rawParents c with
    | [] => rw [hr] at hm; cases hm
    | [a] => rw [hr, List.mem_singleton] at hm; rw [hm]
    | _ :: _ :: _ => rw [hr] at hl; simp at hl
  rw [e] at hst
  have hst : Hier (((⟨t', s.log⟩ : St).emit .modified p).emit .modified c) := hst
  refine ⟨_, e, hst, ef.has, ?_, fun y => ?_⟩
  · rw [hst.good.1.wf.getParents_eq]
    show t'.rawParents c = []
    rw [ef.parents, if_pos rfl, h1]; simp
  · rw [hst.kidsAt, h.kidsAt, if_neg (h.noNone hp).symm]
    show (if y = .none then t'.root.children else t'.rawChildren y) = _
    by_cases hy : y = .none
    · rw [if_pos hy, if_pos hy, if_pos hy, if_neg (by rw [hy]; exact (h.noNone hp).symm), ef.rootIs, if_pos h1]
    · rw [if_neg hy, if_neg hy, if_neg hy, ef.children]
      split
      · rename_i hyp; rw [hyp]
      · rfl

theorem Hier.moveShift {s : St} (h : Hier s) {x p q : Id} (hx : s.t.has x = true) (hp : p = .none ∨ s.t.has p = true) (hpx : p ≠ x)
    (hq : s.t.getParents x = if q = .none then [] else [q]) :
    (∃ s', nodeSetParent s x p = .ok s' ∧ Resettles s.t s'.t x q p) ∨ ∃ s', nodeSetParent s x p = .err .circular s' ∧ Resettles s.t s'.t x q .none := by
  obtain ⟨hg, -⟩ := h.good
  obtain ⟨nx, hnx⟩ := (Tree.has_iff _ _).1 hx
  have hen := (h.opn x nx hnx).1
  have hraw : s.t.rawParents x = if q = .none then [] else [q] := by rw [← hg.wf.getParents_eq]; exact hq
  have hqp : q ≠ .none → IsParent s.t q x := fun hn => by
    show q ∈ s.t.getParents x
    rw [hq, if_neg hn]; simp
  rcases hp with rfl | hp
  · left
    have hpn : s.t.node? .none = none := by
      rw [← Tree.has_false_iff]
      cases hh : s.t.has .none with
      | false => rfl
      | true => exact absurd rfl (h.noNone hh)
    have e : nodeSetParent s x .none = (Res.forEach (fun q s => breakRelationship s q x) (s.t.getParents x) s).andThen fun s =>
        .ok (s.mapTree fun t => { t with pending := t.pending ++ [(.none, x)] }) := by
      unfold nodeSetParent
      rw [hnx]; dsimp only
      rw [if_pos ⟨hpx, hen⟩, hpn]
    rw [e, hq]
    by_cases hn : q = .none
    · rw [if_pos hn, hn]
      exact ⟨_, rfl, fun y => by rw [if_pos rfl]; rfl⟩
    · rw [if_neg hn]
      obtain ⟨s1, e1, -, -, -, hS⟩ := h.breakShift (hqp hn)
      refine ⟨s1.mapTree fun t => { t with pending := t.pending ++ [(.none, x)] }, ?_, hS⟩
      simp [Res.forEach, e1]
  · obtain ⟨np, hnp⟩ := (Tree.has_iff _ _).1 hp
    have hpf : p.falsy = false := (hg.wf.ids p hp).1
    have e : nodeSetParent s x p = match setParentLoop nx.parents.length 0 s x p false with
          | .err e (s', _) => .err e s'
          | .ok (s', flag) => if !p.falsy && !flag then nodeAddParent s' x p else .ok s' := by
      unfold nodeSetParent
      rw [hnx]; dsimp only
      rw [if_pos ⟨hpx, hen⟩, hnp]; dsimp only
      rw [if_pos (h.opn p np hnp).2]
      rfl
    have hnl : nx.parents = if q = .none then [] else [q] := by rw [← hraw, Tree.rawParents_of_node hnx]
    have adds : ∀ {s1 : St}, Hier s1 → s1.t.getParents x = [] → s1.t.has p = true → s1.t.has x = true →
        nodeAddParent s1 x p = newRelationship s1 p x := fun h1 h0 h2 h3 =>
      (C11_node_methods _ h1.good.1 p x h2 h3 hpx (fun hh => by
        have hh : p ∈ _ := hh
        rw [h0] at hh; cases hh) (h1.opn.accept p x)).1
    by_cases hn : q = .none
    · rw [if_pos hn] at hnl hq
      have e2 : nodeSetParent s x p = newRelationship s p x := by
        rw [e, hnl]
        show (if !p.falsy && !false then nodeAddParent s x p else .ok s) = _
        rw [hpf]
        exact adds h hq hp hx
      rw [e2, hn]
      rcases h.relateShift hq hp hx hpx with e3 | e3
      · exact .inr ⟨s, e3, Resettles.refl _ _ _⟩
      · exact .inl e3
    · rw [if_neg hn] at hnl hq hraw
      by_cases hqq : q = p
      · left
        refine ⟨s, ?_, by rw [hqq]; exact Resettles.refl _ _ _⟩
        rw [e, hnl]
        simp [setParentLoop, hraw, hqq]
      · obtain ⟨s1, e1, h1, hh1, h0, hS⟩ := h.breakShift (hqp hn)
        have e2 : nodeSetParent s x p = newRelationship s1 p x := by
          have el : setParentLoop 1 0 s x p false = .ok (s1, false) := by
            simp [setParentLoop, hraw, hqq, nodeRemoveParent_eq hg ((hg.wf.isParent q x).1 (hqp hn)), e1]
          rw [e, hnl]
          show (match setParentLoop 1 0 s x p false with
            | .err e (s', _) => (Res.err e s' : Res St)
            | .ok (s', flag) => if !p.falsy && !flag then nodeAddParent s' x p else .ok s') = _
          rw [el]
          dsimp only
          rw [hpf]
          exact adds h1 h0 (by rw [hh1]; exact hp) (by rw [hh1]; exact hx)
        rw [e2]
        rcases h1.relateShift h0 (by rw [hh1]; exact hp) (by rw [hh1]; exact hx) hpx with e3 | ⟨s2, e3, hS2⟩
        · exact .inr ⟨s1, e3, hS⟩
        · refine .inl ⟨s2, e3, fun y => ?_⟩
          have hpn := h.noNone hp
          have htop : x ∉ s.t.rootChildren := fun hm => ((hg.topLevel.exact x).1 hm).2 q (hqp hn)
          rw [hS2 y, hS y, if_neg hpn, if_neg (Ne.symm hn), if_neg (Ne.symm hqq)]
          by_cases hy : y = .none
          · rw [if_pos hy, if_neg (by rw [hy]; exact Ne.symm hn), if_pos hy, if_neg (by rw [hy]; exact Ne.symm hn), if_neg (by rw [hy]; exact hpn.symm)]
            have hk : Spec.kidsAt s.t y = s.t.rootChildren := by unfold Spec.kidsAt; rw [if_pos hy]
            rw [hk, List.erase_append_right _ htop]; simp
          · rw [if_neg hy, if_neg hy]
            by_cases hyq : y = q
            · rw [if_pos hyq, if_pos hyq, if_neg (by rw [hyq]; exact hqq)]
            · rw [if_neg hyq, if_neg hyq]

/-- C89: a move takes the node from its place and puts it last among its new siblings; a refused one puts it last at the top level. A node
that is moved to where it is stays where it is among its siblings. The order of all others stays. -/
theorem C89_move (ops : List Op) (hp : Along (fun s op => HierarchyEdit s.t op) St.init ops) (x p q : Id)
    (hx : (runOps St.init ops).t.has x = true) (hp' : p = .none ∨ (runOps St.init ops).t.has p = true) (hpx : p ≠ x)
    (hq : (runOps St.init ops).t.getParents x = if q = .none then [] else [q]) (op : Op) (ho : op = .moveNode x p ∨ op = .setParent x p) :
    (Ancestor (runOps St.init ops).t x p →
        ∃ s', step (runOps St.init ops) op = .err .circular s' ∧ Resettles (runOps St.init ops).t s'.t x q .none) ∧
      (¬ Ancestor (runOps St.init ops).t x p →
        ∃ s', step (runOps St.init ops) op = .ok s' ∧ Resettles (runOps St.init ops).t s'.t x q p) := by
  obtain ⟨-, h⟩ := Hier.init.run ops hp
  obtain ⟨m1, m2⟩ := C86_move ops hp x p hx hp' hpx op ho
  have e : step (runOps St.init ops) op = nodeSetParent (runOps St.init ops) x p := by
    rcases ho with rfl | rfl
    · show moveNode _ _ _ = _
      unfold moveNode; rw [if_pos hx]
    · rfl
  have hm := h.moveShift hx hp' hpx hq
  rw [← e] at hm
  constructor
  · intro ha
    obtain ⟨s', e', -⟩ := m1 ha
    rcases hm with ⟨s2, e2, hs⟩ | hm
    · rw [e'] at e2; cases e2
    · exact hm
  · intro ha
    obtain ⟨s', e', -⟩ := m2 ha
    rcases hm with hm | ⟨s2, e2, hs⟩
    · exact hm
    · rw [e'] at e2; cases e2

/-- 2 goes from 1 to 4; 1 has only 4 left. -/
example : ∃ s', step (runOps St.init (hierOps.take 4)) (.moveNode (.str 2) (.str 4)) = .ok s' ∧
    Resettles (runOps St.init (hierOps.take 4)).t s'.t (.str 2) (.str 1) (.str 4) ∧ s'.t.getChildren (.str 1) = [.str 4] := by
  obtain ⟨h1, h2⟩ := C89_move _ hierOps_four (.str 2) (.str 4) (.str 1) (by decide) (by decide) (by decide) (by decide) _ (.inl rfl)
  obtain ⟨s', e, h⟩ := h2 fun ha => by
    obtain ⟨s1, e1, -⟩ := h1 ha
    have d : (step (runOps St.init (hierOps.take 4)) (.moveNode (.str 2) (.str 4))).isOk = true := by decide
    rw [e1] at d; cases d
  refine ⟨s', e, h, ?_⟩
  have := h (.str 1)
  unfold Spec.kidsAt at this
  rw [if_neg (by decide), if_neg (by decide), if_pos rfl, if_neg (by decide)] at this
  rw [this]; decide

/-- 1, at the top level, tries to go below 3 and stays where it is. -/
example : ∃ s', step (runOps St.init (hierOps.take 4)) (.moveNode (.str 1) (.str 3)) = .err .circular s' ∧
    Resettles (runOps St.init (hierOps.take 4)).t s'.t (.str 1) .none .none :=
  (C89_move _ hierOps_four (.str 1) (.str 3) .none (by decide) (by decide) (by decide) (by decide) _ (.inl rfl)).1 hierOps_above

/-- C89: a new relation puts the node last among its new siblings. -/
theorem C89_relate (ops : List Op) (hp : Along (fun s op => HierarchyEdit s.t op) St.init ops) (p c : Id)
    (hpp : (runOps St.init ops).t.has p = true) (hc : (runOps St.init ops).t.has c = true) (hne : p ≠ c)
    (h0 : (runOps St.init ops).t.getParents c = []) (hanc : ¬ Ancestor (runOps St.init ops).t c p) (op : Op)
    (ho : op = .newRelationship p c ∨ op = .addParent c p ∨ op = .addChild p c) :
    ∃ s', step (runOps St.init ops) op = .ok s' ∧ Resettles (runOps St.init ops).t s'.t c .none p := by
  obtain ⟨-, h⟩ := Hier.init.run ops hp
  obtain ⟨s', e, -⟩ := (C86_relate ops hp p c hpp hc hne h0 op ho).2 hanc
  have hnew : ¬ IsParent (runOps St.init ops).t p c := by
    intro hh
    have hh : p ∈ (runOps St.init ops).t.getParents c := hh
    rw [h0] at hh; cases hh
  obtain ⟨m1, m2, m3⟩ := C11_node_methods _ h.good.1 p c hpp hc hne hnew (h.opn.accept p c)
  have e1 : step (runOps St.init ops) op = newRelationship (runOps St.init ops) p c := by
    rcases ho with rfl | rfl | rfl
    · rfl
    · exact m2
    · exact m3
  rcases h.relateShift h0 hpp hc hne with e2 | e2
  · rw [e1, e2] at e; cases e
  · rw [e1]; exact e2

/-- 2, at the top level after the refused move, goes below 1, after 4. -/
example : ∃ s', step (runOps St.init (hierOps.take 5)) (.addChild (.str 1) (.str 2)) = .ok s' ∧
    Resettles (runOps St.init (hierOps.take 5)).t s'.t (.str 2) .none (.str 1) := by
  obtain ⟨h1, h2, h3, h4, h5, -⟩ := hierOps_fair
  have ha : Along (fun s op => HierarchyEdit s.t op) St.init (hierOps.take 5) := ⟨h1, h2, h3, h4, h5, trivial⟩
  refine C89_relate _ ha (.str 1) (.str 2) (by decide) (by decide) (by decide) (by decide) (fun hh => ?_) _ (.inr (.inr rfl))
  have d : (step (runOps St.init (hierOps.take 5)) (.addChild (.str 1) (.str 2))).isOk = true := by decide
  rw [(C86_relate _ ha (.str 1) (.str 2) (by decide) (by decide) (by decide) (by decide) _ (.inr (.inr rfl))).1 hh] at d
  cases d

/-- C89: a node that is taken from its parent comes last at the top level. -/
theorem C89_detach (ops : List Op) (hp : Along (fun s op => HierarchyEdit s.t op) St.init ops) (p c : Id)
    (hpc : IsParent (runOps St.init ops).t p c) (op : Op) (ho : op = .breakRelationship p c ∨ op = .removeParent c p) :
    ∃ s', step (runOps St.init ops) op = .ok s' ∧ Resettles (runOps St.init ops).t s'.t c p .none := by
  obtain ⟨-, h⟩ := Hier.init.run ops hp
  obtain ⟨s', e, -, -, -, hs⟩ := h.breakShift hpc
  refine ⟨s', ?_, hs⟩
  rw [← e]
  rcases ho with rfl | rfl
  · rfl
  · exact C11_remove_parent _ h.good.1 c p hpc

/-- 2 leaves 1. -/
example : ∃ s', step (runOps St.init (hierOps.take 4)) (.removeParent (.str 2) (.str 1)) = .ok s' ∧
    Resettles (runOps St.init (hierOps.take 4)).t s'.t (.str 2) (.str 1) .none :=
  C89_detach _ hierOps_four (.str 1) (.str 2) (by decide) _ (.inr rfl)

end Larch
