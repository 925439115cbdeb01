import Verif.Props.HierarchyEdits
import Verif.Spec.Undo

/-!
# C87: the edits of a hierarchy can be undone
-/

namespace Larch

open Graph Spec

theorem Hier.same {s s' : St} (h : Hier s) (h' : Hier s') (hn : ∀ y, s'.t.has y = s.t.has y) (hp : ∀ y, s'.t.getParents y = s.t.getParents y) :
    SameHierarchy s.t s'.t := by
  have hI : ∀ r y, IsParent s'.t r y ↔ IsParent s.t r y := fun r y => by
    show r ∈ s'.t.getParents y ↔ r ∈ s.t.getParents y
    rw [hp]
  refine ⟨hn, hp, fun y c => ?_, fun c => ?_⟩
  · have h1 := h.good.1.wf
    have h2 := h'.good.1.wf
    exact ((h2.isChild y c).trans (h2.isParent y c).symm).trans ((hI y c).trans ((h1.isParent y c).trans (h1.isChild y c).symm))
  · rw [h'.good.1.topLevel.exact c, h.good.1.topLevel.exact c, hn]
    exact and_congr_right fun _ => forall_congr' fun r => not_congr (hI r c)

theorem hier_after {ops : List Op} (hp : Along (fun s op => HierarchyEdit s.t op) St.init ops) {op : Op}
    (ho : HierarchyEdit (runOps St.init ops).t op) :
    Along (fun s op => HierarchyEdit s.t op) St.init (ops ++ [op]) ∧ runOps St.init (ops ++ [op]) = (step (runOps St.init ops) op).state :=
  ⟨along_append hp ⟨ho, trivial⟩, runOps_append' _ _ _⟩

/-- If only `x` gets other parents, an old parent of `x` is not below `x` afterwards. -/
theorem not_below {t t' : Tree} {x q : Id} (hc : NoCycle t) (ho : ∀ y, y ≠ x → t'.getParents y = t.getParents y)
    (hq : IsParent t q x) : ¬ Ancestor t' x q := by
  have key : ∀ a, Relation.TransGen (fun c p => IsParent t' p c) a x → a = x ∨ Ancestor t x a := by
    intro a ha
    induction ha using Relation.TransGen.head_induction_on with
    | single hh =>
      rename_i a
      by_cases e : a = x
      · exact .inl e
      · have hh : x ∈ t'.getParents a := hh
        rw [ho a e] at hh
        exact .inr (.single hh)
    | head hh htl ih =>
      rename_i a c
      by_cases e : a = x
      · exact .inl e
      · have hh : c ∈ t'.getParents a := hh
        rw [ho a e] at hh
        right
        rcases ih with rfl | ih
        · exact .single hh
        · exact .head hh ih
  intro ha
  rcases key q ha with rfl | h
  · exact hc q (.single hq)
  · exact hc x (.head hq h)

/-- C87: a move in a hierarchy, refused or not, is undone by the move back. -/
theorem C87_move (ops : List Op) (hp : Along (fun s op => HierarchyEdit s.t op) St.init ops) (x p q : Id)
    (hx : (runOps St.init ops).t.has x = true) (hp' : p = .none ∨ (runOps St.init ops).t.has p = true)
    (hq : (runOps St.init ops).t.getParents x = if q = .none then [] else [q]) :
    ∃ s', step (step (runOps St.init ops) (.moveNode x p)).state (.moveNode x q) = .ok s' ∧ SameHierarchy (runOps St.init ops).t s'.t := by
  obtain ⟨-, h⟩ := Hier.init.run ops hp
  obtain ⟨ha, ea⟩ := hier_after hp (op := .moveNode x p) hp'
  obtain ⟨-, h1⟩ := Hier.init.run _ ha
  obtain ⟨hg, -⟩ := h.good
  have hqp : q ≠ .none → IsParent (runOps St.init ops).t q x := fun hn => by
    show q ∈ (runOps St.init ops).t.getParents x
    rw [hq, if_neg hn]; simp
  have hqh : q = .none ∨ (runOps St.init ops).t.has q = true := by
    by_cases hn : q = .none
    · exact .inl hn
    · exact .inr (hg.wf.has_parent ((hg.wf.isParent q x).1 (hqp hn)))
  have hqx : q ≠ x := by
    rintro rfl
    by_cases hn : q = .none
    · have := (hg.wf.ids _ hx).1
      rw [hn] at this; cases this
    · exact hg.wf.upInv.noCycle q (.single (hqp hn))
  -- the first move
  have mv : ∃ ps, PutAt (runOps St.init ops).t (runOps St.init (ops ++ [.moveNode x p])).t x ps := by
    rw [ea]
    by_cases hpx : p = x
    · have e : step (runOps St.init ops) (.moveNode x p) = .ok (runOps St.init ops) := by
        show moveNode _ _ _ = _
        unfold moveNode
        rw [if_pos hx]
        unfold nodeSetParent
        obtain ⟨nd, hnd⟩ := (Tree.has_iff _ _).1 hx
        rw [hnd]
        dsimp only
        rw [if_neg (fun hh => hh.1 hpx)]
      rw [e]
      exact ⟨_, fun _ => rfl, rfl, fun _ _ => rfl, h.sound⟩
    · obtain ⟨m1, m2⟩ := C86_move ops hp x p hx hp' hpx _ (.inl rfl)
      by_cases hanc : Ancestor (runOps St.init ops).t x p
      · obtain ⟨s', e, hP⟩ := m1 hanc
        rw [e]; exact ⟨_, hP⟩
      · obtain ⟨s', e, hP⟩ := m2 hanc
        rw [e]; exact ⟨_, hP⟩
  obtain ⟨ps, hP⟩ := mv
  have hqh' : q = .none ∨ (runOps St.init (ops ++ [.moveNode x p])).t.has q = true := by rw [hP.nodes]; exact hqh
  have hna : ¬ Ancestor (runOps St.init (ops ++ [.moveNode x p])).t x q := by
    by_cases hn : q = .none
    · intro hh
      obtain ⟨r, hr, -⟩ := Relation.TransGen.head'_iff.1 hh
      have hr := (h1.good.1.wf.isParent r q).1 hr
      have := (h1.good.1.wf.ids _ (Tree.has_of_mem_rawParents hr)).1
      rw [hn] at this; cases this
    · exact not_below hg.wf.upInv.noCycle hP.others (hqp hn)
  obtain ⟨s', e, hP'⟩ := (C86_move _ ha x q (by rw [hP.nodes]; exact hx) hqh' hqx _ (.inl rfl)).2 hna
  have h2 := (h1.step (.moveNode x q) hqh').2
  rw [e] at h2
  rw [← ea]
  refine ⟨s', e, h.same h2 (fun y => (hP'.nodes y).trans (hP.nodes y)) fun y => ?_⟩
  by_cases hy : y = x
  · rw [hy, hP'.place, hq]
  · rw [hP'.others y hy, hP.others y hy]

/-- 3 goes below 4 and back; 1 tries to go below 3 and is put back. -/
example : (∃ s', step (step (runOps St.init (hierOps.take 4)) (.moveNode (.str 3) (.str 4))).state (.moveNode (.str 3) (.str 2)) = .ok s' ∧
      SameHierarchy (runOps St.init (hierOps.take 4)).t s'.t) ∧
    ∃ s', step (step (runOps St.init (hierOps.take 4)) (.moveNode (.str 1) (.str 3))).state (.moveNode (.str 1) .none) = .ok s' ∧
      SameHierarchy (runOps St.init (hierOps.take 4)).t s'.t :=
  ⟨C87_move _ hierOps_four (.str 3) (.str 4) (.str 2) (by decide) (by decide) (by decide),
    C87_move _ hierOps_four (.str 1) (.str 3) .none (by decide) (by decide) (by decide)⟩

/-- C87: a relation that was broken in a hierarchy can be made again. -/
theorem C87_detach (ops : List Op) (hp : Along (fun s op => HierarchyEdit s.t op) St.init ops) (p c : Id)
    (hpc : IsParent (runOps St.init ops).t p c) :
    ∃ s', step (step (runOps St.init ops) (.breakRelationship p c)).state (.newRelationship p c) = .ok s' ∧
      SameHierarchy (runOps St.init ops).t s'.t := by
  obtain ⟨-, h⟩ := Hier.init.run ops hp
  obtain ⟨ha, ea⟩ := hier_after hp (op := .breakRelationship p c) trivial
  obtain ⟨-, h1⟩ := Hier.init.run _ ha
  obtain ⟨hg, -⟩ := h.good
  have hm := (hg.wf.isParent p c).1 hpc
  obtain ⟨s1, e1, hP, -⟩ := C86_detach ops hp p c hpc _ (.inl rfl)
  rw [e1] at ea
  have ea : runOps St.init (ops ++ [.breakRelationship p c]) = s1 := ea
  rw [← ea] at hP
  have hcp : (runOps St.init ops).t.getParents c = [p] :=
    short_eq (h.short c) (by simp) fun r => ⟨fun hr => by rw [h.forest c r p hr hpc]; simp, fun hr => by
      rw [List.mem_singleton.1 hr]; exact hpc⟩
  have g1 : (runOps St.init (ops ++ [.breakRelationship p c])).t.has p = true := by rw [hP.nodes]; exact hg.wf.has_parent hm
  have g2 : (runOps St.init (ops ++ [.breakRelationship p c])).t.has c = true := by rw [hP.nodes]; exact Tree.has_of_mem_rawParents hm
  obtain ⟨s', e, hP'⟩ := (C86_relate _ ha p c g1 g2 (by rintro rfl; exact hg.wf.upInv.noCycle p (.single hpc)) hP.place _ (.inl rfl)).2
    (not_below hg.wf.upInv.noCycle hP.others hpc)
  have h2 := (h1.step (.newRelationship p c) ⟨hP.place, g1, g2⟩).2
  rw [e] at h2
  rw [e1]
  show ∃ s', step s1 _ = _ ∧ _
  rw [← ea]
  refine ⟨s', e, h.same h2 (fun y => (hP'.nodes y).trans (hP.nodes y)) fun y => ?_⟩
  by_cases hy : y = c
  · rw [hy, hP'.place, hcp]
  · rw [hP'.others y hy, hP.others y hy]

/-- 2 leaves 1 and returns. -/
example : ∃ s', step (step (runOps St.init (hierOps.take 4)) (.breakRelationship (.str 1) (.str 2))).state (.newRelationship (.str 1) (.str 2)) =
    .ok s' ∧ SameHierarchy (runOps St.init (hierOps.take 4)).t s'.t :=
  C87_detach _ hierOps_four (.str 1) (.str 2) (by decide)

/-- The order of the children is not restored: 2 comes after 4 now. -/
example : (runOps St.init (hierOps.take 4)).t.getChildren (.str 1) = [.str 2, .str 4] ∧
    (runOps St.init (hierOps.take 4 ++ [.breakRelationship (.str 1) (.str 2), .newRelationship (.str 1) (.str 2)])).t.getChildren (.str 1) =
      [.str 4, .str 2] := by decide

/-- C87: an addition to a hierarchy is undone by a removal of the node, recursive or not. -/
theorem C87_add (ops : List Op) (hp : Along (fun s op => HierarchyEdit s.t op) St.init ops) (x q p : Id)
    (hx : (runOps St.init ops).t.has x = false) (hf : x.falsy = false) (hr : x ≠ rootId) (hro : ∀ name, x ≠ rootOf name)
    (hq : q = .none ∨ (runOps St.init ops).t.has q = true)
    (hp' : p = .none ∨ (runOps St.init ops).t.has p = true) (hpq : q = .none ∨ p = .none ∨ p = q) (r : Bool) :
    ∃ s', step (step (runOps St.init ops) (.addNode (Node.new x q) p)).state (.delNode x r) = .ok s' ∧
      SameHierarchy (runOps St.init ops).t s'.t := by
  obtain ⟨-, h⟩ := Hier.init.run ops hp
  obtain ⟨ha, ea⟩ := hier_after hp (op := .addNode (Node.new x q) p) ⟨x, q, rfl, hf, hr, hro, hq, hp', hpq⟩
  obtain ⟨-, h1⟩ := Hier.init.run _ ha
  obtain ⟨hg, -⟩ := h.good
  obtain ⟨s1, e1, hA⟩ := C86_add ops hp x q p hx hf hr hro hq hp' hpq
  rw [e1] at ea
  have ea : runOps St.init (ops ++ [.addNode (Node.new x q) p]) = s1 := ea
  rw [← ea] at hA
  have hno : ∀ y, x ∉ (runOps St.init ops).t.getParents y := fun y hy => by
    rw [hg.wf.getParents_eq] at hy
    rw [hg.wf.has_parent hy] at hx; cases hx
  have hx0 : (runOps St.init ops).t.getParents x = [] := by
    refine List.eq_nil_iff_forall_not_mem.2 fun r hr => ?_
    rw [hg.wf.getParents_eq] at hr
    rw [Tree.has_of_mem_rawParents hr] at hx; cases hx
  have hleaf : ∀ y, ¬ IsParent (runOps St.init (ops ++ [.addNode (Node.new x q) p])).t x y := by
    intro y hy
    by_cases e : y = x
    · rw [e] at hy
      exact h1.good.1.wf.upInv.noCycle x (.single hy)
    · have hy : x ∈ (runOps St.init (ops ++ [.addNode (Node.new x q) p])).t.getParents y := hy
      rw [hA.others y e] at hy
      exact hno y hy
  have hdesc : ∀ y, ¬ Descendant (runOps St.init (ops ++ [.addNode (Node.new x q) p])).t y x := by
    intro y hy
    obtain ⟨c, hc, -⟩ := Relation.TransGen.head'_iff.1 hy
    exact hleaf c ((h1.good.1.wf.isParent x c).2 ((h1.good.1.wf.isChild x c).1 hc))
  have hL : ∃ s', step (runOps St.init (ops ++ [.addNode (Node.new x q) p])) (.delNode x r) = .ok s' ∧
      Leave (runOps St.init (ops ++ [.addNode (Node.new x q) p])).t s'.t fun y => y = x := by
    cases r with
    | true =>
      obtain ⟨s', e, hl⟩ := C86_remove_all _ ha x
      have he : (fun y => y = x ∨ Descendant (runOps St.init (ops ++ [.addNode (Node.new x q) p])).t y x) = fun y => y = x := by
        funext y; exact propext ⟨fun hh => hh.resolve_right (hdesc y), .inl⟩
      rw [he] at hl
      exact ⟨s', e, hl⟩
    | false =>
      obtain ⟨s', e, hl, -⟩ := C86_remove_one _ ha x ((hA.nodes x).2 (.inr rfl))
      exact ⟨s', e, hl⟩
  obtain ⟨s', e, hl⟩ := hL
  have h2 := (h1.step (.delNode x r) trivial).2
  rw [e] at h2
  have h2 : Hier s' := h2
  rw [e1]
  show ∃ s', step s1 _ = _ ∧ _
  rw [← ea]
  refine ⟨s', e, h.same h2 (fun y => ?_) fun y => short_eq (h2.short y) (h.short y) fun r => ?_⟩
  · rw [Bool.eq_iff_iff, hl.nodes, hA.nodes]
    constructor
    · exact fun hh => hh.1.resolve_right hh.2
    · exact fun hh => ⟨.inl hh, by rintro rfl; rw [hx] at hh; cases hh⟩
  · refine (hl.parents r y).trans ?_
    by_cases hy : y = x
    · subst hy
      rw [hx0]
      exact ⟨fun hh => absurd rfl hh.2.2, fun hh => by cases hh⟩
    · show r ∈ (runOps St.init (ops ++ [.addNode (Node.new x q) p])).t.getParents y ∧ _ ↔ _
      rw [hA.others y hy]
      exact ⟨fun hh => hh.1, fun hh => ⟨hh, by rintro rfl; exact hno y hh, hy⟩⟩

/-- 5 comes below 3 and goes. -/
example : ∀ r, ∃ s', step (step (runOps St.init (hierOps.take 4)) (.addNode (.new (.str 5) (.str 3)) .none)).state (.delNode (.str 5) r) = .ok s' ∧
    SameHierarchy (runOps St.init (hierOps.take 4)).t s'.t :=
  C87_add _ hierOps_four (.str 5) (.str 3) .none (by decide) (by decide) (by decide)
    (fun name => small_not_root (p' := .none) (by decide) _ _ rfl name) (by decide) (by decide) (by decide)

/-- C87: the removal of a node without children from a hierarchy is undone when a node with the same name is added below the old parent. -/
theorem C87_remove (ops : List Op) (hp : Along (fun s op => HierarchyEdit s.t op) St.init ops) (x q : Id)
    (hx : (runOps St.init ops).t.has x = true) (hro : ∀ name, x ≠ rootOf name) (hc : ∀ c, ¬ IsChild (runOps St.init ops).t x c)
    (hq : (runOps St.init ops).t.getParents x = if q = .none then [] else [q]) (r : Bool) :
    ∃ s', step (step (runOps St.init ops) (.delNode x r)).state (.addNode (Node.new x .none) q) = .ok s' ∧
      SameHierarchy (runOps St.init ops).t s'.t := by
  obtain ⟨-, h⟩ := Hier.init.run ops hp
  obtain ⟨ha, ea⟩ := hier_after hp (op := .delNode x r) trivial
  obtain ⟨-, h1⟩ := Hier.init.run _ ha
  obtain ⟨hg, -⟩ := h.good
  have hleaf : ∀ y, ¬ IsParent (runOps St.init ops).t x y := fun y hy =>
    hc y ((hg.wf.isChild x y).2 ((hg.wf.isParent x y).1 hy))
  have hL : ∃ s', step (runOps St.init ops) (.delNode x r) = .ok s' ∧ Leave (runOps St.init ops).t s'.t fun y => y = x := by
    cases r with
    | true =>
      obtain ⟨s', e, hl⟩ := C86_remove_all _ hp x
      have he : (fun y => y = x ∨ Descendant (runOps St.init ops).t y x) = fun y => y = x := by
        funext y
        refine propext ⟨fun hh => hh.resolve_right fun hd => ?_, .inl⟩
        obtain ⟨c, hcc, -⟩ := Relation.TransGen.head'_iff.1 hd
        exact hc c hcc
      rw [he] at hl
      exact ⟨s', e, hl⟩
    | false =>
      obtain ⟨s', e, hl, -⟩ := C86_remove_one _ hp x hx
      exact ⟨s', e, hl⟩
  obtain ⟨s1, e1, hl⟩ := hL
  rw [e1] at ea
  have ea : runOps St.init (ops ++ [.delNode x r]) = s1 := ea
  rw [← ea] at hl
  have hnx : (runOps St.init (ops ++ [.delNode x r])).t.has x = false := by
    rw [← Bool.not_eq_true]
    exact fun hh => ((hl.nodes x).1 hh).2 rfl
  have hnv := hg.never hx
  have hf : x.falsy = false := by
    cases hh : x.falsy with
    | false => rfl
    | true => exact absurd (.inl hh) hnv
  have hr : x ≠ rootId := fun hh => hnv (.inr hh)
  have hqh : q = .none ∨ (runOps St.init (ops ++ [.delNode x r])).t.has q = true := by
    by_cases hn : q = .none
    · exact .inl hn
    · have hqp : IsParent (runOps St.init ops).t q x := by
        show q ∈ (runOps St.init ops).t.getParents x
        rw [hq, if_neg hn]; simp
      refine .inr ((hl.nodes q).2 ⟨hg.wf.has_parent ((hg.wf.isParent q x).1 hqp), ?_⟩)
      rintro rfl
      exact hleaf q hqp
  obtain ⟨s', e, hA⟩ := C86_add _ ha x .none q hnx hf hr hro (.inl rfl) hqh (.inl rfl)
  have h2 := (h1.step (.addNode (Node.new x .none) q) ⟨x, .none, rfl, hf, hr, hro, .inl rfl, hqh, .inl rfl⟩).2
  rw [e] at h2
  have h2 : Hier s' := h2
  rw [e1]
  show ∃ s', step s1 _ = _ ∧ _
  rw [← ea]
  refine ⟨s', e, h.same h2 (fun y => ?_) fun y => ?_⟩
  · rw [Bool.eq_iff_iff, hA.nodes, hl.nodes]
    constructor
    · rintro (hh | rfl)
      · exact hh.1
      · exact hx
    · intro hh
      by_cases hy : y = x
      · exact .inr hy
      · exact .inl ⟨hh, hy⟩
  · by_cases hy : y = x
    · rw [hy, hA.place, hq, if_pos rfl]
    · rw [hA.others y hy]
      refine short_eq (h1.short y) (h.short y) fun r => (hl.parents r y).trans ?_
      exact ⟨fun hh => hh.1, fun hh => ⟨hh, by rintro rfl; exact hleaf y hh, hy⟩⟩

/-- 3 goes and comes back below 2. -/
example : ∀ r, ∃ s', step (step (runOps St.init (hierOps.take 4)) (.delNode (.str 3) r)).state (.addNode (.new (.str 3) .none) (.str 2)) = .ok s' ∧
    SameHierarchy (runOps St.init (hierOps.take 4)).t s'.t :=
  C87_remove _ hierOps_four (.str 3) (.str 2) (by decide) (fun name => small_not_root (p' := .none) (by decide) _ _ rfl name)
    (fun c hc => by
      have hc : c ∈ (runOps St.init (hierOps.take 4)).t.getChildren (.str 3) := hc
      rw [show (runOps St.init (hierOps.take 4)).t.getChildren (.str 3) = [] by decide] at hc
      cases hc) (by decide)

end Larch
