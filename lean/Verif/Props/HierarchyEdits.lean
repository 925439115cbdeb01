import Verif.Props.Hierarchy
import Verif.Proofs.Leftover
import Verif.Spec.HierarchyEdits

/-!
# C86: the edits of a hierarchy do what they say
-/

namespace Larch

open Graph Spec

theorem Hier.sound {s : St} (h : Hier s) : SoundForest s.t := ⟨h.good.1.sound, h.forest⟩

theorem Hier.moved {s : St} (h : Hier s) {x p : Id} (hx : s.t.has x = true) (hp : p = .none ∨ s.t.has p = true) (hpx : p ≠ x) :
    (Ancestor s.t x p → ∃ s', nodeSetParent s x p = .err .circular s' ∧ PutAt s.t s'.t x []) ∧
      (¬ Ancestor s.t x p → ∃ s', nodeSetParent s x p = .ok s' ∧ PutAt s.t s'.t x (if p = .none then [] else [p])) := by
  obtain ⟨hg, -⟩ := h.good
  obtain ⟨nd, hnd⟩ := (Tree.has_iff _ _).1 hx
  have hmv : nodeSetParent s x p = moveNode s x p := by unfold moveNode; rw [if_pos hx]
  have hst : Hier (nodeSetParent s x p).state := (h.step (.setParent x p) hp).2
  have placed : ∀ s' : St, (nodeSetParent s x p).state = s' → MoveFrame s.t s'.t x → PutAt s.t s'.t x (s'.t.rawParents x) := by
    intro s' e fr
    rw [e] at hst
    have hg' := hst.good.1
    exact ⟨fr.has, hg'.wf.getParents_eq x, fun y hy => by rw [hg'.wf.getParents_eq, hg.wf.getParents_eq, fr.parents y hy], hst.sound⟩
  rcases hp with rfl | hp
  · have hno : s.t.has .none = false := by
      cases hh : s.t.has .none with
      | false => rfl
      | true => have := (hg.wf.ids _ hh).1; cases this
    obtain ⟨s', e, -, fr, hr⟩ := moveNode_absent hg hnd (p := .none) hno (h.opn x nd hnd).1
    rw [← hmv] at e
    have hP := placed s' (by rw [e]; rfl) fr
    rw [hr] at hP
    refine ⟨fun ha => ?_, fun _ => ⟨s', e, by rw [if_pos rfl]; exact hP⟩⟩
    obtain ⟨q, hq, -⟩ := Relation.TransGen.head'_iff.1 ha
    have hq := (hg.wf.isParent q .none).1 hq
    rw [Tree.has_of_mem_rawParents hq] at hno; cases hno
  · have hpn : p ≠ .none := by
      rintro rfl
      have := (hg.wf.ids _ hp).1; cases this
    obtain ⟨h1, h2⟩ := moveNode_spec hg hx hp hpx (h.opn.accept p x)
    rw [← hmv] at h1 h2
    rw [hg.wf.ancestor_iff, if_neg hpn]
    constructor
    · intro hr
      have hno : p ∉ s.t.rawParents x := fun hm => hg.wf.acyclic p (hr.trans (Reach.single hm))
      obtain ⟨s', e, -, fr, hs⟩ := h2 hr
      refine ⟨s', e, ?_⟩
      have hP := placed s' (by rw [e]; rfl) fr
      rw [hs] at hP
      have : skipRemove p (s.t.rawParents x) = [] := by
        have hl := Forest.single hg.wf h.forest x
        match hm : s.t.rawParents x with
        | [] => rfl
        | [b] =>
          unfold skipRemove
          rw [if_neg]
          rintro rfl
          rw [hm] at hno; simp at hno
        | _ :: _ :: _ => rw [hm] at hl; simp at hl
      rw [this] at hP
      exact hP
    · intro hr
      obtain ⟨s', e, -, fr, hs⟩ := h1 hr
      refine ⟨s', e, ?_⟩
      have hP := placed s' (by rw [e]; rfl) fr
      rw [hs] at hP
      have : appendNew (skipRemove p (s.t.rawParents x)) p = [p] := by
        rcases skipRemove_single p (Forest.single hg.wf h.forest x) with e | e <;> rw [e] <;> simp [appendNew]
      rw [this] at hP
      exact hP

/-- C86: moving a node of a hierarchy puts it exactly below the node named, or at the top level, and changes nothing else. A move below a
descendant raises and leaves the node at the top level. -/
theorem C86_move (ops : List Op) (hp : Along (fun s op => HierarchyEdit s.t op) St.init ops) (x p : Id)
    (hx : (runOps St.init ops).t.has x = true) (hp' : p = .none ∨ (runOps St.init ops).t.has p = true) (hpx : p ≠ x) (op : Op)
    (ho : op = .moveNode x p ∨ op = .setParent x p) :
    (Ancestor (runOps St.init ops).t x p →
        ∃ s', step (runOps St.init ops) op = .err .circular s' ∧ PutAt (runOps St.init ops).t s'.t x []) ∧
      (¬ Ancestor (runOps St.init ops).t x p →
        ∃ s', step (runOps St.init ops) op = .ok s' ∧ PutAt (runOps St.init ops).t s'.t x (if p = .none then [] else [p])) := by
  obtain ⟨-, h⟩ := Hier.init.run ops hp
  have e : step (runOps St.init ops) op = nodeSetParent (runOps St.init ops) x p := by
    rcases ho with rfl | rfl
    · show moveNode _ _ _ = _
      unfold moveNode; rw [if_pos hx]
    · rfl
  rw [e]
  exact h.moved hx hp' hpx

/-- The first four edits of `hierOps`: 3 is below 2; 2 and 4 are below 1. -/
theorem hierOps_four : Along (fun s op => HierarchyEdit s.t op) St.init (hierOps.take 4) := by
  obtain ⟨h1, h2, h3, h4, -⟩ := hierOps_fair
  exact ⟨h1, h2, h3, h4, trivial⟩

theorem hierOps_above : Ancestor (runOps St.init (hierOps.take 4)).t (.str 1) (.str 3) :=
  .tail (b := .str 2) (.single (by decide)) (by decide)

/-- 1 cannot go below 3. -/
example : ∃ s', step (runOps St.init (hierOps.take 4)) (.moveNode (.str 1) (.str 3)) = .err .circular s' ∧
    PutAt (runOps St.init (hierOps.take 4)).t s'.t (.str 1) [] :=
  (C86_move _ hierOps_four (.str 1) (.str 3) (by decide) (by decide) (by decide) _ (.inl rfl)).1 hierOps_above

/-- 3 goes from 2 to 4, and to the top level. -/
example : ∀ p ∈ [Id.str 4, .none], ∃ s', step (runOps St.init (hierOps.take 4)) (.setParent (.str 3) p) = .ok s' ∧
    PutAt (runOps St.init (hierOps.take 4)).t s'.t (.str 3) (if p = .none then [] else [p]) := by
  have hd : ∀ p ∈ [Id.str 4, .none], (p = .none ∨ (runOps St.init (hierOps.take 4)).t.has p = true) ∧ p ≠ .str 3 ∧
      (step (runOps St.init (hierOps.take 4)) (.setParent (.str 3) p)).isOk = true := by decide
  intro p hp
  obtain ⟨d1, d2, d3⟩ := hd p hp
  obtain ⟨h1, h2⟩ := C86_move _ hierOps_four (.str 3) p (by decide) d1 d2 _ (.inr rfl)
  refine h2 fun ha => ?_
  obtain ⟨s1, e1, -⟩ := h1 ha
  rw [e1] at d3; cases d3

/-- C86: removing a node of a hierarchy together with everything below it takes exactly these nodes away. -/
theorem C86_remove_all (ops : List Op) (hp : Along (fun s op => HierarchyEdit s.t op) St.init ops) (x : Id) :
    ∃ s', step (runOps St.init ops) (.delNode x true) = .ok s' ∧
      Leave (runOps St.init ops).t s'.t fun y => y = x ∨ Descendant (runOps St.init ops).t y x := by
  obtain ⟨-, h⟩ := Hier.init.run ops hp
  generalize runOps St.init ops = s at *
  obtain ⟨hg, -⟩ := h.good
  have hst := (h.step (.delNode x true) trivial).2
  obtain ⟨s', e, ef, hh, -⟩ := removeNode_recursive hg.wf x
  have e : step s (.delNode x true) = .ok s' := e
  rw [e] at hst
  have hst : Hier s' := hst
  have hg' := hst.good.1
  have hnod : ∀ y, s'.t.has y = true ↔ s.t.has y = true ∧ ¬ (y = x ∨ Descendant s.t y x) := by
    intro y
    rw [hh y]
    refine and_congr_right fun hy => not_congr ?_
    unfold ReachEq
    refine or_congr eq_comm ?_
    exact (hg.descendant_down h.good.2 y x).symm
  refine ⟨s', e, hnod, fun p y => ?_, hst.sound⟩
  rw [hg'.wf.isParent, hg.wf.isParent]
  constructor
  · intro hpy
    have h1 := Tree.has_of_mem_rawParents hpy
    have h2 := hg'.wf.has_parent hpy
    rw [ef.parents y h1] at hpy
    exact ⟨hpy, ((hnod p).1 h2).2, ((hnod y).1 h1).2⟩
  · rintro ⟨hpy, -, hy⟩
    rw [ef.parents y ((hnod y).2 ⟨Tree.has_of_mem_rawParents hpy, hy⟩)]
    exact hpy

/-- With 1 everything goes. -/
example : ∃ s', step (runOps St.init (hierOps.take 4)) (.delNode (.str 1) true) = .ok s' ∧ s'.t.has (.str 3) = false := by
  obtain ⟨s', e, h⟩ := C86_remove_all _ hierOps_four (.str 1)
  refine ⟨s', e, ?_⟩
  rw [← Bool.not_eq_true]
  exact fun hh => ((h.nodes _).1 hh).2 (.inr (.tail (b := .str 2) (.single (by decide)) (by decide)))

/-- C86: removing a single node of a hierarchy takes only this node away; its children are at the top level then. -/
theorem C86_remove_one (ops : List Op) (hp : Along (fun s op => HierarchyEdit s.t op) St.init ops) (x : Id)
    (hx : (runOps St.init ops).t.has x = true) :
    ∃ s', step (runOps St.init ops) (.delNode x false) = .ok s' ∧ Leave (runOps St.init ops).t s'.t (fun y => y = x) ∧
      ∀ c, IsChild (runOps St.init ops).t x c → c ∈ s'.t.rootChildren := by
  obtain ⟨-, h⟩ := Hier.init.run ops hp
  generalize runOps St.init ops = s at *
  obtain ⟨hg, hn⟩ := h.good
  have hst := (h.step (.delNode x false) trivial).2
  obtain ⟨s', e, ef, -⟩ := removeNode_orphan hg hx (fun c hc => hn x c hc) s.t.nodes.entries.length
  have e : step s (.delNode x false) = .ok s' := e
  rw [e] at hst
  have hst : Hier s' := hst
  have hg' := hst.good.1
  have hL : ∀ p y, IsParent s'.t p y ↔ IsParent s.t p y ∧ p ≠ x ∧ y ≠ x := by
    intro p y
    rw [hg'.wf.isParent, hg.wf.isParent]
    by_cases hy : y = x
    · subst hy
      refine ⟨fun hpy => ?_, fun hh => absurd rfl hh.2.2⟩
      exact absurd rfl ((ef.has y).1 (Tree.has_of_mem_rawParents hpy)).2
    · rw [ef.parents y hy, (hg.wf.ndP y).mem_erase_iff]
      tauto
  refine ⟨s', e, ⟨fun y => ef.has y, hL, hst.sound⟩, fun c hc => ?_⟩
  have hcp : IsParent s.t x c := (hg.wf.isParent x c).2 ((hg.wf.isChild x c).1 hc)
  have hcx : c ≠ x := by
    rintro rfl
    exact hg.wf.upInv.noCycle c (Relation.TransGen.single hcp)
  refine (hg'.topLevel.exact c).2 ⟨(ef.has c).2 ⟨hn x c ((hg.wf.up x c) ((hg.wf.isParent x c).1 hcp)), hcx⟩, fun p hpc => ?_⟩
  obtain ⟨h1, h2, -⟩ := (hL p c).1 hpc
  exact h2 (h.forest c p x h1 hcp)

/-- Without 1, its child 2 is at the top level, still with its child 3. -/
example : ∃ s', step (runOps St.init (hierOps.take 4)) (.delNode (.str 1) false) = .ok s' ∧ .str 2 ∈ s'.t.rootChildren ∧
    IsParent s'.t (.str 2) (.str 3) := by
  obtain ⟨s', e, h, hc⟩ := C86_remove_one _ hierOps_four (.str 1) (by decide)
  exact ⟨s', e, hc _ (by decide), (h.parents _ _).2 ⟨by decide, by decide, by decide⟩⟩

theorem Hier.short {s : St} (h : Hier s) (y : Id) : (s.t.getParents y).length ≤ 1 := by
  rw [h.good.1.wf.getParents_eq]; exact Forest.single h.good.1.wf h.forest y

theorem short_eq {l l' : List Id} (h : l.length ≤ 1) (h' : l'.length ≤ 1) (he : ∀ y, y ∈ l ↔ y ∈ l') : l = l' := by
  match l, l', h, h', he with
  | [], [], _, _, _ => rfl
  | [], [b], _, _, he => exact absurd ((he b).2 (by simp)) (by simp)
  | [a], [], _, _, he => exact absurd ((he a).1 (by simp)) (by simp)
  | [a], [b], _, _, he => rw [List.mem_singleton.1 ((he a).1 (by simp))]

theorem new_pending {x q : Id} (hq : q.falsy = false) (hne : q ≠ x) : (q, x) ∈ (Node.new x q).pending := by
  unfold Node.new
  rw [if_neg (by simp [hq])]
  unfold Node.detachedAddParent
  split
  · exact List.mem_append_right _ (by simp [Node.fresh])
  · rename_i hh; exact absurd (by simpa [Node.fresh] using hh) hne

/-- C86: a new node of a hierarchy comes to exactly the place named in its constructor or in `add_node`, and changes nothing else. -/
theorem C86_add (ops : List Op) (hp : Along (fun s op => HierarchyEdit s.t op) St.init ops) (x q p : Id)
    (hx : (runOps St.init ops).t.has x = false) (hf : x.falsy = false) (hr : x ≠ rootId) (hro : ∀ name, x ≠ rootOf name) (hq : q = .none ∨ (runOps St.init ops).t.has q = true)
    (hp' : p = .none ∨ (runOps St.init ops).t.has p = true) (hpq : q = .none ∨ p = .none ∨ p = q) :
    ∃ s', step (runOps St.init ops) (.addNode (Node.new x q) p) = .ok s' ∧
      Arrives (runOps St.init ops).t s'.t x (if p = .none then if q = .none then [] else [q] else [p]) := by
  obtain ⟨-, h⟩ := Hier.init.run ops hp
  generalize runOps St.init ops = s at *
  obtain ⟨hg, -⟩ := h.good
  obtain ⟨hid, -, -, -, hpe⟩ := node_new x q
  obtain ⟨-, hk, hA⟩ := h.add hf hr hq hp' hpq
  obtain ⟨s', e, ef⟩ := hA hx
  have hst : Hier s' := by
    have := (h.step (.addNode (Node.new x q) p) ⟨x, q, rfl, hf, hr, hro, hq, hp', hpq⟩).2
    have e' : step s (.addNode (Node.new x q) p) = .ok s' := e
    rw [e'] at this
    exact this
  have hg' := hst.good.1
  have hnn : s.t.has .none = false := by
    cases hh : s.t.has .none with
    | false => rfl
    | true => have := (hg.wf.ids _ hh).1; cases this
  have hpar : ∀ r c, IsParent s.t r c → s.t.has c = true := by
    intro r c hh
    have hh : r ∈ s.t.getParents c := hh
    rw [hg.wf.getParents_eq] at hh
    exact Tree.has_of_mem_rawParents hh
  have hnodes : ∀ y, s'.t.has y = true ↔ s.t.has y = true ∨ y = x := fun y => by rw [ef.nodes, hid]
  have hq' : s.t.has q = true → (q, x) ∈ (Node.new x q).pending := fun hh =>
    new_pending (by cases hh' : q.falsy with | false => rfl | true => exact absurd (.inl hh') (hg.never hh)) (by rintro rfl; rw [hh] at hx; cases hx)
  have key : ∀ r y, IsParent s'.t r y ↔ IsParent s.t r y ∨ (y = x ∧ s.t.has r = true ∧ (r = q ∨ r = p)) := by
    intro r y
    rw [ef.parents]
    constructor
    · rintro (hh | ⟨hh | hh | ⟨h1, h2, h3⟩, hr', -⟩)
      · exact .inl hh
      · exact absurd (h.idle _ hh).1 (hg'.never hr')
      · obtain ⟨e1, e2⟩ := hpe _ hh
        cases e1
        exact .inr ⟨rfl, hq.resolve_left (by rintro rfl; cases e2), .inl rfl⟩
      · exact .inr ⟨h3.trans hid, h2 ▸ hp'.resolve_left h1, .inr h2⟩
    · rintro (hh | ⟨rfl, h1, rfl | rfl⟩)
      · exact .inl hh
      · exact .inr ⟨.inr (.inl (hq' h1)), (hnodes _).2 (.inl h1), (hnodes _).2 (.inr rfl)⟩
      · exact .inr ⟨.inr (.inr ⟨(by rintro rfl; rw [hnn] at h1; cases h1), rfl, hid.symm⟩), (hnodes _).2 (.inl h1), (hnodes _).2 (.inr rfl)⟩
  have hl : (if p = .none then if q = .none then [] else [q] else [p] : List Id).length ≤ 1 := by
    split
    · split <;> simp
    · simp
  refine ⟨s', e, hnodes, short_eq (hst.short x) hl fun r => ?_, fun y hy => short_eq (hst.short y) (h.short y) fun r => ?_, hst.sound⟩
  · refine (key r x).trans ⟨?_, ?_⟩
    · rintro (hh | ⟨-, h1, h2⟩)
      · have := hpar _ _ hh; rw [hx] at this; cases this
      · have hrn : r ≠ .none := by rintro rfl; rw [hnn] at h1; cases h1
        rcases h2 with rfl | rfl
        · rcases hpq with h3 | h3 | rfl
          · exact absurd h3 hrn
          · rw [if_pos h3, if_neg hrn]; simp
          · rw [if_neg hrn]; simp
        · rw [if_neg hrn]; simp
    · intro hm
      refine .inr ⟨rfl, ?_⟩
      split at hm
      · split at hm
        · cases hm
        · rename_i h1; rw [List.mem_singleton.1 hm]; exact ⟨hq.resolve_left h1, .inl rfl⟩
      · rename_i h1; rw [List.mem_singleton.1 hm]; exact ⟨hp'.resolve_left h1, .inr rfl⟩
  · exact (key r y).trans ⟨fun hh => hh.elim id fun hh => absurd hh.1 hy, .inl⟩

/-- 5 is made for 3. -/
example : ∃ s', step (runOps St.init (hierOps.take 4)) (.addNode (.new (.str 5) (.str 3)) .none) = .ok s' ∧
    Arrives (runOps St.init (hierOps.take 4)).t s'.t (.str 5) [.str 3] :=
  C86_add _ hierOps_four (.str 5) (.str 3) .none (by decide) (by decide) (by decide)
    (fun name => small_not_root (p' := .none) (by decide) _ _ rfl name) (by decide) (by decide) (by decide)

/-- C86: a node at the top level of a hierarchy that is given a parent gets exactly this parent, and nothing else changes. If the parent
is below the node, the call raises and nothing changes at all. -/
theorem C86_relate (ops : List Op) (hp : Along (fun s op => HierarchyEdit s.t op) St.init ops) (p c : Id)
    (hpp : (runOps St.init ops).t.has p = true) (hc : (runOps St.init ops).t.has c = true) (hne : p ≠ c)
    (h0 : (runOps St.init ops).t.getParents c = []) (op : Op) (ho : op = .newRelationship p c ∨ op = .addParent c p ∨ op = .addChild p c) :
    (Ancestor (runOps St.init ops).t c p → step (runOps St.init ops) op = .err .circular (runOps St.init ops)) ∧
      (¬ Ancestor (runOps St.init ops).t c p →
        ∃ s', step (runOps St.init ops) op = .ok s' ∧ PutAt (runOps St.init ops).t s'.t c [p]) := by
  obtain ⟨-, h⟩ := Hier.init.run ops hp
  generalize runOps St.init ops = s at *
  obtain ⟨hg, -⟩ := h.good
  have hnew : ¬ IsParent s.t p c := by
    intro hh
    have hh : p ∈ s.t.getParents c := hh
    rw [h0] at hh; cases hh
  obtain ⟨m1, m2, m3⟩ := C11_node_methods s hg p c hpp hc hne hnew (h.opn.accept p c)
  have e : step s op = newRelationship s p c := by
    rcases ho with rfl | rfl | rfl
    · rfl
    · first | exact m1 | exact m2
    · exact m3
  have hst : Hier (newRelationship s p c).state := (h.step (.newRelationship p c) ⟨h0, hpp, hc⟩).2
  rw [e]
  constructor
  · intro ha
    exact newRelationship_refused hg.wf hg.pend hne hpp hc (.inr ((hg.wf.ancestor_iff c p).1 ha))
  · intro ha
    obtain ⟨t', e1, ad, -⟩ := C11_new_relationship s hg p c hpp hc hne ha (h.opn.accept p c)
    rw [e1] at hst ⊢
    have hst : Hier (⟨t', s.log ++ [⟨t', .modified, p⟩, ⟨t', .modified, c⟩]⟩ : St) := hst
    refine ⟨_, rfl, ad.nodes, short_eq (hst.short c) (by simp) fun r => ?_, fun y hy => short_eq (hst.short y) (h.short y) fun r => ?_, hst.sound⟩
    · refine (ad.parents r c).trans ⟨?_, fun hr => .inr ⟨List.mem_singleton.1 hr, rfl⟩⟩
      rintro (hh | ⟨rfl, -⟩)
      · have hh : r ∈ s.t.getParents c := hh
        rw [h0] at hh; cases hh
      · simp
    · exact (ad.parents r y).trans ⟨fun hh => hh.elim id fun hh => absurd hh.2 hy, .inl⟩

/-- 2, which is at the top level after the refused move, goes below 1. -/
example : ∃ s', step (runOps St.init (hierOps.take 5)) (.addChild (.str 1) (.str 2)) = .ok s' ∧
    PutAt (runOps St.init (hierOps.take 5)).t s'.t (.str 2) [.str 1] := by
  obtain ⟨h1, h2, h3, h4, h5, -⟩ := hierOps_fair
  obtain ⟨h1, h2⟩ := C86_relate (hierOps.take 5) ⟨h1, h2, h3, h4, h5, trivial⟩ (.str 1) (.str 2) (by decide) (by decide) (by decide) (by decide)
    _ (.inr (.inr rfl))
  refine h2 fun ha => ?_
  have d : (step (runOps St.init (hierOps.take 5)) (.addChild (.str 1) (.str 2))).isOk = true := by decide
  rw [h1 ha] at d; cases d

/-- 1 cannot become a child of 3. -/
example : step (runOps St.init (hierOps.take 4)) (.addParent (.str 1) (.str 3)) = .err .circular (runOps St.init (hierOps.take 4)) :=
  (C86_relate _ hierOps_four (.str 3) (.str 1) (by decide) (by decide) (by decide) (by decide) _ (.inr (.inl rfl))).1 hierOps_above

/-- C86: a node of a hierarchy that is taken from its parent goes to the top level, and nothing else changes. -/
theorem C86_detach (ops : List Op) (hp : Along (fun s op => HierarchyEdit s.t op) St.init ops) (p c : Id)
    (hpc : IsParent (runOps St.init ops).t p c) (op : Op) (ho : op = .breakRelationship p c ∨ op = .removeParent c p) :
    ∃ s', step (runOps St.init ops) op = .ok s' ∧ PutAt (runOps St.init ops).t s'.t c [] ∧ c ∈ s'.t.rootChildren := by
  obtain ⟨-, h⟩ := Hier.init.run ops hp
  generalize runOps St.init ops = s at *
  obtain ⟨hg, -⟩ := h.good
  have hm := (hg.wf.isParent p c).1 hpc
  have e : step s op = breakRelationship s p c := by
    rcases ho with rfl | rfl
    · rfl
    · exact C11_remove_parent s hg c p hpc
  have hne : p ≠ c := by
    rintro rfl
    exact hg.wf.upInv.noCycle p (Relation.TransGen.single hpc)
  have hst : Hier (breakRelationship s p c).state := (h.step (.breakRelationship p c) trivial).2
  rw [e]
  obtain ⟨t', e1, rm, -⟩ := C11_break_relationship s hg p c (hg.wf.has_parent hm) (Tree.has_of_mem_rawParents hm) hne
  rw [e1] at hst ⊢
  have hst : Hier (⟨t', s.log ++ [⟨t', .modified, p⟩, ⟨t', .modified, c⟩]⟩ : St) := hst
  have hno : ∀ r, ¬ IsParent t' r c := fun r hr => by
    obtain ⟨h1, h2⟩ := (rm.parents r c).1 hr
    exact h2 ⟨h.forest c r p h1 hpc, rfl⟩
  refine ⟨_, rfl, ⟨rm.nodes, short_eq (hst.short c) (by simp) fun r => ?_, fun y hy => short_eq (hst.short y) (h.short y) fun r => ?_,
    hst.sound⟩, (hst.good.1.topLevel.exact c).2 ⟨?_, hno⟩⟩
  · exact ⟨fun hr => absurd hr (hno r), fun hr => by cases hr⟩
  · exact (rm.parents r y).trans ⟨fun hh => hh.1, fun hh => ⟨hh, fun h2 => hy h2.2⟩⟩
  · have := rm.nodes c
    exact this.trans (Tree.has_of_mem_rawParents hm)

/-- 2 leaves 1. -/
example : ∃ s', step (runOps St.init (hierOps.take 4)) (.removeParent (.str 2) (.str 1)) = .ok s' ∧
    PutAt (runOps St.init (hierOps.take 4)).t s'.t (.str 2) [] ∧ .str 2 ∈ s'.t.rootChildren :=
  C86_detach _ hierOps_four (.str 1) (.str 2) (by decide) _ (.inr rfl)

end Larch
