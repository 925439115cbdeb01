import Verif.Proofs.Hierarchy

/-!
# C84: an application that uses the tree as a plain hierarchy

C83 asks that the tree is a forest after each edit. Here this is a consequence of which calls are made.
-/

namespace Larch

open Graph Spec

variable {V : Type} {diff : List Id → List Id → List Id}

theorem Hier.run {s : St} (h : Hier s) (ops : List Op) (hp : Along (fun s op => HierarchyEdit s.t op) s ops) :
    Along Careful s ops ∧ Hier (runOps s ops) := by
  induction ops generalizing s with
  | nil => exact ⟨trivial, h⟩
  | cons op ops ih =>
    obtain ⟨h1, h2⟩ := h.step op hp.1
    obtain ⟨h3, h4⟩ := ih h2 hp.2
    exact ⟨⟨h1, h3⟩, h4⟩

/-- C84: after any history of edits of a hierarchy no node has two parents, and all the edits were careful. -/
theorem C84_forest (ops : List Op) (hp : Along (fun s op => HierarchyEdit s.t op) St.init ops) :
    Forest (runOps St.init ops).t ∧ Along Careful St.init ops := by
  obtain ⟨h1, h2⟩ := Hier.init.run ops hp
  exact ⟨h2.forest, h1⟩

/-- C84: the only edits of a hierarchy that raise are those that ask for a node below one of its own descendants, and calls of the methods
of a node that is not in the tree. -/
theorem C84_raises (ops : List Op) (hp : Along (fun s op => HierarchyEdit s.t op) St.init ops) (op : Op)
    (ho : HierarchyEdit (runOps St.init ops).t op) (hr : (step (runOps St.init ops) op).isOk = false) :
    (∃ x p, op ∈ [Op.moveNode x p, .setParent x p, .addParent x p, .addChild p x, .newRelationship p x] ∧
        Ancestor (runOps St.init ops).t x p) ∨
      ∃ x, (∃ y, op ∈ [Op.setParent x y, .removeParent x y, .addChild x y]) ∧ (runOps St.init ops).t.has x = false := by
  obtain ⟨-, h⟩ := Hier.init.run ops hp
  generalize runOps St.init ops = s at *
  obtain ⟨hg, -⟩ := h.good
  have move : ∀ x p, (p = .none ∨ s.t.has p = true) → s.t.has x = true → (nodeSetParent s x p).isOk = false → Ancestor s.t x p := by
    intro x p hp hx hr
    obtain ⟨nd, hnd⟩ := (Tree.has_iff _ _).1 hx
    by_cases hpx : p = x
    · have : nodeSetParent s x p = .ok s := by
        unfold nodeSetParent; rw [hnd]; dsimp only; rw [if_neg fun hh => hh.1 hpx]
      rw [this] at hr; cases hr
    · have hmv : nodeSetParent s x p = moveNode s x p := by unfold moveNode; rw [if_pos hx]
      rw [hmv] at hr
      rcases hp with rfl | hp
      · obtain ⟨s', e, -⟩ := moveNode_absent hg hnd (p := .none) (by
          cases hh : s.t.has .none with
          | false => rfl
          | true => have := (hg.wf.ids _ hh).1; cases this) (h.opn x nd hnd).1
        rw [e] at hr; cases hr
      · obtain ⟨h1, -⟩ := moveNode_spec hg hx hp hpx (h.opn.accept p x)
        by_cases hre : Reach s.t.rawParents p x
        · exact (hg.wf.ancestor_iff x p).2 hre
        · obtain ⟨s', e, -⟩ := h1 hre
          rw [e] at hr; cases hr
  have related : ∀ p c, s.t.has p = true → s.t.has c = true → (newRelationship s p c).isOk = false → Ancestor s.t c p := by
    intro p c hp hc hr
    by_cases hpc : p = c
    · rw [newRelationship_skip s (.inr (.inr hpc))] at hr; cases hr
    · by_cases hre : ReachEq s.t.rawParents p c
      · exact (hg.wf.ancestor_iff c p).2 (hre.resolve_left hpc)
      · obtain ⟨t', -, e⟩ := newRelationship_linked hg.wf hg.root hg.pend hp hc hre
        rw [e] at hr; cases hr
  have removed : ∀ x r, (removeNode (removeFuel s.t) s x r).isOk = true := by
    intro x r
    cases r with
    | true => obtain ⟨s', e, -⟩ := removeNode_recursive hg.wf x; rw [e]; rfl
    | false =>
      by_cases hx : s.t.has x = true
      · obtain ⟨s', e, -⟩ := removeNode_orphan hg hx (fun c hc => h.good.2 x c hc) s.t.nodes.entries.length
        have e : removeNode (removeFuel s.t) s x false = .ok s' := e
        rw [e]; rfl
      · unfold removeFuel removeNode
        rw [if_pos (by simp [hx])]; rfl
  cases op with
  | addNode nd p =>
    rcases (h.step _ ho).1 with ⟨-, hh | hh⟩
    · change (addNode s nd p).isOk = false at hr
      rw [addNode_existing hh] at hr; cases hr
    · change (addNode s nd p).isOk = false at hr
      rw [hh.2.2.2] at hr; cases hr
  | delNode x r =>
    change (removeNode (removeFuel s.t) s x r).isOk = false at hr
    rw [removed] at hr; cases hr
  | refreshNode x =>
    change (modifyNode s x).isOk = false at hr
    unfold modifyNode at hr
    split at hr <;> cases hr
  | moveNode x p =>
    change (moveNode s x p).isOk = false at hr
    unfold moveNode at hr
    split at hr
    · rename_i hx
      exact .inl ⟨x, p, by simp, move x p ho hx hr⟩
    · cases hr
  | setParent x p =>
    by_cases hx : s.t.has x = true
    · exact .inl ⟨x, p, by simp, move x p ho hx hr⟩
    · exact .inr ⟨x, ⟨p, by simp⟩, by simpa using hx⟩
  | removeParent x p =>
    by_cases hx : s.t.has x = true
    · exfalso
      obtain ⟨nd, hnd⟩ := (Tree.has_iff _ _).1 hx
      change (nodeRemoveParent s x p).isOk = false at hr
      by_cases hm : p ∈ s.t.rawParents x
      · rw [nodeRemoveParent_eq hg hm] at hr
        obtain ⟨s', e, -⟩ := breakRelationship_good hg p x
        rw [e] at hr; cases hr
      · rw [nodeRemoveParent_noop hnd hm] at hr; cases hr
    · exact .inr ⟨x, ⟨p, by simp⟩, by simpa using hx⟩
  | breakRelationship p c =>
    exfalso
    change (breakRelationship s p c).isOk = false at hr
    obtain ⟨s', e, -⟩ := breakRelationship_good hg p c
    rw [e] at hr; cases hr
  | addParent x p =>
    change (treeAddParent s x p).isOk = false at hr
    unfold treeAddParent nodeAddParent at hr
    split at hr
    · rename_i hx
      refine .inl ⟨x, p, by simp, ?_⟩
      split at hr
      · cases hr
        rename_i hn
        rw [(Tree.has_false_iff _ _).2 hn] at hx; cases hx
      · split at hr
        · split at hr
          · cases hr
          · split at hr
            · exact related p x ho.2 hx hr
            · cases hr
        · cases hr
    · cases hr
  | addChild x c =>
    obtain ⟨child, hch⟩ := (Tree.has_iff _ _).1 ho.2
    change (nodeAddChild s x c).isOk = false at hr
    cases hnd : s.t.node? x with
    | none => exact .inr ⟨x, ⟨c, by simp⟩, (Tree.has_false_iff _ _).2 hnd⟩
    | some nd =>
      refine .inl ⟨c, x, by simp, ?_⟩
      by_cases h1 : nd.childrenEnabled = true ∧ c ≠ x
      · by_cases h2 : c ∉ nd.children
        · rw [nodeAddChild_eq hg hnd hch h1.1 h1.2 h2 (h.opn c child hch).1] at hr
          exact related x c (has_of_some hnd) ho.2 hr
        · unfold nodeAddChild at hr; rw [hnd] at hr; dsimp only at hr; rw [if_pos h1, if_neg h2] at hr; cases hr
      · unfold nodeAddChild at hr; rw [hnd] at hr; dsimp only at hr; rw [if_neg h1] at hr; cases hr
  | setParentsEnabled x b => exact ho.elim
  | setChildrenEnabled x b => exact ho.elim
  | newRelationship p c => exact .inl ⟨c, p, by simp, related p c ho.2.1 ho.2.2 hr⟩

/-- 2 and 4 below 1, 3 below 2; 2 is moved below 3, which is refused and puts 2 at the top; 2 becomes a child of 1 again and is refused as
a parent of 1; 4 moves below 3, 3 to the top; 1 is removed with everything below it, and 3 is taken from its parent, which it has no more. -/
def hierOps : List Op :=
  [ .addNode (.new (.str 1) .none) .none, .addNode (.new (.str 2) .none) (.str 1), .addNode (.new (.str 3) (.str 2)) .none,
    .addNode (.new (.str 4) (.str 1)) (.str 1), .moveNode (.str 2) (.str 3), .addChild (.str 1) (.str 2), .addParent (.str 1) (.str 2),
    .setParent (.str 4) (.str 3), .setParent (.str 3) .none, .newRelationship (.str 4) (.str 3), .delNode (.str 1) true,
    .removeParent (.str 3) (.str 2) ]

theorem hier_add {t : Tree} {i : Nat} {q p : Id} (hi : i < 1000) (h : (Id.str i).falsy = false ∧ Id.str i ≠ rootId)
    (hp : (q = .none ∨ t.has q = true) ∧ (p = .none ∨ t.has p = true) ∧ (q = .none ∨ p = .none ∨ p = q)) :
    HierarchyEdit t (.addNode (.new (.str i) q) p) :=
  ⟨_, _, rfl, h.1, h.2, fun name => small_not_root (p' := p) hi _ _ rfl name, hp⟩

theorem hierOps_fair : Along (fun s op => HierarchyEdit s.t op) St.init hierOps :=
  ⟨hier_add (by decide) (by decide) (by decide), hier_add (by decide) (by decide) (by decide), hier_add (by decide) (by decide) (by decide),
    hier_add (by decide) (by decide) (by decide), (by decide : _ = Id.none ∨ _), (by decide : _ ∧ _), (by decide : _ ∧ _),
    (by decide : _ = Id.none ∨ _), .inl rfl, (by decide : _ ∧ _), trivial, trivial, trivial⟩

example : Forest (runOps St.init hierOps).t ∧ (runOps St.init hierOps).t.nodes.keys = [.str 3, .str 4] ∧
    (runOps St.init hierOps).t.getParents (.str 4) = [.str 3] :=
  ⟨(C84_forest hierOps hierOps_fair).1, by decide, by decide⟩

/-- The refused move. -/
example : Ancestor (runOps St.init (hierOps.take 4)).t (.str 2) (.str 3) := by
  obtain ⟨h1, h2, h3, h4, h5, -⟩ := hierOps_fair
  rcases C84_raises (hierOps.take 4) ⟨h1, h2, h3, h4, trivial⟩ (.moveNode (.str 2) (.str 3)) h5 (by decide) with
    ⟨x, p, he, h⟩ | ⟨x, ⟨p, he⟩, h⟩
  · simp only [List.mem_cons, List.not_mem_nil, or_false, reduceCtorEq, Op.moveNode.injEq] at he
    rw [he.1, he.2]; exact h
  · simp at he

/-- 2 arrives before the parent it is meant for, 1. It is put below 3 instead. When 1 comes, 2 has two parents. -/
def earlyOps : List Op :=
  [ .addNode (.new (.str 2) .none) (.str 1), .addNode (.new (.str 3) .none) .none, .setParent (.str 2) (.str 3),
    .addNode (.new (.str 1) .none) .none ]

/-- C84 is false if a node may be added below a parent that is still to come: `set_parent` does not forget the waiting relation. -/
theorem C84_refuted_early : ∃ ops, Along Careful St.init ops ∧
    (∀ op ∈ ops, (∃ x p, op = .addNode (Node.new x .none) p) ∨ ∃ x p, op = .setParent x p) ∧ ¬ Forest (runOps St.init ops).t := by
  refine ⟨earlyOps, ⟨careful_add (Made.new _ _) (by decide), careful_add (Made.new _ _) (by decide), trivial,
    careful_add (Made.new _ _) (by decide), trivial⟩, ?_, fun h => ?_⟩
  · intro op hop
    simp only [earlyOps, List.mem_cons, List.not_mem_nil, or_false] at hop
    rcases hop with rfl | rfl | rfl | rfl
    · exact .inl ⟨_, _, rfl⟩
    · exact .inl ⟨_, _, rfl⟩
    · exact .inr ⟨_, _, rfl⟩
    · exact .inl ⟨_, _, rfl⟩
  · have := h (.str 2) (.str 3) (.str 1) (by decide) (by decide)
    revert this
    decide

/-! ### Views -/

theorem HierarchyFair.forestFair {a : Suite V} (h : Hier a.s) {c : SuiteAct V} (hf : HierarchyFair a c) : ForestSuiteFair a c := by
  cases c with
  | edit op =>
    obtain ⟨h1, h2⟩ := h.step op hf.1
    refine ⟨h1, fun nd p e => ?_, h2.forest, hf.2⟩
    subst e
    obtain ⟨⟨x, q, rfl, -, -, hx, -⟩, -⟩ := hf
    rw [(node_new x q).1]; exact hx
  | change x v => exact hf
  | bank c => exact hf
  | getView name rf => exact hf
  | getCount name rf => exact hf
  | onCount j c => exact hf
  | onView j c => cases c <;> exact hf

theorem hier_refreshAll (l : List Id) {a a' : Suite V} (h : Hier a.s)
    (e : Res.forEach (fun x (w : Suite V) => w.edit diff (.refreshNode x)) l a = .ok a') : Hier a'.s := by
  induction l generalizing a with
  | nil => cases e; exact h
  | cons x l ih =>
    unfold Res.forEach at e
    cases hx : a.edit diff (.refreshNode x) with
    | err er b => rw [hx] at e; cases e
    | ok b =>
      rw [hx] at e
      refine ih ?_ e
      rw [(suite_edit_ok hx).1]
      exact (h.step (.refreshNode x) trivial).2

theorem hier_act {a a' : Suite V} (h : Hier a.s) {c : SuiteAct V} (hf : HierarchyFair a c) (e : a.act diff c = .ok a')
    (hm : ∃ w, a.objs[0]? = some (.view w) ∧ w.static = true) : Hier a'.s := by
  have still : c.still → Hier a'.s := fun hs => by rw [(act_still e hs).1]; exact h
  cases c with
  | edit op =>
    rw [(suite_edit_ok (show a.edit diff op = .ok a' from e)).1]
    exact (h.step op hf.1).2
  | change x v =>
    have e : ({ a with data := fun y => if y = x then v else a.data y } : Suite V).edit diff (.refreshNode x) = .ok a' := e
    rw [(suite_edit_ok e).1]
    exact (h.step (.refreshNode x) trivial).2
  | bank c => exact still trivial
  | getView name rf => exact still trivial
  | getCount name rf => exact still trivial
  | onCount j c => exact still trivial
  | onView j c =>
    cases c with
    | currentState =>
      obtain ⟨rfl, -⟩ := hf
      obtain ⟨w, hw, hs⟩ := hm
      have e : (match a.objs[0]? with
          | some (.view v) => a.callView diff 0 v .currentState
          | _ => .ok a) = .ok a' := e
      rw [hw] at e
      change a.callView diff 0 w .currentState = _ at e
      unfold Suite.callView at e
      dsimp only at e
      rw [if_pos hs] at e
      exact hier_refreshAll _ h e
    | apply n p rs rf => exact still trivial
    | unapply n rf => exact still trivial
    | reset rf => exact still trivial
    | nNodes fs => exact still trivial
    | getNodes fs => exact still trivial
    | nChildren x r => exact still trivial

theorem HierarchyFairRun.forestFairRun (hdiff : SetDiff diff) (cs : List (SuiteAct V)) {fresh : Nat → Bool} {a : Suite V} (h : Hier a.s)
    (ha : FSState diff fresh a) (hf : HierarchyFairRun diff cs a) : ForestSuiteFairRun diff cs a := by
  induction cs generalizing a fresh with
  | nil => trivial
  | cons c cs ih =>
    have h1 := HierarchyFair.forestFair h hf.1
    obtain ⟨b, e, hb⟩ := ha.act hdiff c h1
    obtain ⟨w, hw, hm⟩ := ha.all.main
    have h2 := hier_act h hf.1 e ⟨w, hw, hm.static⟩
    have hf2 := hf.2
    refine ⟨h1, ?_⟩
    rw [e] at hf2 ⊢
    exact ih h2 hb hf2

/-- C84: no action of an application that uses the tree as a hierarchy fails in any of its views and counters, of which there may be any
number. The main view and the counters are right, every view holds together and its observers have exactly its rows, and every view that
is up to date shows exactly the wanted nodes in the right shape. -/
theorem C84_all_right (hdiff : SetDiff diff) (d : Id → V) (cs : List (SuiteAct V)) (hf : HierarchyFairRun diff cs (Suite.init d)) :
    ∃ a, Suite.run diff cs (Suite.init d) = .ok a ∧ Forest a.s.t ∧
      SuiteRight diff (forestEnd diff (fun _ => true) cs (Suite.init d)) a ∧
      ∀ (k : Nat) ft, k ≠ 0 → viewAt a k = some ft → HoldsTogether (alone a ft) := by
  have hff := HierarchyFairRun.forestFairRun hdiff cs Hier.init (FSState.init diff (fun _ => true) d) hf
  obtain ⟨a, e, h⟩ := (FSState.init diff (fun _ => true) d).run hdiff cs hff
  exact ⟨a, e, h.forest, (h.sstate hdiff).suiteRight hdiff, fun k ft hk0 hk => (h.views k ft hk0 hk).holds⟩

/-- Two views, the first of which is not filled; a counter; a filter that looks at the parents. While view 1 waits, 2 is moved below 3
and 3 below 2, which is refused; data change, and 1 is removed. -/
def hierSuite : List (SuiteAct Nat) :=
  [ .bank (.add (.plain 1) parentEven none), .edit (.addNode (.new (.str 1) .none) .none), .edit (.addNode (.new (.str 2) .none) (.str 1)),
    .edit (.addNode (.new (.str 3) .none) .none), .getView (some 5) false, .getView (some 6) true, .getCount none true,
    .onView 2 (.apply (.plain 1) none false true), .change (.str 1) 7, .edit (.setParent (.str 2) (.str 3)),
    .edit (.moveNode (.str 3) (.str 2)), .onView 0 .currentState, .edit (.addNode (.new (.str 4) (.str 2)) .none),
    .edit (.delNode (.str 1) false), .onView 1 (.reset true) ]

theorem hierSuite_fair : HierarchyFairRun someDiff hierSuite (Suite.init fun _ => 0) :=
  ⟨trivial, ⟨hier_add (by decide) (by decide) (by decide), fun _ _ hk => .inl (countersBare_own (by decide) hk)⟩,
    ⟨hier_add (by decide) (by decide) (by decide), fun _ _ hk => .inl (countersBare_own (by decide) hk)⟩,
    ⟨hier_add (by decide) (by decide) (by decide), fun _ _ hk => .inl (countersBare_own (by decide) hk)⟩,
    trivial, trivial, rfl, ⟨by decide, fun h => (by cases h)⟩, fun _ _ hk => .inl (countersBare_own (by decide) hk),
    ⟨(by decide : _ = Id.none ∨ _), fun _ _ hk => .inl (countersBare_own (by decide) hk)⟩,
    ⟨(by decide : _ = Id.none ∨ _), fun _ _ hk => .inl (countersBare_own (by decide) hk)⟩,
    ⟨rfl, fun _ _ hk => .inl (countersBare_own (by decide) hk)⟩,
    ⟨hier_add (by decide) (by decide) (by decide), fun _ _ hk => .inl (countersBare_own (by decide) hk)⟩,
    ⟨trivial, fun _ _ hk => .inl (countersBare_own (by decide) hk)⟩, (by decide : (1 : Nat) ≠ 0), trivial⟩

/-- The concrete case: after its first refresh view 1 shows 3, 2 and 4 below each other. -/
example : ∃ a, Suite.run someDiff hierSuite (Suite.init fun _ => 0) = .ok a ∧ Forest a.s.t ∧
    SuiteRight someDiff (forestEnd someDiff (fun _ => true) hierSuite (Suite.init fun _ => 0)) a ∧
    forestEnd someDiff (fun _ => true) hierSuite (Suite.init fun _ => 0) 1 = true ∧
    ((viewAt a 1).map fun ft => (ft.view.kids (rootOf (some 5)), ft.view.kids (.str 3), ft.view.kids (.str 2))) =
      some ([.str 3], [.str 2], [.str 4]) := by
  obtain ⟨a, e, hfo, h, -⟩ := C84_all_right someDiff_ok (fun _ => 0) hierSuite hierSuite_fair
  refine ⟨a, e, hfo, h, rfl, ?_⟩
  have : (Suite.run someDiff hierSuite (Suite.init fun _ => 0)).state = a := by rw [e]; rfl
  rw [← this]
  decide

end Larch
