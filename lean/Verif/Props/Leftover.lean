import Verif.Proofs.Leftover
import Verif.Props.FilteredTree
import Verif.Props.Fewer

/-!
# C76: removing nodes with several parents

Earlier theorems about histories ask that only nodes with at most one parent are removed (`Careful`). Here nodes with any number
of parents are removed. The removed id stays behind in the `children` attribute of every second parent, and the theorems say when
this does no harm: as long as ids are not used again and nobody removes, without its descendants, a node that still lists a
removed child.
-/

namespace Larch

open Graph Spec

variable {V : Type} {diff : List Id → List Id → List Id}

theorem VOver.rebuilt {T : Tree → Prop} {a : FApp V} (h : VOver T diff a) : Rebuilt diff a :=
  ⟨h.good, h.rootFree, h.flat, a.ft.view.out, h.fit⟩

theorem VOver.observerAgrees {T : Tree → Prop} {a : FApp V} (h : VOver T diff a) : ObserverAgrees a := by
  obtain ⟨r, -, hv⟩ := h.fit.inv
  obtain ⟨rows, h1, h2, h3, -⟩ := hv.rows
  exact ⟨rows, h1, h2, h3⟩

/-! ### The tree -/

/-- C76, the tree: as long as new nodes do not get ids that are left over in somebody's children, and only nodes without removed
children are removed on their own, the tree shows no contradictions. Nodes with any number of parents can be removed. -/
theorem C76_tree_partial (ops : List Op) (h : Along Considerate St.init ops) : Sound (runOps St.init ops).t :=
  (runOps_considerate ops St.init init_good h).sound

/-- The same for a user who never uses an id twice: this user need not know which ids are left over. -/
theorem C76_tree_new_ids_partial (ops : List Op) (h : Along Decent St.init ops) (hn : (addedIds ops).Nodup) : Sound (runOps St.init ops).t :=
  C76_tree_partial ops (decent_considerate ops (S := fun _ => False) init_good (Known.init _) (fun _ _ h => h) hn h).1

/-- A removal after such a history does not raise, whatever the number of parents, and the next state shows no contradictions
either. -/
theorem C76_removal_succeeds (ops : List Op) (h : Along Considerate St.init ops) (x : Id) (r : Bool) (hp : Decent (runOps St.init ops) (.delNode x r)) :
    ∃ s', step (runOps St.init ops) (.delNode x r) = .ok s' ∧ Sound s'.t ∧ s'.t.has x = false ∧
      ∀ y, r = false → (s'.t.has y = true ↔ (runOps St.init ops).t.has y = true ∧ y ≠ x) := by
  have hg := runOps_considerate ops St.init init_good h
  generalize runOps St.init ops = s at hg hp
  have hc : Considerate s (.delNode x r) := ⟨hp, fun nd p e => by cases e⟩
  have hs : (removeNode (removeFuel s.t) s x r).isOk = true := Considerate.safe hg hc
  have hg' : Good (removeNode (removeFuel s.t) s x r).state.t := removeNode_good hg x r hs
  show ∃ s', removeNode (removeFuel s.t) s x r = .ok s' ∧ _
  by_cases hx : s.t.has x = true
  · cases r with
    | true =>
      obtain ⟨s', e, -, hh, -⟩ := removeNode_recursive hg.wf x
      rw [e] at hg' ⊢
      refine ⟨s', rfl, hg'.sound, ?_, fun _ e => by cases e⟩
      by_contra hc
      exact ((hh x).1 (by simpa using hc)).2 (Or.inl rfl)
    | false =>
      obtain ⟨s', e, ef, -⟩ := removeNode_orphan hg hx (Decent.kids hp) s.t.nodes.entries.length
      change removeNode (removeFuel s.t) s x false = _ at e
      rw [e] at hg' ⊢
      refine ⟨s', rfl, hg'.sound, ?_, fun y _ => ef.has y⟩
      by_contra hc
      exact ((ef.has x).1 (by simpa using hc)).2 rfl
  · have e : removeNode (removeFuel s.t) s x r = .ok s := by
      unfold removeFuel removeNode; rw [if_pos (by simp [hx])]
    rw [e] at hg' ⊢
    refine ⟨s, rfl, hg'.sound, by simpa using hx, fun y _ => ?_⟩
    constructor
    · intro hy; exact ⟨hy, by rintro rfl; exact hx hy⟩
    · exact fun h => h.1

/-- Node 3 has the parents 1 and 2, and is removed; node 5 has the parents 2, 1 and 4 and a child 6, and is removed with its
descendants. -/
def leftOps : List Op :=
  [ .addNode (.new (.str 1) .none) .none, .addNode (.new (.str 2) .none) .none, .addNode (.new (.str 3) .none) (.str 1),
    .addParent (.str 3) (.str 2), .addNode (.new (.str 4) .none) (.str 3), .delNode (.str 3) false ]

def leftOps2 : List Op :=
  [ .addNode (.new (.str 5) .none) (.str 2), .addParent (.str 5) (.str 1), .addParent (.str 5) (.str 4),
    .addNode (.new (.str 6) .none) (.str 5), .delNode (.str 5) true, .moveNode (.str 4) (.str 2) ]

theorem decent_add {s : St} {nd : Node} {parent : Id} (hm : Made nd) (h : nd.id.falsy = false ∧ nd.id ≠ rootId ∧
    (insertNode s.t nd).allEnabled = true ∧ (addNode s nd parent).isOk = true) : Decent s (.addNode nd parent) :=
  careful_add hm h

theorem leftOps_decent : Along Decent St.init (leftOps ++ leftOps2) := by
  refine ⟨decent_add (Made.new _ _) (by decide), decent_add (Made.new _ _) (by decide), decent_add (Made.new _ _) (by decide),
    trivial, decent_add (Made.new _ _) (by decide), ?_, decent_add (Made.new _ _) (by decide), trivial, trivial,
    decent_add (Made.new _ _) (by decide), trivial, trivial, trivial⟩
  show ∀ nd, Tree.node? _ (.str 3) = some nd → _
  intro nd hnd
  cases hnd
  decide

example : Sound (runOps St.init (leftOps ++ leftOps2)).t ∧
    (runOps St.init (leftOps ++ leftOps2)).t.rawChildren (.str 2) = [.str 3, .str 4] ∧
    (runOps St.init (leftOps ++ leftOps2)).t.rawChildren (.str 1) = [.str 5] ∧
    (runOps St.init (leftOps ++ leftOps2)).t.getChildren (.str 2) = [.str 4] ∧
    (runOps St.init (leftOps ++ leftOps2)).t.getChildren (.str 1) = [] ∧
    (runOps St.init (leftOps ++ leftOps2)).t.rootChildren = [.str 1, .str 2] :=
  ⟨C76_tree_new_ids_partial _ leftOps_decent (by decide), by decide, by decide, by decide, by decide, by decide⟩

example : Mentioned (runOps St.init leftOps).t (.str 3) ∧ (runOps St.init leftOps).t.has (.str 3) = false :=
  ⟨⟨.str 2, _, rfl, by decide⟩, by decide⟩

/-! ### Views -/

/-- C76, views: after every history of considerate edits, changes of data and changes of filters, with filters that look at a
node's own data, the view shows exactly the right nodes, in the right shape, the observers agree, and the view has not raised. -/
theorem C76_views_partial {ops : List Op} {bcs : List (Bank.Call (Id → V))} {root : Id} (h : Along Considerate St.init ops)
    (hr : (runOps St.init ops).t.has root = false) (hdiff : SetDiff diff) (d : Id → V) :
    ∃ ft, FT.new diff (Bank.run {} bcs) (runOps St.init ops).t d root true = .ok ft ∧
      ∀ cs, LeftFairRun diff cs ⟨runOps St.init ops, d, Bank.run {} bcs, ft⟩ →
        ∃ a, FApp.run diff cs ⟨runOps St.init ops, d, Bank.run {} bcs, ft⟩ = .ok a ∧ Sound a.s.t ∧ ShowsExactly a ∧ RightShape a ∧
          ObserverAgrees a := by
  have h0 : BankInv ({} : Bank (Id → V)) := ⟨rfl, by simp [KV.keys]⟩
  obtain ⟨ft, e, hv⟩ := new_vover hdiff (runOps_considerate ops St.init init_good h) (T := fun _ => True) trivial d (Bank.run {} bcs)
    (bank_run bcs _ h0) root hr
  refine ⟨ft, e, fun cs hf => ?_⟩
  obtain ⟨a, ea, ha⟩ := left_run hdiff cs hv hf
  exact ⟨a, ea, ha.good.sound, ha.rebuilt.showsExactly, ha.rebuilt.rightShape, ha.observerAgrees⟩

/-- The same for an application that never uses an id twice. -/
theorem C76_views_new_ids_partial {ops : List Op} {bcs : List (Bank.Call (Id → V))} {root : Id} (h : Along Decent St.init ops)
    (hn : (addedIds ops).Nodup) (hr : (runOps St.init ops).t.has root = false) (hdiff : SetDiff diff) (d : Id → V) :
    ∃ ft, FT.new diff (Bank.run {} bcs) (runOps St.init ops).t d root true = .ok ft ∧
      ∀ cs, NewIdFairRun diff cs ⟨runOps St.init ops, d, Bank.run {} bcs, ft⟩ → (addedIds (ops ++ editsOf cs)).Nodup →
        ∃ a, FApp.run diff cs ⟨runOps St.init ops, d, Bank.run {} bcs, ft⟩ = .ok a ∧ Sound a.s.t ∧ ShowsExactly a ∧ RightShape a ∧
          ObserverAgrees a := by
  have h0 : BankInv ({} : Bank (Id → V)) := ⟨rfl, by simp [KV.keys]⟩
  obtain ⟨hc, hk⟩ := decent_considerate ops (S := fun _ => False) init_good (Known.init _) (fun _ _ h => h) hn h
  have hg := runOps_considerate ops St.init init_good hc
  obtain ⟨ft, e, hv⟩ := new_vover hdiff hg hk d (Bank.run {} bcs) (bank_run bcs _ h0) root hr
  refine ⟨ft, e, fun cs hf hnd => ?_⟩
  have ea : addedIds (ops ++ editsOf cs) = addedIds ops ++ addedIds (editsOf cs) := List.flatMap_append
  rw [ea, List.nodup_append] at hnd
  have hl := newId_run hdiff cs hv (by
    rintro x hx (hs | hs)
    · exact hs
    · exact hnd.2.2 x hs x hx rfl) hnd.2.1 hf
  obtain ⟨a, ea, ha⟩ := left_run hdiff cs (hv.weaken trivial) hl
  exact ⟨a, ea, ha.good.sound, ha.rebuilt.showsExactly, ha.rebuilt.rightShape, ha.observerAgrees⟩

/-- The tree of `leftOps` before the removal, with a view. -/
def leftApp : FApp Nat := ⟨runOps St.init (leftOps.take 5), fun _ => 0, Bank.run {} countBank,
  (FT.new someDiff (Bank.run {} countBank) (runOps St.init (leftOps.take 5)).t (fun _ => 0) (.str 100) true).state⟩

/-- Apply a filter, remove node 3 (two parents), go on as in `leftOps2`, and hide node 2. -/
def leftHistory : List (FAct Nat) :=
  [ .apply (.plain 1) none false true, .edit (.delNode (.str 3) false), .edit (.addNode (.new (.str 5) .none) (.str 2)),
    .edit (.addParent (.str 5) (.str 1)), .edit (.addParent (.str 5) (.str 4)), .edit (.addNode (.new (.str 6) .none) (.str 5)),
    .edit (.delNode (.str 5) true), .edit (.moveNode (.str 4) (.str 2)), .change (.str 2) 3 ]

theorem countBank_applied {a : FApp Nat} (e : a.bank = Bank.run {} countBank) : OwnApplied a :=
  fun n _ f hf => countBank_onlyOwn n f (e ▸ hf)

theorem leftHistory_fair : NewIdFairRun someDiff leftHistory leftApp := by
  have noAdd : ∀ {op : Op} {r : Id}, addedId op = [] → ∀ nd p, op = .addNode nd p → nd.id ≠ r := by
    intro op r h nd p e; subst e; cases h
  refine ⟨⟨rfl, fun h => by cases h⟩, ⟨?_, countBank_applied rfl, noAdd rfl, fun x h => by cases h⟩,
    ⟨decent_add (Made.new _ _) (by decide), countBank_applied rfl, ?_, fun x h => by cases h⟩,
    ⟨trivial, countBank_applied rfl, noAdd rfl, fun x h => by cases h⟩,
    ⟨trivial, countBank_applied rfl, noAdd rfl, fun x h => by cases h⟩,
    ⟨decent_add (Made.new _ _) (by decide), countBank_applied rfl, ?_, fun x h => by cases h⟩,
    ⟨trivial, countBank_applied rfl, noAdd rfl, ?_⟩,
    ⟨trivial, countBank_applied rfl, noAdd rfl, fun x h => by cases h⟩, countBank_applied rfl, trivial⟩
  · show ∀ nd, Tree.node? _ (.str 3) = some nd → _
    intro nd hnd
    cases hnd
    decide
  · intro nd p h; cases h; decide
  · intro nd p h; cases h; decide
  · intro x h y hy
    cases h
    have := descendants_in [.str 6] (by decide) y hy
    simp only [List.mem_singleton] at this
    subst this
    decide

example : ∃ a, FApp.run someDiff leftHistory leftApp = .ok a ∧ Sound a.s.t ∧ ShowsExactly a ∧ RightShape a ∧ ObserverAgrees a := by
  obtain ⟨ft, e, h⟩ := C76_views_new_ids_partial (ops := leftOps.take 5) (bcs := countBank) (root := .str 100)
    ⟨decent_add (Made.new _ _) (by decide), decent_add (Made.new _ _) (by decide), decent_add (Made.new _ _) (by decide),
      trivial, decent_add (Made.new _ _) (by decide), trivial⟩ (by decide) (by decide) someDiff_ok (fun _ => 0)
  have : leftApp = ⟨runOps St.init (leftOps.take 5), fun _ => 0, Bank.run {} countBank, ft⟩ := by
    unfold leftApp; rw [e]; rfl
  obtain ⟨a, ea, ha⟩ := h leftHistory (this ▸ leftHistory_fair) (by decide)
  exact ⟨a, this ▸ ea, ha⟩

/-- The view on the way: before the removal node 3 is shown twice; then node 4 is at the top; node 5 is shown three times and then
gone; at the end node 2 is hidden and node 4, which was moved below it, is at the top again. -/
example : (FApp.run someDiff (leftHistory.take 1) leftApp).state.ft.view.kids (.str 2) = [.str 3] ∧
    (FApp.run someDiff (leftHistory.take 2) leftApp).state.ft.view.kids (.str 2) = [] ∧
    (FApp.run someDiff (leftHistory.take 2) leftApp).state.ft.view.kids (.str 100) = [.str 1, .str 2, .str 4] ∧
    (FApp.run someDiff (leftHistory.take 5) leftApp).state.ft.view.pars (.str 5) = [.str 2, .str 1, .str 4] ∧
    (FApp.run someDiff (leftHistory.take 7) leftApp).state.ft.view.has (.str 5) = false ∧
    (FApp.run someDiff leftHistory leftApp).state.ft.view.kids (.str 100) = [.str 1, .str 4] := by decide

/-! ### The limits -/

/-- If an id is used again, parents and children do not agree any more, although no call raises: node 2 gets the new node 3 as a
child, and the new node 3 has no parent. -/
theorem C76_refuted_reuse : ∃ ops, Along Decent St.init ops ∧ NoRaise St.init ops ∧ ¬ Sound (runOps St.init ops).t := by
  refine ⟨twoParentsOps, ⟨decent_add (Made.new _ _) (by decide), decent_add (Made.new _ _) (by decide), decent_add (Made.new _ _) (by decide),
    trivial, ?_, decent_add (Made.new _ _) (by decide), trivial⟩, by decide, fun h => ?_⟩
  · show ∀ nd, Tree.node? _ (.str 3) = some nd → _
    intro nd hnd
    cases hnd
    decide
  · have := (h.agree.mirror (.str 2) (.str 3)).1 (by decide)
    exact absurd this (by decide)

/-- Although no id is used twice, the removal of a parent that was stepped over raises `KeyError`, and the node stays in the
tree. -/
theorem C76_refuted_keyError : ∃ ops x, Along Considerate St.init ops ∧ (addedIds ops).Nodup ∧ (runOps St.init ops).t.has x = true ∧
    ∃ s', step (runOps St.init ops) (.delNode x false) = .err .keyError s' ∧ s'.t.has x = true := by
  have hp : Along Decent St.init leftOps := ⟨leftOps_decent.1, leftOps_decent.2.1, leftOps_decent.2.2.1, leftOps_decent.2.2.2.1,
    leftOps_decent.2.2.2.2.1, leftOps_decent.2.2.2.2.2.1, trivial⟩
  exact ⟨leftOps, .str 2, (decent_considerate leftOps (S := fun _ => False) init_good (Known.init _) (fun _ _ h => h) (by decide) hp).1,
    by decide, by decide, _, rfl, by decide⟩

/-- 3 is below 1 and 2, and a view shows the leaves. -/
def leftLeaves : FApp Nat := (FApp.run someDiff [.apply (.plain 1) none false true] ⟨runOps St.init (leftOps.take 4), fun _ => 2, Bank.run {} leafBank,
  (FT.new someDiff (Bank.run {} leafBank) (runOps St.init (leftOps.take 4)).t (fun _ => 2) (.str 100) true).state⟩).state

/-- With a filter on the children the claim is false. The view shows the leaves; the only leaf, 3, is removed, so its parents 1 and
2 become leaves. But 2 was stepped over and is not told, so the view does not show it. -/
theorem C76_refuted_leaf : ShowsExactly leftLeaves ∧ FewerApplied leftLeaves ∧ Considerate leftLeaves.s (.delNode (.str 3) false) ∧
    ∃ a, leftLeaves.act someDiff (.edit (.delNode (.str 3) false)) = .ok a ∧ Sound a.s.t ∧ ¬ ShowsExactly a := by
  have hp : Along Decent St.init leftOps := ⟨leftOps_decent.1, leftOps_decent.2.1, leftOps_decent.2.2.1, leftOps_decent.2.2.2.1,
    leftOps_decent.2.2.2.2.1, leftOps_decent.2.2.2.2.2.1, trivial⟩
  have hp4 : Along Decent St.init (leftOps.take 4) := ⟨hp.1, hp.2.1, hp.2.2.1, hp.2.2.2.1, trivial⟩
  have hc4 := (decent_considerate (leftOps.take 4) (S := fun _ => False) init_good (Known.init _) (fun _ _ h => h) (by decide) hp4).1
  have hc : Considerate leftLeaves.s (.delNode (.str 3) false) := by
    refine ⟨fun nd hnd => ?_, fun nd p e => by cases e⟩
    cases hnd
    decide
  obtain ⟨ft, e, h⟩ := C76_views_partial (bcs := leafBank) hc4 (root := .str 100) (by decide) someDiff_ok (fun _ => 2)
  obtain ⟨a, ea, -, hs, -, -⟩ := h [.apply (.plain 1) none false true] ⟨⟨rfl, (fun h => nomatch h)⟩, trivial⟩
  have e1 : leftLeaves = a := by unfold leftLeaves; rw [e]; exact congrArg Res.state ea
  refine ⟨e1 ▸ hs, leaf_applied _ (.inl rfl) rfl, hc, _, rfl, ?_, fun hs => ?_⟩
  · obtain ⟨s', e', hs', -⟩ := C76_removal_succeeds (leftOps.take 4) hc4 (.str 3) false hc.1
    have : (step (runOps St.init (leftOps.take 4)) (.delNode (.str 3) false)).state = s' := by rw [e']; rfl
    exact this ▸ hs'
  · have h2 := (hs.1 (.str 2) (by decide)).2 ⟨by decide, fun n hn => ?_⟩
    · exact absurd h2 (by decide)
    · have : n = .plain 1 := by simpa using (show n ∈ [FName.plain 1] from hn)
      subst this
      exact ⟨_, rfl, rfl⟩

end Larch
