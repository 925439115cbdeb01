import Verif.Proofs.Reading
import Verif.Proofs.Notes
import Verif.Props.Relations

/-! # C14, C15, C16: paths, siblings and notifications of the main tree -/

namespace Larch

open Graph Spec

/-! ### C14 -/

/-- C14: the paths of an existing node are exactly the chains of children from a parentless node to it, once
each. -/
theorem C14_paths (t : Tree) (h : Good t) (x : Id) (hx : t.has x = true) :
    ∃ ps, t.getPaths x = .ok ps ∧ ps.Nodup ∧ ∀ l, l ∈ ps ↔ IsPathTo t l x := h.wf.getPaths_spec hx

/-- C14: a path leads to a node exactly when it is such a chain; other paths ending in an existing node lead
nowhere. -/
theorem C14_node_for_path (t : Tree) (h : Good t) (path : List Id) (x : Id) (hp : path.getLast? = some x)
    (hx : t.has x = true) :
    (IsPathTo t path x → t.nodeForPath path = .ok (some x)) ∧
    (¬ IsPathTo t path x → t.nodeForPath path = .ok none) := by
  obtain ⟨ps, e, -, hm⟩ := h.wf.getPaths_spec hx
  have hn : t.nodeForPath path = .ok (if path ∈ ps then some x else none) := by
    unfold Tree.nodeForPath; rw [hp]; dsimp only; rw [e]
  rw [hn]
  exact ⟨fun h1 => by rw [if_pos ((hm _).2 h1)], fun h1 => by rw [if_neg (fun h2 => h1 ((hm _).1 h2))]⟩

/-- The empty path leads nowhere. -/
theorem C14_empty_path (t : Tree) : t.nodeForPath [] = .ok none := rfl

/-- Each node of a consistent tree has at least one path. -/
theorem C14_has_path (t : Tree) (h : Good t) (x : Id) (hx : t.has x = true) : ∃ l, IsPathTo t l x := by
  have hr := h.fromRoot x hx
  induction hr with
  | top hm =>
    rename_i y
    have := (h.topLevel.exact y).1 hm
    refine ⟨[y], by simp, rfl, fun z hz => ?_⟩
    simp at hz; subst hz; exact this
  | child hp hc ih =>
    rename_i p c
    rw [h.wf.isChild] at hc
    obtain ⟨l, hl⟩ := ih (h.wf.has_parent hc)
    refine ⟨l ++ [c], ((h.wf.isPathTo_step (fun e => ?_) _).2 ⟨p, hc, l, hl, rfl⟩)⟩
    rw [e] at hc; cases hc

example : Good demo.t ∧ demo.t.getPaths (.str 3) = .ok [[.str 1, .str 2, .str 3], [.str 5, .str 2, .str 3]] ∧
    demo.t.nodeForPath [.str 5, .str 2, .str 3] = .ok (some (.str 3)) ∧
    demo.t.nodeForPath [.str 2, .str 3] = .ok none :=
  ⟨demo_good, by rfl, by rfl, by rfl⟩

/-! ### C15 -/

theorem nextNode_child {t : Tree} (h : Good t) (hn : NoDangling t) {p x : Id} {l l' : List Id}
    (hc : t.getChildren p = l ++ x :: l') : t.nextNode x p = .ok l'.head? := by
  have hch : t.getChildren p = t.rawChildren p := by
    rw [h.wf.getChildren_eq, List.filter_eq_self]; exact fun c hc => hn p c hc
  have hxm : x ∈ t.getChildren p := by rw [hc]; simp
  have hpx : p ∈ t.rawParents x := (h.wf.mem_getChildren p x).1 hxm
  have hx : t.has x = true := Tree.has_of_mem_rawParents hpx
  have hp : t.has p = true := h.wf.has_parent hpx
  obtain ⟨nd, hnd⟩ : ∃ nd, t.node? x = some nd := by rw [Tree.has_eq] at hx; exact Option.isSome_iff_exists.1 hx
  obtain ⟨par, hpar⟩ : ∃ nd, t.node? p = some nd := by rw [Tree.has_eq] at hp; exact Option.isSome_iff_exists.1 hp
  have hgn : ∀ y m, t.node? y = some m → t.getNode y = .ok m := by
    intro y m hy; unfold Tree.getNode; rw [hy]
  have hps : t.parentsOf nd = t.rawParents x := by
    have := h.wf.getParents_eq x
    unfold Tree.getParents at this; rw [hnd] at this; exact this
  have hcs : t.childrenOf par = t.getChildren p := by
    unfold Tree.getChildren; rw [hpar]; rfl
  have hraw : t.rawChildren p = par.children := by unfold Tree.rawChildren; rw [hpar]; rfl
  have hen : par.childrenEnabled = true := by
    by_contra hne
    have := h.wf.flagC p par hpar (by simpa using hne) x (by rw [← hraw, ← hch]; exact hxm)
    rw [hx] at this; cases this
  refine nextNode_in (parid := p) ?_ (hgn x nd hnd) (by rw [hps, if_pos hpx]) (hgn p par hpar) hen
    (by rw [hcs, hch, hraw]) (by rw [← hraw, ← hch]; exact hc) (by rw [← hraw]; exact h.wf.ndC p)
  rintro rfl
  have := (h.wf.ids _ hx).1
  cases this

theorem nextNode_top {t : Tree} (h : Good t) {parent x : Id} {l l' : List Id}
    (hc : t.rootChildren = l ++ x :: l') : t.nextNode x parent = .ok l'.head? := by
  have hrc := rootChildren_eq h
  have hxm : x ∈ t.root.children := by rw [← hrc, hc]; simp
  obtain ⟨hx, hnop, -⟩ := (h.root.mem x).1 hxm
  obtain ⟨nd, hnd⟩ : ∃ nd, t.node? x = some nd := by rw [Tree.has_eq] at hx; exact Option.isSome_iff_exists.1 hx
  have hps : t.parentsOf nd = [] := by
    have := h.wf.getParents_eq x
    unfold Tree.getParents at this; rw [hnd, hnop] at this; exact this
  have hroot : t.getNode rootId = .ok t.root := by
    unfold Tree.getNode
    have : t.node? rootId = none := by
      by_contra hne
      have : t.has rootId = true := by rw [Tree.has_eq]; exact Option.ne_none_iff_isSome.1 hne
      exact (h.wf.ids _ this).2 rfl
    rw [this]; simp
  refine nextNode_in (parid := rootId) ?_ (by unfold Tree.getNode; rw [hnd]) (by rw [hps]; simp) hroot h.wf.rootKids
    (by rw [← hrc]; rfl) (by rw [← hrc]; exact hc) h.root.nodup
  rintro rfl
  have := (h.wf.ids _ hx).1
  cases this

/-- C15: from the first child of a node, `next_node(_, parent)` walks through all its children, once each, in
order, and stops. -/
theorem C15_next_node (ops : List Op) (hops : Along Careful St.init ops) (p c : Id) (cs : List Id)
    (hc : (runOps St.init ops).t.getChildren p = c :: cs) :
    Visits (runOps St.init ops).t p c (c :: cs) ∧ (c :: cs).Nodup := by
  have h := careful_consistent ops hops
  have hn := careful_noDangling ops hops
  refine ⟨visits_of_next _ (fun l x l' e => nextNode_child h hn e) cs [] c hc, ?_⟩
  rw [← hc]; exact h.wf.agree.children_once p

/-- C15 for the top level; the parent argument does not matter there. -/
theorem C15_next_node_top (ops : List Op) (hops : Along Careful St.init ops) (parent c : Id) (cs : List Id)
    (hc : (runOps St.init ops).t.rootChildren = c :: cs) :
    Visits (runOps St.init ops).t parent c (c :: cs) ∧ (c :: cs).Nodup := by
  have h := careful_consistent ops hops
  refine ⟨visits_of_next _ (fun l x l' e => nextNode_top h e) cs [] c hc, ?_⟩
  rw [← hc]; exact h.topLevel.once

/-- A node with three children, one of which has another parent. -/
def siblingOps : List Op :=
  [ .addNode (Node.new (.str 1) .none) .none,
    .addNode (Node.new (.str 2) .none) .none,
    .addNode (Node.new (.str 3) .none) (.str 2),
    .addNode (Node.new (.str 4) .none) (.str 1),
    .addParent (.str 3) (.str 1),
    .addNode (Node.new (.str 5) .none) (.str 1) ]

example : Along Careful St.init siblingOps ∧
    (runOps St.init siblingOps).t.getChildren (.str 1) = [.str 4, .str 3, .str 5] ∧
    (runOps St.init siblingOps).t.nextNode (.str 3) (.str 1) = .ok (some (.str 5)) ∧
    (runOps St.init siblingOps).t.rootChildren = [.str 1, .str 2] := by
  refine ⟨⟨careful_add (Made.new _ _) (by decide), careful_add (Made.new _ _) (by decide),
    careful_add (Made.new _ _) (by decide), careful_add (Made.new _ _) (by decide), trivial,
    careful_add (Made.new _ _) (by decide), trivial⟩, by decide, by rfl, by decide⟩

/-- After the removal of a node with two parents, iteration over the children of the second one stops early:
`get_n_children` does not count the removed node that `get_child_index` still counts. -/
theorem C15_refuted : ∃ ops, NewNodes ops ∧ NoRaise St.init ops ∧
    ∃ p c cs, (runOps St.init ops).t.getChildren p = c :: cs ∧ ¬ Visits (runOps St.init ops).t p c (c :: cs) := by
  refine ⟨[ .addNode (Node.new (.str 1) .none) .none, .addNode (Node.new (.str 2) .none) .none,
    .addNode (Node.new (.str 3) .none) (.str 1), .addParent (.str 3) (.str 2),
    .addNode (Node.new (.str 4) .none) (.str 2), .addNode (Node.new (.str 5) .none) (.str 2),
    .delNode (.str 3) false ], ?_, by decide, .str 2, .str 4, [.str 5], by decide, fun h => ?_⟩
  · intro nd p hm
    simp only [List.mem_cons, Op.addNode.injEq, reduceCtorEq, List.not_mem_nil, or_false, false_or] at hm
    rcases hm with ⟨rfl, -⟩ | ⟨rfl, -⟩ | ⟨rfl, -⟩ | ⟨rfl, -⟩ | ⟨rfl, -⟩ <;> exact Made.new _ _
  · cases h with
    | more h _ =>
      rw [show Tree.nextNode _ (.str 4) (.str 2) = .ok none by rfl] at h
      cases h

/-! ### C16 -/

/-- C16: as long as no `add_node` raises (whatever else happens, also with other calls raising), the
notifications determine the node set. Missing for the literal claim: see `C16_refuted`. -/
theorem C16_notifications_partial (ops : List Op)
    (h : Along (fun s op => ∀ nd p, op = .addNode nd p → (step s op).isOk = true) St.init ops) :
    Reconstructs (runOps St.init ops).t (runOps St.init ops).log := by
  have key : ∀ (ops : List Op) (s : St), Rec s →
      Along (fun s op => ∀ nd p, op = .addNode nd p → (step s op).isOk = true) s ops → Rec (runOps s ops) := by
    intro ops
    induction ops with
    | nil => intro s hr _; exact hr
    | cons op ops ih => intro s hr ha; exact ih _ (step_rec hr op ha.1) ha.2
  refine key ops St.init ⟨fun x => ?_, ?_, ?_, ?_⟩ h
  · constructor <;> intro hh <;> cases hh
  all_goals intro n hn; cases hn

example : Along (fun s op => ∀ nd p, op = .addNode nd p → (step s op).isOk = true) St.init demoOps ∧
    demo.log.length = 16 ∧ lastWord (.str 4) demo.log = some false := by
  refine ⟨⟨?_, ?_, ?_, ?_, ?_, ?_, ?_, ?_, ?_, ?_, ?_, trivial⟩, by decide, by decide⟩ <;>
    intro nd p hop <;> cases hop <;> decide

/-- `add_node` with a circular parent raises after the node has entered the tree: nobody is told. -/
theorem C16_refuted : ∃ ops, NewNodes ops ∧ ¬ Reconstructs (runOps St.init ops).t (runOps St.init ops).log := by
  refine ⟨circularAddOps, ?_, fun h => ?_⟩
  · intro nd p hm
    simp only [circularAddOps, List.mem_cons, Op.addNode.injEq, List.not_mem_nil, or_false] at hm
    obtain ⟨rfl, -⟩ := hm
    exact Made.new _ _
  · exact absurd ((h.nodes (.str 1)).1 (by decide)) (by decide)

end Larch
