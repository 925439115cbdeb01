import Verif.Proofs.Watching
import Verif.Proofs.Declared
import Verif.Model.ViewTree
import Verif.Props.Consistency

/-!
# C43, C44: refreshing all nodes, and adding a node to any tree
-/

namespace Larch

open Graph Spec

/-! ### C43 -/

/-- The dictionary of nodes has no key twice. -/
theorem keys_keeps : Keeps (fun s => s.t.nodes.keys.Nodup) where
  nodes h e _ := by rw [e]; exact h
  create h hc _ := by obtain ⟨-, -, e⟩ := Tree.create_eq_some hc; exact e.keys ▸ h
  destroy h hd := by obtain ⟨-, -, e⟩ := Tree.destroy_eq_some hd; exact e.keys ▸ h
  eraseParent h x p := by
    show (Dict.keys (Dict.modify _ _ _)).Nodup
    rw [Dict.keys_modify]; exact h
  appendChild h x c _ := by
    show (Dict.keys (Dict.modify _ _ _)).Nodup
    rw [Dict.keys_modify]; exact h
  setParentsEnabled h x b := by
    show (Dict.keys (Dict.modify _ _ _)).Nodup
    rw [Dict.keys_modify]; exact h
  setChildrenEnabled h x b := by
    show (Dict.keys (Dict.modify _ _ _)).Nodup
    rw [Dict.keys_modify]; exact h
  modified h _ _ := h

theorem keys_addNode {s : St} (hu : UpInv s.t) {nd : Node} (hf : nd.parents = []) (parent : Id) (h : s.t.nodes.keys.Nodup) :
    (addNode s nd parent).state.t.nodes.keys.Nodup := by
  cases hx : s.t.has nd.id with
  | true => rw [addNode_existing hx]; exact h
  | false =>
    have h0 : (insertNode s.t nd).nodes.keys.Nodup := by
      show (Dict.keys (Dict.set _ _ _)).Nodup
      rw [Dict.keys_set]
      split
      · exact h
      · rename_i hn
        rw [List.nodup_append]
        refine ⟨h, by simp, ?_⟩
        rintro a ha b hb rfl
        simp at hb; subst hb
        exact hn ((Dict.mem_keys _ _).1 ha)
    obtain ⟨t, b, -, -, -, hP, hend⟩ := addNode_spec s nd parent hf hu hx (fun _ t _ => t.nodes.keys.Nodup) h0 (by
      intro r l t b t' b' _ _ hi hs
      cases hs with
      | skip => exact hi
      | drop l' => exact hi
      | asChild t2 _ _ _ hc => obtain ⟨-, -, e⟩ := Tree.create_eq_some hc; exact e.keys ▸ hi
      | asParent t2 _ _ _ hc => obtain ⟨-, -, e⟩ := Tree.create_eq_some hc; exact e.keys ▸ hi)
    have fin : ∀ (t : Tree) (b : Bool), t.nodes.keys.Nodup → (finishAdd s.log t b nd.id).t.nodes.keys.Nodup := by
      intro t b ht; cases b <;> exact ht
    generalize addNode s nd parent = r at hend
    cases hend with
    | noParent _ => exact fin _ _ hP
    | circular => exact hP
    | linked t2 _ _ _ hc => obtain ⟨-, -, e⟩ := Tree.create_eq_some hc; exact fin _ _ (e.keys ▸ hP)
    | later => exact fin { t with pending := t.pending ++ [(parent, nd.id)] } b hP

theorem keys_step {s : St} (hu : UpInv s.t) (op : Op) (hf : op.Fresh) (h : s.t.nodes.keys.Nodup) :
    (step s op).state.t.nodes.keys.Nodup := by
  by_cases hl : op.isLocal = true
  · exact step_keeps keys_keeps s op hl h
  · cases op with
    | addNode nd p => exact keys_addNode hu hf p h
    | delNode x r =>
      refine removeNode_keeps keys_keeps.cuts (fun s' x h _ => ?_) _ s x r h
      show (Dict.keys (Dict.del _ _)).Nodup
      rw [Dict.keys_del]; exact h.filter _
    | _ => exact absurd rfl hl

theorem keys_runOps (ops : List Op) (s : St) (hu : UpInv s.t) (hf : ∀ op ∈ ops, op.Fresh) (h : s.t.nodes.keys.Nodup) :
    (runOps s ops).t.nodes.keys.Nodup := by
  induction ops generalizing s with
  | nil => exact h
  | cons op ops ih =>
    exact ih _ (step_upInv s op (hf op (by simp)) hu) (fun o ho => hf o (by simp [ho])) (keys_step hu op (hf op (by simp)) h)

theorem refreshLoop (t : Tree) : ∀ (l : List Id) (log : List Note), (∀ x ∈ l, t.has x = true) →
    Res.forEach (fun x s => modifyNode s x) l ⟨t, log⟩ =
      .ok ⟨t, log ++ (l.filter (fun x => decide (x ≠ rootId))).map fun x => ⟨t, .modified, x⟩⟩ := by
  intro l
  induction l with
  | nil => intro log _; simp [Res.forEach]
  | cons x l ih =>
    intro log hl
    have hx := hl x (by simp)
    unfold Res.forEach modifyNode
    by_cases hr : x = rootId
    · rw [if_neg (by simp [hr])]
      rw [Res.andThen_ok]
      refine (ih log fun y hy => hl y (by simp [hy])).trans ?_
      simp [hr]
    · rw [if_pos ⟨hr, hx⟩, Res.andThen_ok]
      have := ih (log ++ [⟨t, .modified, x⟩]) fun y hy => hl y (by simp [hy])
      refine this.trans ?_
      simp [hr, List.append_assoc]

/-- C43: after every history, careful or not, `refresh_all` sends exactly one node-modified for each node, apart from a
node called 'root', and does nothing else. -/
theorem C43_refresh_all (ops : List Op) (h : NewNodes ops) :
    ∃ notes, refreshAll (runOps St.init ops) = .ok ⟨(runOps St.init ops).t, (runOps St.init ops).log ++ notes⟩ ∧
      (∀ n ∈ notes, n.ev = .modified ∧ n.snap = (runOps St.init ops).t) ∧
      ∀ x, (notes.map Note.nid).count x = if (runOps St.init ops).t.has x = true ∧ x ≠ rootId then 1 else 0 := by
  have hf : ∀ op ∈ ops, op.Fresh := by
    intro op ho
    cases op with
    | addNode nd p => exact (h nd p ho).fresh.parents
    | _ => trivial
  have hk := keys_runOps ops St.init init_upInv hf (by show ([] : List Id).Nodup; simp)
  generalize runOps St.init ops = s at hk
  refine ⟨_, refreshLoop s.t s.t.nodes.keys s.log fun x hx => (Dict.mem_keys _ _).1 hx, ?_, fun x => ?_⟩
  · intro n hn
    obtain ⟨x, -, rfl⟩ := List.mem_map.1 hn
    exact ⟨rfl, rfl⟩
  · rw [List.map_map, show (Note.nid ∘ fun x => (⟨s.t, .modified, x⟩ : Note)) = id from rfl, List.map_id]
    have hnd := hk.filter (fun x => decide (x ≠ rootId))
    have hm : x ∈ s.t.nodes.keys.filter (fun x => decide (x ≠ rootId)) ↔ s.t.has x = true ∧ x ≠ rootId := by
      rw [List.mem_filter, Dict.mem_keys]; simp [Tree.has]
    by_cases hx : s.t.has x = true ∧ x ≠ rootId
    · rw [if_pos hx, List.count_eq_one_of_mem hnd (hm.2 hx)]
    · rw [if_neg hx, List.count_eq_zero_of_not_mem fun h1 => hx (hm.1 h1)]

example : NewNodes cycleOps ∧ ((runOps St.init cycleOps).t.nodes.keys = [.str 1, .str 2, .str 3]) := by
  refine ⟨?_, by decide⟩
  intro nd p hm
  simp only [cycleOps, List.mem_cons, Op.addNode.injEq, reduceCtorEq, List.not_mem_nil, or_false] at hm
  rcases hm with ⟨rfl, -⟩ | ⟨rfl, -⟩ | ⟨rfl, -⟩ <;> exact Made.new _ _

/-! ### C44 -/

/-- C44: after every history of a careful user, whatever was removed in between, a new node arrives together with
exactly those waiting or requested relations that now have both ends, if all relations together have no cycle; the
others keep waiting, nothing else changes, and one notification is sent. -/
theorem C44_add_node (ops : List Op) (hc : Along Careful St.init ops) (nd : Node) (parent : Id) (hm : Made nd)
    (hx : (runOps St.init ops).t.has nd.id = false) (hid : nd.id.falsy = false ∧ nd.id ≠ rootId)
    (hacc : AcceptNew (runOps St.init ops).t nd parent)
    (hac : ∀ x, ¬ Relation.TransGen (fun c p => IsParent (runOps St.init ops).t p c ∨ Waits (runOps St.init ops).t nd parent p c) x x) :
    ∃ s', addNode (runOps St.init ops) nd parent = .ok s' ∧ AddsNode (runOps St.init ops).t s'.t nd parent ∧
      s'.log = (runOps St.init ops).log ++ [⟨s'.t, .added, nd.id⟩] := by
  obtain ⟨hg, hn⟩ := runOps_careful ops St.init init_good init_noDangling hc
  generalize runOps St.init ops = s at *
  let E : List (Id × Id) := s.t.nodes.keys.flatMap fun c => (s.t.rawParents c).map fun p => (p, c)
  have hE : ∀ p c, (p, c) ∈ E ↔ p ∈ s.t.rawParents c := by
    intro p c
    simp only [E, List.mem_flatMap, List.mem_map, Prod.mk.injEq]
    constructor
    · rintro ⟨c', -, p', h1, rfl, rfl⟩; exact h1
    · intro h
      exact ⟨c, s.t.rawParents_keys c (List.ne_nil_of_mem h), p, h, rfl, rfl⟩
  have hi : DeclInv (E ++ s.t.pending) s.t := by
    refine ⟨fun p c => ?_, fun p c h hb => ?_, fun r h => List.mem_append_right _ h⟩
    · rw [List.mem_append, hE]
      constructor
      · intro h; exact ⟨Or.inl h, hg.wf.has_parent h, Tree.has_of_mem_rawParents h⟩
      · rintro ⟨h | h, h1, h2⟩
        · exact h
        · exact absurd ⟨h1, h2⟩ (hg.pend p c h)
    · rcases List.mem_append.1 h with h | h
      · rw [hE] at h
        exact absurd ⟨hg.wf.has_parent h, Tree.has_of_mem_rawParents h⟩ hb
      · exact h
  have hD : ∀ p c, (p, c) ∈ E ++ s.t.pending ++ (nd.pending ++ if parent = .none then [] else [(parent, nd.id)]) ↔
      p ∈ s.t.rawParents c ∨ Waits s.t nd parent p c := by
    intro p c
    rw [List.mem_append, List.mem_append, List.mem_append, hE]
    unfold Waits
    by_cases hp : parent = .none
    · simp only [hp, if_true, List.not_mem_nil]; tauto
    · simp only [hp, if_false, List.mem_singleton, Prod.mk.injEq]; tauto
  obtain ⟨s', e, hi', hg', -⟩ := addNode_declared (nd := nd) (parent := parent)
    (D' := E ++ s.t.pending ++ (nd.pending ++ if parent = .none then [] else [(parent, nd.id)]))
    hg hi hn hm.fresh hx hid hacc (by
      intro r
      by_cases hp : parent = .none
      · simp only [hp, if_true, List.mem_append, List.not_mem_nil]; tauto
      · simp only [hp, if_false, List.mem_append, List.mem_singleton]; tauto)
    (by
      intro x hr
      refine hac x (Relation.TransGen.mono (fun a b hab => ?_) x x hr)
      rcases (hD b a).1 ((mem_upOf _ _ _).1 hab) with h | h
      · exact Or.inl ((hg.wf.isParent b a).2 h)
      · exact Or.inr h)
  obtain ⟨t', e1, ha⟩ := addNode_arrived hg hm.fresh hx e
  have hs' : s'.t = t' := by rw [e1]; rfl
  refine ⟨s', e, ⟨fun y => ?_, fun p c => ?_, fun p c => ?_, fun p c => ?_, hg'.topLevel⟩, ?_⟩
  · rw [hs', ha.has]; simp [or_comm]
  · rw [hg'.wf.isParent, hi'.edges, hD, hg.wf.isParent]
    constructor
    · rintro ⟨h | h, h1, h2⟩
      · exact Or.inl h
      · exact Or.inr ⟨h, h1, h2⟩
    · have hmono : ∀ y, s.t.has y = true → s'.t.has y = true := by
        intro y hy; rw [hs', ha.has]; simp [hy]
      rintro (h | ⟨h, h1, h2⟩)
      · exact ⟨Or.inl h, hmono p (hg.wf.has_parent h), hmono c (Tree.has_of_mem_rawParents h)⟩
      · exact ⟨Or.inr h, h1, h2⟩
  · rw [hg'.wf.isChild, hg'.wf.isParent]
  · constructor
    · intro h
      have hnb := hg'.pend p c h
      refine ⟨?_, hnb⟩
      rcases (hD p c).1 (hi'.pending _ h) with h1 | h1
      · refine absurd ?_ hnb
        have hmono : ∀ y, s.t.has y = true → s'.t.has y = true := by
          intro y hy; rw [hs', ha.has]; simp [hy]
        exact ⟨hmono p (hg.wf.has_parent h1), hmono c (Tree.has_of_mem_rawParents h1)⟩
      · exact h1
    · rintro ⟨h, hnb⟩
      exact hi'.waiting p c ((hD p c).2 (Or.inr h)) hnb
  · rw [e1]; rfl

/-- A node arrives in a tree from which its declared parent was removed and added again, while two relations wait for
it. -/
def arrivalOps : List Op :=
  [ .addNode (Node.new (.str 1) (.str 4)) .none,
    .addNode (Node.new (.str 2) .none) (.str 1),
    .addNode (Node.new (.str 3) .none) .none,
    .delNode (.str 3) false,
    .addChild (.str 2) (.str 5),
    .addNode (Node.new (.str 3) .none) (.str 1) ]

theorem arrival_careful : Along Careful St.init arrivalOps :=
  ⟨careful_add (Made.new _ _) (by decide), careful_add (Made.new _ _) (by decide), careful_add (Made.new _ _) (by decide),
    (by show List.length _ ≤ 1; decide), trivial, careful_add (Made.new _ _) (by decide), trivial⟩

example : Along Careful St.init arrivalOps ∧ (runOps St.init arrivalOps).t.has (.str 4) = false ∧
    AcceptNew (runOps St.init arrivalOps).t ((Node.new (.str 4) (.str 6)).detachedAddChild (.str 3)) (.str 7) ∧
    (∀ x, ¬ Relation.TransGen (fun c p => IsParent (runOps St.init arrivalOps).t p c ∨
      Waits (runOps St.init arrivalOps).t ((Node.new (.str 4) (.str 6)).detachedAddChild (.str 3)) (.str 7) p c) x x) ∧
    Waits (runOps St.init arrivalOps).t ((Node.new (.str 4) (.str 6)).detachedAddChild (.str 3)) (.str 7) (.str 4) (.str 1) := by
  refine ⟨arrival_careful, by decide, acceptNew_of_allEnabled (by decide), ?_, by decide⟩
  let rank : Id → Nat := fun y => if y = .str 6 then 1 else if y = .str 7 then 1 else if y = .str 4 then 2 else
    if y = .str 1 then 3 else if y = .str 2 then 4 else if y = .str 3 then 4 else if y = .str 5 then 5 else 0
  have one : ∀ c p, (IsParent (runOps St.init arrivalOps).t p c ∨
      Waits (runOps St.init arrivalOps).t ((Node.new (.str 4) (.str 6)).detachedAddChild (.str 3)) (.str 7) p c) →
      rank p < rank c := by
    intro c p h
    rcases h with h | h | h | h
    · have hc : (runOps St.init arrivalOps).t.has c = true :=
        ((careful_consistent arrivalOps arrival_careful).wf.agree.exists_both p c h).2
      have hk : c ∈ (runOps St.init arrivalOps).t.nodes.keys := (Dict.mem_keys _ _).2 hc
      have e : (runOps St.init arrivalOps).t.nodes.keys = [.str 1, .str 2, .str 3] := by decide
      rw [e] at hk
      have key : ∀ c ∈ [Id.str 1, .str 2, .str 3], ∀ p ∈ (runOps St.init arrivalOps).t.getParents c, rank p < rank c := by decide
      exact key c hk p h
    · have key : ∀ r ∈ (runOps St.init arrivalOps).t.pending, rank r.1 < rank r.2 := by decide
      exact key _ h
    · have key : ∀ r ∈ ((Node.new (.str 4) (.str 6)).detachedAddChild (.str 3)).pending, rank r.1 < rank r.2 := by decide
      exact key _ h
    · rw [h.2.1, h.2.2]; decide
  intro x hx
  have : ∀ a b, Relation.TransGen (fun c p => IsParent (runOps St.init arrivalOps).t p c ∨
      Waits (runOps St.init arrivalOps).t ((Node.new (.str 4) (.str 6)).detachedAddChild (.str 3)) (.str 7) p c) a b →
      rank b < rank a := by
    intro a b h
    induction h with
    | single h => exact one _ _ h
    | tail _ h ih => exact lt_trans (one _ _ h) ih
  exact lt_irrefl _ (this x x hx)

end Larch
