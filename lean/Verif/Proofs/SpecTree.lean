import Verif.Proofs.Tidy

/-! # From the invariants to the specification -/

namespace Larch

open Graph Spec

theorem Spec.Made.fresh {nd : Node} (h : Made nd) : FreshNode nd := by
  have app : ∀ {nd : Node} {r : Id × Id}, FreshNode nd → r.1 = nd.id ∨ r.2 = nd.id →
      FreshNode { nd with pending := nd.pending ++ [r] } := by
    intro nd r hf hr
    refine ⟨hf.parents, hf.children, ?_⟩
    intro q hq
    rcases List.mem_append.1 hq with hq | hq
    · exact hf.pending q hq
    · simp at hq; subst hq; exact hr
  have ap : ∀ {nd : Node} (p : Id), FreshNode nd → FreshNode (nd.detachedAddParent p) := by
    intro nd p hf
    unfold Node.detachedAddParent; split
    · exact app hf (Or.inr rfl)
    · exact hf
  induction h with
  | new x parent =>
    have h0 : FreshNode (Node.fresh x) := ⟨rfl, rfl, by intro r hr; cases hr⟩
    unfold Node.new; split
    · exact h0
    · exact ap _ h0
  | addParent p _ ih => exact ap p ih
  | setParent p _ ih =>
    unfold Node.detachedSetParent; split
    · exact app ih (Or.inr rfl)
    · exact ih
  | addChild p _ ih =>
    unfold Node.detachedAddChild; split
    · exact app ih (Or.inl rfl)
    · exact ih
  | setParentsEnabled b _ ih => exact ⟨ih.parents, ih.children, ih.pending⟩
  | setChildrenEnabled b _ ih => exact ⟨ih.parents, ih.children, ih.pending⟩

theorem WF.isParent {t : Tree} (h : WF t) (p c : Id) : IsParent t p c ↔ p ∈ t.rawParents c := by
  unfold IsParent; rw [h.getParents_eq]

theorem WF.isChild {t : Tree} (h : WF t) (p c : Id) : IsChild t p c ↔ p ∈ t.rawParents c :=
  h.mem_getChildren p c

theorem WF.agree {t : Tree} (h : WF t) : Agree t := by
  refine ⟨fun p c => ?_, fun p c hp => ?_, fun c => ?_, fun p => ?_⟩
  · rw [h.isChild, h.isParent]
  · rw [h.isParent] at hp
    exact ⟨h.has_parent hp, Tree.has_of_mem_rawParents hp⟩
  · rw [h.getParents_eq]; exact h.ndP c
  · rw [h.getChildren_eq]; exact (h.ndC p).filter _

/-- `get_parents` never lists more than the attribute. -/
theorem Tree.getParents_sub (t : Tree) (x p : Id) (h : p ∈ t.getParents x) : p ∈ t.rawParents x := by
  unfold Tree.getParents Tree.rawParents at *
  cases hn : t.node? x with
  | none => rw [hn] at h; cases h
  | some nd =>
    rw [hn] at h
    simp only [Option.map_some, Option.getD_some] at h ⊢
    unfold Tree.parentsOf at h
    split at h
    · exact (List.mem_filter.1 h).1
    · cases h

theorem ancestor_reach {t : Tree} {a x : Id} (h : Ancestor t a x) : Reach t.rawParents x a := by
  unfold Ancestor at h
  induction h with
  | single h => exact Reach.single (t.getParents_sub _ _ h)
  | tail _ h ih => exact ih.trans (Reach.single (t.getParents_sub _ _ h))

theorem UpInv.noCycle {t : Tree} (h : UpInv t) : NoCycle t := fun x hx => h.acyclic x (ancestor_reach hx)

theorem WF.ancestor_iff {t : Tree} (h : WF t) (a x : Id) : Ancestor t a x ↔ Reach t.rawParents x a := by
  refine ⟨ancestor_reach, fun hr => ?_⟩
  induction hr with
  | single hm => exact Relation.TransGen.single ((h.isParent _ _).2 hm)
  | tail _ hm ih => exact Relation.TransGen.tail ih ((h.isParent _ _).2 hm)

theorem WF.descendant_up {t : Tree} (h : WF t) (d x : Id) : Descendant t d x ↔ Reach t.rawParents d x := by
  constructor
  · intro hd
    unfold Descendant at hd
    induction hd with
    | single hm => exact Reach.single ((h.isChild _ _).1 hm)
    | tail _ hm ih => exact Reach.head ((h.isChild _ _).1 hm) ih
  · intro hr
    unfold Reach at hr
    induction hr using Relation.TransGen.head_induction_on with
    | single hm => exact Relation.TransGen.single ((h.isChild _ _).2 hm)
    | head hm _ ih => exact Relation.TransGen.tail ih ((h.isChild _ _).2 hm)

theorem Good.descendant_down {t : Tree} (h : Good t) (hn : NoDangling t) (d x : Id) :
    Descendant t d x ↔ Reach t.rawChildren x d := by
  rw [h.wf.descendant_up]
  constructor
  · intro hr; exact hr.reverse (fun a b hab => h.wf.up b a hab)
  · intro hr; exact hr.reverse (fun a b hab => h.wf.down a b hab (hn a b hab))

theorem Good.topLevel {t : Tree} (h : Good t) : TopLevel t := by
  have hr : t.rootChildren = t.root.children := by
    unfold Tree.rootChildren Tree.childrenOf
    rw [h.wf.rootKids, h.wf.rootTree, if_pos (by rfl), List.filter_eq_self]
    intro x hx; exact ((h.root.mem x).1 hx).1
  refine ⟨fun x => ?_, by rw [hr]; exact h.root.nodup⟩
  rw [hr, h.root.mem]
  constructor
  · rintro ⟨h1, h2, -⟩
    refine ⟨h1, fun p hp => ?_⟩
    rw [h.wf.isParent, h2] at hp; cases hp
  · rintro ⟨h1, h2⟩
    refine ⟨h1, List.eq_nil_iff_forall_not_mem.2 (fun p hp => h2 p ((h.wf.isParent _ _).2 hp)), id⟩

theorem Good.fromRoot {t : Tree} (h : Good t) (x : Id) (hx : t.has x = true) : FromRoot t x := by
  obtain ⟨ht, -, hlt⟩ := exists_height t.rawParents t.nodes.keys t.rawParents_keys h.wf.acyclic
  generalize hn : ht x = n
  induction n using Nat.strong_induction_on generalizing x with
  | _ n ih =>
    cases hp : t.rawParents x with
    | nil =>
      refine FromRoot.top ((h.topLevel.exact x).2 ⟨hx, fun p hm => ?_⟩)
      rw [h.wf.isParent, hp] at hm; cases hm
    | cons p l =>
      have hm : p ∈ t.rawParents x := by rw [hp]; simp
      exact FromRoot.child (ih (ht p) (hn ▸ hlt x p hm) p (h.wf.has_parent hm) rfl)
        ((h.wf.isChild p x).2 hm)

theorem Spec.Careful.tidy {s : St} (h : Good s.t) (hn : NoDangling s.t) {op : Op} (hc : Careful s op) :
    Tidy s op := by
  cases op with
  | addNode nd p =>
    obtain ⟨hm, hx | ⟨h1, h2, h3, h4⟩⟩ := hc
    · exact ⟨hm.fresh, Or.inl hx⟩
    · exact ⟨hm.fresh, Or.inr ⟨⟨h1, h2⟩, h3, h4⟩⟩
  | delNode x r =>
    cases r with
    | true =>
      refine ⟨hc.1, fun y hy p hp => ?_⟩
      rcases hc.2 y ((h.descendant_down hn y x).2 hy) p hp with rfl | hd
      · exact Or.inl rfl
      · exact Or.inr ((h.descendant_down hn p x).1 hd)
    | false => exact hc
  | newRelationship p c => exact hc
  | refreshNode x => trivial
  | moveNode x p => trivial
  | addParent x p => trivial
  | setParent x p => trivial
  | removeParent x p => trivial
  | addChild x c => trivial
  | setParentsEnabled x b => trivial
  | setChildrenEnabled x b => trivial
  | breakRelationship p c => trivial

theorem runOps_careful (ops : List Op) (s : St) (h : Good s.t) (hn : NoDangling s.t)
    (ht : Along Careful s ops) : Good (runOps s ops).t ∧ NoDangling (runOps s ops).t := by
  induction ops generalizing s with
  | nil => exact ⟨h, hn⟩
  | cons op ops ih =>
    have htd := ht.1.tidy h hn
    exact ih _ (step_good h op (htd.safe h hn)) (step_noDangling h hn op htd) ht.2

end Larch
