import Verif.Proofs.Declared
import Verif.Spec.Growing

/-!
# Trees that only grow
-/

namespace Larch

open Graph Spec

/-- The invariant: the nodes are those in `K`, the relations those in `D`. -/
structure GrowInv (K : List Id) (D : List (Id × Id)) (t : Tree) : Prop where
  good : Good t
  tidy : NoDangling t
  enabled : EnabledInv t
  decl : DeclInv D t
  nodes : ∀ x, t.has x = true ↔ x ∈ K

theorem DeclInv.congr {D D' : List (Id × Id)} {t : Tree} (h : DeclInv D t) (e : ∀ r, r ∈ D' ↔ r ∈ D) : DeclInv D' t :=
  ⟨fun p c => by rw [e]; exact h.edges p c, fun p c hr => h.waiting p c ((e _).1 hr), fun r hr => (e r).2 (h.pending r hr)⟩

/-- A relation with a missing end starts to wait. -/
theorem GrowInv.wait {K : List Id} {D : List (Id × Id)} {s : St} (h : GrowInv K D s.t) {p c : Id} (pend : List (Id × Id))
    (hpend : ∀ r, r ∈ pend ↔ r ∈ s.t.pending ∨ r = (p, c)) (hno : ¬ (s.t.has p = true ∧ s.t.has c = true)) :
    GrowInv K (D ++ [(p, c)]) (s.mapTree fun t => { t with pending := pend }).t := by
  refine ⟨h.good.pending _ ?_, h.tidy, h.enabled, ⟨fun q y => ?_, fun q y hr hn => ?_, fun r hr => ?_⟩, h.nodes⟩
  · intro a b hab
    rcases (hpend _).1 hab with h1 | h1
    · exact h.good.pend a b h1
    · cases h1; exact hno
  · show q ∈ s.t.rawParents y ↔ _
    rw [h.decl.edges]
    simp only [List.mem_append, List.mem_singleton, Prod.mk.injEq]
    constructor
    · rintro ⟨h1, h2⟩; exact ⟨Or.inl h1, h2⟩
    · rintro ⟨h1 | ⟨rfl, rfl⟩, h2⟩
      · exact ⟨h1, h2⟩
      · exact absurd h2 hno
  · show (q, y) ∈ pend
    rw [hpend]
    rcases List.mem_append.1 hr with h1 | h1
    · exact Or.inl (h.decl.waiting q y h1 hn)
    · exact Or.inr (by simpa using h1)
  · rcases (hpend _).1 hr with h1 | h1
    · exact List.mem_append_left _ (h.decl.pending r h1)
    · exact List.mem_append_right _ (by simp [h1])

/-- A relation between two nodes that are there. -/
theorem GrowInv.link {K : List Id} {D : List (Id × Id)} {s : St} (h : GrowInv K D s.t) {p c : Id} (hp : s.t.has p = true)
    (hc : s.t.has c = true) (hac : Acyclic (upOf (D ++ [(p, c)]))) :
    ∃ s', newRelationship s p c = .ok s' ∧ GrowInv K (D ++ [(p, c)]) s'.t := by
  have hre : ¬ ReachEq s.t.rawParents p c := by
    have hlast : p ∈ upOf (D ++ [(p, c)]) c := (mem_upOf _ _ _).2 (by simp)
    rintro (rfl | hr)
    · exact hac p (Reach.single hlast)
    · refine hac c (Reach.trans (Reach.single hlast) (Relation.TransGen.mono (fun a b hab => ?_) _ _ hr))
      exact (mem_upOf _ _ _).2 (List.mem_append_left _ ((h.decl.edges _ _).1 hab).1)
  obtain ⟨t', ht', e⟩ := newRelationship_linked h.good.wf h.good.root h.good.pend hp hc hre
  obtain ⟨-, -, ef⟩ := Tree.create_eq_some ht'
  have hl := h.enabled.linkable p c
  refine ⟨_, e, h.good.create ht' hre hl, ?_, h.enabled.attrs ef.attrs, ⟨fun q y => ?_, fun q y hr hn => ?_, fun r hr => ?_⟩, fun x => ?_⟩
  · have := step_noDangling h.good h.tidy (.newRelationship p c) hl
    rwa [show step s (.newRelationship p c) = newRelationship s p c from rfl, e] at this
  · show q ∈ t'.rawParents y ↔ (q, y) ∈ D ++ [(p, c)] ∧ t'.has q = true ∧ t'.has y = true
    rw [ef.has, ef.has, ef.parents]
    have := h.decl.edges q y
    split
    · rename_i e; subst e
      rw [mem_appendNew, this]
      simp only [List.mem_append, List.mem_singleton, Prod.mk.injEq, and_true]
      constructor
      · rintro (⟨h1, h2⟩ | rfl)
        · exact ⟨Or.inl h1, h2⟩
        · exact ⟨Or.inr rfl, hp, hc⟩
      · rintro ⟨h1 | rfl, h2⟩
        · exact Or.inl ⟨h1, h2⟩
        · exact Or.inr rfl
    · rename_i e
      rw [this]
      simp [e]
  · show (q, y) ∈ t'.pending
    rw [ef.pending]
    have hn' : ¬ (s.t.has q = true ∧ s.t.has y = true) := by
      intro hh; exact hn ⟨by show t'.has q = true; rw [ef.has]; exact hh.1, by show t'.has y = true; rw [ef.has]; exact hh.2⟩
    rcases List.mem_append.1 hr with h1 | h1
    · exact h.decl.waiting q y h1 hn'
    · rw [List.mem_singleton, Prod.mk.injEq] at h1
      obtain ⟨rfl, rfl⟩ := h1
      exact absurd ⟨hp, hc⟩ hn'
  · have : r ∈ t'.pending := hr
    rw [ef.pending] at this
    exact List.mem_append_left _ (h.decl.pending r this)
  · show t'.has x = true ↔ _
    rw [ef.has]; exact h.nodes x

theorem GrowInv.relation {K : List Id} {D : List (Id × Id)} {s : St} (h : GrowInv K D s.t) {p c : Id} (hp : p.falsy = false)
    (hc : c.falsy = false) (hac : Acyclic (upOf (D ++ [(p, c)]))) :
    ∃ s', newRelationship s p c = .ok s' ∧ GrowInv K (D ++ [(p, c)]) s'.t := by
  by_cases hb : s.t.has p = true ∧ s.t.has c = true
  · exact h.link hb.1 hb.2 hac
  · have hne : p ≠ c := by
      rintro rfl
      exact hac p (Reach.single ((mem_upOf _ _ _).2 (by simp)))
    refine ⟨_, newRelationship_later s hp hc hne hb, h.wait _ (fun r => ?_) hb⟩
    rw [List.mem_append, List.mem_singleton]
    by_cases e : r = (p, c)
    · simp [e]
    · rw [List.mem_erase_of_ne e]

/-- Declaring a relation again. -/
theorem GrowInv.again {K : List Id} {D : List (Id × Id)} {t : Tree} (h : GrowInv K D t) {p c : Id} (hp : p ∈ t.rawParents c) :
    GrowInv K (D ++ [(p, c)]) t := by
  refine { h with decl := h.decl.congr fun r => ?_ }
  rw [List.mem_append, List.mem_singleton]
  constructor
  · rintro (h1 | rfl)
    · exact h1
    · exact ((h.decl.edges p c).1 hp).1
  · exact Or.inl

theorem GrowInv.parent {K : List Id} {D : List (Id × Id)} {s : St} (h : GrowInv K D s.t) {x p : Id} (hx : x ∈ K)
    (hac : Acyclic (upOf (D ++ [(p, x)]))) : ∃ s', treeAddParent s x p = .ok s' ∧ GrowInv K (D ++ [(p, x)]) s'.t := by
  have hxh := (h.nodes x).2 hx
  obtain ⟨nd, hnd⟩ := (Tree.has_iff _ _).1 hxh
  have hne : p ≠ x := by
    rintro rfl
    exact hac p (Reach.single ((mem_upOf _ _ _).2 (by simp)))
  unfold treeAddParent nodeAddParent
  rw [if_pos hxh, hnd]
  dsimp only
  by_cases hin : p ∈ nd.parents
  · rw [if_neg (by simp [hin])]
    exact ⟨s, rfl, h.again (by rw [Tree.rawParents_of_node hnd]; exact hin)⟩
  · rw [if_pos ⟨hne, (h.enabled x nd hnd).1, hin⟩]
    cases hpn : s.t.node? p with
    | none => exact ⟨_, rfl, h.wait _ (fun r => by simp) (by simp [not_has_of_none hpn])⟩
    | some par =>
      dsimp only
      rw [if_pos (h.enabled p par hpn).2]
      exact h.link (has_of_some hpn) hxh hac

theorem GrowInv.child {K : List Id} {D : List (Id × Id)} {s : St} (h : GrowInv K D s.t) {x c : Id} (hx : x ∈ K)
    (hac : Acyclic (upOf (D ++ [(x, c)]))) : ∃ s', nodeAddChild s x c = .ok s' ∧ GrowInv K (D ++ [(x, c)]) s'.t := by
  have hxh := (h.nodes x).2 hx
  obtain ⟨nd, hnd⟩ := (Tree.has_iff _ _).1 hxh
  have hne : c ≠ x := by
    rintro rfl
    exact hac c (Reach.single ((mem_upOf _ _ _).2 (by simp)))
  have hce := (h.enabled x nd hnd).2
  by_cases hin : c ∈ nd.children
  · have hch : c ∈ s.t.rawChildren x := by rw [Tree.rawChildren_of_node hnd]; exact hin
    refine ⟨s, ?_, h.again (h.good.wf.down x c hch (h.tidy x c hch))⟩
    unfold nodeAddChild
    rw [hnd]
    dsimp only
    rw [if_pos ⟨hce, hne⟩, if_neg (by simp [hin])]
  · cases hcn : s.t.node? c with
    | none =>
      refine ⟨_, ?_, h.wait (s.t.pending ++ [(x, c)]) (fun r => by simp) (by simp [not_has_of_none hcn])⟩
      unfold nodeAddChild
      rw [hnd]
      dsimp only
      rw [if_pos ⟨hce, hne⟩, if_pos hin, hcn]
      rfl
    | some child =>
      rw [nodeAddChild_eq h.good hnd hcn hce hne hin (h.enabled c child hcn).1]
      exact h.link hxh (has_of_some hcn) hac

theorem GrowInv.add {K : List Id} {D : List (Id × Id)} {s : St} (h : GrowInv K D s.t) {nd : Node} {parent : Id}
    (hf : FreshNode nd) (hen : nd.parentsEnabled = true ∧ nd.childrenEnabled = true) (hid : GoodId nd.id) (hK : nd.id ∉ K)
    (hac : Acyclic (upOf (D ++ (Grow.add nd parent).says))) :
    ∃ s', addNode s nd parent = .ok s' ∧ GrowInv (nd.id :: K) (D ++ (Grow.add nd parent).says) s'.t := by
  have hx : s.t.has nd.id = false := by
    by_contra hc
    exact hK ((h.nodes _).1 (by simpa using hc))
  have hei := h.enabled.insertNode hen
  obtain ⟨s', e, hi', hg', ha'⟩ := addNode_declared (D' := D ++ (Grow.add nd parent).says)
    h.good h.decl h.tidy hf hx hid ⟨fun p c _ _ => hei.linkable p c, fun _ => hei.linkable _ _⟩ (by
      intro r
      unfold Grow.says
      simp only [List.mem_append]
      by_cases hp : parent = .none
      · simp only [hp, if_true, List.not_mem_nil]; tauto
      · simp only [hp, if_false, List.mem_singleton]; tauto) hac
  have hn' : NoDangling s'.t := by
    have := addNode_noDangling (parent := parent) h.good.wf.upInv h.tidy hf.parents hf.children
    rwa [e] at this
  refine ⟨s', e, hg', hn', hei.attrs ha', hi', fun y => ?_⟩
  have h1 := ha' y
  unfold Tree.nodeAttrs at h1
  have h2 : s'.t.has y = (insertNode s.t nd).has y := by
    rw [Tree.has_eq, Tree.has_eq]
    cases h3 : s'.t.node? y <;> cases h4 : (insertNode s.t nd).node? y <;> simp [h3, h4] at h1 ⊢
  rw [h2, has_insertNode, List.mem_cons, ← h.nodes]
  simp

theorem grow_run : ∀ (gs : List Grow) (K : List Id) (D : List (Id × Id)) (s : St), GrowInv K D s.t → GrowOK K gs →
    Acyclic (upOf (D ++ gs.flatMap Grow.says)) →
    NoRaise s (gs.map Grow.op) ∧ GrowInv (gs.reverse.flatMap Grow.brings ++ K) (D ++ gs.flatMap Grow.says) (runOps s (gs.map Grow.op)).t
  | [], K, D, s, h, _, _ => ⟨trivial, by simpa [runOps] using h⟩
  | g :: gs, K, D, s, h, hok, hac => by
    have hsub : Acyclic (upOf (D ++ g.says)) := hac.mono fun x y hy => by
      rw [mem_upOf] at hy ⊢
      rw [List.flatMap_cons, ← List.append_assoc]
      exact List.mem_append_left _ hy
    obtain ⟨K', s', hK', hok', e, h'⟩ : ∃ K' s', K' = g.brings ++ K ∧ GrowOK K' gs ∧ step s g.op = .ok s' ∧ GrowInv K' (D ++ g.says) s'.t := by
      cases g with
      | add nd parent =>
        obtain ⟨⟨hm, hen⟩, hid, hK, hok⟩ := hok
        obtain ⟨s', e, h'⟩ := h.add (parent := parent) hm.fresh hen hid hK hsub
        exact ⟨_, s', rfl, hok, e, h'⟩
      | parent x p =>
        obtain ⟨s', e, h'⟩ := h.parent hok.1 hsub
        exact ⟨K, s', rfl, hok.2, e, h'⟩
      | child x c =>
        obtain ⟨s', e, h'⟩ := h.child hok.1 hsub
        exact ⟨K, s', rfl, hok.2, e, h'⟩
      | relation p c =>
        obtain ⟨s', e, h'⟩ := h.relation hok.1.1 hok.1.2 hsub
        exact ⟨K, s', rfl, hok.2, e, h'⟩
    obtain ⟨r1, r2⟩ := grow_run gs K' (D ++ g.says) s' h' hok' (by rwa [List.append_assoc, ← List.flatMap_cons])
    refine ⟨?_, ?_⟩
    · show (step s g.op).isOk = true ∧ NoRaise (step s g.op).state (gs.map Grow.op)
      rw [e]; exact ⟨rfl, r1⟩
    · rw [List.map_cons, runOps, e]
      rw [hK', List.append_assoc] at r2
      rw [List.reverse_cons, List.flatMap_append, List.flatMap_cons]
      simpa [List.append_assoc] using r2

end Larch
