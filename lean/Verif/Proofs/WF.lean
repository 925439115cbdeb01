import Verif.Proofs.UpInv
import Verif.Spec.Consistent

/-!
# The consistency invariant of the main tree
-/

namespace Larch

open Graph

/-- A relation between `p` and `c` respects the two flags. -/
def Tree.Linkable (t : Tree) (p c : Id) : Prop :=
  (∀ nd, t.node? p = some nd → nd.childrenEnabled = true) ∧
  (∀ nd, t.node? c = some nd → nd.parentsEnabled = true)

theorem WF.upInv {t : Tree} (h : WF t) : UpInv t := ⟨h.acyclic⟩

theorem WF.has_parent {t : Tree} (h : WF t) {p c : Id} (hp : p ∈ t.rawParents c) : t.has p = true :=
  Tree.has_of_mem_rawChildren (h.up p c hp)

/-! ### Transporting along equal observables -/

theorem nodeAttrs_some {t : Tree} {x : Id} {nd : Node} (h : t.node? x = some nd) :
    t.nodeAttrs x = some (Tree.attrs nd) := by simp [Tree.nodeAttrs, h]

/-- The observable parts of two trees on which `WF` depends. -/
structure SameAttrs (t t' : Tree) : Prop where
  keys : t'.nodes.keys = t.nodes.keys
  attrs : ∀ y, t'.nodeAttrs y = t.nodeAttrs y
  rootId : t'.root.id = t.root.id
  rootTree : t'.root.hasTree = t.root.hasTree
  rootKids : t'.root.childrenEnabled = t.root.childrenEnabled

theorem SameAttrs.has {t t' : Tree} (h : SameAttrs t t') (y : Id) : t'.has y = t.has y := by
  have := h.attrs y
  unfold Tree.nodeAttrs at this
  rw [Tree.has_eq, Tree.has_eq]
  cases h1 : t'.node? y <;> cases h2 : t.node? y <;> simp [h1, h2] at this ⊢

theorem SameAttrs.node {t t' : Tree} (h : SameAttrs t t') {y : Id} {nd' : Node}
    (hn : t'.node? y = some nd') : ∃ nd, t.node? y = some nd ∧ Tree.attrs nd' = Tree.attrs nd ∧
      nd'.parents = t'.rawParents y ∧ nd'.children = t'.rawChildren y ∧
      nd.parents = t.rawParents y ∧ nd.children = t.rawChildren y := by
  have := h.attrs y
  rw [nodeAttrs_some hn] at this
  unfold Tree.nodeAttrs at this
  cases h2 : t.node? y with
  | none => simp [h2] at this
  | some nd =>
    simp [h2] at this
    exact ⟨nd, rfl, this, (Tree.rawParents_of_node hn).symm, (Tree.rawChildren_of_node hn).symm,
      (Tree.rawParents_of_node h2).symm, (Tree.rawChildren_of_node h2).symm⟩

theorem SameAttrs.refl (t : Tree) : SameAttrs t t := ⟨rfl, fun _ => rfl, rfl, rfl, rfl⟩

theorem SameAttrs.trans {t t' t'' : Tree} (h : SameAttrs t t') (h' : SameAttrs t' t'') : SameAttrs t t'' :=
  ⟨h'.keys.trans h.keys, fun y => (h'.attrs y).trans (h.attrs y), h'.rootId.trans h.rootId,
    h'.rootTree.trans h.rootTree, h'.rootKids.trans h.rootKids⟩

theorem Tree.CreateEffect.same {t t' : Tree} {p c : Id} (e : Tree.CreateEffect t t' p c) : SameAttrs t t' :=
  ⟨e.keys, e.attrs, by rw [e.root], by rw [e.root], by rw [e.root]⟩

theorem Tree.DestroyEffect.same {t t' : Tree} {p c : Id} (e : Tree.DestroyEffect t t' p c) : SameAttrs t t' :=
  ⟨e.keys, e.attrs, by rw [e.root], by rw [e.root], by rw [e.root]⟩

theorem SameAttrs.linkable {t t' : Tree} (h : SameAttrs t t') {p c : Id} (hl : t.Linkable p c) :
    t'.Linkable p c := by
  constructor
  · intro nd hnd
    obtain ⟨nd0, h0, ha, -⟩ := h.node hnd
    have := hl.1 nd0 h0
    simp only [Tree.attrs, Prod.mk.injEq] at ha
    rw [ha.2.2.1]; exact this
  · intro nd hnd
    obtain ⟨nd0, h0, ha, -⟩ := h.node hnd
    have := hl.2 nd0 h0
    simp only [Tree.attrs, Prod.mk.injEq] at ha
    rw [ha.2.1]; exact this

/-- `WF` after a change of relations only. -/
theorem WF.relations {t t' : Tree} (h : WF t) (e : SameAttrs t t')
    (up : ∀ p c, p ∈ t'.rawParents c → c ∈ t'.rawChildren p)
    (down : ∀ p c, c ∈ t'.rawChildren p → t.has c = true → p ∈ t'.rawParents c)
    (ndP : ∀ x, (t'.rawParents x).Nodup) (ndC : ∀ x, (t'.rawChildren x).Nodup)
    (acyclic : Acyclic t'.rawParents)
    (flagP : ∀ x nd, t.node? x = some nd → nd.parentsEnabled = false → t'.rawParents x = [])
    (flagC : ∀ x nd, t.node? x = some nd → nd.childrenEnabled = false →
      ∀ c ∈ t'.rawChildren x, t.has c = false) : WF t' := by
  constructor
  · rw [e.keys]; exact h.keys
  · intro x nd hnd
    obtain ⟨nd0, h0, ha, -⟩ := e.node hnd
    simp only [Tree.attrs, Prod.mk.injEq] at ha
    rw [ha.1, ha.2.2.2.1]; exact h.self x nd0 h0
  · intro x hx; rw [e.has] at hx; exact h.ids x hx
  · rw [e.rootId]; exact h.rootIs
  · rw [e.rootTree]; exact h.rootTree
  · rw [e.rootKids]; exact h.rootKids
  · exact up
  · intro p c hc hh; rw [e.has] at hh; exact down p c hc hh
  · exact ndP
  · exact ndC
  · exact acyclic
  · intro x nd hnd hf
    obtain ⟨nd0, h0, ha, h1, h2, -⟩ := e.node hnd
    simp only [Tree.attrs, Prod.mk.injEq] at ha
    rw [h1]; exact flagP x nd0 h0 (by rw [← ha.2.1]; exact hf)
  · intro x nd hnd hf c hc
    obtain ⟨nd0, h0, ha, h1, h2, -⟩ := e.node hnd
    simp only [Tree.attrs, Prod.mk.injEq] at ha
    rw [e.has]; exact flagC x nd0 h0 (by rw [← ha.2.2.1]; exact hf) c (by rw [← h2]; exact hc)

/-- Pending relations and the root's list do not matter for `WF`. -/
theorem WF.congr {t t' : Tree} (h : WF t) (hn : t'.nodes = t.nodes) (h1 : t'.root.id = t.root.id)
    (h2 : t'.root.hasTree = t.root.hasTree) (h3 : t'.root.childrenEnabled = t.root.childrenEnabled) :
    WF t' := by
  have e : SameAttrs t t' := ⟨by rw [hn], fun y => by unfold Tree.nodeAttrs Tree.node?; rw [hn], h1, h2, h3⟩
  have ep : t'.rawParents = t.rawParents := by
    funext y; unfold Tree.rawParents Tree.node?; rw [hn]
  have ec : t'.rawChildren = t.rawChildren := by
    funext y; unfold Tree.rawChildren Tree.node?; rw [hn]
  refine h.relations e ?_ ?_ ?_ ?_ ?_ ?_ ?_
  · rw [ep, ec]; exact h.up
  · rw [ep, ec]; exact h.down
  · rw [ep]; exact h.ndP
  · rw [ec]; exact h.ndC
  · rw [ep]; exact h.acyclic
  · intro x nd hnd hf; rw [ep, Tree.rawParents_of_node hnd]; exact h.flagP x nd hnd hf
  · intro x nd hnd hf; rw [ec, Tree.rawChildren_of_node hnd]; exact h.flagC x nd hnd hf

theorem WF.pending {t : Tree} (h : WF t) (l : List (Id × Id)) : WF { t with pending := l } :=
  h.congr rfl rfl rfl rfl

theorem WF.updRoot {t : Tree} (h : WF t) (f : List Id → List Id) : WF (t.updRoot f) :=
  h.congr rfl rfl rfl rfl

/-! ### `create` and `destroy` -/

theorem WF.create {t t' : Tree} (h : WF t) {p c : Id} (hc : t.create p c = some t')
    (hn : ¬ ReachEq t.rawParents p c) (hl : t.Linkable p c) : WF t' := by
  obtain ⟨h1, h2, e⟩ := Tree.create_eq_some hc
  have hpc : p ≠ c := fun e => hn (Or.inl e)
  refine h.relations e.same ?_ ?_ ?_ ?_ (h.upInv.create hc hn).acyclic ?_ ?_
  · intro q d hq
    rw [e.parents] at hq
    rw [e.children]
    by_cases hd : d = c
    · subst hd
      rw [if_pos rfl, mem_appendNew] at hq
      by_cases hqp : q = p
      · subst hqp; rw [if_pos rfl, mem_appendNew]; exact Or.inr rfl
      · rw [if_neg hqp]
        exact h.up _ _ (hq.resolve_right hqp)
    · rw [if_neg hd] at hq
      have := h.up _ _ hq
      by_cases hqp : q = p
      · subst hqp; rw [if_pos rfl, mem_appendNew]; exact Or.inl this
      · rw [if_neg hqp]; exact this
  · intro q d hd hhd
    rw [e.children] at hd
    rw [e.parents]
    by_cases hqp : q = p
    · subst hqp
      rw [if_pos rfl, mem_appendNew] at hd
      by_cases hdc : d = c
      · subst hdc; rw [if_pos rfl, mem_appendNew]; exact Or.inr rfl
      · rw [if_neg hdc]; exact h.down _ _ (hd.resolve_right hdc) hhd
    · rw [if_neg hqp] at hd
      have := h.down _ _ hd hhd
      by_cases hdc : d = c
      · subst hdc; rw [if_pos rfl, mem_appendNew]; exact Or.inl this
      · rw [if_neg hdc]; exact this
  · intro x; rw [e.parents]; split
    · exact nodup_appendNew _ _ (h.ndP _)
    · exact h.ndP _
  · intro x; rw [e.children]; split
    · exact nodup_appendNew _ _ (h.ndC _)
    · exact h.ndC _
  · intro x nd hnd hf
    have hxc : x ≠ c := by rintro rfl; rw [hl.2 nd hnd] at hf; cases hf
    rw [e.parents, if_neg hxc, Tree.rawParents_of_node hnd]
    exact h.flagP x nd hnd hf
  · intro x nd hnd hf
    have hxp : x ≠ p := by rintro rfl; rw [hl.1 nd hnd] at hf; cases hf
    rw [e.children, if_neg hxp, Tree.rawChildren_of_node hnd]
    exact h.flagC x nd hnd hf

theorem WF.destroy {t t' : Tree} (h : WF t) {p c : Id} (hd : t.destroy p c = some t') : WF t' := by
  obtain ⟨h1, h2, e⟩ := Tree.destroy_eq_some hd
  have subP : ∀ x y, y ∈ t'.rawParents x → y ∈ t.rawParents x := by
    intro x y hy
    rw [e.parents] at hy
    split at hy
    · rename_i hx; subst hx; exact List.mem_of_mem_erase hy
    · exact hy
  have subC : ∀ x y, y ∈ t'.rawChildren x → y ∈ t.rawChildren x := by
    intro x y hy
    rw [e.children] at hy
    split at hy
    · rename_i hx; subst hx; exact List.mem_of_mem_erase hy
    · exact hy
  refine h.relations e.same ?_ ?_ ?_ ?_ (h.acyclic.mono subP) ?_ ?_
  · intro q d hq
    have this := h.up _ _ (subP _ _ hq)
    rw [e.children]
    by_cases hqp : q = p
    · subst hqp
      rw [if_pos rfl]
      by_cases hdc : d = c
      · subst hdc
        rw [e.parents, if_pos rfl] at hq
        exact absurd hq ((h.ndP d).not_mem_erase)
      · exact (List.mem_erase_of_ne hdc).2 this
    · rw [if_neg hqp]; exact this
  · intro q d hq hhd
    have this := h.down _ _ (subC _ _ hq) hhd
    rw [e.parents]
    by_cases hdc : d = c
    · subst hdc
      rw [if_pos rfl]
      by_cases hqp : q = p
      · subst hqp
        rw [e.children, if_pos rfl] at hq
        exact absurd hq ((h.ndC q).not_mem_erase)
      · exact (List.mem_erase_of_ne hqp).2 this
    · rw [if_neg hdc]; exact this
  · intro x; rw [e.parents]; split
    · exact (h.ndP _).erase _
    · exact h.ndP _
  · intro x; rw [e.children]; split
    · exact (h.ndC _).erase _
    · exact h.ndC _
  · intro x nd hnd hf
    have := h.flagP x nd hnd hf
    rw [← Tree.rawParents_of_node hnd] at this
    apply List.eq_nil_iff_forall_not_mem.2
    intro y hy
    have := subP x y hy
    simp_all
  · intro x nd hnd hf d hdd
    refine h.flagC x nd hnd hf d ?_
    rw [← Tree.rawChildren_of_node hnd]
    exact subC x d hdd

theorem RootOK.create {t t' : Tree} {E : Id → Prop} (h : RootOK t E) {p c : Id}
    (hc : t.create p c = some t') : RootOK t' E := by
  obtain ⟨h1, h2, e⟩ := Tree.create_eq_some hc
  have hr : t'.root.children = t.root.children.erase c := by rw [e.root]
  constructor
  · rw [hr]; exact h.nodup.erase _
  · intro x
    rw [hr, h.nodup.mem_erase_iff, h.mem, e.has, e.parents]
    by_cases hx : x = c
    · subst hx
      rw [if_pos rfl]
      have : appendNew (t.rawParents x) p ≠ [] := List.ne_nil_of_mem ((mem_appendNew _ _ _).2 (Or.inr rfl))
      simp [this]
    · rw [if_neg hx]; simp [hx]

/-- Taking a node with a parent off the root list changes nothing. -/
theorem RootOK.erase_child {t : Tree} {E : Id → Prop} (h : RootOK t E) {c : Id}
    (hc : t.rawParents c ≠ []) : t.updRoot (fun l => l.erase c) = t := by
  have : c ∉ t.root.children := by rw [h.mem]; simp [hc]
  simp only [Tree.updRoot]
  rw [List.erase_of_not_mem this]

/-- Breaking a relation can only leave the child off the root list. -/
theorem RootOK.destroy {t t' : Tree} {E : Id → Prop} (h : RootOK t E) {p c : Id}
    (hd : t.destroy p c = some t') :
    RootOK t' (fun x => E x ∨ (x = c ∧ t.rawParents c ≠ [] ∧ t'.rawParents c = [])) := by
  obtain ⟨h1, h2, e⟩ := Tree.destroy_eq_some hd
  constructor
  · rw [e.root]; exact h.nodup
  · intro x
    rw [e.root, h.mem, e.has]
    by_cases hx : x = c
    · subst hx
      have : t.rawParents x = [] → t'.rawParents x = [] := by
        intro h0; rw [e.parents, if_pos rfl, h0]; rfl
      tauto
    · have : t'.rawParents x = t.rawParents x := by rw [e.parents, if_neg hx]
      rw [this]; simp [hx]

theorem RootOK.weaken {t : Tree} {E E' : Id → Prop} (h : RootOK t E)
    (hE : ∀ x, t.has x = true → t.rawParents x = [] → (E x ↔ E' x)) : RootOK t E' := by
  refine ⟨h.nodup, fun x => ?_⟩
  rw [h.mem]
  constructor
  · rintro ⟨a, b, c⟩; exact ⟨a, b, fun hh => c ((hE x a b).2 hh)⟩
  · rintro ⟨a, b, c⟩; exact ⟨a, b, fun hh => c ((hE x a b).1 hh)⟩

theorem RootOK.append {t : Tree} {E : Id → Prop} (h : RootOK t E) {c : Id} (hc : t.has c = true)
    (hp : t.rawParents c = []) (hE : E c) : RootOK (t.updRoot (fun l => l ++ [c])) (fun x => E x ∧ x ≠ c) := by
  have hn : c ∉ t.root.children := by rw [h.mem]; tauto
  constructor
  · simp only [Tree.rootChildren_updRoot]
    rw [List.nodup_append]
    exact ⟨h.nodup, by simp, by rintro a ha b hb rfl; simp at hb; subst hb; exact hn ha⟩
  · intro x
    simp only [Tree.rootChildren_updRoot, Tree.has_updRoot, Tree.rawParents_updRoot, List.mem_append,
      List.mem_singleton, h.mem]
    by_cases hx : x = c
    · subst hx; simp [hc, hp]
    · simp [hx]

theorem RootOK.congr {t t' : Tree} {E : Id → Prop} (h : RootOK t E) (hn : t'.nodes = t.nodes)
    (hr : t'.root.children = t.root.children) : RootOK t' E := by
  refine ⟨by rw [hr]; exact h.nodup, fun x => ?_⟩
  rw [hr, h.mem]
  unfold Tree.has Tree.rawParents Tree.node?
  rw [hn]

theorem Tree.CreateEffect.pendOK {t t' : Tree} {p c : Id} (e : Tree.CreateEffect t t' p c) (h : PendOK t) :
    PendOK t' := by
  intro a b hab; rw [e.pending] at hab; rw [e.has, e.has]; exact h a b hab

theorem Tree.DestroyEffect.pendOK {t t' : Tree} {p c : Id} (e : Tree.DestroyEffect t t' p c) (h : PendOK t) :
    PendOK t' := by
  intro a b hab; rw [e.pending] at hab; rw [e.has, e.has]; exact h a b hab

end Larch
