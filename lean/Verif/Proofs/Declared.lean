import Verif.Proofs.SpecTree

/-! # Relations declared before both ends exist -/

namespace Larch

open Graph Spec

/-- Edges are the declared relations between existing nodes; the other declared ones are waiting. -/
structure DeclInv (D : List (Id × Id)) (t : Tree) : Prop where
  edges : ∀ p c, p ∈ t.rawParents c ↔ (p, c) ∈ D ∧ t.has p = true ∧ t.has c = true
  waiting : ∀ p c, (p, c) ∈ D → ¬ (t.has p = true ∧ t.has c = true) → (p, c) ∈ t.pending
  pending : ∀ r, r ∈ t.pending → r ∈ D

/-- Loop invariant for one addition. -/
structure DeclLoop (D pend0 : List (Id × Id)) (t0 t : Tree) : Prop where
  sub : ∀ p c, p ∈ t.rawParents c → (p, c) ∈ D
  kept : ∀ r ∈ pend0, r ∈ t.pending ∨ r.1 ∈ t.rawParents r.2
  old : ∀ p c, p ∈ t0.rawParents c → p ∈ t.rawParents c

/-- The graph of a list of relations, from child to parent. -/
def upOf (D : List (Id × Id)) (c : Id) : List Id := (D.filter (fun r => decide (r.2 = c))).map (·.1)

theorem mem_upOf (D : List (Id × Id)) (c p : Id) : p ∈ upOf D c ↔ (p, c) ∈ D := by
  unfold upOf
  simp only [List.mem_map, List.mem_filter, decide_eq_true_eq]
  constructor
  · rintro ⟨⟨a, b⟩, ⟨h1, h2⟩, h3⟩; simp at h2 h3; subst h2; subst h3; exact h1
  · intro h; exact ⟨(p, c), ⟨h, rfl⟩, rfl⟩

theorem not_circular {D : List (Id × Id)} {t : Tree} (hac : Acyclic (upOf D))
    (hsub : ∀ p c, p ∈ t.rawParents c → (p, c) ∈ D) {p c : Id} (h : (p, c) ∈ D) : ¬ ReachEq t.rawParents p c := by
  have hm : p ∈ upOf D c := (mem_upOf D c p).2 h
  rintro (rfl | hr)
  · exact hac p (Reach.single hm)
  · exact hac p ((hr.mono (fun a b hab => (mem_upOf D a b).2 (hsub b a hab))).trans (Reach.single hm))

theorem DeclLoop.create {D pend0 : List (Id × Id)} {t0 t t' : Tree} (h : DeclLoop D pend0 t0 t) {r : Id × Id}
    (hr : r ∈ D) (hc : t.create r.1 r.2 = some t') :
    DeclLoop D pend0 t0 { t' with pending := t'.pending.erase r } := by
  obtain ⟨-, -, ef⟩ := Tree.create_eq_some hc
  have hp : ∀ y q, q ∈ t'.rawParents y ↔ q ∈ t.rawParents y ∨ (q = r.1 ∧ y = r.2) := by
    intro y q
    rw [ef.parents]
    split
    · rename_i e; subst e; rw [mem_appendNew]; simp
    · rename_i e; simp [e]
  constructor
  · intro p c hpc
    rcases (hp c p).1 hpc with h1 | ⟨rfl, rfl⟩
    · exact h.sub p c h1
    · exact hr
  · intro q hq
    by_cases e : q = r
    · subst e; right; exact (hp _ _).2 (Or.inr ⟨rfl, rfl⟩)
    · rcases h.kept q hq with h1 | h1
      · left
        show q ∈ t'.pending.erase r
        rw [ef.pending]
        exact (List.mem_erase_of_ne e).2 h1
      · right; exact (hp _ _).2 (Or.inl h1)
  · intro p c hpc; exact (hp _ _).2 (Or.inl (h.old p c hpc))

theorem addNode_declared {s : St} {nd : Node} {parent : Id} {D D' : List (Id × Id)} (h : Good s.t)
    (hi : DeclInv D s.t) (hn : NoDangling s.t) (hf : FreshNode nd) (hx : s.t.has nd.id = false)
    (hid : GoodId nd.id) (hl : AddLinkable s.t nd parent)
    (hD : ∀ r, r ∈ D' ↔ r ∈ D ∨ r ∈ nd.pending ∨ (parent ≠ .none ∧ r = (parent, nd.id)))
    (hac : Acyclic (upOf D')) :
    ∃ s', addNode s nd parent = .ok s' ∧ DeclInv D' s'.t ∧ Good s'.t ∧
      ∀ y, s'.t.nodeAttrs y = (insertNode s.t nd).nodeAttrs y := by
  have hdang : ∀ q, nd.id ∉ s.t.rawChildren q := fun q hq => by
    have := hn q _ hq; rw [hx] at this; cases this
  have hw0 := h.wf.insertNode hf hx hid hdang
  have h0 : AddInv (insertNode s.t nd) nd.id (insertNode s.t nd).pending (insertNode s.t nd) true := by
    refine ⟨hw0, SameAttrs.refl _, ?_, ?_, fun r h => h, fun r _ => le_refl _, fun r h => h⟩
    · refine ⟨h.root.nodup, fun y => ?_⟩
      show y ∈ s.t.root.children ↔ _
      rw [h.root.mem, has_insertNode, rawParents_insertNode]
      by_cases e : y = nd.id
      · rw [e, hx]; simp
      · simp [e, noneOf]
    · simp [rawParents_insertNode, hf.parents]
  have hlink : ∀ r ∈ (insertNode s.t nd).pending, r.1 = nd.id ∨ r.2 = nd.id →
      (insertNode s.t nd).Linkable r.1 r.2 := by
    intro r hr hm
    exact hl.1 r.1 r.2 ((mem_mergePending _ _ _).1 hr) hm
  have hp0 : ∀ r ∈ (insertNode s.t nd).pending, r ∈ D' := by
    intro r hr
    rcases (mem_mergePending _ _ _).1 hr with hr | hr
    · exact (hD r).2 (Or.inl (hi.pending r hr))
    · exact (hD r).2 (Or.inr (Or.inl hr))
  have hraw0 : ∀ p c, p ∈ (insertNode s.t nd).rawParents c ↔ p ∈ s.t.rawParents c := by
    intro p c
    rw [rawParents_insertNode]
    split
    · rename_i e; subst e; rw [hf.parents, Tree.rawParents_of_absent hx]
    · rfl
  obtain ⟨t, b, -, hu, hxt, ⟨hinv, hd⟩, hend⟩ := addNode_spec s nd parent hf.parents h.wf.upInv hx
    (fun l t b => AddInv (insertNode s.t nd) nd.id l t b ∧ DeclLoop D' (insertNode s.t nd).pending (insertNode s.t nd) t)
    ⟨h0, ⟨fun p c hpc => (hD _).2 (Or.inl ((hi.edges p c).1 ((hraw0 p c).1 hpc)).1), fun r hr => Or.inl hr,
      fun p c h => h⟩⟩
    (by
      intro r l t b t' b' _ hx hi hs
      refine ⟨hi.1.step hlink hx hs, ?_⟩
      have hr : r ∈ D' := hp0 r (hi.1.todo r (by simp))
      cases hs with
      | skip => exact hi.2
      | drop l' _ hre _ => exact absurd hre (not_circular hac hi.2.sub hr)
      | asChild t2 _ _ _ hc => exact hi.2.create hr hc
      | asParent t2 _ _ _ hc => exact hi.2.create hr hc)
  have hhas : ∀ y, t.has y = (decide (y = nd.id) || s.t.has y) := by
    intro y; rw [hinv.same.has, has_insertNode]
  -- what holds after the loop, but for the parent argument
  have settled : ∀ p c, (p, c) ∈ (insertNode s.t nd).pending → t.has p = true → t.has c = true →
      p ∈ t.rawParents c := by
    intro p c hpc h1 h2
    rcases hd.kept (p, c) hpc with hk | hk
    · exfalso
      have hns : ¬ Settles t nd.id (p, c) := by
        intro hs
        have := hinv.left _ hs
        rw [List.count_nil] at this
        have := List.count_pos_iff.2 hk
        omega
      have hnp : p ≠ nd.id := fun e => hns (Or.inr ⟨e, h2⟩)
      have hnc : c ≠ nd.id := fun e => hns (Or.inl ⟨e, h1⟩)
      rw [hhas] at h1 h2
      simp [hnp] at h1
      simp [hnc] at h2
      rcases (mem_mergePending _ _ _).1 hpc with hm | hm
      · exact h.pend p c hm ⟨h1, h2⟩
      · rcases hf.pending _ hm with e | e
        · exact hnp e
        · exact hnc e
    · exact hk
  have keepOld : ∀ p c, p ∈ s.t.rawParents c → p ∈ t.rawParents c := fun p c hpc =>
    hd.old p c ((hraw0 p c).2 hpc)
  have fresh0 : ∀ r, r ∈ D → t.has r.1 = true → t.has r.2 = true → r.1 ∈ t.rawParents r.2 := by
    intro r hr h1 h2
    by_cases hb : s.t.has r.1 = true ∧ s.t.has r.2 = true
    · exact keepOld _ _ ((hi.edges r.1 r.2).2 ⟨hr, hb⟩)
    · exact settled r.1 r.2 ((mem_mergePending _ _ _).2 (Or.inl (hi.waiting r.1 r.2 hr hb))) h1 h2
  have pend1 : ∀ r, r ∈ D ∨ r ∈ nd.pending → ¬ (t.has r.1 = true ∧ t.has r.2 = true) → r ∈ t.pending := by
    intro r hr hnb
    have hm : r ∈ (insertNode s.t nd).pending := by
      rcases hr with hr | hr
      · refine (mem_mergePending _ _ _).2 (Or.inl (hi.waiting r.1 r.2 hr ?_))
        rintro ⟨h1, h2⟩
        exact hnb ⟨by rw [hhas, h1]; simp, by rw [hhas, h2]; simp⟩
      · exact (mem_mergePending _ _ _).2 (Or.inr hr)
    rcases hd.kept r hm with hk | hk
    · exact hk
    · exact absurd ⟨hinv.wf.has_parent hk, Tree.has_of_mem_rawParents hk⟩ hnb
  have edges1 : ∀ r, r ∈ D ∨ r ∈ nd.pending → t.has r.1 = true → t.has r.2 = true → r.1 ∈ t.rawParents r.2 := by
    rintro r (hr | hr) h1 h2
    · exact fresh0 r hr h1 h2
    · exact settled r.1 r.2 ((mem_mergePending _ _ _).2 (Or.inr hr)) h1 h2
  have hgood : (addNode s nd parent).isOk = true → Good (addNode s nd parent).state.t :=
    addNode_good h hf hx hid hdang hl
  have finRaw : ∀ log (t : Tree) b, (∀ y, (finishAdd log t b nd.id).t.rawParents y = t.rawParents y) ∧
      (∀ y, (finishAdd log t b nd.id).t.has y = t.has y) ∧ (finishAdd log t b nd.id).t.pending = t.pending ∧
      (∀ y, (finishAdd log t b nd.id).t.nodeAttrs y = t.nodeAttrs y) := by
    intro log t b
    cases b <;> exact ⟨fun _ => rfl, fun _ => rfl, rfl, fun _ => rfl⟩
  generalize addNode s nd parent = res at hend hgood
  cases hend with
  | noParent hpn =>
    obtain ⟨f1, f2, f3, f4⟩ := finRaw s.log t b
    refine ⟨_, rfl, ?_, hgood rfl, fun y => (f4 y).trans (hinv.same.attrs y)⟩
    constructor
    · intro p c
      rw [f1, f2, f2]
      constructor
      · intro hpc
        exact ⟨hd.sub p c hpc, hinv.wf.has_parent hpc, Tree.has_of_mem_rawParents hpc⟩
      · rintro ⟨h1, h2, h3⟩
        rcases (hD _).1 h1 with h1 | h1 | ⟨h1, -⟩
        · exact edges1 (p, c) (Or.inl h1) h2 h3
        · exact edges1 (p, c) (Or.inr h1) h2 h3
        · exact absurd hpn h1
    · intro p c h1 hnb
      rw [f2, f2] at hnb
      rw [f3]
      rcases (hD _).1 h1 with h1 | h1 | ⟨h1, -⟩
      · exact pend1 (p, c) (Or.inl h1) hnb
      · exact pend1 (p, c) (Or.inr h1) hnb
      · exact absurd hpn h1
    · intro r hr
      rw [f3] at hr
      exact hp0 r (hinv.sub r hr)
  | circular hpn hre => exact absurd hre (not_circular hac hd.sub ((hD _).2 (Or.inr (Or.inr ⟨hpn, rfl⟩))))
  | linked t' hpn hn hh hc =>
    obtain ⟨-, -, ef⟩ := Tree.create_eq_some hc
    obtain ⟨f1, f2, f3, f4⟩ := finRaw s.log t' false
    refine ⟨_, rfl, ?_, hgood rfl, fun y => (f4 y).trans ((ef.attrs y).trans (hinv.same.attrs y))⟩
    have hp : ∀ y q, q ∈ t'.rawParents y ↔ q ∈ t.rawParents y ∨ (q = parent ∧ y = nd.id) := by
      intro y q
      rw [ef.parents]
      split
      · rename_i e; subst e; rw [mem_appendNew]; simp
      · rename_i e; simp [e]
    constructor
    · intro p c
      rw [f1, f2, f2, hp, ef.has, ef.has]
      constructor
      · rintro (hpc | ⟨rfl, rfl⟩)
        · exact ⟨hd.sub p c hpc, hinv.wf.has_parent hpc, Tree.has_of_mem_rawParents hpc⟩
        · exact ⟨(hD _).2 (Or.inr (Or.inr ⟨hpn, rfl⟩)), hh, hxt⟩
      · rintro ⟨h1, h2, h3⟩
        rcases (hD _).1 h1 with h1 | h1 | ⟨-, h1⟩
        · exact Or.inl (edges1 (p, c) (Or.inl h1) h2 h3)
        · exact Or.inl (edges1 (p, c) (Or.inr h1) h2 h3)
        · simp at h1; exact Or.inr h1
    · intro p c h1 hnb
      rw [f2, f2, ef.has, ef.has] at hnb
      rw [f3, ef.pending]
      rcases (hD _).1 h1 with h1 | h1 | ⟨-, h1⟩
      · exact pend1 (p, c) (Or.inl h1) hnb
      · exact pend1 (p, c) (Or.inr h1) hnb
      · simp at h1; obtain ⟨rfl, rfl⟩ := h1; exact absurd ⟨hh, hxt⟩ hnb
    · intro r hr
      rw [f3, ef.pending] at hr
      exact hp0 r (hinv.sub r hr)
  | later hpn hn hh =>
    obtain ⟨f1, f2, f3, f4⟩ := finRaw s.log { t with pending := t.pending ++ [(parent, nd.id)] } b
    refine ⟨_, rfl, ?_, hgood rfl, fun y => (f4 y).trans (hinv.same.attrs y)⟩
    constructor
    · intro p c
      rw [f1, f2, f2]
      constructor
      · intro hpc
        have hpc : p ∈ t.rawParents c := hpc
        exact ⟨hd.sub p c hpc, hinv.wf.has_parent hpc, Tree.has_of_mem_rawParents hpc⟩
      · rintro ⟨h1, h2, h3⟩
        rcases (hD _).1 h1 with h1 | h1 | ⟨-, h1⟩
        · exact edges1 (p, c) (Or.inl h1) h2 h3
        · exact edges1 (p, c) (Or.inr h1) h2 h3
        · simp at h1; obtain ⟨rfl, rfl⟩ := h1
          have h2 : t.has p = true := h2
          rw [hh] at h2; cases h2
    · intro p c h1 hnb
      rw [f2, f2] at hnb
      rw [f3]
      rcases (hD _).1 h1 with h1 | h1 | ⟨-, h1⟩
      · exact List.mem_append_left _ (pend1 (p, c) (Or.inl h1) hnb)
      · exact List.mem_append_left _ (pend1 (p, c) (Or.inr h1) hnb)
      · rw [h1]; simp
    · intro r hr
      rw [f3] at hr
      rcases List.mem_append.1 hr with hr | hr
      · exact hp0 r (hinv.sub r hr)
      · simp at hr; exact (hD _).2 (Or.inr (Or.inr ⟨hpn, hr⟩))

/-- All nodes accept parents and children. -/
def EnabledInv (t : Tree) : Prop := ∀ x nd, t.node? x = some nd → nd.parentsEnabled = true ∧ nd.childrenEnabled = true

theorem EnabledInv.insertNode {t : Tree} (h : EnabledInv t) {nd : Node}
    (hnd : nd.parentsEnabled = true ∧ nd.childrenEnabled = true) : EnabledInv (Larch.insertNode t nd) := by
  intro x n hn
  rw [node?_insertNode] at hn
  split at hn
  · cases hn; exact hnd
  · exact h x n hn

theorem EnabledInv.attrs {t t' : Tree} (h : EnabledInv t) (ha : ∀ y, t'.nodeAttrs y = t.nodeAttrs y) : EnabledInv t' := by
  intro x nd hn
  have h1 := ha x
  unfold Tree.nodeAttrs at h1
  rw [hn] at h1
  cases h2 : t.node? x with
  | none => rw [h2] at h1; simp at h1
  | some nd0 =>
    rw [h2] at h1
    simp [Tree.attrs] at h1
    rw [h1.2.1, h1.2.2.1]; exact h x nd0 h2

theorem EnabledInv.linkable {t : Tree} (h : EnabledInv t) (p c : Id) : t.Linkable p c :=
  ⟨fun nd hn => (h p nd hn).2, fun nd hn => (h c nd hn).1⟩

/-- A sequence of additions of new nodes. -/
theorem addAll_declared : ∀ (adds : List (Node × Id)) (s : St) (D : List (Id × Id)), Good s.t → NoDangling s.t →
    EnabledInv s.t → DeclInv D s.t →
    (∀ a ∈ adds, FreshNode a.1 ∧ GoodId a.1.id ∧ a.1.parentsEnabled = true ∧ a.1.childrenEnabled = true) →
    (adds.map (fun a => a.1.id)).Nodup → (∀ a ∈ adds, s.t.has a.1.id = false) → Acyclic (upOf (D ++ declared adds)) →
    NoRaise s (adds.map fun a => .addNode a.1 a.2) ∧
      (∀ x, (runOps s (adds.map fun a => .addNode a.1 a.2)).t.has x = true ↔
        s.t.has x = true ∨ x ∈ adds.map (fun a => a.1.id)) ∧
      Good (runOps s (adds.map fun a => .addNode a.1 a.2)).t ∧
      DeclInv (D ++ declared adds) (runOps s (adds.map fun a => .addNode a.1 a.2)).t := by
  intro adds
  induction adds with
  | nil =>
    intro s D h _ _ hi _ _ _ _
    refine ⟨trivial, fun x => ?_, h, ?_⟩
    · simp [runOps]
    · simpa [declared, runOps] using hi
  | cons a adds ih =>
    intro s D h hn he hi hall hnd habs hac
    obtain ⟨nd, parent⟩ := a
    obtain ⟨hf, hid, hen⟩ := hall (nd, parent) (by simp)
    have hx : s.t.has nd.id = false := habs (nd, parent) (by simp)
    have hei := he.insertNode hen
    obtain ⟨s', e, hi', hg', ha'⟩ := addNode_declared (D' := D ++ (nd.pending ++ (if parent = .none then [] else [(parent, nd.id)])))
      h hi hn hf hx hid ⟨fun p c _ _ => hei.linkable p c, fun _ => hei.linkable _ _⟩ (by
        intro r
        simp only [List.mem_append]
        by_cases hp : parent = .none
        · simp only [hp, if_true, List.not_mem_nil]; tauto
        · simp only [hp, if_false, List.mem_singleton]; tauto)
      (hac.mono (by
        intro x y hy
        rw [mem_upOf] at hy ⊢
        unfold declared
        rcases List.mem_append.1 hy with hy | hy
        · exact List.mem_append_left _ hy
        · exact List.mem_append_right _ (List.mem_append_left _ hy)))
    have hstep : step s (.addNode nd parent) = .ok s' := e
    have hn' : NoDangling s'.t := by
      have := addNode_noDangling (parent := parent) h.wf.upInv hn hf.parents hf.children
      rwa [e] at this
    have hhas : ∀ y, s'.t.has y = (decide (y = nd.id) || s.t.has y) := by
      intro y
      have h1 := ha' y
      unfold Tree.nodeAttrs at h1
      have h2 : s'.t.has y = (insertNode s.t nd).has y := by
        rw [Tree.has_eq, Tree.has_eq]
        cases h3 : s'.t.node? y <;> cases h4 : (insertNode s.t nd).node? y <;> simp [h3, h4] at h1 ⊢
      rw [h2, has_insertNode]
    simp only [List.map_cons, List.nodup_cons] at hnd
    obtain ⟨r1, r2, r3, r4⟩ := ih s' (D ++ (nd.pending ++ (if parent = .none then [] else [(parent, nd.id)])))
      hg' hn' (hei.attrs ha') hi' (fun a ha => hall a (by simp [ha])) hnd.2 (by
        intro a ha
        rw [hhas]
        have h1 : a.1.id ≠ nd.id := by
          intro e; exact hnd.1 (List.mem_map.2 ⟨a, ha, e⟩)
        simp [h1, habs a (by simp [ha])]) (by
        unfold declared at hac
        simpa [List.append_assoc] using hac)
    have hrun : runOps s (((nd, parent) :: adds).map fun a => .addNode a.1 a.2) =
        runOps s' (adds.map fun a => .addNode a.1 a.2) := by
      rw [List.map_cons, runOps, hstep]; rfl
    rw [hrun]
    refine ⟨⟨by show (step s (.addNode nd parent)).isOk = true; rw [hstep]; rfl, by
      show NoRaise (step s (.addNode nd parent)).state _
      rw [hstep]; exact r1⟩, fun x => ?_, r3, ?_⟩
    · rw [r2, hhas]
      simp only [Bool.or_eq_true, decide_eq_true_eq, List.map_cons, List.mem_cons]
      tauto
    · unfold declared
      simpa [List.append_assoc] using r4

end Larch
