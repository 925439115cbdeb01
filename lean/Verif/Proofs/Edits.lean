import Verif.Proofs.WF

/-!
# The edits of relations on consistent trees: exact outcomes
-/

namespace Larch

open Graph

/-! ### Equalities between mutations -/

theorem Tree.updNode_congr (t : Tree) (x : Id) (f g : Node → Node)
    (h : ∀ nd, t.node? x = some nd → f nd = g nd) : t.updNode x f = t.updNode x g := by
  unfold Tree.updNode Dict.modify
  cases hn : t.nodes.get? x with
  | none => rfl
  | some nd => dsimp only; rw [h nd hn]

theorem Tree.updNode_id (t : Tree) (x : Id) (f : Node → Node)
    (h : ∀ nd, t.node? x = some nd → f nd = nd) : t.updNode x f = t := by
  unfold Tree.updNode
  rw [Dict.modify_self _ _ _ h]

theorem Tree.updNode_updNode (t : Tree) (x : Id) (f g : Node → Node) :
    (t.updNode x f).updNode x g = t.updNode x (fun nd => g (f nd)) := by
  unfold Tree.updNode
  simp only [Dict.modify_modify]

theorem Tree.updNode_comm (t : Tree) (x y : Id) (f g : Node → Node) (hxy : x ≠ y) :
    (t.updNode x f).updNode y g = (t.updNode y g).updNode x f := by
  unfold Tree.updNode
  simp only [Dict.modify_comm _ _ _ _ _ hxy]

theorem Tree.destroy_noop {t : Tree} {p c : Id} (hp : t.has p = true) (hc : t.has c = true)
    (h1 : p ∉ t.rawParents c) (h2 : c ∉ t.rawChildren p) : t.destroy p c = some t := by
  unfold Tree.destroy
  rw [if_pos ⟨hp, hc⟩]
  have e1 : t.updNode p (fun nd => { nd with children := nd.children.erase c }) = t := by
    apply Tree.updNode_id
    intro nd hnd
    rw [Tree.rawChildren_of_node hnd] at h2
    rw [List.erase_of_not_mem h2]
  dsimp only
  rw [e1, Tree.updNode_id]
  intro nd hnd
  rw [Tree.rawParents_of_node hnd] at h1
  rw [List.erase_of_not_mem h1]

/-! ### `_new_relationship` -/

theorem newRelationship_skip (s : St) {p c : Id} (h : p.falsy = true ∨ c.falsy = true ∨ p = c) :
    newRelationship s p c = .ok (s.mapTree fun t => { t with pending := t.pending.erase (p, c) }) := by
  unfold newRelationship
  dsimp only
  rw [if_pos]
  simp only [Bool.or_eq_true, decide_eq_true_eq]
  tauto

theorem newRelationship_later (s : St) {p c : Id} (hp : p.falsy = false) (hc : c.falsy = false)
    (hpc : p ≠ c) (h : ¬ (s.t.has p = true ∧ s.t.has c = true)) :
    newRelationship s p c =
      .ok (s.mapTree fun t => { t with pending := t.pending.erase (p, c) ++ [(p, c)] }) := by
  unfold newRelationship
  dsimp only
  rw [if_neg (by simp [hp, hc, hpc]), if_pos]
  · rfl
  · show (!s.t.has p || !s.t.has c) = true
    revert h; cases s.t.has p <;> cases s.t.has c <;> simp

theorem PendOK.erase {t : Tree} (h : PendOK t) {p c : Id} (hp : t.has p = true) (hc : t.has c = true) :
    t.pending.erase (p, c) = t.pending :=
  List.erase_of_not_mem (fun hm => h p c hm ⟨hp, hc⟩)

/-- A circular relation is refused and nothing has changed. -/
theorem newRelationship_refused {s : St} (h : WF s.t) (hpend : PendOK s.t) {p c : Id} (hpc : p ≠ c)
    (hp : s.t.has p = true) (hc : s.t.has c = true) (hre : ReachEq s.t.rawParents p c) :
    newRelationship s p c = .err .circular s := by
  have hr : Reach s.t.rawParents p c := hre.resolve_left hpc
  have h1 : p ∉ s.t.rawParents c := fun hm => h.acyclic p (hr.trans (Reach.single hm))
  have h2 : c ∉ s.t.rawChildren p := fun hm => h1 (h.down p c hm hc)
  have e : (s.mapTree fun t => { t with pending := t.pending.erase (p, c) }) = s := by
    unfold St.mapTree
    dsimp only
    rw [hpend.erase hp hc]
  unfold newRelationship
  rw [e]
  dsimp only
  rw [if_neg (by simp [(h.ids p hp).1, (h.ids c hc).1, hpc]), if_neg (by simp [hp, hc]),
    Tree.isCircular_true h.acyclic hre, Tree.destroy_noop hp hc h1 h2]

/-- A non-circular relation is created. -/
theorem newRelationship_linked {s : St} (h : WF s.t) (hroot : RootOK s.t noneOf) (hpend : PendOK s.t)
    {p c : Id} (hp : s.t.has p = true) (hc : s.t.has c = true) (hre : ¬ ReachEq s.t.rawParents p c) :
    ∃ t', s.t.create p c = some t' ∧
      newRelationship s p c = .ok (((⟨t', s.log⟩ : St).emit .modified p).emit .modified c) := by
  have hpc : p ≠ c := fun e => hre (Or.inl e)
  have e : (s.mapTree fun t => { t with pending := t.pending.erase (p, c) }) = s := by
    unfold St.mapTree
    dsimp only
    rw [hpend.erase hp hc]
  obtain ⟨t', ht', ef⟩ := Tree.create_spec hp hc
  refine ⟨t', ht', ?_⟩
  unfold newRelationship
  rw [e]
  dsimp only
  rw [if_neg (by simp [(h.ids p hp).1, (h.ids c hc).1, hpc]), if_neg (by simp [hp, hc]),
    Tree.isCircular_false h.acyclic hre]
  dsimp only
  rw [ht']
  dsimp only
  rw [(hroot.create ht').erase_child]
  rw [ef.parents, if_pos rfl]
  exact List.ne_nil_of_mem ((mem_appendNew _ _ _).2 (Or.inr rfl))

theorem Good.create {t t' : Tree} (h : Good t) {p c : Id} (hc : t.create p c = some t')
    (hn : ¬ ReachEq t.rawParents p c) (hl : t.Linkable p c) : Good t' :=
  ⟨h.wf.create hc hn hl, h.root.create hc, (Tree.create_eq_some hc).2.2.pendOK h.pend⟩

theorem Good.pending {t : Tree} (h : Good t) (l : List (Id × Id))
    (hl : ∀ p c, (p, c) ∈ l → ¬ (t.has p = true ∧ t.has c = true)) : Good { t with pending := l } :=
  ⟨h.wf.pending l, h.root.congr rfl rfl, hl⟩

theorem newRelationship_good {s : St} (h : Good s.t) (p c : Id) (hl : s.t.Linkable p c) :
    Good (newRelationship s p c).state.t := by
  by_cases h1 : p.falsy = true ∨ c.falsy = true ∨ p = c
  · rw [newRelationship_skip s h1]
    exact h.pending _ (fun a b hab => h.pend a b (List.mem_of_mem_erase hab))
  · push Not at h1
    have hp1 : p.falsy = false := by simpa using h1.1
    have hc1 : c.falsy = false := by simpa using h1.2.1
    by_cases h2 : s.t.has p = true ∧ s.t.has c = true
    · by_cases hre : ReachEq s.t.rawParents p c
      · rw [newRelationship_refused h.wf h.pend h1.2.2 h2.1 h2.2 hre]; exact h
      · obtain ⟨t', ht', e⟩ := newRelationship_linked h.wf h.root h.pend h2.1 h2.2 hre
        rw [e]; exact h.create ht' hre hl
    · rw [newRelationship_later s hp1 hc1 h1.2.2 h2]
      refine h.pending _ (fun a b hab => ?_)
      rcases List.mem_append.1 hab with hab | hab
      · exact h.pend a b (List.mem_of_mem_erase hab)
      · simp at hab; obtain ⟨rfl, rfl⟩ := hab; exact h2

/-! ### `_break_relationship` -/

theorem foldl_erase_sub {α : Type} [BEq α] [LawfulBEq α] (q : α → Prop) [DecidablePred q] (l acc : List α) :
    ∀ r, r ∈ l.foldl (fun acc r => if q r then acc.erase r else acc) acc → r ∈ acc := by
  induction l generalizing acc with
  | nil => intro r hr; exact hr
  | cons a l ih =>
    intro r hr
    rw [List.foldl_cons] at hr
    have := ih _ r hr
    split at this
    · exact List.mem_of_mem_erase this
    · exact this

theorem dropPending_sub (l : List (Id × Id)) (p c : Id) : ∀ r, r ∈ dropPending l p c → r ∈ l :=
  foldl_erase_sub (fun r : Id × Id => r.1 = p ∧ r.2 = c) l l

theorem foldl_erase_none {α : Type} [BEq α] [LawfulBEq α] (q : α → Prop) [DecidablePred q] (l acc : List α)
    (h : ∀ r ∈ l, ¬ q r) : l.foldl (fun acc r => if q r then acc.erase r else acc) acc = acc := by
  induction l generalizing acc with
  | nil => rfl
  | cons a l ih =>
    rw [List.foldl_cons, if_neg (h a (by simp))]
    exact ih acc (fun r hr => h r (by simp [hr]))

theorem PendOK.dropPending {t : Tree} (h : PendOK t) {p c : Id} (hp : t.has p = true) (hc : t.has c = true) :
    dropPending t.pending p c = t.pending := by
  apply foldl_erase_none (fun r : Id × Id => r.1 = p ∧ r.2 = c)
  rintro ⟨a, b⟩ hr ⟨h1, h2⟩
  dsimp only at h1 h2
  subst h1; subst h2
  exact h a b hr ⟨hp, hc⟩

theorem WF.not_has_root {t : Tree} (h : WF t) : t.has rootId = false := by
  by_contra hh
  exact (h.ids rootId (by simpa using hh)).2 rfl

/-- The tree after `self.root.add_child(c)` for a parentless node that is off the root list. -/
def attachRoot (t : Tree) (c : Id) : Tree :=
  { t.updRoot (fun l => l ++ [c]) with pending := t.pending.erase (rootId, c) ++ [(rootId, c)] }

theorem rootAddChild_attach {s : St} (h : WF s.t) {c : Id} {nd : Node} (hc : s.t.node? c = some nd)
    (hf : nd.parentsEnabled = true) (hn : c ∉ s.t.root.children) :
    rootAddChild s c = .ok ⟨attachRoot s.t c, s.log⟩ := by
  have hh : s.t.has c = true := (Tree.has_iff _ _).2 ⟨nd, hc⟩
  have hcr : c ≠ rootId := (h.ids c hh).2
  unfold rootAddChild
  rw [if_pos ⟨h.rootKids, by rw [h.rootIs]; exact hcr⟩, if_pos hn, hc]
  dsimp only
  rw [if_pos hf, h.rootIs, newRelationship_later _ rfl (h.ids c hh).1 (Ne.symm hcr)]
  · rfl
  · intro hx
    have := hx.1
    simp only [St.mapTree, Tree.has_updRoot, h.not_has_root] at this
    cases this

theorem WF.getParents_eq {t : Tree} (h : WF t) (x : Id) : t.getParents x = t.rawParents x := by
  unfold Tree.getParents Tree.rawParents
  cases hn : t.node? x with
  | none => rfl
  | some nd =>
    simp only [Option.map_some, Option.getD_some]
    unfold Tree.parentsOf
    rw [(h.self x nd hn).2]
    cases hf : nd.parentsEnabled with
    | false => simp [h.flagP x nd hn hf]
    | true =>
      simp only [Bool.and_self, if_true]
      rw [List.filter_eq_self]
      intro p hp
      exact h.has_parent (c := x) (by rw [Tree.rawParents_of_node hn]; exact hp)

theorem WF.getChildren_eq {t : Tree} (h : WF t) (x : Id) :
    t.getChildren x = (t.rawChildren x).filter t.has := by
  unfold Tree.getChildren Tree.rawChildren
  cases hn : t.node? x with
  | none => rfl
  | some nd =>
    simp only [Option.map_some, Option.getD_some]
    unfold Tree.childrenOf
    rw [(h.self x nd hn).2]
    cases hf : nd.childrenEnabled with
    | false =>
      simp only [Bool.false_and, Bool.false_eq_true, if_false]
      symm
      rw [List.filter_eq_nil_iff]
      intro c hc
      simp [h.flagC x nd hn hf c hc]
    | true => simp

theorem WF.mem_getChildren {t : Tree} (h : WF t) (p c : Id) : c ∈ t.getChildren p ↔ p ∈ t.rawParents c := by
  rw [h.getChildren_eq, List.mem_filter]
  constructor
  · rintro ⟨h1, h2⟩; exact h.down p c h1 h2
  · intro hp; exact ⟨h.up p c hp, Tree.has_of_mem_rawParents hp⟩

/-- Effect of breaking a relation between existing nodes. -/
structure BreakEffect (t t' : Tree) (p c : Id) : Prop where
  has : ∀ y, t'.has y = t.has y
  keys : t'.nodes.keys = t.nodes.keys
  attrs : ∀ y, t'.nodeAttrs y = t.nodeAttrs y
  parents : ∀ y, t'.rawParents y = if y = c then (t.rawParents c).erase p else t.rawParents y
  children : ∀ y, t'.rawChildren y = if y = p then (t.rawChildren p).erase c else t.rawChildren y
  rootIs : t'.root.children = if t.rawParents c = [p] then t.root.children ++ [c] else t.root.children
  pending : t'.pending = if t.rawParents c = [p] then t.pending.erase (rootId, c) ++ [(rootId, c)] else t.pending

theorem erase_eq_nil {l : List Id} {p : Id} (h : l ≠ []) (he : l.erase p = []) : l = [p] := by
  cases l with
  | nil => exact absurd rfl h
  | cons a l =>
    rw [List.erase_cons] at he
    split at he
    · rename_i hap; simp at hap; subst hap; rw [he]
    · cases he

theorem breakRelationship_spec {s : St} (h : Good s.t) {p c : Id} (hp : s.t.has p = true)
    (hc : s.t.has c = true) (hpc : p ≠ c) :
    ∃ t', breakRelationship s p c = .ok (((⟨t', s.log⟩ : St).emit .modified p).emit .modified c) ∧
      Good t' ∧ BreakEffect s.t t' p c := by
  have e : (s.mapTree fun t => { t with pending := dropPending t.pending p c }) = s := by
    unfold St.mapTree
    dsimp only
    rw [h.pend.dropPending hp hc]
  obtain ⟨t2, ht2, ef⟩ := Tree.destroy_spec hp hc
  have hw2 : WF t2 := h.wf.destroy ht2
  have hr2 := h.root.destroy ht2
  have hp2 := ef.pendOK h.pend
  have key : breakRelationship s p c =
      (if t2.getParents c = [] then rootAddChild ⟨t2, s.log⟩ c else .ok ⟨t2, s.log⟩).andThen
        fun s3 => .ok ((s3.emit .modified p).emit .modified c) := by
    unfold breakRelationship
    rw [e]
    dsimp only
    rw [if_neg (by simp [(h.wf.ids p hp).1, (h.wf.ids c hc).1, hpc]), if_neg (by simp [hp, hc]), ht2]
  rw [hw2.getParents_eq] at key
  by_cases hlast : s.t.rawParents c = [p]
  · have hnil : t2.rawParents c = [] := by rw [ef.parents, if_pos rfl, hlast]; simp
    obtain ⟨nd, hnd⟩ := (Tree.has_iff t2 c).1 (by rw [ef.has]; exact hc)
    have hcroot : c ∉ t2.root.children := by
      rw [hr2.mem]; simp [hnil, hlast]
    have hf : nd.parentsEnabled = true := by
      obtain ⟨nd0, h0, ha, -, -, h1, -⟩ := ef.same.node hnd
      simp only [Tree.attrs, Prod.mk.injEq] at ha
      rw [ha.2.1]
      by_contra hf
      have := h.wf.flagP c nd0 h0 (by simpa using hf)
      rw [h1, hlast] at this; cases this
    rw [if_pos hnil, rootAddChild_attach (s := ⟨t2, s.log⟩) hw2 hnd hf hcroot] at key
    refine ⟨attachRoot t2 c, key, ?_, ?_⟩
    · refine ⟨(hw2.updRoot _).pending _, ?_, ?_⟩
      · have := hr2.append (by rw [ef.has]; exact hc) hnil (Or.inr ⟨rfl, by simp [hlast], hnil⟩)
        refine RootOK.congr (RootOK.weaken this ?_) rfl rfl
        intro x _ _
        simp only [noneOf, iff_false]
        rintro ⟨h1, h2⟩
        rcases h1 with h1 | h1
        · exact h1
        · exact h2 h1.1
      · intro a b hab
        show ¬ (t2.has a = true ∧ t2.has b = true)
        rcases List.mem_append.1 hab with hab | hab
        · exact hp2 a b (List.mem_of_mem_erase hab)
        · simp at hab
          obtain ⟨rfl, rfl⟩ := hab
          simp [hw2.not_has_root]
    · constructor
      · exact ef.has
      · exact ef.keys
      · exact ef.attrs
      · exact ef.parents
      · exact ef.children
      · rw [if_pos hlast]; show t2.root.children ++ [c] = _; rw [ef.root]
      · rw [if_pos hlast]; show t2.pending.erase _ ++ _ = _; rw [ef.pending]
  · have good2 : Good t2 := by
      refine ⟨hw2, hr2.weaken ?_, hp2⟩
      intro x _ _
      simp only [noneOf, iff_false]
      rintro (h1 | ⟨rfl, h2, h3⟩)
      · exact h1
      · rw [ef.parents, if_pos rfl] at h3
        exact hlast (erase_eq_nil h2 h3)
    refine ⟨t2, ?_, good2, ?_⟩
    · by_cases hnil : t2.rawParents c = []
      · have : c ∈ t2.root.children := by
          rw [good2.root.mem, ef.has]; exact ⟨hc, hnil, fun h => h⟩
        rw [if_pos hnil] at key
        rw [key]
        unfold rootAddChild
        rw [if_pos ⟨hw2.rootKids, by rw [hw2.rootIs]; exact (h.wf.ids c hc).2⟩, if_neg (by simpa using this)]
        rfl
      · rw [if_neg hnil] at key; exact key
    · constructor
      · exact ef.has
      · exact ef.keys
      · exact ef.attrs
      · exact ef.parents
      · exact ef.children
      · rw [if_neg hlast, ef.root]
      · rw [if_neg hlast, ef.pending]

theorem breakRelationship_skip (s : St) {p c : Id}
    (h : p.falsy = true ∨ c.falsy = true ∨ p = c ∨ s.t.has p = false ∨ s.t.has c = false) :
    breakRelationship s p c = .ok (s.mapTree fun t => { t with pending := dropPending t.pending p c }) := by
  unfold breakRelationship
  dsimp only
  by_cases h1 : (p.falsy || c.falsy || decide (p = c)) = true
  · rw [if_pos h1]
  · rw [if_neg h1, if_pos]
    show (!s.t.has p || !s.t.has c) = true
    simp only [Bool.or_eq_true, decide_eq_true_eq] at h1
    push Not at h1
    rcases h with h | h | h | h | h
    · exact absurd h h1.1.1
    · exact absurd h h1.1.2
    · exact absurd h h1.2
    · simp [h]
    · simp [h]

theorem breakRelationship_good {s : St} (h : Good s.t) (p c : Id) :
    ∃ s', breakRelationship s p c = .ok s' ∧ Good s'.t := by
  by_cases h1 : p.falsy = true ∨ c.falsy = true ∨ p = c ∨ s.t.has p = false ∨ s.t.has c = false
  · refine ⟨_, breakRelationship_skip s h1, h.pending _ ?_⟩
    intro a b hab
    exact h.pend a b (dropPending_sub _ _ _ _ hab)
  · push Not at h1
    obtain ⟨t', e, hg, -⟩ := breakRelationship_spec h (by simpa using h1.2.2.2.1) (by simpa using h1.2.2.2.2) h1.2.2.1
    exact ⟨_, e, hg⟩

end Larch
