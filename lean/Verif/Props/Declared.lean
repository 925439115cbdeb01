import Verif.Proofs.Declared
import Verif.Props.Consistency

/-! # C06: relations declared before both ends exist -/

namespace Larch

open Graph Spec

/-- C06: the nodes may be added in any order and may declare parents and children that do not exist yet, as
long as the declared relations have no cycle (and the flags are on). Then no addition raises, the added nodes are
the nodes of the tree, and after every addition the relations are exactly the declared ones between existing
nodes (`adds` is any such sequence, so also any beginning of a longer one). -/
theorem C06_late_relations (adds : List (Node × Id))
    (hmade : ∀ a ∈ adds, Made a.1 ∧ a.1.parentsEnabled = true ∧ a.1.childrenEnabled = true)
    (hids : ∀ a ∈ adds, a.1.id.falsy = false ∧ a.1.id ≠ rootId)
    (hdiff : (adds.map fun a => a.1.id).Nodup)
    (hac : ∀ x, ¬ Relation.TransGen (fun c p => (p, c) ∈ declared adds) x x) :
    NoRaise St.init (adds.map fun a => .addNode a.1 a.2) ∧
    (∀ x, (runOps St.init (adds.map fun a => .addNode a.1 a.2)).t.has x = true ↔ ∃ a ∈ adds, a.1.id = x) ∧
    (∀ p c, IsParent (runOps St.init (adds.map fun a => .addNode a.1 a.2)).t p c ↔
      (p, c) ∈ declared adds ∧ (∃ a ∈ adds, a.1.id = p) ∧ (∃ a ∈ adds, a.1.id = c)) ∧
    (∀ p c, IsChild (runOps St.init (adds.map fun a => .addNode a.1 a.2)).t p c ↔
      (p, c) ∈ declared adds ∧ (∃ a ∈ adds, a.1.id = p) ∧ (∃ a ∈ adds, a.1.id = c)) := by
  have hi : DeclInv [] St.init.t := by
    refine ⟨fun p c => ?_, ?_, ?_⟩
    · constructor
      · intro h; cases h
      · rintro ⟨h, -⟩; cases h
    · intro p c h; cases h
    · intro r h; cases h
  obtain ⟨h1, h2, h3, h4⟩ := addAll_declared adds St.init [] init_good init_noDangling (by intro x nd h; cases h) hi
    (fun a ha => ⟨(hmade a ha).1.fresh, hids a ha, (hmade a ha).2⟩) hdiff (fun _ _ => rfl) (by
      intro x hx
      refine hac x (Relation.TransGen.mono (fun a b hab => ?_) x x hx)
      simpa using (mem_upOf _ _ _).1 hab)
  have hh : ∀ x, (runOps St.init (adds.map fun a => .addNode a.1 a.2)).t.has x = true ↔ ∃ a ∈ adds, a.1.id = x := by
    intro x
    rw [h2, List.mem_map]
    constructor
    · rintro (h | h)
      · cases h
      · exact h
    · exact Or.inr
  refine ⟨h1, hh, fun p c => ?_, fun p c => ?_⟩
  · rw [h3.wf.isParent, h4.edges, hh, hh]; rfl
  · rw [h3.wf.isChild, h4.edges, hh, hh]; rfl

theorem mem_declared (adds : List (Node × Id)) (r : Id × Id) :
    r ∈ declared adds ↔ ∃ a ∈ adds, r ∈ a.1.pending ∨ (a.2 ≠ .none ∧ r = (a.2, a.1.id)) := by
  induction adds with
  | nil => simp [declared]
  | cons a l ih =>
    obtain ⟨nd, p⟩ := a
    simp only [declared, List.mem_append, ih, List.mem_cons, exists_eq_or_imp]
    by_cases hp : p = .none
    · simp [hp]
    · simp [hp]

/-- C06: the order of the additions does not matter for who is parent of whom. -/
theorem C06_any_order (adds adds' : List (Node × Id)) (hperm : adds.Perm adds')
    (hmade : ∀ a ∈ adds, Made a.1 ∧ a.1.parentsEnabled = true ∧ a.1.childrenEnabled = true)
    (hids : ∀ a ∈ adds, a.1.id.falsy = false ∧ a.1.id ≠ rootId)
    (hdiff : (adds.map fun a => a.1.id).Nodup)
    (hac : ∀ x, ¬ Relation.TransGen (fun c p => (p, c) ∈ declared adds) x x) (p c : Id) :
    NoRaise St.init (adds'.map fun a => .addNode a.1 a.2) ∧
    ((runOps St.init (adds'.map fun a => .addNode a.1 a.2)).t.has p =
      (runOps St.init (adds.map fun a => .addNode a.1 a.2)).t.has p) ∧
    (IsParent (runOps St.init (adds'.map fun a => .addNode a.1 a.2)).t p c ↔
      IsParent (runOps St.init (adds.map fun a => .addNode a.1 a.2)).t p c) := by
  have hm : ∀ a, a ∈ adds' ↔ a ∈ adds := fun a => hperm.mem_iff.symm
  have hd : ∀ r, r ∈ declared adds' ↔ r ∈ declared adds := by
    intro r; rw [mem_declared, mem_declared]; simp only [hm]
  obtain ⟨-, a2, a3, -⟩ := C06_late_relations adds hmade hids hdiff hac
  obtain ⟨b1, b2, b3, -⟩ := C06_late_relations adds' (fun a ha => hmade a ((hm a).1 ha))
    (fun a ha => hids a ((hm a).1 ha)) ((hperm.map _).nodup_iff.1 hdiff) (by
      intro x hx
      exact hac x (Relation.TransGen.mono (fun a b hab => (hd _).1 hab) x x hx))
  refine ⟨b1, ?_, ?_⟩
  · rw [Bool.eq_iff_iff, a2, b2]; simp only [hm]
  · rw [a3, b3, hd]; simp only [hm]

/-- Three nodes; the first declares a parent and a child that come later, and a parent that never comes. -/
def lateAdds : List (Node × Id) :=
  [ ((Node.new (.str 2) (.str 1)).detachedAddChild (.str 3), .str 9),
    (Node.new (.str 3) .none, .str 1),
    (Node.new (.str 1) .none, .none) ]

example : (∀ a ∈ lateAdds, Made a.1 ∧ a.1.parentsEnabled = true ∧ a.1.childrenEnabled = true) ∧
    (∀ a ∈ lateAdds, a.1.id.falsy = false ∧ a.1.id ≠ rootId) ∧ (lateAdds.map fun a => a.1.id).Nodup ∧
    (∀ x, ¬ Relation.TransGen (fun c p => (p, c) ∈ declared lateAdds) x x) ∧
    IsParent (runOps St.init (lateAdds.map fun a => .addNode a.1 a.2)).t (.str 1) (.str 2) ∧
    IsParent (runOps St.init (lateAdds.map fun a => .addNode a.1 a.2)).t (.str 2) (.str 3) ∧
    ¬ IsParent (runOps St.init (lateAdds.map fun a => .addNode a.1 a.2)).t (.str 9) (.str 2) := by
  refine ⟨?_, by decide, by decide, ?_, by decide, by decide, by decide⟩
  · intro a ha
    simp only [lateAdds, List.mem_cons, List.not_mem_nil, or_false] at ha
    rcases ha with rfl | rfl | rfl
    · exact ⟨Made.addChild (.str 3) (Made.new (.str 2) (.str 1)), by decide⟩
    · exact ⟨Made.new (.str 3) .none, by decide⟩
    · exact ⟨Made.new (.str 1) .none, by decide⟩
  · intro x hx
    have hlt : ∀ a b, Relation.TransGen (fun c p => (p, c) ∈ declared lateAdds) a b →
        (if b = .str 3 then 3 else if b = .str 2 then 2 else if b = .str 1 then 1 else 0) <
        (if a = .str 3 then 3 else if a = .str 2 then 2 else if a = .str 1 then 1 else 0) := by
      intro a b h
      have one : ∀ c p, (p, c) ∈ declared lateAdds →
        (if p = .str 3 then 3 else if p = .str 2 then 2 else if p = .str 1 then 1 else 0) <
        (if c = .str 3 then 3 else if c = .str 2 then 2 else if c = .str 1 then 1 else 0) := by
        intro c p hcp
        have : declared lateAdds = [(.str 1, .str 2), (.str 2, .str 3), (.str 9, .str 2), (.str 1, .str 3)] := by decide
        rw [this] at hcp
        simp only [List.mem_cons, List.not_mem_nil, or_false, Prod.mk.injEq] at hcp
        rcases hcp with ⟨rfl, rfl⟩ | ⟨rfl, rfl⟩ | ⟨rfl, rfl⟩ | ⟨rfl, rfl⟩ <;> decide
      induction h with
      | single h => exact one _ _ h
      | tail _ h ih => exact lt_trans (one _ _ h) ih
    exact lt_irrefl _ (hlt x x hx)

end Larch
