import Verif.Proofs.Growing
import Verif.Props.Declared
import Verif.Props.Consistency

/-!
# C46: relations may be asked for at any time and in any way
-/

namespace Larch

open Graph Spec

/-- C46: nodes are added and relations asked for in any order: with the node object, as the parent argument, with
`add_parent` and `add_child` of a node that is there, and with `new_relationship` between any ids. If all that was asked for
has no cycle, no call raises, the relations of the tree are exactly those between nodes that are there, and the other ones
wait. -/
theorem C46_growing (gs : List Grow) (hok : GrowOK [] gs)
    (hac : ∀ x, ¬ Relation.TransGen (fun c p => ∃ g ∈ gs, (p, c) ∈ g.says) x x) (t : Tree)
    (ht : t = (runOps St.init (gs.map Grow.op)).t) :
    NoRaise St.init (gs.map Grow.op) ∧
    (∀ x, t.has x = true ↔ ∃ g ∈ gs, x ∈ g.brings) ∧
    (∀ p c, IsParent t p c ↔ (∃ g ∈ gs, (p, c) ∈ g.says) ∧ t.has p = true ∧ t.has c = true) ∧
    (∀ p c, IsChild t p c ↔ IsParent t p c) ∧
    (∀ p c, (p, c) ∈ t.pending ↔ (∃ g ∈ gs, (p, c) ∈ g.says) ∧ ¬ (t.has p = true ∧ t.has c = true)) ∧
    TopLevel t := by
  subst ht
  have hi : GrowInv [] [] St.init.t := by
    refine ⟨init_good, init_noDangling, fun x nd h => (by cases h), ⟨fun p c => ?_, ?_, ?_⟩, fun x => ?_⟩
    · constructor
      · intro h; cases h
      · rintro ⟨h, -⟩; cases h
    · intro p c h; cases h
    · intro r h; cases h
    · constructor
      · intro h; cases h
      · intro h; cases h
  obtain ⟨h1, h2⟩ := grow_run gs [] [] St.init hi hok (by
    intro x hx
    refine hac x (Relation.TransGen.mono (fun a b hab => ?_) x x hx)
    have := (mem_upOf _ _ _).1 hab
    simpa [List.mem_flatMap] using this)
  generalize (runOps St.init (gs.map Grow.op)).t = t at h2
  have hD : ∀ r, r ∈ [] ++ gs.flatMap Grow.says ↔ ∃ g ∈ gs, r ∈ g.says := fun r => by simp [List.mem_flatMap]
  have hpar : ∀ p c, IsParent t p c ↔ (∃ g ∈ gs, (p, c) ∈ g.says) ∧ t.has p = true ∧ t.has c = true := fun p c => by
    rw [h2.good.wf.isParent, h2.decl.edges, hD]
  refine ⟨h1, fun x => ?_, hpar, fun p c => h2.good.wf.agree.mirror p c, fun p c => ?_, h2.good.topLevel⟩
  · rw [h2.nodes]; simp [List.mem_flatMap]
  · constructor
    · intro h; exact ⟨(hD _).1 (h2.decl.pending _ h), h2.good.pend p c h⟩
    · rintro ⟨h, hn⟩; exact h2.decl.waiting p c ((hD _).2 h) hn

/-- C46: the order of the calls does not matter. -/
theorem C46_any_order (gs gs' : List Grow) (hperm : gs.Perm gs') (hok : GrowOK [] gs) (hok' : GrowOK [] gs')
    (hac : ∀ x, ¬ Relation.TransGen (fun c p => ∃ g ∈ gs, (p, c) ∈ g.says) x x) (p c : Id) :
    ((runOps St.init (gs'.map Grow.op)).t.has p = (runOps St.init (gs.map Grow.op)).t.has p) ∧
    (IsParent (runOps St.init (gs'.map Grow.op)).t p c ↔ IsParent (runOps St.init (gs.map Grow.op)).t p c) := by
  have hm : ∀ {P : Grow → Prop}, (∃ g ∈ gs', P g) ↔ ∃ g ∈ gs, P g := fun {P} => by
    simp only [hperm.mem_iff]
  obtain ⟨-, a2, a3, -⟩ := C46_growing gs hok hac _ rfl
  obtain ⟨-, b2, b3, -⟩ := C46_growing gs' hok' (fun x hx => hac x (Relation.TransGen.mono (fun a b hab => hm.1 hab) x x hx)) _ rfl
  have hh : ∀ x, (runOps St.init (gs'.map Grow.op)).t.has x = (runOps St.init (gs.map Grow.op)).t.has x := fun x => by
    rw [Bool.eq_iff_iff, a2, b2]; exact hm
  refine ⟨hh p, ?_⟩
  rw [a3, b3, hh, hh, hm]

/-- Node 1 asks for the parent 2 and the child 3 before they are there, 2–3 is asked for before 3 is there, and 4–5 before
either is; 5 never comes. -/
def growing : List Grow :=
  [ .add (Node.new (.str 1) .none) .none, .parent (.str 1) (.str 2), .child (.str 1) (.str 3), .relation (.str 4) (.str 5),
    .add (Node.new (.str 2) .none) .none, .relation (.str 2) (.str 3), .add (Node.new (.str 3) .none) .none,
    .add (Node.new (.str 4) .none) (.str 3), .child (.str 2) (.str 4) ]

theorem growing_acyclic (x : Id) : ¬ Relation.TransGen (fun c p => ∃ g ∈ growing, (p, c) ∈ g.says) x x := by
  let r : Id → Nat := fun x => if x = .str 2 then 0 else if x = .str 1 then 1 else if x = .str 3 then 2 else if x = .str 4 then 3 else 4
  have key : ∀ c p, (∃ g ∈ growing, (p, c) ∈ g.says) → r p < r c := by
    intro c p h
    have hm : (p, c) ∈ growing.flatMap Grow.says := by simpa [List.mem_flatMap] using h
    have hall : ∀ q ∈ growing.flatMap Grow.says, r q.1 < r q.2 := by decide
    exact hall _ hm
  have : ∀ c p, Relation.TransGen (fun c p => ∃ g ∈ growing, (p, c) ∈ g.says) c p → r p < r c := by
    intro c p h
    induction h with
    | single h => exact key _ _ h
    | tail _ h ih => exact lt_trans (key _ _ h) ih
  intro h
  exact absurd (this x x h) (by simp)

example : GrowOK [] growing ∧
    (runOps St.init (growing.map Grow.op)).t.getParents (.str 1) = [.str 2] ∧
    (runOps St.init (growing.map Grow.op)).t.getParents (.str 3) = [.str 1, .str 2] ∧
    (runOps St.init (growing.map Grow.op)).t.getParents (.str 4) = [.str 3, .str 2] ∧
    (runOps St.init (growing.map Grow.op)).t.pending = [(.str 4, .str 5)] := by
  refine ⟨⟨⟨Made.new _ _, rfl, rfl⟩, by decide, by decide, by decide, by decide, by decide, ⟨Made.new _ _, rfl, rfl⟩, by decide, by decide,
    by decide, ⟨Made.new _ _, rfl, rfl⟩, by decide, by decide, ⟨Made.new _ _, rfl, rfl⟩, by decide, by decide, by decide, trivial⟩,
    by decide, by decide, by decide, by decide⟩

end Larch
