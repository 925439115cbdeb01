import Mathlib.Logic.Relation
import Mathlib.Data.List.Basic
import Mathlib.Data.Finset.Card
import Mathlib.Data.Finset.Dedup

/-!
# Finite directed graphs given by successor lists

`succ x` lists the neighbours of `x` in the direction one walks (parents when walking up,
children when walking down). `Reach succ x y`: `y` is reached from `x` in at least one step.
-/

namespace Larch
namespace Graph

variable {α : Type}

/-- One or more steps along `succ`. -/
def Reach (succ : α → List α) : α → α → Prop := Relation.TransGen (fun x y => y ∈ succ x)

/-- No node reaches itself. -/
def Acyclic (succ : α → List α) : Prop := ∀ x, ¬ Reach succ x x

theorem Reach.single {succ : α → List α} {x y : α} (h : y ∈ succ x) : Reach succ x y :=
  Relation.TransGen.single h

theorem Reach.head {succ : α → List α} {x y z : α} (h : y ∈ succ x) (h' : Reach succ y z) :
    Reach succ x z := Relation.TransGen.head h h'

theorem Reach.trans {succ : α → List α} {x y z : α} (h : Reach succ x y) (h' : Reach succ y z) :
    Reach succ x z := Relation.TransGen.trans h h'

/-- `y` is `x` or reached from it. -/
def ReachEq (succ : α → List α) (x y : α) : Prop := x = y ∨ Reach succ x y

theorem reach_iff (succ : α → List α) (x y : α) :
    Reach succ x y ↔ ∃ z ∈ succ x, ReachEq succ z y := by
  constructor
  · intro h
    rcases (Relation.TransGen.head'_iff).1 h with ⟨z, hz, h'⟩
    refine ⟨z, hz, ?_⟩
    rcases (Relation.reflTransGen_iff_eq_or_transGen).1 h' with rfl | h''
    · exact Or.inl rfl
    · exact Or.inr h''
  · rintro ⟨z, hz, rfl | h⟩
    · exact Reach.single hz
    · exact Reach.head hz h

theorem Reach.mono {s s' : α → List α} (hs : ∀ x y, y ∈ s x → y ∈ s' x) {x y : α}
    (h : Reach s x y) : Reach s' x y := by
  induction h with
  | single h => exact Reach.single (hs _ _ h)
  | tail _ h ih => exact ih.trans (Reach.single (hs _ _ h))

theorem Acyclic.mono {s s' : α → List α} (hs : ∀ x y, y ∈ s x → y ∈ s' x) (h : Acyclic s') :
    Acyclic s := fun x hx => h x (hx.mono hs)

/-- Reversing all edges. -/
theorem Reach.reverse {s s' : α → List α} (hs : ∀ x y, y ∈ s x → x ∈ s' y) {x y : α}
    (h : Reach s x y) : Reach s' y x := by
  induction h with
  | single h => exact Reach.single (hs _ _ h)
  | tail _ h ih => exact Reach.head (hs _ _ h) ih

theorem Acyclic.reverse {s s' : α → List α} (hs : ∀ x y, y ∈ s x → x ∈ s' y) (h : Acyclic s') :
    Acyclic s := fun x hx => h x (hx.reverse hs)

/-- A height function makes a graph acyclic. -/
theorem acyclic_of_height (succ : α → List α) (ht : α → Nat)
    (h : ∀ x y, y ∈ succ x → ht y < ht x) : Acyclic succ := by
  have key : ∀ x y, Reach succ x y → ht y < ht x := by
    intro x y hr
    induction hr with
    | single h' => exact h _ _ h'
    | tail _ h' ih => exact lt_trans (h _ _ h') ih
  intro x hx
  exact lt_irrefl _ (key x x hx)

open Classical in
/-- A finite acyclic graph has a height function bounded by its number of nodes with successors. -/
theorem exists_height (succ : α → List α) (keys : List α)
    (hk : ∀ x, succ x ≠ [] → x ∈ keys) (hac : Acyclic succ) :
    ∃ ht : α → Nat, (∀ x, ht x ≤ keys.length) ∧ ∀ x y, y ∈ succ x → ht y < ht x := by
  refine ⟨fun x => ((keys.toFinset.filter (fun y => ReachEq succ x y))).card, ?_, ?_⟩
  · intro x
    exact le_trans (Finset.card_le_card (Finset.filter_subset _ _)) (List.toFinset_card_le _)
  · intro x y hy
    apply Finset.card_lt_card
    rw [Finset.ssubset_iff_of_subset]
    · refine ⟨x, ?_, ?_⟩
      · simp only [Finset.mem_filter, List.mem_toFinset]
        refine ⟨hk x ?_, Or.inl rfl⟩
        intro h; rw [h] at hy; simp at hy
      · simp only [Finset.mem_filter, List.mem_toFinset, not_and]
        rintro _ (rfl | h)
        · exact hac _ (Reach.single hy)
        · exact hac x (Reach.head hy h)
    · intro z
      simp only [Finset.mem_filter, List.mem_toFinset]
      rintro ⟨hz, rfl | h⟩
      · exact ⟨hz, Or.inr (Reach.single hy)⟩
      · exact ⟨hz, Or.inr (Reach.head hy h)⟩

/-- Number of walks along `succ` from `x` with fewer than `d` nodes left out: walks of length `< d`. -/
def walks (succ : α → List α) : Nat → α → Nat
  | 0, _ => 0
  | d + 1, x => 1 + ((succ x).map (walks succ d)).sum

theorem walks_stable (succ : α → List α) (ht : α → Nat) (h : ∀ x y, y ∈ succ x → ht y < ht x) :
    ∀ d x, ht x < d → walks succ (d + 1) x = walks succ d x := by
  intro d
  induction d with
  | zero => intro x hx; omega
  | succ d ih =>
    intro x hx
    rw [walks, walks]
    congr 2
    apply List.map_congr_left
    intro y hy
    exact ih y (by have := h x y hy; omega)

theorem walks_eq (succ : α → List α) (ht : α → Nat) (h : ∀ x y, y ∈ succ x → ht y < ht x)
    (d : Nat) (x : α) (hx : ht x < d) :
    walks succ d x = 1 + ((succ x).map (walks succ d)).sum := by
  have := walks_stable succ ht h d x hx
  rw [← this, walks]

theorem walks_pos (succ : α → List α) (d : Nat) (x : α) : 0 < walks succ (d + 1) x := by
  rw [walks]; omega

end Graph
end Larch

namespace Larch
namespace Graph
variable {α : Type}

theorem ReachEq.refl (s : α → List α) (x : α) : ReachEq s x x := Or.inl rfl

theorem ReachEq.trans {s : α → List α} {x y z : α} (h : ReachEq s x y) (h' : ReachEq s y z) :
    ReachEq s x z := by
  rcases h with rfl | h
  · exact h'
  · rcases h' with rfl | h'
    · exact Or.inr h
    · exact Or.inr (h.trans h')

theorem ReachEq.head {s : α → List α} {x y z : α} (h : y ∈ s x) (h' : ReachEq s y z) :
    ReachEq s x z := ReachEq.trans (Or.inr (Reach.single h)) h'

theorem Reach.trans_eq {s : α → List α} {x y z : α} (h : Reach s x y) (h' : ReachEq s y z) :
    Reach s x z := by
  rcases h' with rfl | h'
  · exact h
  · exact h.trans h'

theorem ReachEq.trans_reach {s : α → List α} {x y z : α} (h : ReachEq s x y) (h' : Reach s y z) :
    Reach s x z := by
  rcases h with rfl | h
  · exact h'
  · exact h.trans h'

theorem ReachEq.mono {s s' : α → List α} (hs : ∀ x y, y ∈ s x → y ∈ s' x) {x y : α}
    (h : ReachEq s x y) : ReachEq s' x y := h.imp id (Reach.mono hs)

/-- Walks in a graph with one extra edge `c → p`. -/
theorem reach_add_edge {s s' : α → List α} {c p : α}
    (hs : ∀ x y, y ∈ s' x → y ∈ s x ∨ (x = c ∧ y = p)) {x y : α} (h : Reach s' x y) :
    Reach s x y ∨ (ReachEq s x c ∧ ReachEq s p y) := by
  induction h with
  | single h =>
    rcases hs _ _ h with h | ⟨rfl, rfl⟩
    · exact Or.inl (Reach.single h)
    · exact Or.inr ⟨.refl _ _, .refl _ _⟩
  | tail _ h ih =>
    rcases hs _ _ h with h | ⟨rfl, rfl⟩
    · rcases ih with ih | ⟨h1, h2⟩
      · exact Or.inl (ih.trans (Reach.single h))
      · exact Or.inr ⟨h1, h2.trans (Or.inr (Reach.single h))⟩
    · rcases ih with ih | ⟨h1, h2⟩
      · exact Or.inr ⟨Or.inr ih, .refl _ _⟩
      · exact Or.inr ⟨h1, .refl _ _⟩

theorem Acyclic.add_edge {s s' : α → List α} {c p : α}
    (hs : ∀ x y, y ∈ s' x → y ∈ s x ∨ (x = c ∧ y = p)) (hac : Acyclic s)
    (hn : ¬ ReachEq s p c) : Acyclic s' := by
  intro x hx
  rcases reach_add_edge hs hx with h | ⟨h1, h2⟩
  · exact hac x h
  · exact hn (h2.trans h1)

end Graph
end Larch
