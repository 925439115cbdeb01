import Verif.Proofs.Keeps
import Verif.Spec.Notes

/-! # Notifications reconstruct the node set -/

namespace Larch

open Spec

theorem lastWord_append (x : Id) (l : List Note) (n : Note) :
    lastWord x (l ++ [n]) =
      match lastWord x [n] with
      | some b => some b
      | none => lastWord x l := by
  induction l with
  | nil => simp only [List.nil_append]; cases lastWord x [n] <;> rfl
  | cons m l ih =>
    rw [List.cons_append, lastWord, ih]
    cases h : lastWord x [n] with
    | some b => rfl
    | none =>
      dsimp only
      rfl

/-- `Reconstructs` of a state. -/
def Rec (s : St) : Prop := Reconstructs s.t s.log

theorem Rec.congr {s s' : St} (h : Rec s) (hn : ∀ y, s'.t.has y = s.t.has y) (hl : s'.log = s.log) : Rec s' := by
  refine ⟨fun x => ?_, ?_, ?_, ?_⟩
  · rw [hn, hl]; exact h.nodes x
  · rw [hl]; exact h.modified_exists
  · rw [hl]; exact h.added_exists
  · rw [hl]; exact h.deleted_gone

theorem rec_keeps : Keeps Rec where
  nodes := by
    intro s s' h hn hl
    exact h.congr (fun y => by unfold Tree.has; rw [hn]) hl
  create := by
    intro s p c t' h hc _
    exact h.congr (s' := { s with t := t' }) (Tree.create_eq_some hc).2.2.has rfl
  destroy := by
    intro s p c t' h hc
    exact h.congr (s' := { s with t := t' }) (Tree.destroy_eq_some hc).2.2.has rfl
  eraseParent := by
    intro s h x p
    exact h.congr (fun y => Tree.has_updNode _ _ _ _) rfl
  appendChild := by
    intro s h x p _
    exact h.congr (fun y => Tree.has_updNode _ _ _ _) rfl
  setParentsEnabled := by
    intro s h x p
    exact h.congr (fun y => Tree.has_updNode _ _ _ _) rfl
  setChildrenEnabled := by
    intro s h x p
    exact h.congr (fun y => Tree.has_updNode _ _ _ _) rfl
  modified := by
    intro s h n hn
    refine ⟨fun x => ?_, ?_, ?_, ?_⟩
    · show s.t.has x = true ↔ lastWord x (s.log ++ [_]) = some true
      rw [lastWord_append]
      have : lastWord x [⟨s.t, .modified, n⟩] = none := by
        simp [lastWord]
      rw [this]; exact h.nodes x
    · intro m hm he
      rcases List.mem_append.1 hm with hm | hm
      · exact h.modified_exists m hm he
      · simp at hm; subst hm; exact hn
    · intro m hm he
      rcases List.mem_append.1 hm with hm | hm
      · exact h.added_exists m hm he
      · simp at hm; subst hm; cases he
    · intro m hm he
      rcases List.mem_append.1 hm with hm | hm
      · exact h.deleted_gone m hm he
      · simp at hm; subst hm; cases he

theorem Rec.deleted {s : St} (h : Rec s) (x : Id) :
    Rec ((s.mapTree fun t => { t with nodes := t.nodes.del x }).emit .deleted x) := by
  have hh : ∀ y, ({ s.t with nodes := s.t.nodes.del x } : Tree).has y = (decide (y ≠ x) && s.t.has y) := by
    intro y; unfold Tree.has; simp only [Dict.has_del]
  refine ⟨fun y => ?_, ?_, ?_, ?_⟩
  · show ({ s.t with nodes := s.t.nodes.del x } : Tree).has y = true ↔ lastWord y (s.log ++ [_]) = some true
    rw [lastWord_append, hh]
    by_cases hy : y = x
    · subst hy; simp [lastWord]
    · have := h.nodes y
      simp [lastWord, hy, Ne.symm hy, this]
  · intro m hm he
    rcases List.mem_append.1 hm with hm | hm
    · exact h.modified_exists m hm he
    · simp at hm; subst hm; cases he
  · intro m hm he
    rcases List.mem_append.1 hm with hm | hm
    · exact h.added_exists m hm he
    · simp at hm; subst hm; cases he
  · intro m hm he
    rcases List.mem_append.1 hm with hm | hm
    · exact h.deleted_gone m hm he
    · simp at hm; subst hm
      show ({ s.t with nodes := s.t.nodes.del x } : Tree).has x = false
      rw [hh]; simp

theorem Rec.added {s : St} (h : Rec s) {t' : Tree} {x : Id} (ht : ∀ y, t'.has y = (decide (y = x) || s.t.has y)) :
    Rec ((⟨t', s.log⟩ : St).emit .added x) := by
  refine ⟨fun y => ?_, ?_, ?_, ?_⟩
  · show t'.has y = true ↔ lastWord y (s.log ++ [_]) = some true
    rw [lastWord_append, ht]
    by_cases hy : y = x
    · subst hy; simp [lastWord]
    · have := h.nodes y
      simp [lastWord, hy, Ne.symm hy, this]
  · intro m hm he
    rcases List.mem_append.1 hm with hm | hm
    · exact h.modified_exists m hm he
    · simp at hm; subst hm; cases he
  · intro m hm he
    rcases List.mem_append.1 hm with hm | hm
    · exact h.added_exists m hm he
    · simp at hm; subst hm
      show t'.has x = true
      rw [ht]; simp
  · intro m hm he
    rcases List.mem_append.1 hm with hm | hm
    · exact h.deleted_gone m hm he
    · simp at hm; subst hm; cases he

theorem addPendingStep_has {x : Id} {r : Id × Id} {t t' : Tree} {b b' : Bool}
    (h : addPendingStep x (some (t, b)) r = some (t', b')) (y : Id) : t'.has y = t.has y := by
  have second : ∀ (t : Tree) (b : Bool), (if r.1 = x ∧ t.has r.2 = true then
        match t.isCircular x r.2 with
        | none => none
        | some false => (t.create x r.2).map fun t' => (({ t' with pending := t'.pending.erase r } : Tree), b)
        | some true => some ({ t with pending := t.pending.erase r }, b)
      else some (t, b)) = some (t', b') → t'.has y = t.has y := by
    intro t b h
    split at h
    · split at h
      · cases h
      · cases hc : t.create x r.2 with
        | none => rw [hc] at h; cases h
        | some t2 => rw [hc] at h; cases h; exact (Tree.create_eq_some hc).2.2.has y
      · cases h; rfl
    · cases h; rfl
  unfold addPendingStep at h
  simp only [Option.bind_some] at h
  split at h
  · split at h
    · cases h
    · cases hc : t.create r.1 x with
      | none => rw [hc] at h; cases h
      | some t2 =>
        rw [hc] at h
        simp only [Option.map_some, Option.bind_some] at h
        exact (second _ _ h).trans ((Tree.create_eq_some hc).2.2.has y)
    · simp only [Option.bind_some] at h
      exact second { t with pending := t.pending.erase r } _ h
  · simp only [Option.bind_some] at h
    exact second _ _ h

theorem addPendingFold_none (x : Id) (l : List (Id × Id)) : l.foldl (addPendingStep x) none = none := by
  induction l with
  | nil => rfl
  | cons r l ih => rw [List.foldl_cons]; exact ih

theorem addPendingFold_has (x : Id) (l : List (Id × Id)) {t t' : Tree} {b b' : Bool}
    (h : l.foldl (addPendingStep x) (some (t, b)) = some (t', b')) (y : Id) : t'.has y = t.has y := by
  induction l generalizing t b with
  | nil => cases h; rfl
  | cons r l ih =>
    rw [List.foldl_cons] at h
    cases hr : addPendingStep x (some (t, b)) r with
    | none => rw [hr, addPendingFold_none] at h; cases h
    | some tb =>
      obtain ⟨t1, b1⟩ := tb
      rw [hr] at h
      exact (ih h).trans (addPendingStep_has hr y)

/-- A successful `add_node` of a new id: the node set grows by it, and one notification is sent. -/
theorem addNode_ok {s s' : St} {nd : Node} {parent : Id} (hx : s.t.has nd.id = false)
    (h : addNode s nd parent = .ok s') :
    ∃ t', s' = (⟨t', s.log⟩ : St).emit .added nd.id ∧ ∀ y, t'.has y = (decide (y = nd.id) || s.t.has y) := by
  unfold addNode at h
  rw [if_neg (by simp [hx])] at h
  dsimp only at h
  cases hf : (insertNode s.t nd).pending.foldl (addPendingStep nd.id) (some (insertNode s.t nd, true)) with
  | none => rw [hf] at h; cases h
  | some tb =>
    obtain ⟨t2, b⟩ := tb
    have h2 : ∀ y, t2.has y = (decide (y = nd.id) || s.t.has y) := fun y =>
      (addPendingFold_has _ _ hf y).trans (has_insertNode _ _ _)
    rw [hf] at h
    dsimp only at h
    have fin : ∀ (t : Tree) (b : Bool), (∀ y, t.has y = (decide (y = nd.id) || s.t.has y)) →
        Res.ok ((if b = true then (⟨t, s.log⟩ : St).mapTree (fun t => t.updRoot (fun l => l ++ [nd.id]))
          else ⟨t, s.log⟩).emit .added nd.id) = .ok s' →
        ∃ t', s' = (⟨t', s.log⟩ : St).emit .added nd.id ∧ ∀ y, t'.has y = (decide (y = nd.id) || s.t.has y) := by
      intro t b ht he
      cases b with
      | true => cases he; exact ⟨t.updRoot (fun l => l ++ [nd.id]), rfl, ht⟩
      | false => cases he; exact ⟨t, rfl, ht⟩
    by_cases h1 : parent = .none
    · simp only [if_pos h1] at h
      exact fin t2 b h2 h
    · simp only [if_neg h1] at h
      cases hc : t2.isCircular parent nd.id with
      | none => rw [hc] at h; cases h
      | some bb =>
        cases bb with
        | true => rw [hc] at h; cases h
        | false =>
          rw [hc] at h
          dsimp only at h
          by_cases hp : t2.has parent = true
          · simp only [if_pos hp] at h
            cases hcr : t2.create parent nd.id with
            | none => rw [hcr] at h; cases h
            | some t3 =>
              rw [hcr] at h
              exact fin t3 false (fun y => ((Tree.create_eq_some hcr).2.2.has y).trans (h2 y)) h
          · simp only [if_neg hp] at h
            exact fin { t2 with pending := t2.pending ++ [(parent, nd.id)] } b h2 h

theorem step_rec {s : St} (h : Rec s) (op : Op)
    (hok : ∀ nd p, op = .addNode nd p → (step s op).isOk = true) : Rec (step s op).state := by
  by_cases hl : op.isLocal = true
  · exact step_keeps rec_keeps s op hl h
  · cases op with
    | addNode nd p =>
      have hok := hok nd p rfl
      show Rec (addNode s nd p).state
      by_cases hx : s.t.has nd.id = true
      · rw [addNode_existing hx]; exact h
      · change (addNode s nd p).isOk = true at hok
        cases hr : addNode s nd p with
        | err e s' => rw [hr] at hok; cases hok
        | ok s' =>
          obtain ⟨t', rfl, ht⟩ := addNode_ok (by simpa using hx) hr
          exact Rec.added h ht
    | delNode x r =>
      exact removeNode_keeps rec_keeps.cuts (fun s x h _ => Rec.deleted h x) _ s x r h
    | _ => exact absurd rfl hl

end Larch
