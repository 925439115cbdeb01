import Verif.Spec.Callbacks
import Verif.Lib.KV
import Mathlib.Data.Finset.Card
import Mathlib.Data.Finset.Range
import Mathlib.Data.Fintype.Card

/-! # C17: the callback registries -/

namespace Larch

open Spec

namespace Registry

variable {F : Type}

/-- All keys up to the one found are in use. -/
theorem freeKey_spec (c : KV Nat F) (f k : Nat) : k ≤ freeKey c f k ∧ freeKey c f k ≤ k + f ∧
    (∀ j, k ≤ j → j < freeKey c f k → KV.has c j = true) ∧
    (freeKey c f k < k + f → KV.has c (freeKey c f k) = false) := by
  induction f generalizing k with
  | zero => exact ⟨Nat.le_refl _, Nat.le_refl _, fun j h1 h2 => absurd h2 (by unfold freeKey; omega), fun h => absurd h (by unfold freeKey; omega)⟩
  | succ f ih =>
    unfold freeKey
    by_cases hk : KV.has c k = true
    · rw [if_pos hk]
      obtain ⟨h1, h2, h3, h4⟩ := ih (k + 1)
      refine ⟨by omega, by omega, fun j hj1 hj2 => ?_, fun h => h4 (by omega)⟩
      by_cases e : j = k
      · rw [e]; exact hk
      · exact h3 j (by omega) hj2
    · rw [if_neg hk]
      exact ⟨Nat.le_refl _, by omega, fun j h1 h2 => absurd h2 (by omega), fun _ => by simpa using hk⟩

/-- The loop ends: there are more candidates than callbacks. -/
theorem freeKey_free (c : KV Nat F) : KV.has c (freeKey c c.length 0) = false := by
  obtain ⟨-, h2, h3, h4⟩ := freeKey_spec c c.length 0
  by_cases h : freeKey c c.length 0 < 0 + c.length
  · exact h4 h
  · by_contra hne
    have hall : ∀ j ∈ Finset.range (c.length + 1), j ∈ (KV.keys c).toFinset := by
      intro j hj
      rw [Finset.mem_range] at hj
      rw [List.mem_toFinset, ← KV.get?_isSome]
      by_cases e : j < freeKey c c.length 0
      · exact h3 j (by omega) e
      · have : j = freeKey c c.length 0 := by omega
        rw [this]; exact Bool.not_eq_false _ ▸ hne
    have h5 := Finset.card_le_card hall
    have h6 := (KV.keys c).toFinset_card_le
    rw [Finset.card_range] at h5
    have : (KV.keys c).length = c.length := by simp [KV.keys]
    omega

theorem of_register (r : Registry F) (ev : Nat) (func : F) (ev' : Nat) :
    (r.register ev func).1.of ev' =
      if ev' = ev then r.of ev ++ [((r.register ev func).2, func)] else r.of ev' := by
  have hf : (r.register ev func).2 ∉ KV.keys (r.of ev) := by
    rw [← KV.get?_isSome]
    have := freeKey_free (r.of ev)
    unfold KV.has at this
    simp only [register]
    rw [this]; simp
  rw [← KV.set_new _ hf]
  unfold register of
  dsimp only
  rw [KV.get?_set]
  split <;> rfl

theorem of_deregister (r : Registry F) (ev key ev' : Nat) :
    (r.deregister ev key).of ev' =
      if ev' = ev then (r.of ev).filter (fun e => decide (e.1 ≠ key)) else r.of ev' := by
  unfold deregister
  cases hg : KV.get? r ev with
  | none =>
    by_cases e : ev' = ev
    · subst e; simp [of, hg]
    · simp [e]
  | some c =>
    have hc : r.of ev = c := by unfold of; rw [hg]; rfl
    dsimp only
    by_cases hk : KV.has c key = true
    · rw [if_pos hk]
      by_cases e : ev' = ev
      · subst e; rw [if_pos rfl, hc]; unfold of; rw [KV.get?_set, if_pos rfl]; rfl
      · rw [if_neg e]; unfold of; rw [KV.get?_set, if_neg e]
    · rw [if_neg hk]
      by_cases e : ev' = ev
      · subst e
        rw [if_pos rfl, hc]
        symm
        rw [List.filter_eq_self]
        intro a ha
        simp only [ne_eq, decide_eq_true_eq]
        rintro rfl
        have : a.1 ∈ KV.keys c := List.mem_map.2 ⟨a, ha, rfl⟩
        rw [← KV.get?_isSome] at this
        exact hk this
      · rw [if_neg e]

end Registry

/-- C17: after any history, an event calls exactly the registrations in force, once each, in the order of
registration, and their keys are different from each other. -/
theorem C17_called {F : Type} (cs : List (Registry.Call F)) (ev : Nat) :
    Registry.called (Registry.run [] cs) ev = (inForce ev [] [] cs).map (·.2) ∧
    ((inForce ev [] [] cs).map (·.1)).Nodup := by
  have key : ∀ (cs : List (Registry.Call F)) (r : Registry F), (KV.keys (r.of ev)).Nodup →
      (Registry.run r cs).of ev = inForce ev r (r.of ev) cs ∧ (KV.keys ((Registry.run r cs).of ev)).Nodup := by
    intro cs
    induction cs with
    | nil => intro r h; exact ⟨rfl, h⟩
    | cons c cs ih =>
      intro r h
      cases c with
      | register ev' func =>
        rw [Registry.run, inForce]
        have e : (r.step (.register ev' func)).of ev =
            (if ev' = ev then r.of ev ++ [((r.register ev' func).2, func)] else r.of ev) := by
          show (r.register ev' func).1.of ev = _
          rw [Registry.of_register]
          by_cases he : ev' = ev
          · subst he; simp
          · rw [if_neg he, if_neg (fun x => he x.symm)]
        rw [← e]
        apply ih
        rw [e]
        split
        · rename_i he
          subst he
          unfold KV.keys
          rw [List.map_append, List.nodup_append]
          refine ⟨h, by simp, ?_⟩
          intro a ha b hb hab
          simp only [List.map_cons, List.map_nil, List.mem_singleton] at hb
          subst hb; subst hab
          have h1 := Registry.freeKey_free (r.of ev')
          have h2 := (KV.get?_isSome (r.of ev') _).2 ha
          unfold KV.has at h1
          simp only [Registry.register] at h2
          rw [h1] at h2; cases h2
        · exact h
      | deregister ev' k =>
        rw [Registry.run, inForce]
        have e : (r.step (.deregister ev' k)).of ev =
            (if ev' = ev then (r.of ev).filter (fun e => decide (e.1 ≠ k)) else r.of ev) := by
          show (r.deregister ev' k).of ev = _
          rw [Registry.of_deregister]
          by_cases he : ev' = ev
          · subst he; simp
          · rw [if_neg he, if_neg (fun x => he x.symm)]
        rw [← e]
        apply ih
        rw [e]
        split
        · exact KV.keys_del_nodup h k
        · exact h
  obtain ⟨h1, h2⟩ := key cs [] (by simp [Registry.of, KV.get?, KV.keys])
  have h3 : inForce ev [] (Registry.of ([] : Registry F) ev) cs = inForce ev [] [] cs := rfl
  constructor
  · unfold Registry.called KV.values; rw [h1, h3]
  · rw [← h3, ← h1]; exact h2

/-- C17: the key returned by a registration is not the key of another registration in force. -/
theorem C17_key_is_new {F : Type} (cs : List (Registry.Call F)) (ev : Nat) (func : F) :
    ((Registry.run [] cs).register ev func).2 ∉ (inForce ev [] [] cs).map (·.1) := by
  have h := (C17_called (cs ++ [.register ev func]) ev).2
  have e : ∀ (cs : List (Registry.Call F)) (r : Registry F) (live : List (Nat × F)),
      inForce ev r live (cs ++ [.register ev func]) =
      inForce ev r live cs ++ [(((Registry.run r cs).register ev func).2, func)] := by
    intro cs
    induction cs with
    | nil => intro r live; simp [inForce, Registry.run]
    | cons c cs ih =>
      intro r live
      cases c with
      | register ev' f' => exact ih _ _
      | deregister ev' k => exact ih _ _
  rw [e, List.map_append, List.nodup_append] at h
  intro hm
  exact h.2.2 _ hm _ (by simp) rfl

/-- C17: deregistering an unknown key changes nothing for any event. -/
theorem C17_unknown_key {F : Type} (r : Registry F) (ev key : Nat) (h : ∀ e ∈ r.of ev, e.1 ≠ key) (ev' : Nat) :
    Registry.called (r.deregister ev key) ev' = Registry.called r ev' := by
  unfold Registry.called
  rw [Registry.of_deregister]
  split
  · rename_i e
    subst e
    rw [List.filter_eq_self.2]
    intro a ha; simpa using h a ha
  · rfl

/-- Register three functions, strike out the second, register again: its key 1 is reused. -/
def callDemo : List (Registry.Call Nat) :=
  [ .register 0 10, .register 0 11, .register 5 20, .register 0 12, .deregister 0 1, .deregister 0 7, .register 0 13 ]

example : inForce 0 [] [] callDemo = [(0, 10), (2, 12), (1, 13)] ∧
    Registry.called (Registry.run [] callDemo) 0 = [10, 12, 13] ∧
    Registry.called (Registry.run [] callDemo) 5 = [20] ∧ (∀ e ∈ Registry.of (Registry.run [] callDemo) 0, e.1 ≠ 9) := by
  decide

end Larch
