import Verif.Model.KV

/-! Lemmas about `KV`. -/

namespace Larch
namespace KV

variable {κ α : Type} [DecidableEq κ]

theorem get?_set (d : KV κ α) (x : κ) (w : α) (y : κ) : get? (set d x w) y = if y = x then some w else get? d y := by
  induction d with
  | nil =>
    by_cases h : x = y
    · simp [set, get?, h]
    · simp [set, get?, h, Ne.symm h]
  | cons e l ih =>
    obtain ⟨k, v⟩ := e
    unfold set
    by_cases hk : k = x
    · subst hk
      simp only [if_true, get?]
      by_cases hy : k = y
      · simp [hy]
      · simp [hy, Ne.symm hy]
    · simp only [hk, if_false, get?, ih]
      by_cases hy : k = y
      · subst hy; simp [hk]
      · simp [hy]

theorem get?_del (d : KV κ α) (x y : κ) : get? (del d x) y = if y = x then none else get? d y := by
  unfold del
  induction d with
  | nil => simp [get?]
  | cons e l ih =>
    obtain ⟨k, v⟩ := e
    simp only [ne_eq] at ih
    by_cases hk : k = x
    · subst hk
      simp only [List.filter_cons, ne_eq, not_true_eq_false, decide_false, Bool.false_eq_true, if_false, ih, get?]
      by_cases hy : y = k
      · simp [hy]
      · simp [hy, Ne.symm hy]
    · simp only [List.filter_cons, ne_eq, hk, not_false_eq_true, decide_true, if_true, get?, ih]
      by_cases hy : k = y
      · subst hy; simp [hk]
      · simp [hy]

theorem get?_isSome (d : KV κ α) (x : κ) : (get? d x).isSome = true ↔ x ∈ keys d := by
  induction d with
  | nil => simp [get?, keys]
  | cons e l ih =>
    obtain ⟨k, v⟩ := e
    unfold get?
    by_cases h : k = x
    · simp [h, keys]
    · simp only [if_neg h, keys, List.map_cons, List.mem_cons]
      rw [ih]
      simp [Ne.symm h, keys]

theorem get?_eq_none (d : KV κ α) (x : κ) : get? d x = none ↔ x ∉ keys d := by
  rw [← get?_isSome]; cases get? d x <;> simp

theorem set_new (d : KV κ α) {x : κ} (h : x ∉ keys d) (w : α) : set d x w = d ++ [(x, w)] := by
  induction d with
  | nil => rfl
  | cons e l ih =>
    obtain ⟨k, v⟩ := e
    unfold keys at h
    simp only [List.map_cons, List.mem_cons, not_or] at h
    unfold set
    rw [if_neg (Ne.symm h.1), ih h.2]; rfl

theorem keys_set (d : KV κ α) (x : κ) (w : α) : keys (set d x w) = if x ∈ keys d then keys d else keys d ++ [x] := by
  induction d with
  | nil => simp [set, keys]
  | cons e l ih =>
    obtain ⟨k, v⟩ := e
    have hc : ∀ l : KV κ α, keys ((k, v) :: l) = k :: keys l := fun _ => rfl
    unfold set
    by_cases hk : k = x
    · simp [hk, keys]
    · rw [if_neg hk, hc, hc, ih]
      by_cases hx : x ∈ keys l
      · rw [if_pos hx, if_pos (List.mem_cons_of_mem _ hx)]
      · rw [if_neg hx, if_neg (by simp [hx, Ne.symm hk])]; rfl

theorem keys_del (d : KV κ α) (x : κ) : keys (del d x) = (keys d).filter (fun k => decide (k ≠ x)) := by
  unfold keys del
  rw [List.filter_map]; rfl

theorem mem_of_get? {d : KV κ α} {x : κ} {v : α} (h : get? d x = some v) : (x, v) ∈ d := by
  induction d with
  | nil => cases h
  | cons e l ih =>
    obtain ⟨k, w⟩ := e
    unfold get? at h
    split at h
    · rename_i e; subst e; cases h; simp
    · simp [ih h]

theorem get?_of_mem {d : KV κ α} (hn : (keys d).Nodup) {x : κ} {v : α} (h : (x, v) ∈ d) : get? d x = some v := by
  induction d with
  | nil => cases h
  | cons e l ih =>
    obtain ⟨k, w⟩ := e
    unfold keys at hn
    simp only [List.map_cons, List.nodup_cons] at hn
    unfold get?
    rcases List.mem_cons.1 h with h | h
    · cases h; simp
    · rw [if_neg, ih hn.2 h]
      rintro rfl
      exact hn.1 (List.mem_map.2 ⟨_, h, rfl⟩)

theorem keys_set_nodup {d : KV κ α} (h : (keys d).Nodup) (x : κ) (w : α) : (keys (set d x w)).Nodup := by
  rw [keys_set]
  split
  · exact h
  · rename_i hx
    rw [List.nodup_append]
    refine ⟨h, by simp, ?_⟩
    intro a ha b hb e
    simp at hb; subst hb; subst e; exact hx ha

theorem keys_del_nodup {d : KV κ α} (h : (keys d).Nodup) (x : κ) : (keys (del d x)).Nodup := by
  rw [keys_del]; exact h.filter _

end KV
end Larch
