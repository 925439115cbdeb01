import Verif.Model.Base

/-! Lemmas about the dictionary of `Model/Base.lean`. -/

namespace Larch
namespace Dict

variable {α : Type}

theorem lookup_insert (l : List (Id × α)) (x : Id) (w : α) (y : Id) :
    lookup (insert l x w) y = if y = x then some w else lookup l y := by
  induction l with
  | nil =>
    simp only [insert, lookup]
    by_cases h : x = y
    · simp [h]
    · simp [h, Ne.symm h]
  | cons e l ih =>
    obtain ⟨k, v⟩ := e
    simp only [insert]
    by_cases hk : k = x
    · subst hk
      simp only [if_true, lookup]
      by_cases hy : k = y
      · simp [hy]
      · simp [hy, Ne.symm hy]
    · simp only [hk, if_false, lookup, ih]
      by_cases hy : k = y
      · subst hy; simp [hk]
      · simp [hy]

@[simp] theorem get?_set (d : Dict α) (x : Id) (w : α) (y : Id) :
    (d.set x w).get? y = if y = x then some w else d.get? y := lookup_insert _ _ _ _

theorem lookup_filter (l : List (Id × α)) (x y : Id) :
    lookup (l.filter (fun e => decide (e.1 ≠ x))) y = if y = x then none else lookup l y := by
  induction l with
  | nil => simp [lookup]
  | cons e l ih =>
    obtain ⟨k, v⟩ := e
    simp only [ne_eq] at ih
    by_cases hk : k = x
    · subst hk
      simp only [List.filter_cons, ne_eq, not_true_eq_false, decide_false, Bool.false_eq_true,
        if_false, ih, lookup]
      by_cases hy : y = k
      · simp [hy]
      · simp [hy, Ne.symm hy]
    · simp only [List.filter_cons, ne_eq, hk, not_false_eq_true, decide_true, if_true, lookup, ih]
      by_cases hy : k = y
      · subst hy; simp [hk]
      · simp [hy]

@[simp] theorem get?_del (d : Dict α) (x y : Id) :
    (d.del x).get? y = if y = x then none else d.get? y := lookup_filter _ _ _

@[simp] theorem get?_empty (y : Id) : (empty : Dict α).get? y = none := rfl

theorem get?_modify (d : Dict α) (x : Id) (f : α → α) (y : Id) :
    (d.modify x f).get? y = if y = x then (d.get? x).map f else d.get? y := by
  unfold modify
  cases h : d.get? x with
  | none => by_cases hy : y = x <;> simp [hy, h]
  | some v => simp

theorem has_iff (d : Dict α) (x : Id) : d.has x = true ↔ ∃ v, d.get? x = some v := by
  simp [has, Option.isSome_iff_exists]

@[simp] theorem has_set (d : Dict α) (x : Id) (w : α) (y : Id) :
    (d.set x w).has y = (decide (y = x) || d.has y) := by
  simp only [has, get?_set]; by_cases h : y = x <;> simp [h]

@[simp] theorem has_del (d : Dict α) (x y : Id) :
    (d.del x).has y = (decide (y ≠ x) && d.has y) := by
  simp only [has, get?_del]; by_cases h : y = x <;> simp [h]

@[simp] theorem has_modify (d : Dict α) (x : Id) (f : α → α) (y : Id) :
    (d.modify x f).has y = d.has y := by
  simp only [has, get?_modify]; by_cases h : y = x
  · subst h; simp
  · simp [h]

theorem mem_keys (d : Dict α) (x : Id) : x ∈ d.keys ↔ d.has x = true := by
  obtain ⟨l⟩ := d
  simp only [keys, has, get?]
  induction l with
  | nil => simp [lookup]
  | cons e l ih =>
    obtain ⟨k, v⟩ := e
    simp only [List.map_cons, List.mem_cons, lookup, ih]
    by_cases hk : k = x
    · simp [hk]
    · simp [hk, Ne.symm hk]

theorem keys_insert (l : List (Id × α)) (x : Id) (w : α) :
    (insert l x w).map (·.1) = if x ∈ l.map (·.1) then l.map (·.1) else l.map (·.1) ++ [x] := by
  induction l with
  | nil => simp [insert]
  | cons e l ih =>
    obtain ⟨k, v⟩ := e
    simp only [insert]
    by_cases hk : k = x
    · subst hk; simp
    · simp only [hk, if_false, List.map_cons, ih, List.mem_cons, Ne.symm hk, false_or]
      split <;> simp

theorem keys_set (d : Dict α) (x : Id) (w : α) :
    (d.set x w).keys = if d.has x then d.keys else d.keys ++ [x] := by
  have h := mem_keys d x
  simp only [keys] at h
  simp only [keys, set, keys_insert]
  by_cases hx : d.has x = true
  · rw [if_pos (h.2 hx), if_pos hx]
  · rw [if_neg (fun hh => hx (h.1 hh)), if_neg hx]

theorem keys_del (d : Dict α) (x : Id) : (d.del x).keys = d.keys.filter (fun k => decide (k ≠ x)) := by
  simp only [keys, del]
  induction d.entries with
  | nil => rfl
  | cons e l ih =>
    obtain ⟨k, v⟩ := e
    by_cases hk : k = x
    · simpa [List.filter_cons, hk] using ih
    · simpa [List.filter_cons, hk] using ih

@[simp] theorem keys_modify (d : Dict α) (x : Id) (f : α → α) : (d.modify x f).keys = d.keys := by
  unfold modify
  cases h : d.get? x with
  | none => rfl
  | some v =>
    show (d.set x (f v)).keys = _
    rw [keys_set, if_pos (by simp [has, h])]

theorem mem_of_get? {d : Dict α} {x : Id} {v : α} (h : d.get? x = some v) : (x, v) ∈ d.entries := by
  have key : ∀ l : List (Id × α), lookup l x = some v → (x, v) ∈ l := by
    intro l
    induction l with
    | nil => intro h; cases h
    | cons e l ih =>
      obtain ⟨k, w⟩ := e
      intro h
      rw [lookup] at h
      split at h
      · rename_i e; cases h; rw [e]; exact List.mem_cons_self
      · exact List.mem_cons_of_mem _ (ih h)
  exact key d.entries h

theorem keys_length (d : Dict α) : d.keys.length = d.entries.length := by simp [keys]

theorem insert_self (l : List (Id × α)) (x : Id) (w : α) (h : lookup l x = some w) :
    insert l x w = l := by
  induction l with
  | nil => simp [lookup] at h
  | cons e l ih =>
    obtain ⟨k, v⟩ := e
    simp only [lookup] at h
    simp only [insert]
    by_cases hk : k = x
    · simp only [hk, if_true] at h ⊢; cases h; rfl
    · simp only [hk, if_false] at h ⊢; rw [ih h]

theorem set_self (d : Dict α) (x : Id) (w : α) (h : d.get? x = some w) : d.set x w = d := by
  obtain ⟨l⟩ := d
  simp only [set, insert_self l x w h]

theorem modify_self (d : Dict α) (x : Id) (f : α → α) (h : ∀ v, d.get? x = some v → f v = v) :
    d.modify x f = d := by
  unfold modify
  cases hx : d.get? x with
  | none => rfl
  | some v => show d.set x (f v) = d; rw [h v hx]; exact set_self d x v hx

theorem insert_insert (l : List (Id × α)) (x : Id) (v w : α) :
    insert (insert l x v) x w = insert l x w := by
  induction l with
  | nil => simp [insert]
  | cons e l ih =>
    obtain ⟨k, u⟩ := e
    simp only [insert]
    by_cases hk : k = x
    · simp [hk, insert]
    · simp [hk, insert, ih]

theorem set_set (d : Dict α) (x : Id) (v w : α) : (d.set x v).set x w = d.set x w := by
  simp only [set, insert_insert]

theorem modify_modify (d : Dict α) (x : Id) (f g : α → α) :
    (d.modify x f).modify x g = d.modify x (fun v => g (f v)) := by
  unfold modify
  cases h : d.get? x with
  | none => simp [h]
  | some v => simp [set_set]

end Dict

theorem mem_appendNew {α : Type} [DecidableEq α] (l : List α) (x y : α) :
    y ∈ appendNew l x ↔ y ∈ l ∨ y = x := by
  unfold appendNew; split
  · constructor
    · exact Or.inl
    · rintro (h | rfl) <;> assumption
  · simp

theorem nodup_appendNew {α : Type} [DecidableEq α] (l : List α) (x : α) (h : l.Nodup) :
    (appendNew l x).Nodup := by
  unfold appendNew; split
  · exact h
  · rename_i hx
    rw [List.nodup_append]
    exact ⟨h, by simp, by intro a ha b hb; simp at hb; subst hb; exact fun e => hx (e ▸ ha)⟩

end Larch

namespace Larch
namespace Dict
variable {α : Type}

theorem insert_comm (l : List (Id × α)) (x y : Id) (v w : α) (hxy : x ≠ y)
    (hx : (lookup l x).isSome) (hy : (lookup l y).isSome) :
    insert (insert l x v) y w = insert (insert l y w) x v := by
  induction l with
  | nil => simp [lookup] at hx
  | cons e l ih =>
    obtain ⟨k, u⟩ := e
    by_cases hkx : k = x
    · subst hkx
      simp [insert, hxy]
    · by_cases hky : k = y
      · subst hky
        simp [insert, hkx]
      · simp only [lookup, hkx, hky, if_false] at hx hy
        simp [insert, hkx, hky, ih hx hy]

theorem modify_comm (d : Dict α) (x y : Id) (f g : α → α) (hxy : x ≠ y) :
    (d.modify x f).modify y g = (d.modify y g).modify x f := by
  cases hx : d.get? x with
  | none =>
    have h1 : d.modify x f = d := by simp [modify, hx]
    have h2 : (d.modify y g).get? x = none := by rw [get?_modify, if_neg hxy, hx]
    rw [h1, modify_self (d.modify y g) x f (by intro v hv; rw [h2] at hv; cases hv)]
  | some v =>
    cases hy : d.get? y with
    | none =>
      have h1 : d.modify y g = d := by simp [modify, hy]
      have h2 : (d.modify x f).get? y = none := by rw [get?_modify, if_neg (Ne.symm hxy), hy]
      rw [h1, modify_self (d.modify x f) y g (by intro v hv; rw [h2] at hv; cases hv)]
    | some w =>
      have e1 : d.modify x f = d.set x (f v) := by simp [modify, hx]
      have e2 : d.modify y g = d.set y (g w) := by simp [modify, hy]
      have e3 : (d.set x (f v)).modify y g = (d.set x (f v)).set y (g w) := by
        simp [modify, Ne.symm hxy, hy]
      have e4 : (d.set y (g w)).modify x f = (d.set y (g w)).set x (f v) := by
        simp [modify, hxy, hx]
      rw [e1, e2, e3, e4]
      simp only [set]
      rw [insert_comm _ _ _ _ _ hxy]
      · show (d.get? x).isSome = true; rw [hx]; rfl
      · show (d.get? y).isSome = true; rw [hy]; rfl

end Dict
end Larch
