import Verif.Model.Version
import Verif.Spec.Version

/-! # C37: the API compatibility test -/

namespace Larch

open Version Spec

theorem digitChar_cases (n : Nat) : digitChar n ∈ ['0', '1', '2', '3', '4', '5', '6', '7', '8', '9'] := by
  unfold digitChar; split <;> decide

theorem decimal_chars (n : Nat) : ∀ c ∈ decimal n, c ∈ ['0', '1', '2', '3', '4', '5', '6', '7', '8', '9'] := by
  induction n using decimal.induct with
  | case1 n h => intro c hc; rw [decimal, if_pos h] at hc; simp at hc; subst hc; exact digitChar_cases n
  | case2 n h ih =>
    intro c hc
    rw [decimal, if_neg h] at hc
    rcases List.mem_append.1 hc with hc | hc
    · exact ih c hc
    · simp at hc; subst hc; exact digitChar_cases _

theorem decimal_ne_nil (n : Nat) : decimal n ≠ [] := by
  rw [decimal]; split <;> simp

theorem digit?_digitChar (k : Nat) (h : k < 10) : digit? (digitChar k) = some k := by
  have : ∀ k, k < 10 → digit? (digitChar k) = some k := by decide
  exact this k h

theorem digits_append (v : Nat) (l m : List Char) (h : ∀ c ∈ l, c ≠ '_') :
    digits v (l ++ m) = (digits v l).bind fun w => digits w m := by
  induction l generalizing v with
  | nil => rfl
  | cons c l ih =>
    have hc : c ≠ '_' := h c (by simp)
    have hl := ih (v := 0)
    rw [List.cons_append]
    rw [digits, digits]
    · cases digit? c with
      | none => rfl
      | some k => exact ih _ (fun d hd => h d (by simp [hd]))
    · intro d ds e; exact absurd e hc
    · intro d ds e; exact absurd e hc

theorem no_underscore {c : Char} (h : c ∈ ['0', '1', '2', '3', '4', '5', '6', '7', '8', '9']) : c ≠ '_' := by
  rintro rfl; revert h; decide

theorem digits_single (v k : Nat) (h : k < 10) : digits v [digitChar k] = some (10 * v + k) := by
  rw [digits]
  · rw [digit?_digitChar k h]; rfl
  · intro c cs e; exact absurd e (no_underscore (digitChar_cases k))

theorem digits_zero (l : List Char) (h : ∀ c ∈ l, c ≠ '_') (hl : l ≠ []) : digits 0 l = natOf l := by
  cases l with
  | nil => exact absurd rfl hl
  | cons c l =>
    rw [digits, natOf]
    · cases digit? c with
      | none => rfl
      | some k => simp
    · intro d ds e; exact absurd e (h c (by simp))

theorem natOf_decimal (n : Nat) : natOf (decimal n) = some n := by
  induction n using decimal.induct with
  | case1 n h => rw [decimal, if_pos h, natOf, digit?_digitChar n h]; rfl
  | case2 n h ih =>
    have hu : ∀ c ∈ decimal (n / 10), c ≠ '_' := fun c hc => no_underscore (decimal_chars _ c hc)
    have hu' : ∀ c ∈ decimal n, c ≠ '_' := fun c hc => no_underscore (decimal_chars _ c hc)
    rw [← digits_zero _ hu' (decimal_ne_nil n), decimal, if_neg h, digits_append _ _ _ hu,
      digits_zero _ hu (decimal_ne_nil _), ih]
    simp only [Option.bind_some]
    rw [digits_single _ _ (by omega)]
    congr 1; omega

theorem dropWhile_none (l : List Char) (h : ∀ c ∈ l, isSpace c = false) : l.dropWhile isSpace = l := by
  cases l with
  | nil => rfl
  | cons c l => rw [List.dropWhile_cons, h c (by simp)]; rfl

theorem strip_none (l : List Char) (h : ∀ c ∈ l, isSpace c = false) : strip l = l := by
  unfold strip
  rw [dropWhile_none l h, dropWhile_none l.reverse (fun c hc => h c (by simpa using hc)), List.reverse_reverse]

theorem intOf_decimal (n : Nat) : intOf (decimal n) = some (n : Int) := by
  have hs : ∀ c ∈ decimal n, isSpace c = false := by
    intro c hc
    have := decimal_chars n c hc
    revert c; intro c _ h; revert h
    simp only [List.mem_cons, List.not_mem_nil, or_false]
    rintro (rfl | rfl | rfl | rfl | rfl | rfl | rfl | rfl | rfl | rfl) <;> rfl
  unfold intOf
  rw [strip_none _ hs]
  split
  · rename_i cs e
    have := decimal_chars n '-' (by rw [e]; simp)
    exact absurd this (by decide)
  · rename_i cs e
    have := decimal_chars n '+' (by rw [e]; simp)
    exact absurd this (by decide)
  · rw [natOf_decimal]; rfl

theorem splitDot_ne_nil (l : List Char) : splitDot l ≠ [] := by
  cases l with
  | nil => simp [splitDot]
  | cons c l => rw [splitDot]; split <;> (try split) <;> simp

theorem splitDot_noDot (l : List Char) (h : ∀ c ∈ l, c ≠ '.') : splitDot l = [l] := by
  induction l with
  | nil => rfl
  | cons c l ih =>
    rw [splitDot, ih (fun d hd => h d (by simp [hd]))]
    dsimp only
    rw [if_neg (h c (by simp))]

theorem splitDot_dot (l m : List Char) (h : ∀ c ∈ l, c ≠ '.') : splitDot (l ++ '.' :: m) = l :: splitDot m := by
  induction l with
  | nil =>
    rw [List.nil_append, splitDot]
    cases e : splitDot m with
    | nil => exact absurd e (splitDot_ne_nil m)
    | cons a b => simp
  | cons c l ih =>
    rw [List.cons_append, splitDot, ih (fun d hd => h d (by simp [hd]))]
    dsimp only
    rw [if_neg (h c (by simp))]

theorem decimal_noDot (n : Nat) : ∀ c ∈ decimal n, c ≠ '.' := by
  intro c hc e
  have := decimal_chars n c hc
  rw [e] at this
  revert this; decide

/-- C37: the version `major.minor` is accepted exactly when `major` is 3 and `minor` at most 0; the test never
raises on such a string. -/
theorem C37_compatible (major minor : Nat) :
    isCompatible (version major minor) = some (decide (major = 3 ∧ minor ≤ 0)) := by
  have h1 : numbers (version major minor) = some [(major : Int), (minor : Int)] := by
    unfold numbers version
    rw [splitDot_dot _ _ (decimal_noDot _), splitDot_noDot _ (decimal_noDot _)]
    simp [List.mapM_cons, intOf_decimal]
  have h2 : numbers API = some [3, 0] := by decide
  unfold isCompatible
  rw [h1, h2]
  simp only [Option.some.injEq]
  rw [Bool.eq_iff_iff]
  simp only [Bool.and_eq_true, decide_eq_true_eq]
  omega

/-- C37: of two requests with the same major number, the one with the smaller minor number is accepted if the other
one is. -/
theorem C37_monotone (major minor minor' : Nat) (h : minor' ≤ minor)
    (ha : isCompatible (version major minor) = some true) : isCompatible (version major minor') = some true := by
  rw [C37_compatible] at *
  simp only [Option.some.injEq, decide_eq_true_eq] at *
  omega

/-- C37: a request with no dot, or with two dots, raises. -/
theorem C37_malformed (a b c : Nat) :
    isCompatible (decimal a) = none ∧ isCompatible (decimal a ++ '.' :: version b c) = none := by
  constructor
  · unfold isCompatible numbers
    rw [splitDot_noDot _ (decimal_noDot _)]
    simp [List.mapM_cons, intOf_decimal]
  · unfold isCompatible numbers version
    rw [splitDot_dot _ _ (decimal_noDot _), splitDot_dot _ _ (decimal_noDot _), splitDot_noDot _ (decimal_noDot _)]
    simp [List.mapM_cons, intOf_decimal]

example : isCompatible "3.0".toList = some true ∧ isCompatible "3.17".toList = some false ∧
    isCompatible "2.0".toList = some false ∧ isCompatible "3".toList = none ∧ isCompatible "3.x".toList = none ∧
    version 31 405 = "31.405".toList := by
  refine ⟨by decide, by decide, by decide, by decide, by decide, ?_⟩
  simp [version, decimal, digitChar]

end Larch
