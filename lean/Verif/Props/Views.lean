import Verif.Model.Views
import Verif.Lib.KV

/-! # C38: named views and counters are created once -/

namespace Larch

open Views

/-- The object remembered for a named request. -/
def Views.known (v : Views) : Call → Option Nat
  | .viewtree (some n) => KV.get? v.views n
  | .viewcount (some n) => KV.get? v.viewscount n
  | _ => none

/-- Remembered objects exist already and are remembered once. -/
structure ViewsInv (v : Views) : Prop where
  old : ∀ c o, v.known c = some o → o < v.next
  once : ∀ c c' o, v.known c = some o → v.known c' = some o → c = c'

/-- What a request returns and remembers. -/
theorem call_spec (v : Views) (c : Call) :
    (∀ o, v.known c = some o → v.call c = (o, v)) ∧
    (v.known c = none → (v.call c).1 = v.next ∧ (v.call c).2.next = v.next + 1 ∧
      ∀ d, (v.call c).2.known d =
        if d = c ∧ d ≠ .viewtree none ∧ d ≠ .viewcount none then some v.next else v.known d) := by
  cases c with
  | viewtree n =>
    cases n with
    | none =>
      refine ⟨fun o h => (by cases h), fun _ => ⟨rfl, rfl, fun d => ?_⟩⟩
      by_cases e : d = .viewtree none
      · subst e; simp; rfl
      · simp [e]; rfl
    | some n =>
      refine ⟨fun o h => ?_, fun h => ?_⟩
      · show v.getViewtree (some n) = _
        unfold Views.getViewtree; dsimp only; change KV.get? v.views n = some o at h; rw [h]
      · have e : v.call (.viewtree (some n)) =
            (v.next, { v with views := KV.set v.views n v.next, next := v.next + 1 }) := by
          show v.getViewtree (some n) = _
          unfold Views.getViewtree; dsimp only; change KV.get? v.views n = none at h; rw [h]
        rw [e]
        refine ⟨rfl, rfl, fun d => ?_⟩
        cases d with
        | viewtree m =>
          cases m with
          | none => simp [Views.known]
          | some m =>
            simp only [Views.known, KV.get?_set]
            by_cases e : m = n
            · subst e; simp
            · simp [e]
        | viewcount m => cases m <;> simp [Views.known]
  | viewcount n =>
    cases n with
    | none =>
      refine ⟨fun o h => (by cases h), fun _ => ⟨rfl, rfl, fun d => ?_⟩⟩
      by_cases e : d = .viewcount none
      · subst e; simp; rfl
      · simp [e]; rfl
    | some n =>
      refine ⟨fun o h => ?_, fun h => ?_⟩
      · show v.getViewcount (some n) = _
        unfold Views.getViewcount; dsimp only; change KV.get? v.viewscount n = some o at h; rw [h]
      · have e : v.call (.viewcount (some n)) =
            (v.next, { v with viewscount := KV.set v.viewscount n v.next, next := v.next + 1 }) := by
          show v.getViewcount (some n) = _
          unfold Views.getViewcount; dsimp only; change KV.get? v.viewscount n = none at h; rw [h]
        rw [e]
        refine ⟨rfl, rfl, fun d => ?_⟩
        cases d with
        | viewcount m =>
          cases m with
          | none => simp [Views.known]
          | some m =>
            simp only [Views.known, KV.get?_set]
            by_cases e : m = n
            · subst e; simp
            · simp [e]
        | viewtree m => cases m <;> simp [Views.known]

theorem call_inv {v : Views} (h : ViewsInv v) (c : Call) : ViewsInv (v.call c).2 := by
  obtain ⟨h1, h2⟩ := call_spec v c
  cases hk : v.known c with
  | some o => rw [h1 o hk]; exact h
  | none =>
    obtain ⟨-, hn, hd⟩ := h2 hk
    constructor
    · intro d o hdo
      rw [hd] at hdo
      rw [hn]
      split at hdo
      · cases hdo; omega
      · have := h.old d o hdo; omega
    · intro d d' o hdo hdo'
      rw [hd] at hdo hdo'
      split at hdo
      · rename_i e
        split at hdo'
        · rename_i e'; rw [e.1, e'.1]
        · cases hdo; have := h.old d' _ hdo'; omega
      · split at hdo'
        · cases hdo'; have := h.old d _ hdo; omega
        · exact h.once d d' o hdo hdo'

/-- What is remembered stays remembered. -/
theorem call_known {v : Views} (c d : Call) (o : Nat) (h : v.known d = some o) : (v.call c).2.known d = some o := by
  obtain ⟨h1, h2⟩ := call_spec v c
  cases hk : v.known c with
  | some p => rw [h1 p hk]; exact h
  | none =>
    rw [(h2 hk).2.2, if_neg]
    · exact h
    · rintro ⟨e, -⟩; subst e; rw [hk] at h; cases h

/-- The result of the later request `d`, seen from an earlier state. -/
theorem run_spec (cs : List Call) (v : Views) (h : ViewsInv v) (i : Nat) (hi : i < cs.length) (o : Nat)
    (ho : (v.run cs)[i]? = some o) :
    (∀ c p, v.known c = some p → (cs[i] = c ↔ o = p)) ∧ (v.known cs[i] = none → v.next ≤ o) := by
  induction cs generalizing v i with
  | nil => simp at hi
  | cons a cs ih =>
    obtain ⟨h1, h2⟩ := call_spec v a
    cases i with
    | zero =>
      simp only [Views.run, List.getElem?_cons_zero, Option.some.injEq] at ho
      simp only [List.getElem_cons_zero]
      constructor
      · intro c p hc
        constructor
        · rintro rfl; rw [h1 p hc] at ho; exact ho.symm
        · rintro rfl
          cases hk : v.known a with
          | some q =>
            rw [h1 q hk] at ho
            dsimp only at ho
            subst ho
            exact h.once _ _ _ hk hc
          | none => have := h.old c _ hc; rw [(h2 hk).1] at ho; omega
      · intro hk; rw [(h2 hk).1] at ho; omega
    | succ i =>
      simp only [Views.run, List.getElem?_cons_succ] at ho
      simp only [List.getElem_cons_succ]
      obtain ⟨g1, g2⟩ := ih (v.call a).2 (call_inv h a) i (by simpa using hi) ho
      refine ⟨fun c p hc => g1 c p (call_known a c p hc), fun hk => ?_⟩
      have hi' : i < cs.length := by simpa using hi
      cases hk' : (v.call a).2.known (cs[i]'hi') with
      | none =>
        have := g2 hk'
        cases ha : v.known a with
        | some q => rwa [h1 q ha] at this
        | none => rw [(h2 ha).2.1] at this; omega
      | some q =>
        have e := (g1 _ q hk').1 rfl
        subst e
        cases ha : v.known a with
        | some q' => rw [h1 q' ha] at hk'; rw [hk] at hk'; cases hk'
        | none =>
          rw [(h2 ha).2.2] at hk'
          split at hk'
          · cases hk'; exact Nat.le_refl _
          · rw [hk] at hk'; cases hk'

/-- A request by name. -/
def Views.Call.named : Call → Bool
  | .viewtree n => n.isSome
  | .viewcount n => n.isSome

theorem run_length (cs : List Call) (v : Views) : (v.run cs).length = cs.length := by
  induction cs generalizing v with
  | nil => rfl
  | cons c cs ih => simp [Views.run, ih]

/-- Two requests, seen from a state before both. -/
theorem run_pair (cs : List Call) (v : Views) (h : ViewsInv v) (i j : Nat) (hij : i < j) (hj : j < cs.length) (o p : Nat)
    (hi : (v.run cs)[i]? = some o) (hjp : (v.run cs)[j]? = some p) :
    o = p ↔ cs[i]'(by omega) = cs[j] ∧ cs[j].named = true := by
  induction cs generalizing v i j with
  | nil => simp at hj
  | cons a cs ih =>
    obtain ⟨j, rfl⟩ : ∃ j', j = j' + 1 := ⟨j - 1, by omega⟩
    simp only [Views.run, List.getElem?_cons_succ] at hjp
    simp only [List.getElem_cons_succ]
    cases i with
    | succ i =>
      simp only [Views.run, List.getElem?_cons_succ] at hi
      simp only [List.getElem_cons_succ]
      exact ih (v.call a).2 (call_inv h a) i j (by omega) (by simpa using hj) hi hjp
    | zero =>
      simp only [Views.run, List.getElem?_cons_zero, Option.some.injEq] at hi
      simp only [List.getElem_cons_zero]
      obtain ⟨g1, g2⟩ := run_spec cs (v.call a).2 (call_inv h a) j (by simpa using hj) p hjp
      obtain ⟨h1, h2⟩ := call_spec v a
      -- after the request, either it is remembered under its name or it is anonymous
      by_cases hn : a.named = true
      · have hk : (v.call a).2.known a = some o := by
          cases ha : v.known a with
          | some q =>
            rw [h1 q ha] at hi
            dsimp only at hi
            subst hi
            exact call_known a a _ ha
          | none =>
            rw [(h2 ha).2.2, ← hi, (h2 ha).1]
            refine if_pos ⟨rfl, ?_, ?_⟩ <;> rintro rfl <;> cases hn
        have := g1 a o hk
        constructor
        · intro e
          have e' := this.2 e.symm
          exact ⟨e'.symm, by rw [e']; exact hn⟩
        · rintro ⟨e, -⟩
          exact (this.1 e.symm).symm
      · have ha : v.known a = none := by
          cases a with
          | viewtree n => cases n with
            | none => rfl
            | some n => exact absurd rfl hn
          | viewcount n => cases n with
            | none => rfl
            | some n => exact absurd rfl hn
        have hk : ∀ d, (v.call a).2.known d ≠ some o := by
          intro d hd
          rw [(h2 ha).2.2] at hd
          rw [(h2 ha).1] at hi
          split at hd
          · rename_i e
            obtain ⟨rfl, e1, e2⟩ := e
            cases d with
            | viewtree n => cases n with
              | none => exact e1 rfl
              | some n => exact hn rfl
            | viewcount n => cases n with
              | none => exact e2 rfl
              | some n => exact hn rfl
          · have := h.old d o hd; omega
        constructor
        · intro e
          subst e
          have hj' : j < cs.length := by simpa using hj
          cases hd : (v.call a).2.known (cs[j]'hj') with
          | none => have := g2 hd; rw [(h2 ha).2.1] at this; rw [(h2 ha).1] at hi; omega
          | some q => exact absurd (((g1 _ q hd).1 rfl) ▸ hd) (hk _)
        · rintro ⟨e, e'⟩; rw [← e] at e'; exact absurd e' hn

theorem init_views : ViewsInv Views.init := by
  constructor
  · intro c o h
    have : o = 0 := by
      cases c with
      | viewtree n => cases n with
        | none => cases h
        | some n =>
          simp only [Views.known, Views.init, KV.get?_set] at h
          split at h
          · cases h; rfl
          · cases h
      | viewcount n => cases n <;> cases h
    subst this; exact Nat.one_pos
  · have key : ∀ c o, Views.init.known c = some o → c = .viewtree (some 0) := by
      intro c o h
      cases c with
      | viewtree n => cases n with
        | none => cases h
        | some n =>
          simp only [Views.known, Views.init, KV.get?_set] at h
          split at h
          · rename_i e; subst e; rfl
          · cases h
      | viewcount n => cases n <;> cases h
    intro c c' o h h'
    rw [key c o h, key c' o h']

/-- C38: in any history of requests, two requests return the same object exactly when they ask for the same kind of
object under the same name (not None). -/
theorem C38_named_once (cs : List Call) (i j : Nat) (hij : i ≠ j) (hi : i < cs.length) (hj : j < cs.length) (o p : Nat)
    (ho : (Views.init.run cs)[i]? = some o) (hp : (Views.init.run cs)[j]? = some p) :
    o = p ↔ (∃ n, cs[i] = .viewtree (some n) ∧ cs[j] = .viewtree (some n)) ∨
      (∃ n, cs[i] = .viewcount (some n) ∧ cs[j] = .viewcount (some n)) := by
  have key : ∀ c d : Call, (c = d ∧ d.named = true) ↔ (∃ n, c = .viewtree (some n) ∧ d = .viewtree (some n)) ∨
      (∃ n, c = .viewcount (some n) ∧ d = .viewcount (some n)) := by
    intro c d
    constructor
    · rintro ⟨rfl, hn⟩
      cases c with
      | viewtree n => cases n with
        | none => cases hn
        | some n => exact .inl ⟨n, rfl, rfl⟩
      | viewcount n => cases n with
        | none => cases hn
        | some n => exact .inr ⟨n, rfl, rfl⟩
    · rintro (⟨n, rfl, rfl⟩ | ⟨n, rfl, rfl⟩) <;> exact ⟨rfl, rfl⟩
  rw [← key]
  rcases Nat.lt_or_gt_of_ne hij with h | h
  · exact run_pair cs _ init_views i j h hj o p ho hp
  · have := run_pair cs _ init_views j i h hi p o hp ho
    constructor
    · intro e
      obtain ⟨e1, e2⟩ := this.1 e.symm
      exact ⟨e1.symm, by rw [e1]; exact e2⟩
    · rintro ⟨e1, e2⟩
      exact (this.2 ⟨e1.symm, by rw [e1]; exact e2⟩).symm

/-- C38: every request is answered. -/
theorem C38_answered (cs : List Call) : (Views.init.run cs).length = cs.length := run_length cs _

theorem after_known (cs : List Call) (v : Views) (c : Call) (o : Nat) (h : v.known c = some o) :
    (v.after cs).known c = some o := by
  induction cs generalizing v with
  | nil => exact h
  | cons d cs ih => exact ih _ (call_known d c o h)

/-- C38: the main view is always the same object, which is also what the name `'main'` gives. -/
theorem C38_main_view (cs : List Call) (i : Nat) (hi : i < cs.length) (o : Nat)
    (ho : (Views.init.run cs)[i]? = some o) :
    (Views.init.after cs).getMainView = some 0 ∧ (cs[i] = .viewtree (some 0) ↔ o = 0) :=
  ⟨after_known cs _ (.viewtree (some 0)) 0 rfl, (run_spec cs _ init_views i hi o ho).1 _ 0 rfl⟩

example : Views.init.run [.viewtree (some 1), .viewtree none, .viewcount (some 1), .viewtree (some 1), .viewtree (some 0),
    .viewcount (some 1), .viewtree none] = [1, 2, 3, 1, 0, 3, 4] := by decide

end Larch
