import Verif.Spec.TreeModel
import Mathlib.Data.List.Basic
import Mathlib.Data.List.Nodup

/-!
# Invariant of the GTK tree model
-/

namespace Larch

open Spec TM

/-- The part of the path above a row. -/
def above (P : Nat → List Id) : Option Nat → List Id
  | none => []
  | some p => P p

/-- `P` gives the path (upwards) of every row; rows and caches agree with it. -/
structure TInv (m : TM) (rows : List (List Id)) (P : Nat → List Id) : Prop where
  addrs : (m.rows.map GRow.addr).Nodup
  live : ∀ r ∈ m.rows, ∀ p, r.parent = some p → ∃ q ∈ m.rows, q.addr = p
  path : ∀ r ∈ m.rows, P r.addr = r.nid :: above P r.parent
  inj : ∀ r ∈ m.rows, ∀ q ∈ m.rows, P r.addr = P q.addr → r = q
  img : ∀ l, l ∈ rows ↔ ∃ r ∈ m.rows, P r.addr = l.reverse
  cache : ∀ k a, m.cpaths k = some a → ∀ r ∈ m.rows, r.addr = a → k.head? = some r.nid → P a = k
  pos : ∀ l ∈ rows, ∃ n, m.cpos l.reverse = some n
  once : rows.Nodup
  order : m.rows.map (fun r => (P r.addr).reverse) = rows.reverse

theorem TM.value_eq {m : TM} (h : (m.rows.map GRow.addr).Nodup) {a : Nat} {x : Id} :
    m.value a = some x ↔ ∃ r ∈ m.rows, r.addr = a ∧ r.nid = x := by
  unfold TM.value
  constructor
  · intro e
    obtain ⟨r, hr, rfl⟩ := Option.map_eq_some_iff.1 e
    exact ⟨r, List.mem_of_find?_eq_some hr, by simpa using List.find?_some hr, rfl⟩
  · rintro ⟨r, hr, rfl, rfl⟩
    have : m.rows.find? (fun q => q.addr = r.addr) = some r := by
      cases e : m.rows.find? (fun q => decide (q.addr = r.addr)) with
      | none => simpa using List.find?_eq_none.1 e r hr
      | some q =>
        have hq := List.mem_of_find?_eq_some e
        have hqa : q.addr = r.addr := by simpa using List.find?_some e
        exact congrArg some (List.inj_on_of_nodup_map h hq hr hqa)
    rw [this]; rfl

namespace TInv

variable {m : TM} {rows : List (List Id)} {P : Nat → List Id} {O : GtkOrder}

/-- Two rows at the same address are the same. -/
theorem same (h : TInv m rows P) {r q : GRow} (hr : r ∈ m.rows) (hq : q ∈ m.rows) (e : r.addr = q.addr) : r = q :=
  List.inj_on_of_nodup_map h.addrs hr hq e

/-- The invariant speaks about the cache of iterators only in `cache`. -/
theorem recache (h : TInv m rows P) (c : List Id → Option Nat)
    (hc : ∀ k a, c k = some a → ∀ r ∈ m.rows, r.addr = a → k.head? = some r.nid → P a = k) :
    TInv { m with cpaths := c } rows P :=
  ⟨h.addrs, h.live, h.path, h.inj, h.img, hc, h.pos, h.once, h.order⟩

/-- Looking below the right parent finds the right row, by position or by search. -/
theorem find (h : TInv m rows P) (hO : GtkSound O) {x : Id} {up : List Id} {root : Option Nat}
    (hroot : above P root = up) (hlive : ∀ p, root = some p → ∃ q ∈ m.rows, q.addr = p)
    (hnone : root = none → up = []) (a : Nat) :
    (m.byPosition O root (x :: up) x).or (m.scan root x) = some a ↔ ∃ r ∈ m.rows, r.addr = a ∧ P a = x :: up := by
  -- a child of `root` with first column `x` is the row of the path
  have good : ∀ r ∈ m.rows, r.parent = root → r.nid = x → P r.addr = x :: up := by
    intro r hr h1 h2; rw [h.path r hr, h1, h2, hroot]
  have pos : ∀ b, m.byPosition O root (x :: up) x = some b → ∃ r ∈ m.rows, r.addr = b ∧ P b = x :: up := by
    intro b hb
    unfold TM.byPosition at hb
    split at hb
    · cases hb
    · split at hb
      · cases hb
      · split at hb
        · cases hb
        · next c hc =>
          split at hb
          · next hv =>
            cases hb
            obtain ⟨r, hr, e1, e2⟩ := (TM.value_eq h.addrs).1 hv
            obtain ⟨q, hq, e3, e4⟩ := hO.nth _ _ _ _ hc
            have : r = q := h.same hr hq (by rw [e1, e3])
            subst this
            exact ⟨r, hr, e1, by rw [← e1]; exact good r hr e4 e2⟩
          · cases hb
  have scn : ∀ b, m.scan root x = some b → ∃ r ∈ m.rows, r.addr = b ∧ P b = x :: up := by
    intro b hb
    unfold TM.scan at hb
    obtain ⟨r, hr, rfl⟩ := Option.map_eq_some_iff.1 hb
    have hm := List.mem_of_find?_eq_some hr
    have hp : r.parent = root ∧ r.nid = x := by simpa using List.find?_some hr
    exact ⟨r, hm, rfl, good r hm hp.1 hp.2⟩
  have uniq : ∀ b c, (∃ r ∈ m.rows, r.addr = b ∧ P b = x :: up) → (∃ r ∈ m.rows, r.addr = c ∧ P c = x :: up) → b = c := by
    rintro b c ⟨r, hr, rfl, e1⟩ ⟨q, hq, rfl, e2⟩
    rw [h.inj r hr q hq (by rw [e1, e2])]
  constructor
  · intro e
    cases hb : m.byPosition O root (x :: up) x with
    | none => rw [hb] at e; exact scn a e
    | some b => rw [hb] at e; cases e; exact pos a hb
  · intro ha
    cases hb : m.byPosition O root (x :: up) x with
    | some b => rw [uniq b a (pos b hb) ha]; rfl
    | none =>
      show m.scan root x = some a
      cases hs : m.scan root x with
      | some b => rw [uniq b a (scn b hs) ha]
      | none =>
        exfalso
        obtain ⟨r, hr, rfl, e⟩ := ha
        unfold TM.scan at hs
        have hn := List.find?_eq_none.1 (Option.map_eq_none_iff.1 hs) r hr
        rw [h.path r hr] at e
        injection e with e1 e2
        apply hn
        simp only [decide_eq_true_eq]
        refine ⟨?_, e1⟩
        -- the parents have the same path
        cases hp : r.parent with
        | none =>
          rw [hp] at e2
          cases hq : root with
          | none => rfl
          | some q =>
            exfalso
            obtain ⟨s, hs1, rfl⟩ := hlive q hq
            rw [hq] at hroot
            have hroot' : P s.addr = up := hroot
            rw [h.path s hs1, ← e2] at hroot'
            cases hroot'
        | some p =>
          rw [hp] at e2
          obtain ⟨t, ht, rfl⟩ := h.live r hr p hp
          cases hq : root with
          | none =>
            exfalso
            have e2' : P t.addr = up := e2
            rw [h.path t ht, hnone hq] at e2'
            cases e2'
          | some q =>
            obtain ⟨s, hs1, rfl⟩ := hlive q hq
            rw [hq] at hroot
            have hroot' : P s.addr = up := hroot
            have e2' : P t.addr = up := e2
            rw [h.inj t ht s hs1 (by rw [hroot', e2'])]

/-- `my_get_iter` finds the row of the path and nothing else, and keeps the invariant, if the row above is there. -/
theorem getIterUp (hO : GtkSound O) (k : List Id) : ∀ {m : TM}, TInv m rows P →
    (k.tail = [] ∨ ∃ r ∈ m.rows, P r.addr = k.tail) →
    (∀ a, (TM.getIterUp O k m).1 = some a ↔ ∃ r ∈ m.rows, r.addr = a ∧ P a = k) ∧
      (TM.getIterUp O k m).2.rows = m.rows ∧ (TM.getIterUp O k m).2.cpos = m.cpos ∧
      (∀ k' a, (TM.getIterUp O k m).2.cpaths k' = some a → m.cpaths k' = some a ∨ ∃ r ∈ m.rows, r.addr = a) ∧
      TInv (TM.getIterUp O k m).2 rows P := by
  induction k with
  | nil =>
    intro m h _
    refine ⟨fun a => ⟨fun e => (by cases e), ?_⟩, rfl, rfl, fun _ _ e => Or.inl e, h⟩
    rintro ⟨r, hr, rfl, e⟩
    rw [h.path r hr] at e
    cases e
  | cons x up ih =>
    intro m h hup
    have hup' : up.tail = [] ∨ ∃ r ∈ m.rows, P r.addr = up.tail := by
      rcases hup with e | ⟨r, hr, e⟩
      · have e' : up = [] := e
        rw [e']; exact Or.inl rfl
      · have e' : P r.addr = up := e
        rw [h.path r hr] at e'
        rw [← e']
        show above P r.parent = [] ∨ ∃ q ∈ m.rows, P q.addr = above P r.parent
        cases hp : r.parent with
        | none => exact Or.inl rfl
        | some p =>
          obtain ⟨q, hq, rfl⟩ := h.live r hr p hp
          exact Or.inr ⟨q, hq, rfl⟩
    obtain ⟨i1, i2, i3, i4, i5⟩ := ih h hup'
    -- the slow way
    have slow : (∀ a, (((TM.getIterUp O up m).2.byPosition O (TM.getIterUp O up m).1 (x :: up) x).or
          ((TM.getIterUp O up m).2.scan (TM.getIterUp O up m).1 x)) = some a ↔
          ∃ r ∈ m.rows, r.addr = a ∧ P a = x :: up) := by
      intro a
      have hl : ∀ p, (TM.getIterUp O up m).1 = some p → ∃ q ∈ m.rows, q.addr = p := fun p hp => by
        obtain ⟨r, hr, e, _⟩ := (i1 p).1 hp
        exact ⟨r, hr, e⟩
      have hn : (TM.getIterUp O up m).1 = none → up = [] := by
        intro hn
        rcases hup with e | ⟨r, hr, e⟩
        · exact e
        · rw [(i1 r.addr).2 ⟨r, hr, rfl, e⟩] at hn
          cases hn
      have ha : above P (TM.getIterUp O up m).1 = up := by
        cases hr : (TM.getIterUp O up m).1 with
        | none => rw [hn hr]; rfl
        | some p =>
          obtain ⟨_, _, _, e⟩ := (i1 p).1 hr
          exact e
      have := i5.find hO (x := x) ha (by rw [i2]; exact hl) hn a
      rw [i2] at this
      exact this
    have slowState : ∀ it, (∀ a, it = some a ↔ ∃ r ∈ m.rows, r.addr = a ∧ P a = x :: up) →
        (∀ k' a, put (TM.getIterUp O up m).2.cpaths (x :: up) it k' = some a →
          m.cpaths k' = some a ∨ ∃ r ∈ m.rows, r.addr = a) ∧
        TInv { (TM.getIterUp O up m).2 with cpaths := put (TM.getIterUp O up m).2.cpaths (x :: up) it } rows P := by
      intro it hit
      refine ⟨fun k' a e => ?_, i5.recache _ (fun k' a e r hr e1 e2 => ?_)⟩
      · unfold put at e
        split at e
        · obtain ⟨r, hr, e1, _⟩ := (hit a).1 e
          exact Or.inr ⟨r, hr, e1⟩
        · exact i4 k' a e
      · unfold put at e
        split at e
        · next hk => obtain ⟨_, _, _, e3⟩ := (hit a).1 e; rw [hk]; exact e3
        · exact i5.cache k' a e r hr e1 e2
    unfold TM.getIterUp
    cases hc : m.cpaths (x :: up) with
    | none => exact ⟨slow, i2, i3, slowState _ slow⟩
    | some b =>
      dsimp only
      by_cases hv : m.value b = some x
      · rw [if_pos hv]
        refine ⟨fun a => ?_, rfl, rfl, fun _ _ e => Or.inl e, h⟩
        obtain ⟨r, hr, e1, e2⟩ := (TM.value_eq h.addrs).1 hv
        have hP := h.cache _ b hc r hr e1 (by rw [e2]; rfl)
        constructor
        · intro e
          cases e
          exact ⟨r, hr, e1, hP⟩
        · rintro ⟨q, hq, rfl, e⟩
          rw [h.inj r hr q hq (by rw [e1, hP, e])] at e1
          exact congrArg some e1.symm
      · rw [if_neg hv]
        exact ⟨slow, i2, i3, slowState _ slow⟩

/-- The path of the row above is announced as well. -/
theorem tail (h : TInv m rows P) {l : List Id} (hl : l ∈ rows) :
    l.reverse.tail = [] ∨ ∃ r ∈ m.rows, P r.addr = l.reverse.tail := by
  obtain ⟨r, hr, e⟩ := (h.img l).1 hl
  rw [← e, h.path r hr]
  show above P r.parent = [] ∨ ∃ q ∈ m.rows, P q.addr = above P r.parent
  cases hp : r.parent with
  | none => exact Or.inl rfl
  | some p =>
    obtain ⟨q, hq, rfl⟩ := h.live r hr p hp
    exact Or.inr ⟨q, hq, rfl⟩

/-- Paths given by `P` are the paths of the rows. -/
theorem rowPath (h : TInv m rows P) (k : List Id) : ∀ r ∈ m.rows, P r.addr = k → RowPath m.rows r.addr k.reverse := by
  induction k with
  | nil => intro r hr e; rw [h.path r hr] at e; cases e
  | cons x up ih =>
    intro r hr e
    rw [h.path r hr] at e
    injection e with e1 e2
    rw [List.reverse_cons, ← e1]
    cases hp : r.parent with
    | none => rw [hp] at e2; rw [← e2]; exact RowPath.top hr hp
    | some p =>
      rw [hp] at e2
      obtain ⟨q, hq, rfl⟩ := h.live r hr p hp
      exact RowPath.under hr hp (ih q hq e2)

theorem of_rowPath (h : TInv m rows P) {a : Nat} {l : List Id} (hl : RowPath m.rows a l) :
    (∃ r ∈ m.rows, r.addr = a) ∧ P a = l.reverse := by
  induction hl with
  | top hr hp => exact ⟨⟨_, hr, rfl⟩, by rw [h.path _ hr, hp]; rfl⟩
  | under hr hp _ ih =>
    refine ⟨⟨_, hr, rfl⟩, ?_⟩
    rw [h.path _ hr, hp, List.reverse_append]
    show _ :: P _ = _
    rw [ih.2]; rfl

theorem mirrors (h : TInv m rows P) : Mirrors m.rows rows := by
  refine ⟨h.addrs, fun r hr => ?_, fun l hl => ?_⟩
  · refine ⟨(P r.addr).reverse, (h.img _).2 ⟨r, hr, by simp⟩, h.rowPath _ r hr rfl, fun l' hl' => ?_⟩
    rw [(h.of_rowPath hl').2, List.reverse_reverse]
  · obtain ⟨r, hr, e⟩ := (h.img l).1 hl
    refine ⟨r, hr, by simpa using h.rowPath _ r hr e, fun q hq hl' => ?_⟩
    exact h.inj q hq r hr (by rw [(h.of_rowPath hl').2, e])

theorem init : TInv {} [] P :=
  ⟨List.nodup_nil, fun r hr => (by cases hr), fun r hr => (by cases hr), fun r hr => (by cases hr),
    fun l => ⟨fun h => (by cases h), fun ⟨r, hr, _⟩ => (by cases hr)⟩, fun k a e => (by cases e), fun l hl => (by cases hl),
    List.nodup_nil, rfl⟩

/-- `add_task`. -/
theorem add (h : TInv m rows P) (hO : GtkSound O) {path : List Id} {x : Id} {a : Nat} (hx : path.getLast? = some x)
    (hnew : path ∉ rows) (hpar : path.dropLast = [] ∨ path.dropLast ∈ rows) (hfresh : ∀ r ∈ m.rows, r.addr ≠ a)
    (hcache : ∀ k, m.cpaths k = some a → k.head? = some x → k = path.reverse) :
    ∃ m' P', m.addTask O x path a = .ok m' ∧ TInv m' (path :: rows) P' ∧
      (∀ r ∈ m'.rows, r.addr = a ∨ ∃ q ∈ m.rows, q.addr = r.addr) ∧
      (∀ k b, m'.cpaths k = some b → m.cpaths k = some b ∨ ∃ r ∈ m.rows, r.addr = b) ∧
      P' a = path.reverse ∧ ∀ b, b ≠ a → P' b = P b := by
  obtain ⟨up, rfl⟩ : ∃ up : List Id, path = up.reverse ++ [x] := by
    obtain ⟨l, rfl⟩ := List.getLast?_eq_some_iff.1 hx
    exact ⟨l.reverse, by simp⟩
  rw [List.dropLast_concat] at hpar
  have hup : up.tail = [] ∨ ∃ r ∈ m.rows, P r.addr = up.tail := by
    rcases hpar with e | e
    · rw [List.reverse_eq_nil_iff.1 e]; exact Or.inl rfl
    · simpa using h.tail e
  obtain ⟨i1, i2, i3, i4, i5⟩ := TInv.getIterUp hO up h hup
  unfold TM.addTask TM.getIter
  rw [List.dropLast_concat, List.reverse_reverse]
  dsimp only
  have habove : above P (TM.getIterUp O up m).1 = up := by
    cases hr : (TM.getIterUp O up m).1 with
    | some p => obtain ⟨_, _, _, e⟩ := (i1 p).1 hr; exact e
    | none =>
      rcases hpar with e | e
      · rw [List.reverse_eq_nil_iff.1 e]; rfl
      · obtain ⟨r, hr', e'⟩ := (h.img _).1 e
        rw [List.reverse_reverse] at e'
        rw [(i1 r.addr).2 ⟨r, hr', rfl, e'⟩] at hr
        cases hr
  have hitlive : ∀ p, (TM.getIterUp O up m).1 = some p → ∃ q ∈ m.rows, q.addr = p := fun p hp => by
    obtain ⟨q, hq, e, _⟩ := (i1 p).1 hp
    exact ⟨q, hq, e⟩
  let P' : Nat → List Id := fun b => if b = a then x :: up else P b
  have hP' : ∀ r ∈ m.rows, P' r.addr = P r.addr := fun r hr => if_neg (hfresh r hr)
  have hPa : P' a = x :: up := if_pos rfl
  have hrows : (TM.getIterUp O up m).2.rows = m.rows := i2
  have habove' : ∀ o : Option Nat, (∀ p, o = some p → ∃ q ∈ m.rows, q.addr = p) → above P' o = above P o := by
    intro o ho
    cases o with
    | none => rfl
    | some p => obtain ⟨q, hq, rfl⟩ := ho p rfl; exact hP' q hq
  have hno : ∀ r ∈ m.rows, P r.addr ≠ x :: up := by
    intro r hr e
    exact hnew ((h.img _).2 ⟨r, hr, by simpa using e⟩)
  refine ⟨_, P', rfl, ⟨?_, ?_, ?_, ?_, ?_, ?_, ?_, ?_, ?_⟩, ?_, i4, by rw [hPa]; simp, fun b hb => if_neg hb⟩
  · dsimp only
    rw [hrows, List.map_append, List.nodup_append]
    refine ⟨h.addrs, by simp, ?_⟩
    intro b hb c hc e
    obtain ⟨r, hr, rfl⟩ := List.mem_map.1 hb
    simp only [List.map_cons, List.map_nil, List.mem_singleton] at hc
    exact hfresh r hr (e.trans hc)
  · intro r hr p hp
    dsimp only at hr ⊢
    rw [hrows] at hr ⊢
    rcases List.mem_append.1 hr with hr | hr
    · obtain ⟨q, hq, e⟩ := h.live r hr p hp
      exact ⟨q, List.mem_append_left _ hq, e⟩
    · rw [List.mem_singleton] at hr
      subst hr
      obtain ⟨q, hq, e⟩ := hitlive p hp
      exact ⟨q, List.mem_append_left _ hq, e⟩
  · intro r hr
    dsimp only at hr
    rw [hrows] at hr
    rcases List.mem_append.1 hr with hr | hr
    · rw [hP' r hr, h.path r hr, habove' _ (h.live r hr)]
    · rw [List.mem_singleton] at hr
      subst hr
      dsimp only
      rw [hPa, habove' _ hitlive, habove]
  · intro r hr q hq e
    dsimp only at hr hq
    rw [hrows] at hr hq
    rcases List.mem_append.1 hr with hr | hr <;> rcases List.mem_append.1 hq with hq | hq
    · rw [hP' r hr, hP' q hq] at e
      exact h.inj r hr q hq e
    · rw [List.mem_singleton] at hq
      subst hq
      rw [hP' r hr] at e
      exact absurd (e.trans hPa) (hno r hr)
    · rw [List.mem_singleton] at hr
      subst hr
      rw [hP' q hq] at e
      exact absurd (e.symm.trans hPa) (hno q hq)
    · rw [List.mem_singleton] at hr hq
      rw [hr, hq]
  · intro l
    dsimp only
    rw [hrows, List.mem_cons]
    constructor
    · rintro (rfl | hl)
      · exact ⟨⟨a, (TM.getIterUp O up m).1, x⟩, by simp, by simpa using hPa⟩
      · obtain ⟨r, hr, e⟩ := (h.img l).1 hl
        exact ⟨r, List.mem_append_left _ hr, by rw [hP' r hr, e]⟩
    · rintro ⟨r, hr, e⟩
      rcases List.mem_append.1 hr with hr | hr
      · exact Or.inr ((h.img l).2 ⟨r, hr, by rw [← hP' r hr, e]⟩)
      · rw [List.mem_singleton] at hr
        subst hr
        left
        have := hPa.symm.trans e
        rw [← List.reverse_reverse l, ← this]
        simp
  · intro k b hk r hr e1 e2
    dsimp only at hk hr
    rw [hrows] at hr
    rcases List.mem_append.1 hr with hr | hr
    · rw [← e1, hP' r hr]
      have := i5.cache k b hk r (by rw [hrows]; exact hr) e1 e2
      rw [e1]; exact this
    · rw [List.mem_singleton] at hr
      subst hr
      dsimp only at e1 e2
      subst e1
      rw [hPa]
      rcases i4 k a hk with hk | ⟨r, hr, e⟩
      · have := hcache k hk e2
        rw [this]; simp
      · exact absurd e (hfresh r hr)
  · intro l hl
    dsimp only
    unfold put
    rcases List.mem_cons.1 hl with rfl | hl
    · exact ⟨_, if_pos rfl⟩
    · split
      · exact ⟨_, rfl⟩
      · rw [i3]; exact h.pos l hl
  · exact List.nodup_cons.2 ⟨hnew, h.once⟩
  · dsimp only
    rw [hrows, List.map_append, List.reverse_cons, ← h.order]
    congr 1
    · exact List.map_congr_left fun r hr => by rw [hP' r hr]
    · simp [hPa]
  · intro r hr
    dsimp only at hr
    rw [hrows] at hr
    rcases List.mem_append.1 hr with hr | hr
    · exact Or.inr ⟨r, hr, rfl⟩
    · rw [List.mem_singleton] at hr; subst hr; exact Or.inl rfl

theorem subtree_leaf {rs : List GRow} {a : Nat} (h : ∀ r ∈ rs, r.parent ≠ some a) (n : Nat) : subtree rs a n = [a] := by
  induction n with
  | zero => rfl
  | succ n ih =>
    unfold subtree
    rw [ih]
    dsimp only
    have : rs.filter (fun r => r.parent.any ([a].contains ·)) = [] := by
      rw [List.filter_eq_nil_iff]
      intro r hr
      cases hp : r.parent with
      | none => simp
      | some p =>
        have : p ≠ a := fun e => h r hr (by rw [hp, e])
        simp [this]
    rw [this]
    rfl

/-- `remove_task`. -/
theorem remove (h : TInv m rows P) (hO : GtkSound O) {path : List Id} {x : Id} (hx : path.getLast? = some x)
    (hin : path ∈ rows) (hleaf : ∀ r ∈ rows, path <+: r → r = path) :
    ∃ m', m.removeTask O x path = .ok m' ∧ TInv m' (rows.erase path) P ∧
      (∀ r ∈ m'.rows, r ∈ m.rows) ∧
      ∀ k b, m'.cpaths k = some b → m.cpaths k = some b ∨ ∃ r ∈ m.rows, r.addr = b := by
  obtain ⟨up, rfl⟩ : ∃ up : List Id, path = up.reverse ++ [x] := by
    obtain ⟨l, rfl⟩ := List.getLast?_eq_some_iff.1 hx
    exact ⟨l.reverse, by simp⟩
  have hrev : (up.reverse ++ [x]).reverse = x :: up := by simp
  obtain ⟨i1, i2, i3, i4, i5⟩ := TInv.getIterUp hO (x :: up) h (by simpa using h.tail hin)
  obtain ⟨r, hr, e⟩ := (h.img _).1 hin
  rw [hrev] at e
  have hit := (i1 r.addr).2 ⟨r, hr, rfl, e⟩
  have hrn : r.nid = x := by
    rw [h.path r hr] at e; injection e
  have hkids : ∀ q ∈ m.rows, q.parent ≠ some r.addr := by
    intro q hq hp
    have hPq := h.path q hq
    rw [hp] at hPq
    have hPq' : P q.addr = q.nid :: P r.addr := hPq
    rw [e] at hPq'
    have hql : (q.nid :: x :: up).reverse ∈ rows := (h.img _).2 ⟨q, hq, by rw [hPq']; simp⟩
    have := hleaf _ hql ⟨[q.nid], by simp⟩
    have := congrArg List.length this
    simp at this
  unfold TM.removeTask TM.getIter
  rw [hrev]
  dsimp only
  rw [hit]
  dsimp only
  have hrows : (TM.getIterUp O (x :: up) m).2.rows = m.rows := i2
  have hv : (TM.getIterUp O (x :: up) m).2.value r.addr = some x :=
    (TM.value_eq i5.addrs).2 ⟨r, by rw [hrows]; exact hr, rfl, hrn⟩
  rw [if_pos hv, hrows, subtree_leaf hkids]
  obtain ⟨n, hn⟩ := h.pos _ hin
  rw [hrev] at hn
  rw [i3, hn]
  dsimp only
  have hmem : ∀ q, q ∈ m.rows.filter (fun q => !([r.addr] : List Nat).contains q.addr) ↔ q ∈ m.rows ∧ q.addr ≠ r.addr := by
    intro q; rw [List.mem_filter]; simp
  have herase : ∀ l, l ∈ rows.erase (up.reverse ++ [x]) ↔ l ≠ up.reverse ++ [x] ∧ l ∈ rows := fun l =>
    h.once.mem_erase_iff
  refine ⟨_, rfl, ⟨?_, ?_, ?_, ?_, ?_, ?_, ?_, h.once.erase _, ?_⟩, fun q hq => ((hmem q).1 hq).1, ?_⟩
  · exact h.addrs.sublist (List.filter_sublist.map _)
  · intro q hq p hp
    obtain ⟨hq, -⟩ := (hmem q).1 hq
    obtain ⟨s, hs, rfl⟩ := h.live q hq p hp
    exact ⟨s, (hmem s).2 ⟨hs, fun e => hkids q hq (by rw [hp, e])⟩, rfl⟩
  · intro q hq
    exact h.path q ((hmem q).1 hq).1
  · intro q hq s hs
    exact h.inj q ((hmem q).1 hq).1 s ((hmem s).1 hs).1
  · intro l
    rw [herase]
    constructor
    · rintro ⟨hne, hl⟩
      obtain ⟨q, hq, e'⟩ := (h.img l).1 hl
      refine ⟨q, (hmem q).2 ⟨hq, fun hqa => hne ?_⟩, e'⟩
      rw [hqa, e] at e'
      rw [← List.reverse_reverse l, ← e']; simp
    · rintro ⟨q, hq, e'⟩
      obtain ⟨hq, hne⟩ := (hmem q).1 hq
      refine ⟨fun hl => hne ?_, (h.img l).2 ⟨q, hq, e'⟩⟩
      rw [h.inj q hq r hr (by rw [e', hl, hrev, e])]
  · intro k b hk q hq e1 e2
    obtain ⟨hq, hne⟩ := (hmem q).1 hq
    dsimp only at hk
    unfold put at hk
    split at hk
    · next hkk =>
      exfalso
      obtain ⟨s, hs, s1, s2, t, ht, t1, t2⟩ := hO.next _ _ _ hk
      have hsq := h.same hs hq (by rw [s1, e1])
      have htr := h.same ht hr t1
      subst hsq htr
      rw [hkk] at e2
      have e2' : x = s.nid := Option.some.inj e2
      have : P s.addr = P t.addr := by rw [h.path s hs, h.path t ht, t2, hrn, e2']
      exact hne (by rw [h.inj s hs t ht this])
    · exact i5.cache k b hk q (by rw [hrows]; exact hq) e1 e2
  · intro l hl
    obtain ⟨hne, hl⟩ := (herase l).1 hl
    unfold put
    dsimp only
    rw [if_neg (fun e => hne (by rw [← List.reverse_reverse l, e]; simp))]
    exact h.pos l hl
  · dsimp only
    rw [h.once.erase_eq_filter, ← List.filter_reverse, ← h.order, List.filter_map]
    congr 1
    refine List.filter_congr fun q hq => ?_
    have : q.addr = r.addr ↔ (P q.addr).reverse = up.reverse ++ [x] :=
      ⟨fun e' => by rw [e', e]; simp, fun e' => by
        rw [h.inj q hq r hr (by rw [e, ← List.reverse_reverse (P q.addr), e', hrev])]⟩
    rw [Bool.eq_iff_iff]
    simp [this]
  · intro k b hk
    dsimp only at hk
    unfold put at hk
    split at hk
    · obtain ⟨s, hs, s1, _⟩ := hO.next _ _ _ hk
      exact Or.inr ⟨s, hs, s1⟩
    · exact i4 k b hk

/-- A lookup below a row that is there. -/
theorem lookup (h : TInv m rows P) (hO : GtkSound O) {path : List Id}
    (hp : path.reverse.tail = [] ∨ ∃ r ∈ m.rows, P r.addr = path.reverse.tail) :
    (∀ a, (m.getIter O path).1 = some a ↔ RowPath m.rows a path) ∧ (m.getIter O path).2.rows = m.rows ∧
      (∀ k b, (m.getIter O path).2.cpaths k = some b → m.cpaths k = some b ∨ ∃ r ∈ m.rows, r.addr = b) ∧
      TInv (m.getIter O path).2 rows P := by
  obtain ⟨i1, i2, i3, i4, i5⟩ := TInv.getIterUp hO path.reverse h hp
  refine ⟨fun a => (i1 a).trans ⟨?_, fun hl => ?_⟩, i2, i4, i5⟩
  · rintro ⟨r, hr, rfl, e⟩
    simpa using h.rowPath _ r hr e
  · obtain ⟨⟨r, hr, e⟩, e'⟩ := h.of_rowPath hl
    exact ⟨r, hr, e, e'⟩

end TInv
end Larch
