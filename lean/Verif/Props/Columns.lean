import Verif.Lib.KV
import Verif.Spec.Columns

/-!
# C49: the columns of the GTK tree view
-/

namespace Larch

open Spec

variable {N F : Type} [LinearOrder N]

namespace Columns

/-! ### The order of the columns -/

theorem orders_getElem? (descs : List (ColDesc N F)) : ∀ (last : Int) (i : Nat),
    (orders last descs)[i]? = (descs[i]?).map fun c => (c.order.getD (last + i), c.name) := by
  induction descs with
  | nil => intro last i; simp [orders]
  | cons c cs ih =>
    intro last i
    cases i with
    | zero => simp [orders]
    | succ i =>
      simp only [orders, List.getElem?_cons_succ]
      rw [ih]
      congr 1
      funext d
      congr 2
      push_cast
      omega

theorem orders_names (descs : List (ColDesc N F)) : ∀ last : Int, (orders last descs).map Prod.snd = descs.map ColDesc.name := by
  induction descs with
  | nil => intro last; rfl
  | cons c cs ih => intro last; simp [orders, ih]

theorem pairLE_iff {a b : Int × N} : pairLE a b = true ↔ (a.1 < b.1 ∨ a.1 = b.1 ∧ a.2 ≤ b.2) := by
  simp [pairLE]

theorem pairLE_trans (a b c : Int × N) (h : pairLE a b = true) (h' : pairLE b c = true) : pairLE a c = true := by
  rw [pairLE_iff] at *
  rcases h with h | ⟨h, h2⟩ <;> rcases h' with h' | ⟨h', h2'⟩
  · exact Or.inl (by omega)
  · exact Or.inl (by omega)
  · exact Or.inl (by omega)
  · exact Or.inr ⟨by omega, le_trans h2 h2'⟩

theorem pairLE_total (a b : Int × N) : (pairLE a b || pairLE b a) = true := by
  rw [Bool.or_eq_true, pairLE_iff, pairLE_iff]
  rcases lt_trichotomy a.1 b.1 with h | h | h
  · exact Or.inl (Or.inl h)
  · rcases le_total a.2 b.2 with h' | h'
    · exact Or.inl (Or.inr ⟨h, h'⟩)
    · exact Or.inr (Or.inr ⟨h.symm, h'⟩)
  · exact Or.inr (Or.inl h)

theorem find_some {descs : List (ColDesc N F)} (hnd : (descs.map ColDesc.name).Nodup) {c : ColDesc N F} (hc : c ∈ descs) :
    find descs c.name = some c := by
  unfold find
  induction descs with
  | nil => cases hc
  | cons d ds ih =>
    rw [List.map_cons, List.nodup_cons] at hnd
    rcases List.mem_cons.1 hc with rfl | hc
    · simp
    · rw [List.find?_cons_of_neg]
      · exact ih hnd.2 hc
      · simp only [decide_eq_true_eq]
        intro e
        exact hnd.1 (e ▸ List.mem_map_of_mem hc)

/-! ### The loop -/

/-- The new column, and everything that was there. -/
theorem addColumn_ok {k : Nat} {c : ColDesc N F} {w : Columns N F} (hnew : w.columns.get? c.name = none)
    (hs : ∀ t, c.sorting = some t → t = c.name ∨ (w.columns.get? t).isSome = true) :
    ∃ w' g, addColumn k c w = .ok w' ∧ w'.types = w.types ++ [c.value] ∧
      (∀ n, w'.columns.get? n = if n = c.name then some (k, g) else w.columns.get? n) ∧
      (∀ x ∈ w.shown, x ∈ w'.shown) ∧ w'.made - 1 = g ∧
      (c.newColumn = true ∨ w.made - 1 ∈ w.shown → g ∈ w'.shown) := by
  have hshown : ∀ w' : Columns N F, w'.made = (if c.newColumn then w.made + 1 else w.made) →
      w'.shown = (if c.newColumn then w.shown ++ [(if c.newColumn then w.made + 1 else w.made) - 1] else w.shown) →
      (∀ x ∈ w.shown, x ∈ w'.shown) ∧ (c.newColumn = true ∨ w.made - 1 ∈ w.shown → w'.made - 1 ∈ w'.shown) := by
    intro w' h1 h2
    rw [h1, h2]
    cases c.newColumn with
    | true => simp; intro x hx; exact Or.inl hx
    | false => simp
  unfold addColumn
  dsimp only
  cases hsort : c.sorting with
  | none =>
    dsimp only
    rw [Res.andThen_ok]
    refine ⟨_, (if c.newColumn then w.made + 1 else w.made) - 1, rfl, ?_⟩
    split <;> exact ⟨rfl, fun n => KV.get?_set _ _ _ _, (hshown _ rfl rfl).1, rfl, (hshown _ rfl rfl).2⟩
  | some t =>
    dsimp only
    have hh : ∃ p, (w.columns.set c.name (k, (if c.newColumn then w.made + 1 else w.made) - 1)).get? t = some p := by
      rw [KV.get?_set]
      split
      · exact ⟨_, rfl⟩
      · next hne => exact Option.isSome_iff_exists.1 ((hs t hsort).resolve_left hne)
    obtain ⟨⟨num, g'⟩, hh⟩ := hh
    rw [hh]
    dsimp only
    rw [Res.andThen_ok]
    refine ⟨_, (if c.newColumn then w.made + 1 else w.made) - 1, rfl, ?_⟩
    split <;> exact ⟨rfl, fun n => KV.get?_set _ _ _ _, (hshown _ rfl rfl).1, rfl, (hshown _ rfl rfl).2⟩

/-- What the loop does with the names that are left. -/
theorem loop_ok {descs : List (ColDesc N F)} : ∀ (l : List (Int × N)) (k : Nat) (w : Columns N F),
    (∀ p ∈ l, ∃ c, find descs p.2 = some c) → (l.map Prod.snd).Nodup → (∀ p ∈ l, w.columns.get? p.2 = none) →
    w.types.length + 1 = k →
    (∀ a p b c t, l = a ++ p :: b → find descs p.2 = some c → c.sorting = some t →
      t ∈ (a ++ [p]).map Prod.snd ∨ (w.columns.get? t).isSome = true) →
    ∃ w', loop descs k l w = .ok w' ∧ w'.types.length = w.types.length + l.length ∧
      (∀ j, j < w.types.length → w'.types[j]? = w.types[j]?) ∧
      (∀ n p, w.columns.get? n = some p → w'.columns.get? n = some p) ∧
      (∀ n, n ∉ l.map Prod.snd → w'.columns.get? n = w.columns.get? n) ∧
      (∀ (i : Nat) o n, l[i]? = some (o, n) → ∃ g c, w'.columns.get? n = some (k + i, g) ∧ find descs n = some c ∧
        w'.types[w.types.length + i]? = some c.value) ∧
      (∀ x ∈ w.shown, x ∈ w'.shown) ∧
      ((w.made - 1 ∈ w.shown ∨ ∃ p c, l.head? = some p ∧ find descs p.2 = some c ∧ c.newColumn = true) →
        ∀ p ∈ l, ∃ q, w'.columns.get? p.2 = some q ∧ q.2 ∈ w'.shown) := by
  intro l
  induction l with
  | nil =>
    intro k w _ _ _ _ _
    exact ⟨w, rfl, rfl, fun _ _ => rfl, fun _ _ h => h, fun _ _ => rfl, (fun i o n h => by simp at h), fun _ h => h,
      fun _ p hp => by cases hp⟩
  | cons p l ih =>
    intro k w hfind hnd hnew hlen hsort
    obtain ⟨o, n⟩ := p
    obtain ⟨c, hc⟩ := hfind (o, n) (by simp)
    have hname : c.name = n := by
      have := List.find?_some hc
      simpa using this
    subst hname
    rw [List.map_cons, List.nodup_cons] at hnd
    obtain ⟨w1, g, e1, t1, c1, s1, m1, n1⟩ := addColumn_ok (k := k) (c := c) (w := w) (hnew (o, c.name) (by simp))
      (fun t ht => by
        rcases hsort [] (o, c.name) l c t rfl hc ht with h | h
        · simp at h; exact Or.inl h
        · exact Or.inr h)
    have hfresh : ∀ q ∈ l, q.2 ≠ c.name := by
      intro q hq e
      exact hnd.1 (List.mem_map.2 ⟨q, hq, e⟩)
    obtain ⟨w2, e2, l2, t2, c2, x2, i2, s2, h2⟩ := ih (k + 1) w1 (fun q hq => hfind q (by simp [hq])) hnd.2
      (fun q hq => by rw [c1, if_neg (hfresh q hq)]; exact hnew q (by simp [hq]))
      (by rw [t1]; simp; exact hlen)
      (by
        intro a q b d t hl hd ht
        rcases hsort ((o, c.name) :: a) q b d t (by rw [hl]; rfl) hd ht with h | h
        · rw [List.cons_append, List.map_cons, List.mem_cons] at h
          rcases h with h | h
          · refine Or.inr ?_
            rw [c1, if_pos h]; rfl
          · exact Or.inl h
        · refine Or.inr ?_
          rw [c1]
          split
          · rfl
          · exact h)
    have hl1 : w1.types.length = w.types.length + 1 := by rw [t1]; simp
    refine ⟨w2, ?_, ?_, ?_, ?_, ?_, ?_, fun x hx => s2 x (s1 x hx), ?_⟩
    · unfold loop
      rw [hc]
      dsimp only
      rw [e1]
      exact e2
    · rw [l2, hl1]; simp; omega
    · intro j hj
      rw [t2 j (by omega), t1, List.getElem?_append_left hj]
    · intro m q hq
      refine c2 m q ?_
      rw [c1, if_neg]
      · exact hq
      · rintro rfl
        rw [hnew (o, c.name) (by simp)] at hq
        cases hq
    · intro m hm
      rw [List.map_cons, List.mem_cons, not_or] at hm
      rw [x2 m hm.2, c1, if_neg hm.1]
    · intro i o' n' hi
      cases i with
      | zero =>
        rw [List.getElem?_cons_zero] at hi
        cases hi
        refine ⟨g, c, c2 _ _ (by rw [c1, if_pos rfl]; rfl), hc, ?_⟩
        rw [t2 _ (by omega), t1, Nat.add_zero, List.getElem?_append_right (le_refl _)]
        simp
      | succ i =>
        rw [List.getElem?_cons_succ] at hi
        obtain ⟨g', c', i1, i3, i4⟩ := i2 i o' n' hi
        refine ⟨g', c', by rw [i1]; congr 2; omega, i3, ?_⟩
        rw [← i4, hl1]
        congr 1
        omega
    · intro hfirst q hq
      have hg : g ∈ w1.shown := n1 (by
        rcases hfirst with h | ⟨p, d, hp, hd, hn⟩
        · exact Or.inr h
        · rw [List.head?_cons] at hp
          cases hp
          rw [hc] at hd
          cases hd
          exact Or.inl hn)
      rcases List.mem_cons.1 hq with rfl | hq
      · exact ⟨(k, g), c2 _ _ (by rw [c1, if_pos rfl]), s2 g hg⟩
      · exact h2 (Or.inl (by rw [m1]; exact hg)) q hq

/-! ### The sorted names -/

/-- The sorted list: the same pairs, no name twice, and the positions follow the pairs. -/
theorem sorted_ok {descs : List (ColDesc N F)} (hnd : (descs.map ColDesc.name).Nodup) :
    (((orders 9999 descs).insertionSort (fun a b => pairLE a b = true)).map Prod.snd).Nodup ∧
    ((orders 9999 descs).insertionSort (fun a b => pairLE a b = true)).length = descs.length ∧
    (∀ p, p ∈ (orders 9999 descs).insertionSort (fun a b => pairLE a b = true) ↔ ∃ (i : Nat) (c : ColDesc N F), descs[i]? = some c ∧ p = (c.order.getD (9999 + i), c.name)) ∧
    (∀ (a b : Nat) p q, ((orders 9999 descs).insertionSort (fun a b => pairLE a b = true))[a]? = some p → ((orders 9999 descs).insertionSort (fun a b => pairLE a b = true))[b]? = some q →
      (a < b ↔ p.1 < q.1 ∨ p.1 = q.1 ∧ p.2 < q.2)) := by
  have hp := List.perm_insertionSort (fun a b => pairLE a b = true) (orders 9999 descs)
  have hs : ((orders 9999 descs).insertionSort fun a b => pairLE a b = true).Pairwise fun a b => pairLE a b = true :=
    haveI : Std.Total fun a b : Int × N => pairLE a b = true := ⟨fun a b => by simpa using pairLE_total a b⟩
    haveI : IsTrans (Int × N) fun a b => pairLE a b = true := ⟨pairLE_trans⟩
    List.pairwise_insertionSort _ _
  generalize (orders 9999 descs).insertionSort (fun a b => pairLE a b = true) = ps at hp hs
  have hn : (ps.map Prod.snd).Nodup := by
    rw [(hp.map Prod.snd).nodup_iff, orders_names]; exact hnd
  have hmem : ∀ p, p ∈ ps ↔ ∃ (i : Nat) (c : ColDesc N F), descs[i]? = some c ∧ p = (c.order.getD (9999 + i), c.name) := by
    intro p
    rw [hp.mem_iff, List.mem_iff_getElem?]
    constructor
    · rintro ⟨i, hi⟩
      rw [orders_getElem?, Option.map_eq_some_iff] at hi
      obtain ⟨c, hc, e⟩ := hi
      exact ⟨i, c, hc, e.symm⟩
    · rintro ⟨i, c, hc, rfl⟩
      exact ⟨i, by rw [orders_getElem?, hc]; rfl⟩
  have hlt : ∀ (a b : Nat) p q, ps[a]? = some p → ps[b]? = some q → a < b → p.1 < q.1 ∨ p.1 = q.1 ∧ p.2 < q.2 := by
    intro a b p q ha hb hab
    obtain ⟨ha1, ha2⟩ := List.getElem?_eq_some_iff.1 ha
    obtain ⟨hb1, hb2⟩ := List.getElem?_eq_some_iff.1 hb
    have h1 := List.pairwise_iff_getElem.1 hs a b ha1 hb1 hab
    rw [ha2, hb2, pairLE_iff] at h1
    rcases h1 with h1 | ⟨h1, h2⟩
    · exact Or.inl h1
    · refine Or.inr ⟨h1, lt_of_le_of_ne h2 fun e => ?_⟩
      have h3 := List.pairwise_iff_getElem.1 hn a b (by simpa using ha1) (by simpa using hb1) hab
      rw [List.getElem_map, List.getElem_map, ha2, hb2] at h3
      exact h3 e
  refine ⟨hn, ?_, hmem, fun a b p q ha hb => ⟨hlt a b p q ha hb, fun h => ?_⟩⟩
  · have := congrArg List.length (orders_names descs 9999)
    rw [List.length_map, List.length_map] at this
    rw [hp.length_eq, this]
  · rcases lt_trichotomy a b with h' | h' | h'
    · exact h'
    · subst h'
      rw [ha] at hb; cases hb
      rcases h with h | ⟨-, h⟩
      · exact absurd h (lt_irrefl _)
      · exact absurd h (lt_irrefl _)
    · exfalso
      rcases hlt b a q p hb ha h' with h1 | ⟨h1, h2⟩ <;> rcases h with h3 | ⟨h3, h4⟩
      · omega
      · omega
      · omega
      · exact lt_asymm h2 h4

/-- The pairs of two columns of the description are ordered as the columns. -/
theorem pair_inj {descs : List (ColDesc N F)} (hnd : (descs.map ColDesc.name).Nodup) {i j : Nat} {c c' : ColDesc N F}
    (hi : descs[i]? = some c) (hj : descs[j]? = some c') (e : c.name = c'.name) : i = j ∧ c = c' := by
  obtain ⟨hi1, hi2⟩ := List.getElem?_eq_some_iff.1 hi
  obtain ⟨hj1, hj2⟩ := List.getElem?_eq_some_iff.1 hj
  have : i = j := by
    have h := List.getElem_inj hnd (i := i) (j := j) (h₀ := by simpa using hi1) (h₁ := by simpa using hj1)
    rw [List.getElem_map, List.getElem_map, hi2, hj2] at h
    exact h.1 e
  subst this
  rw [hi] at hj; cases hj
  exact ⟨rfl, rfl⟩

theorem make_ok {descs : List (ColDesc N F)} (hnd : (descs.map ColDesc.name).Nodup) (hs : SortingKnown descs) :
    ∃ w, make descs = .ok w ∧ Numbered descs w ∧
      ((∀ i c, descs[i]? = some c → (∀ j c', descs[j]? = some c' → ¬ ColBefore c' j c i) → c.newColumn = true) →
        ∀ c ∈ descs, ∃ k g, w.columns.get? c.name = some (k, g) ∧ g ∈ w.shown) := by
  obtain ⟨s1, s2, s3, s4⟩ := sorted_ok hnd
  unfold make
  generalize (orders 9999 descs).insertionSort (fun a b => pairLE a b = true) = ps at s1 s2 s3 s4
  have hfind : ∀ p ∈ ps, ∃ c, find descs p.2 = some c := by
    intro p hp
    obtain ⟨i, c, hc, rfl⟩ := (s3 p).1 hp
    exact ⟨c, find_some hnd (List.mem_of_getElem? hc)⟩
  have hfind' : ∀ i c, descs[i]? = some c → find descs c.name = some c := fun i c hc => find_some hnd (List.mem_of_getElem? hc)
  obtain ⟨w, e, l1, -, -, l4, l5, -, l7⟩ := loop_ok ps 1 {} hfind s1 (fun _ _ => rfl) rfl (by
    intro a p b c t hl hc ht
    left
    have hp : p ∈ ps := by rw [hl]; simp
    obtain ⟨i, c1, hi, rfl⟩ := (s3 p).1 hp
    rw [hfind' i c1 hi] at hc
    cases hc
    obtain ⟨j, c', hj, rfl, hb⟩ := hs i c hi t ht
    rcases hb with rfl | hb
    · rw [hi] at hj; cases hj; simp
    · obtain ⟨y, hy⟩ := List.mem_iff_getElem?.1 ((s3 _).2 ⟨j, c', hj, rfl⟩)
      have hx : ps[a.length]? = some (c.order.getD (9999 + i), c.name) := by rw [hl]; simp
      have hlt := (s4 y a.length _ _ hy hx).2 hb
      rw [hl, List.getElem?_append_left hlt] at hy
      rw [List.map_append]
      exact List.mem_append_left _ (List.mem_map.2 ⟨_, List.mem_of_getElem? hy, rfl⟩))
  rw [e, Res.andThen_ok]
  have hcol : ∀ (i : Nat) (c : ColDesc N F), descs[i]? = some c → ∃ (a : Nat) (g : Nat), ps[a]? = some (c.order.getD (9999 + i), c.name) ∧
      w.columns.get? c.name = some (1 + a, g) ∧ w.types[a]? = some c.value := by
    intro i c hc
    obtain ⟨a, ha⟩ := List.mem_iff_getElem?.1 ((s3 _).2 ⟨i, c, hc, rfl⟩)
    obtain ⟨g, c1, h1, h2, h3⟩ := l5 a _ _ ha
    rw [hfind' i c hc] at h2
    cases h2
    exact ⟨a, g, ha, h1, by simpa using h3⟩
  refine ⟨_, rfl, ⟨fun n => ?_, ?_, fun c hc => ?_, fun i j c c' p q hi hj hp hq => ?_⟩, fun hfirst c hc => ?_⟩
  · show (w.columns.get? n).isSome = true ↔ _
    constructor
    · intro h
      by_contra hn
      have : n ∉ ps.map Prod.snd := by
        intro hm
        obtain ⟨p, hp, rfl⟩ := List.mem_map.1 hm
        obtain ⟨i, c, hc, rfl⟩ := (s3 p).1 hp
        exact hn ⟨c, List.mem_of_getElem? hc, rfl⟩
      rw [l4 n this] at h
      cases h
    · rintro ⟨c, hc, rfl⟩
      obtain ⟨i, hi⟩ := List.mem_iff_getElem?.1 hc
      obtain ⟨a, g, -, h, -⟩ := hcol i c hi
      rw [h]; rfl
  · show w.types.length = _
    rw [l1, s2]; simp
  · obtain ⟨i, hi⟩ := List.mem_iff_getElem?.1 hc
    obtain ⟨a, g, -, h, h'⟩ := hcol i c hi
    exact ⟨a, g, by show w.columns.get? _ = _; rw [h, Nat.add_comm], h'⟩
  · obtain ⟨a, g, ha, h, -⟩ := hcol i c hi
    obtain ⟨b, g', hb, h', -⟩ := hcol j c' hj
    have hp' : w.columns.get? c.name = some p := hp
    have hq' : w.columns.get? c'.name = some q := hq
    rw [h] at hp'
    rw [h'] at hq'
    cases hp'
    cases hq'
    show 1 + a < 1 + b ↔ _
    rw [Nat.add_lt_add_iff_left]
    exact s4 a b _ _ ha hb
  · obtain ⟨i, hi⟩ := List.mem_iff_getElem?.1 hc
    obtain ⟨a, g, ha, h, -⟩ := hcol i c hi
    cases hps : ps with
    | nil => rw [hps] at ha; simp at ha
    | cons p0 ps0 =>
      have h0 : ps[0]? = some p0 := by rw [hps]; rfl
      obtain ⟨i0, c0, hi0, rfl⟩ := (s3 p0).1 (List.mem_of_getElem? h0)
      have hnew := hfirst i0 c0 hi0 (fun j c' hj hb => by
        obtain ⟨b, g', hb', -, -⟩ := hcol j c' hj
        have := (s4 b 0 _ _ hb' h0).2 hb
        omega)
      obtain ⟨q, hq1, hq2⟩ := l7 (Or.inr ⟨_, c0, by rw [hps]; rfl, hfind' i0 c0 hi0, hnew⟩) _ (List.mem_of_getElem? ha)
      exact ⟨q.1, q.2, hq1, hq2⟩

/-! ### Sorting -/

/-- The calls of `set_sort_column_id` and the comparing functions made so far. -/
structure SortInv (descs : List (ColDesc N F)) (w : Columns N F) : Prop where
  ids : ∀ g m, (g, m) ∈ w.sortIds ↔ ∃ c k t h, find descs c.name = some c ∧ w.columns.get? c.name = some (k, g) ∧
    c.sorting = some t ∧ w.columns.get? t = some (m, h)
  funcs : ∀ k g, (k, g) ∈ w.sortFuncs ↔ ∃ c, find descs c.name = some c ∧ w.columns.get? c.name = some (k, g) ∧ c.sortingFunc = true
  known : ∀ c t, find descs c.name = some c → (w.columns.get? c.name).isSome = true → c.sorting = some t →
    (w.columns.get? t).isSome = true

theorem addColumn_sort {descs : List (ColDesc N F)} {k : Nat} {c : ColDesc N F} {w w' : Columns N F}
    (e : addColumn k c w = .ok w') : ∃ g, w'.columns = w.columns.set c.name (k, g) ∧
      (∀ t, c.sorting = some t → ∃ m h, w'.columns.get? t = some (m, h) ∧ w'.sortIds = w.sortIds ++ [(g, m)]) ∧
      (c.sorting = none → w'.sortIds = w.sortIds) ∧
      w'.sortFuncs = if c.sortingFunc then w.sortFuncs ++ [(k, g)] else w.sortFuncs := by
  refine ⟨(if c.newColumn then w.made + 1 else w.made) - 1, ?_⟩
  unfold addColumn at e
  dsimp only at e
  cases hs : c.sorting with
  | none =>
    rw [hs] at e
    dsimp only at e
    rw [Res.andThen_ok] at e
    injection e with e
    subst e
    refine ⟨by split <;> rfl, fun t ht => (by cases ht), fun _ => by split <;> rfl, by split <;> rfl⟩
  | some t =>
    rw [hs] at e
    dsimp only at e
    cases hg : (w.columns.set c.name (k, (if c.newColumn then w.made + 1 else w.made) - 1)).get? t with
    | none => rw [hg] at e; cases e
    | some mh =>
      obtain ⟨m, h⟩ := mh
      rw [hg] at e
      dsimp only at e
      rw [Res.andThen_ok] at e
      injection e with e
      subst e
      refine ⟨by split <;> rfl, fun t' ht => ?_, fun h => (by cases h), by split <;> rfl⟩
      cases ht
      exact ⟨m, h, by split <;> exact hg, by split <;> rfl⟩

theorem SortInv.add {descs : List (ColDesc N F)} {k : Nat} {c : ColDesc N F} {w w' : Columns N F} (h : SortInv descs w)
    (hc : find descs c.name = some c) (hn : w.columns.get? c.name = none) (e : addColumn k c w = .ok w') : SortInv descs w' := by
  obtain ⟨g, e1, e2, e3, e4⟩ := addColumn_sort (descs := descs) e
  have hget : ∀ n, w'.columns.get? n = if n = c.name then some (k, g) else w.columns.get? n := by
    intro n; rw [e1, KV.get?_set]
  have hkeep : ∀ n p, w.columns.get? n = some p → w'.columns.get? n = some p := by
    intro n p hp
    rw [hget, if_neg]
    · exact hp
    · rintro rfl; rw [hn] at hp; cases hp
  have hname : ∀ c', find descs c'.name = some c' → c'.name = c.name → c' = c := by
    intro c' h1 h2
    rw [h2, hc] at h1
    exact (Option.some.inj h1).symm
  refine ⟨fun g' m => ?_, fun k' g' => ?_, fun c' t hf hs ht => ?_⟩
  · constructor
    · intro hm
      have hm' : (g', m) ∈ w.sortIds ∨ ∃ t h, c.sorting = some t ∧ g' = g ∧ w'.columns.get? t = some (m, h) := by
        cases hs : c.sorting with
        | none => rw [e3 hs] at hm; exact Or.inl hm
        | some t =>
          obtain ⟨m', h', i1, i2⟩ := e2 t hs
          rw [i2, List.mem_append, List.mem_singleton] at hm
          rcases hm with hm | hm
          · exact Or.inl hm
          · cases hm; exact Or.inr ⟨t, h', rfl, rfl, i1⟩
      rcases hm' with hm' | ⟨t, h', i1, rfl, i2⟩
      · obtain ⟨c', k', t, h', j1, j2, j3, j4⟩ := (h.ids g' m).1 hm'
        exact ⟨c', k', t, h', j1, hkeep _ _ j2, j3, hkeep _ _ j4⟩
      · exact ⟨c, k, t, h', hc, by rw [hget, if_pos rfl], i1, i2⟩
    · rintro ⟨c', k', t, h', j1, j2, j3, j4⟩
      by_cases hcc : c'.name = c.name
      · have := hname c' j1 hcc
        subst this
        rw [hget, if_pos rfl] at j2
        cases j2
        obtain ⟨m', h'', i1, i2⟩ := e2 t j3
        rw [j4] at i1
        cases i1
        rw [i2]; simp
      · rw [hget, if_neg hcc] at j2
        have ht := h.known c' t j1 (by rw [j2]; rfl) j3
        obtain ⟨p, hp⟩ := Option.isSome_iff_exists.1 ht
        have := hkeep _ _ hp
        rw [j4] at this
        cases this
        have hold := (h.ids g' m).2 ⟨c', k', t, h', j1, j2, j3, hp⟩
        cases hs : c.sorting with
        | none => rw [e3 hs]; exact hold
        | some t' =>
          obtain ⟨m', h'', i1, i2⟩ := e2 t' hs
          rw [i2]; exact List.mem_append_left _ hold
  · constructor
    · intro hm
      rw [e4] at hm
      have hm' : (k', g') ∈ w.sortFuncs ∨ (c.sortingFunc = true ∧ (k', g') = (k, g)) := by
        split at hm
        · next hs =>
          rw [List.mem_append, List.mem_singleton] at hm
          exact hm.imp id fun h => ⟨hs, h⟩
        · exact Or.inl hm
      rcases hm' with hm' | ⟨hs, hm'⟩
      · obtain ⟨c', j1, j2, j3⟩ := (h.funcs k' g').1 hm'
        exact ⟨c', j1, hkeep _ _ j2, j3⟩
      · cases hm'
        exact ⟨c, hc, by rw [hget, if_pos rfl], hs⟩
    · rintro ⟨c', j1, j2, j3⟩
      rw [e4]
      by_cases hcc : c'.name = c.name
      · have := hname c' j1 hcc
        subst this
        rw [hget, if_pos rfl] at j2
        cases j2
        rw [if_pos j3]; simp
      · rw [hget, if_neg hcc] at j2
        have hold := (h.funcs k' g').2 ⟨c', j1, j2, j3⟩
        split
        · exact List.mem_append_left _ hold
        · exact hold
  · by_cases hcc : c'.name = c.name
    · have := hname c' hf hcc
      subst this
      obtain ⟨m', h', i1, -⟩ := e2 t ht
      rw [i1]; rfl
    · rw [hget, if_neg hcc] at hs
      obtain ⟨p, hp⟩ := Option.isSome_iff_exists.1 (h.known c' t hf hs ht)
      rw [hkeep _ _ hp]; rfl

theorem SortInv.loop {descs : List (ColDesc N F)} : ∀ (l : List (Int × N)) (k : Nat) (w w' : Columns N F), SortInv descs w →
    (l.map Prod.snd).Nodup → (∀ p ∈ l, w.columns.get? p.2 = none) → Columns.loop descs k l w = .ok w' → SortInv descs w' := by
  intro l
  induction l with
  | nil => intro k w w' h _ _ e; cases e; exact h
  | cons p l ih =>
    obtain ⟨o, n⟩ := p
    intro k w w' h hnd hnew e
    unfold Columns.loop at e
    cases hc : find descs n with
    | none => rw [hc] at e; cases e
    | some c =>
      have hname : c.name = n := by
        have := List.find?_some hc
        simpa using this
      subst hname
      rw [hc] at e
      dsimp only at e
      cases e1 : addColumn k c w with
      | err x w1 => rw [e1] at e; cases e
      | ok w1 =>
        rw [e1, Res.andThen_ok] at e
        rw [List.map_cons, List.nodup_cons] at hnd
        refine ih (k + 1) w1 w' (h.add hc (hnew (o, c.name) (by simp)) e1) hnd.2 (fun q hq => ?_) e
        obtain ⟨g, e2, -⟩ := addColumn_sort (descs := descs) e1
        rw [e2, KV.get?_set, if_neg]
        · exact hnew q (by simp [hq])
        · rintro e3
          exact hnd.1 (List.mem_map.2 ⟨q, hq, e3⟩)

theorem last_of {l : List (Nat × Nat)} {g m : Nat} (hm : (g, m) ∈ l) (hu : ∀ m', (g, m') ∈ l → m' = m) :
    ((l.filter fun p => decide (p.1 = g)).getLast?).map (·.2) = some m := by
  have hne : (l.filter fun p => decide (p.1 = g)) ≠ [] := by
    intro e
    have : (g, m) ∈ l.filter fun p => decide (p.1 = g) := List.mem_filter.2 ⟨hm, by simp⟩
    rw [e] at this; cases this
  rw [List.getLast?_eq_some_getLast hne]
  have hl := List.getLast_mem hne
  rw [List.mem_filter] at hl
  simp only [decide_eq_true_eq] at hl
  show some _ = some m
  congr 1
  apply hu
  have h2 : ∀ x : Nat × Nat, x ∈ l → x.1 = g → (g, x.2) ∈ l := by rintro ⟨a, b⟩ h rfl; exact h
  exact h2 _ hl.1 hl.2

theorem make_sorts {descs : List (ColDesc N F)} (hnd : (descs.map ColDesc.name).Nodup) {w : Columns N F}
    (e : make descs = .ok w) : SortsRight descs w := by
  unfold make at e
  cases e1 : Columns.loop descs 1 ((orders 9999 descs).insertionSort fun a b => pairLE a b = true) {} with
  | err x w1 => rw [e1] at e; cases e
  | ok w1 =>
    rw [e1, Res.andThen_ok] at e
    injection e with e
    have h : SortInv descs w1 := by
      refine SortInv.loop _ 1 {} w1 ⟨fun g m => ?_, fun k g => ?_, fun c t _ hs => ?_⟩ (sorted_ok hnd).1 (fun _ _ => rfl) e1
      · refine ⟨fun h => (by cases h), ?_⟩
        rintro ⟨c, k, t, h, -, hh, -⟩
        cases hh
      · refine ⟨fun h => (by cases h), ?_⟩
        rintro ⟨c, -, hh, -⟩
        cases hh
      · cases hs
    have hcol : w.columns = w1.columns := by rw [← e]
    have hids : w.sortIds = w1.sortIds ++ w1.sortFuncs.map Prod.swap := by rw [← e]
    have hfn : ∀ c ∈ descs, find descs c.name = some c := fun c hc => find_some hnd hc
    have hmem : ∀ c : ColDesc N F, find descs c.name = some c → c ∈ descs := fun c hc => List.mem_of_find?_eq_some hc
    have hswap : ∀ g m, (g, m) ∈ w1.sortFuncs.map Prod.swap ↔ (m, g) ∈ w1.sortFuncs := by
      intro g m
      rw [List.mem_map]
      constructor
      · rintro ⟨⟨a, b⟩, hp, hq⟩; cases hq; exact hp
      · intro hp; exact ⟨(m, g), hp, rfl⟩
    have hnil : ∀ {l : List (Nat × Nat)} {g : Nat}, (∀ m, (g, m) ∉ l) → (l.filter fun p => decide (p.1 = g)) = [] := by
      intro l g hl
      rw [List.filter_eq_nil_iff]
      rintro ⟨a, b⟩ hp ha
      simp only [decide_eq_true_eq] at ha
      subst ha
      exact hl b hp
    refine ⟨fun c hc k g hg hs hu => ?_, fun c hc g t m hh hg hs ht hu => ?_, fun g hu => ?_⟩
    · unfold sortsBy
      rw [hids, List.filter_append]
      rw [hcol] at hg
      have hin : (g, k) ∈ w1.sortFuncs.map Prod.swap := (hswap g k).2 ((h.funcs k g).2 ⟨c, hfn c hc, hg, hs⟩)
      have hlast := last_of hin (fun m' hm' => by
        obtain ⟨c', j1, j2, j3⟩ := (h.funcs m' g).1 ((hswap g m').1 hm')
        have := hu c' (hmem c' j1) ⟨m', by rw [hcol]; exact j2⟩ j3
        rw [this, hg] at j2
        cases j2; rfl)
      rw [List.getLast?_append]
      cases hb : ((w1.sortFuncs.map Prod.swap).filter fun p => decide (p.1 = g)).getLast? with
      | none => rw [hb] at hlast; cases hlast
      | some p => rw [hb] at hlast; exact hlast
    · obtain ⟨k, hk⟩ := hg
      rw [hcol] at hk ht
      have hno : ∀ m', (g, m') ∉ w1.sortFuncs.map Prod.swap := by
        intro m' hm'
        obtain ⟨c', j1, j2, j3⟩ := (h.funcs m' g).1 ((hswap g m').1 hm')
        have := (hu c' (hmem c' j1) ⟨m', by rw [hcol]; exact j2⟩).1
        rw [j3] at this; cases this
      unfold sortsBy
      rw [hids, List.filter_append, hnil hno, List.append_nil]
      refine last_of ((h.ids g m).2 ⟨c, k, t, hh, hfn c hc, hk, hs, ht⟩) (fun m' hm' => ?_)
      obtain ⟨c', k', t', h', j1, j2, j3, j4⟩ := (h.ids g m').1 hm'
      have hn := (hu c' (hmem c' j1) ⟨k', by rw [hcol]; exact j2⟩).2 (by rw [j3]; simp)
      rw [hn, hfn c hc] at j1
      cases j1
      rw [hs] at j3
      cases j3
      rw [ht] at j4
      cases j4; rfl
    · have h1 : ∀ m', (g, m') ∉ w1.sortIds := by
        intro m' hm'
        obtain ⟨c', k', t', h', j1, j2, j3, j4⟩ := (h.ids g m').1 hm'
        have := (hu c' (hmem c' j1) ⟨k', by rw [hcol]; exact j2⟩).1
        rw [j3] at this; cases this
      have h2 : ∀ m', (g, m') ∉ w1.sortFuncs.map Prod.swap := by
        intro m' hm'
        obtain ⟨c', j1, j2, j3⟩ := (h.funcs m' g).1 ((hswap g m').1 hm')
        have := (hu c' (hmem c' j1) ⟨m', by rw [hcol]; exact j2⟩).2
        rw [j3] at this; cases this
      unfold sortsBy
      rw [hids, List.filter_append, hnil h1, hnil h2]
      rfl

end Columns

/-! ### C49 -/

/-- **C49** (partial): a description in which a column is named for sorting only by itself or a later one gives the columns
numbers from 1 on, in their order, and the model computes every column with the function described for it.

Missing: a column that is sorted by a later one (`C49_refuted_sorting`). -/
theorem C49_numbered_partial (descs : List (ColDesc N F)) (hnd : (descs.map ColDesc.name).Nodup) (hs : SortingKnown descs) :
    ∃ w, Columns.make descs = .ok w ∧ Numbered descs w := by
  obtain ⟨w, e, h, -⟩ := Columns.make_ok hnd hs
  exact ⟨w, e, h⟩

/-- **C49** (partial): if moreover the first column is not described with `new_column = False`, every column is on the
screen.

Missing: a first column that does not ask for a column of its own (`C49_refuted_first`). -/
theorem C49_shown_partial (descs : List (ColDesc N F)) (hnd : (descs.map ColDesc.name).Nodup) (hs : SortingKnown descs)
    (hfirst : ∀ i c, descs[i]? = some c → (∀ j c', descs[j]? = some c' → ¬ ColBefore c' j c i) → c.newColumn = true) :
    ∃ w, Columns.make descs = .ok w ∧ ∀ c ∈ descs, ∃ k g, w.columns.get? c.name = some (k, g) ∧ g ∈ w.shown := by
  obtain ⟨w, e, -, h⟩ := Columns.make_ok hnd hs
  exact ⟨w, e, h hfirst⟩

/-- C49: under the same condition, a click on the head of a column sorts as described for it. -/
theorem C49_sorting_partial (descs : List (ColDesc N F)) (hnd : (descs.map ColDesc.name).Nodup) (hs : SortingKnown descs) :
    ∃ w, Columns.make descs = .ok w ∧ SortsRight descs w := by
  obtain ⟨w, e, -⟩ := Columns.make_ok hnd hs
  exact ⟨w, e, Columns.make_sorts hnd e⟩

/-- C49: columns without an order keep the order of the description, behind all columns with a small order. -/
theorem C49_natural_order (c c' : ColDesc N F) (i j : Nat) (h : c'.order = none) :
    (c.order = none → (ColBefore c i c' j ↔ i < j ∨ i = j ∧ c.name < c'.name)) ∧
    (∀ o, c.order = some o → o < 9999 → ColBefore c i c' j) := by
  constructor
  · intro h'
    unfold ColBefore
    rw [h, h', Option.getD_none, Option.getD_none]
    constructor
    · rintro (h1 | ⟨h1, h2⟩)
      · exact Or.inl (by omega)
      · exact Or.inr ⟨by omega, h2⟩
    · rintro (h1 | ⟨h1, h2⟩)
      · exact Or.inl (by omega)
      · exact Or.inr ⟨by omega, h2⟩
  · intro o ho hlt
    left
    rw [ho, h, Option.getD_some, Option.getD_none]
    omega

/-- C49: `set_bg_color` replaces the function of the named column and of no other. -/
theorem C49_bg_color (descs : List (ColDesc N F)) (w : Columns N F) (h : Numbered descs w) (c : ColDesc N F) (hc : c ∈ descs) (f : F) :
    ∃ w', w.setBgColor c.name f = .ok w' ∧ w'.columns = w.columns ∧
      (∃ k g, w'.columns.get? c.name = some (k + 1, g) ∧ w'.types[k]? = some f) ∧
      ∀ c' ∈ descs, c'.name ≠ c.name → ∃ k g, w'.columns.get? c'.name = some (k + 1, g) ∧ w'.types[k]? = some c'.value := by
  obtain ⟨k, g, h1, h2⟩ := h.value c hc
  obtain ⟨hk, -⟩ := List.getElem?_eq_some_iff.1 h2
  unfold Columns.setBgColor Columns.setFunction
  rw [h1]
  dsimp only
  rw [if_pos (by omega)]
  refine ⟨_, rfl, rfl, ⟨k, g, h1, ?_⟩, fun c' hc' hne => ?_⟩
  · show (w.types.set (k + 1 - 1) f)[k]? = some f
    rw [Nat.add_sub_cancel, List.getElem?_set_self hk]
  · obtain ⟨k', g', h1', h2'⟩ := h.value c' hc'
    refine ⟨k', g', h1', ?_⟩
    show (w.types.set (k + 1 - 1) f)[k']? = some c'.value
    rw [Nat.add_sub_cancel, List.getElem?_set_ne]
    · exact h2'
    · rintro rfl
      obtain ⟨i, hi⟩ := List.mem_iff_getElem?.1 hc
      obtain ⟨j, hj⟩ := List.mem_iff_getElem?.1 hc'
      have a1 := (h.order i j c c' _ _ hi hj h1 h1').not
      have a2 := (h.order j i c' c _ _ hj hi h1' h1).not
      have b1 := a1.1 (lt_irrefl _)
      have b2 := a2.1 (lt_irrefl _)
      unfold ColBefore at b1 b2
      rcases lt_trichotomy c.name c'.name with e | e | e
      · refine b1 ?_
        rcases lt_trichotomy (c.order.getD (9999 + (i : Int))) (c'.order.getD (9999 + (j : Int))) with e' | e' | e'
        · exact Or.inl e'
        · exact Or.inr ⟨e', e⟩
        · exact absurd (Or.inl e') b2
      · exact hne e.symm
      · refine b2 ?_
        rcases lt_trichotomy (c.order.getD (9999 + (i : Int))) (c'.order.getD (9999 + (j : Int))) with e' | e' | e'
        · exact absurd (Or.inl e') b1
        · exact Or.inr ⟨e'.symm, e⟩
        · exact Or.inl e'

/-! ### Examples, and the limits -/

/-- Four columns: 7 and 3 without order, 5 with order 2 and sorted by 9, and 9 with order 1. -/
def someColumns : List (ColDesc Nat Nat) :=
  [ { name := 7, value := 70 }, { name := 5, value := 50, order := some 2, sorting := some 9 },
    { name := 3, value := 30, newColumn := false }, { name := 9, value := 90, order := some 1 } ]

theorem someColumns_known : SortingKnown someColumns := by
  intro i c hi t ht
  match i with
  | 0 => cases hi; cases ht
  | 1 =>
    cases hi; cases ht
    exact ⟨3, _, rfl, rfl, Or.inr (Or.inl (by decide))⟩
  | 2 => cases hi; cases ht
  | 3 => cases hi; cases ht
  | n + 4 => simp [someColumns] at hi

example : ∃ w, Columns.make someColumns = .ok w ∧ Numbered someColumns w :=
  C49_numbered_partial someColumns (by decide) someColumns_known

example : (Columns.make someColumns).state.columns = [(9, (1, 1)), (5, (2, 2)), (7, (3, 3)), (3, (4, 3))] ∧
    (Columns.make someColumns).state.types = [90, 50, 70, 30] ∧ (Columns.make someColumns).state.shown = [1, 2, 3] ∧
    (Columns.make someColumns).state.sortIds = [(2, 1)] := by
  decide

/-- The same columns, where 7 has a comparing function. -/
def sortedColumns : List (ColDesc Nat Nat) :=
  [ { name := 7, value := 70, sortingFunc := true }, { name := 5, value := 50, order := some 2, sorting := some 9 },
    { name := 3, value := 30, newColumn := false }, { name := 9, value := 90, order := some 1 } ]

example : (∃ w, Columns.make sortedColumns = .ok w ∧ SortsRight sortedColumns w) ∧
    sortsBy (Columns.make sortedColumns).state 2 = some 1 ∧ sortsBy (Columns.make sortedColumns).state 3 = some 3 ∧
    sortsBy (Columns.make sortedColumns).state 1 = none := by
  refine ⟨C49_sorting_partial sortedColumns (by decide) ?_, by decide, by decide, by decide⟩
  intro i c hi t ht
  match i with
  | 0 => cases hi; cases ht
  | 1 =>
    cases hi; cases ht
    exact ⟨3, _, rfl, rfl, Or.inr (Or.inl (by decide))⟩
  | 2 => cases hi; cases ht
  | 3 => cases hi; cases ht
  | n + 4 => simp [sortedColumns] at hi

/-- **A column sorted by a later one makes the constructor raise** `KeyError`, although both are described. -/
theorem C49_refuted_sorting : ∃ descs : List (ColDesc Nat Nat), (descs.map ColDesc.name).Nodup ∧
    (∀ c ∈ descs, ∀ t, c.sorting = some t → ∃ c' ∈ descs, c'.name = t) ∧ ∃ w, Columns.make descs = .err .keyError w := by
  refine ⟨[{ name := 1, value := 0, sorting := some 2 }, { name := 2, value := 0 }], by decide, ?_, _, rfl⟩
  intro c hc t ht
  simp only [List.mem_cons, List.not_mem_nil, or_false] at hc
  rcases hc with rfl | rfl
  · cases ht; exact ⟨{ name := 2, value := 0 }, by simp, rfl⟩
  · cases ht

/-- **A first column with `new_column = False` is not on the screen**: the column made for it before the loop is never
appended. -/
theorem C49_refuted_first : ∃ descs : List (ColDesc Nat Nat), (descs.map ColDesc.name).Nodup ∧ SortingKnown descs ∧
    ∃ w, Columns.make descs = .ok w ∧ w.columns.get? 1 = some (1, 0) ∧ 0 ∉ w.shown := by
  refine ⟨[{ name := 1, value := 0, newColumn := false }, { name := 2, value := 0 }], by decide, ?_, _, rfl, by decide, by decide⟩
  intro i c hi t ht
  match i with
  | 0 => cases hi; cases ht
  | 1 => cases hi; cases ht
  | n + 2 => simp at hi

end Larch
