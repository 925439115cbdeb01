import Verif.Spec.View
import Verif.Proofs.Reading

/-! # Signals and rows -/

namespace Larch

open Spec Graph
open scoped List

theorem replay_append (a b : List Sig) (rows : List (List Id)) :
    replay (a ++ b) rows = (replay a rows).bind (replay b) := by
  induction a generalizing rows with
  | nil => rfl
  | cons s a ih =>
    simp only [List.cons_append, replay]
    cases applySig rows s with
    | none => rfl
    | some r => simp only [Option.bind_some]; exact ih r

/-- Rows in the order in which they were announced, the newest first: of two rows below the same row, the one announced
later does not stand earlier in the list of children `K`. -/
def InOrder (K : List Id → List Id) (rows : List (List Id)) : Prop :=
  rows.Pairwise fun new old => ∀ r a b, old = r ++ [a] → new = r ++ [b] → ¬ [b, a] <+ K r

/-- After the signals `out` the observer that started with nothing has exactly the rows `S`, and those below the same row
`r` were announced in the order of `K r`. -/
def RowsSet (out : List Sig) (S : List Id → Prop) (K : List Id → List Id) : Prop :=
  ∃ rows, replay out [] = some rows ∧ rows.Nodup ∧ (∀ l, l ∈ rows ↔ S l) ∧ InOrder K rows

namespace RowsSet

theorem congr {out : List Sig} {S S' : List Id → Prop} {K : List Id → List Id} (h : RowsSet out S K)
    (e : ∀ l, S l ↔ S' l) : RowsSet out S' K := by
  obtain ⟨rows, h1, h2, h3, h4⟩ := h
  exact ⟨rows, h1, h2, fun l => (h3 l).trans (e l), h4⟩

/-- The order matters for the rows that are there only. -/
theorem reorder {out : List Sig} {S : List Id → Prop} {K K' : List Id → List Id} (h : RowsSet out S K)
    (e : ∀ r a b, S (r ++ [a]) → S (r ++ [b]) → [b, a] <+ K' r → [b, a] <+ K r) : RowsSet out S K' := by
  obtain ⟨rows, h1, h2, h3, h4⟩ := h
  refine ⟨rows, h1, h2, h3, ?_⟩
  refine List.Pairwise.imp_of_mem (fun {s t} hs ht hst r a b ha hb hab => ?_) h4
  exact hst r a b ha hb (e r a b (ha ▸ (h3 _).1 ht) (hb ▸ (h3 _).1 hs) hab)

theorem mono {out : List Sig} {S : List Id → Prop} {K K' : List Id → List Id} (h : RowsSet out S K)
    (e : ∀ r, K' r <+ K r) : RowsSet out S K' := h.reorder fun r _ _ _ _ hh => hh.trans (e r)

theorem plain {out : List Sig} {S : List Id → Prop} {K : List Id → List Id} (h : RowsSet out S K) :
    RowsSet out S (fun _ => []) := h.mono fun _ => List.nil_sublist _

theorem nothing {out : List Sig} {S : List Id → Prop} {K : List Id → List Id} (h : RowsSet out S K) (hS : ∀ l, ¬ S l)
    (K' : List Id → List Id) : RowsSet out S K' := h.reorder fun _ _ _ ha _ _ => absurd ha (hS _)

theorem agrees {out : List Sig} {S : List Id → Prop} {K : List Id → List Id} (h : RowsSet out S K) :
    ∃ rows, replay out [] = some rows ∧ rows.Nodup ∧ ∀ l, l ∈ rows ↔ S l := by
  obtain ⟨rows, h1, h2, h3, -⟩ := h
  exact ⟨rows, h1, h2, h3⟩

theorem of_agrees {out : List Sig} {S : List Id → Prop}
    (h : ∃ rows, replay out [] = some rows ∧ rows.Nodup ∧ ∀ l, l ∈ rows ↔ S l) : RowsSet out S (fun _ => []) := by
  obtain ⟨rows, h1, h2, h3⟩ := h
  refine ⟨rows, h1, h2, h3, List.pairwise_of_forall fun _ _ _ _ _ _ _ hs => ?_⟩
  have := hs.length_le
  simp at this

theorem nil {K : List Id → List Id} : RowsSet [] (fun _ => False) K := ⟨[], rfl, by simp, by simp, List.Pairwise.nil⟩

theorem added {out : List Sig} {S : List Id → Prop} {K : List Id → List Id} (h : RowsSet out S K) {x : Id} {a : List Id}
    (hl : a.getLast? = some x) (hn : ¬ S a) (hp : a.dropLast = [] ∨ S a.dropLast)
    (ho : ∀ r c, a = r ++ [x] → S (r ++ [c]) → ¬ [x, c] <+ K r) :
    RowsSet (out ++ [⟨.added, x, a⟩]) (fun l => S l ∨ l = a) K := by
  obtain ⟨rows, h1, h2, h3, h4⟩ := h
  refine ⟨a :: rows, ?_, ?_, ?_, ?_⟩
  · rw [replay_append, h1]
    simp only [Option.bind_some, replay, applySig, hl, if_true]
    rw [if_pos ⟨fun hm => hn ((h3 a).1 hm), hp.imp id (h3 _).2⟩]
    rfl
  · exact List.nodup_cons.2 ⟨fun hm => hn ((h3 a).1 hm), h2⟩
  · intro l
    rw [List.mem_cons, h3]; tauto
  · refine List.pairwise_cons.2 ⟨fun t ht r c b hc hb => ?_, h4⟩
    have hbx : b = x := by
      rw [hb] at hl; simpa using hl
    subst hbx
    exact ho r c hb (hc ▸ (h3 t).1 ht)

theorem modified {out : List Sig} {S : List Id → Prop} {K : List Id → List Id} (h : RowsSet out S K) {x : Id} {a : List Id}
    (hl : a.getLast? = some x) (hn : S a) : RowsSet (out ++ [⟨.modified, x, a⟩]) S K := by
  obtain ⟨rows, h1, h2, h3, h4⟩ := h
  refine ⟨rows, ?_, h2, h3, h4⟩
  rw [replay_append, h1]
  simp only [Option.bind_some, replay, applySig, hl, if_true]
  rw [if_pos ((h3 a).2 hn)]
  rfl

theorem deleted {out : List Sig} {S : List Id → Prop} {K : List Id → List Id} (h : RowsSet out S K) {x : Id} {a : List Id}
    (hl : a.getLast? = some x) (hn : S a) (hp : ∀ r, S r → a <+: r → r = a) :
    RowsSet (out ++ [⟨.deleted, x, a⟩]) (fun l => S l ∧ l ≠ a) K := by
  obtain ⟨rows, h1, h2, h3, h4⟩ := h
  refine ⟨rows.erase a, ?_, h2.erase a, ?_, h4.sublist List.erase_sublist⟩
  · rw [replay_append, h1]
    simp only [Option.bind_some, replay, applySig, hl, if_true]
    rw [if_pos ⟨(h3 a).2 hn, fun r hr => hp r ((h3 r).1 hr)⟩]
    rfl
  · intro l
    rw [h2.mem_erase_iff, h3]; tauto

theorem addedMany {out : List Sig} {S : List Id → Prop} {K : List Id → List Id} (h : RowsSet out S K) {x : Id}
    (L : List (List Id))
    (hl : ∀ a ∈ L, a.getLast? = some x) (hnd : L.Nodup) (hn : ∀ a ∈ L, ¬ S a)
    (hp : ∀ a ∈ L, a.dropLast = [] ∨ S a.dropLast)
    (ho : ∀ a ∈ L, ∀ r c, a = r ++ [x] → S (r ++ [c]) → ¬ [x, c] <+ K r) :
    RowsSet (out ++ L.map (fun a => ⟨.added, x, a⟩)) (fun l => S l ∨ l ∈ L) K := by
  induction L generalizing out S with
  | nil => simpa using h
  | cons a L ih =>
    have h1 := h.added (hl a (by simp)) (hn a (by simp)) (hp a (by simp)) (ho a (by simp))
    rw [List.nodup_cons] at hnd
    have h2 := ih h1 (fun b hb => hl b (by simp [hb])) hnd.2
      (fun b hb => by
        rintro (hs | rfl)
        · exact hn b (by simp [hb]) hs
        · exact hnd.1 hb)
      (fun b hb => (hp b (by simp [hb])).imp id Or.inl)
      (fun b hb r c hr => by
        rintro (hs | hs)
        · exact ho b (by simp [hb]) r c hr hs
        · have h3 := hl a (by simp)
          rw [← hs] at h3
          have : c = x := by simpa using h3
          subst this
          exact absurd (by rw [← hs, ← hr]; exact hb) hnd.1)
    rw [List.append_assoc] at h2
    refine h2.congr fun l => ?_
    rw [List.mem_cons]; tauto

theorem modifiedMany {out : List Sig} {S : List Id → Prop} {K : List Id → List Id} (h : RowsSet out S K) {x : Id}
    (L : List (List Id)) (hl : ∀ a ∈ L, a.getLast? = some x) (hn : ∀ a ∈ L, S a) :
    RowsSet (out ++ L.map (fun a => ⟨.modified, x, a⟩)) S K := by
  induction L generalizing out with
  | nil => simpa using h
  | cons a L ih =>
    have h1 := h.modified (hl a (by simp)) (hn a (by simp))
    have h2 := ih h1 (fun b hb => hl b (by simp [hb])) (fun b hb => hn b (by simp [hb]))
    rw [List.append_assoc] at h2
    exact h2

theorem deletedMany {out : List Sig} {S : List Id → Prop} {K : List Id → List Id} (h : RowsSet out S K) {x : Id}
    (L : List (List Id))
    (hl : ∀ a ∈ L, a.getLast? = some x) (hnd : L.Nodup) (hn : ∀ a ∈ L, S a)
    (hp : ∀ a ∈ L, ∀ r, S r → a <+: r → r = a) :
    RowsSet (out ++ L.map (fun a => ⟨.deleted, x, a⟩)) (fun l => S l ∧ l ∉ L) K := by
  induction L generalizing out S with
  | nil => simpa using h
  | cons a L ih =>
    have h1 := h.deleted (hl a (by simp)) (hn a (by simp)) (hp a (by simp))
    rw [List.nodup_cons] at hnd
    have h2 := ih h1 (fun b hb => hl b (by simp [hb])) hnd.2
      (fun b hb => ⟨hn b (by simp [hb]), fun e => hnd.1 (e ▸ hb)⟩)
      (fun b hb r hr => hp b (by simp [hb]) r hr.1)
    rw [List.append_assoc] at h2
    refine h2.congr fun l => ?_
    rw [List.mem_cons]; tauto

end RowsSet

/-- The last of a list without repetitions stands before nobody. -/
theorem last_before_none {l : List Id} {x a : Id} (h : (l ++ [x]).Nodup) : ¬ [x, a] <+ l ++ [x] := by
  intro hs
  have hx : x ∉ l := by
    rw [List.nodup_append] at h
    intro hm; exact h.2.2 x hm x (by simp) rfl
  rw [List.sublist_append_iff] at hs
  obtain ⟨l1, l2, e, h1, h2⟩ := hs
  cases l1 with
  | nil =>
    rw [List.nil_append] at e
    have := h2.length_le; rw [← e] at this; simp at this
  | cons b l1 =>
    rw [List.cons_append, List.cons.injEq] at e
    exact hx (h1.subset (by rw [e.1]; simp))

theorem nodup_not_swapped {l : List Id} (h : l.Nodup) : l.Pairwise fun a b => ¬ [b, a] <+ l := by
  rw [List.pairwise_iff_forall_sublist]
  intro a b hab hba
  induction l with
  | nil => simp at hab
  | cons c l ih =>
    rw [List.nodup_cons] at h
    rcases List.sublist_cons_iff.1 hab with h1 | ⟨r, h1, h2⟩
    · rcases List.sublist_cons_iff.1 hba with h3 | ⟨r', h3, h4⟩
      · exact ih h.2 h1 h3
      · cases h3; exact h.1 (h1.subset (by simp))
    · cases h1
      rcases List.sublist_cons_iff.1 hba with h3 | ⟨r', h3, h4⟩
      · exact h.1 (h3.subset (by simp))
      · cases h3; exact h.1 (h2.subset (by simp))

/-! ### Prefixes -/

theorem prefix_split {x : Id} {s s' r r' : List Id} (hs : x ∉ s) (hs' : x ∉ s')
    (h : s ++ x :: r <+: s' ++ x :: r') : s = s' ∧ x :: r <+: x :: r' := by
  induction s generalizing s' with
  | nil =>
    cases s' with
    | nil => exact ⟨rfl, h⟩
    | cons a s' =>
      rw [List.nil_append, List.cons_append, List.cons_prefix_cons] at h
      exact absurd (by simp [h.1]) hs'
  | cons b s ih =>
    cases s' with
    | nil =>
      rw [List.nil_append, List.cons_append, List.cons_prefix_cons] at h
      exact absurd (by simp [h.1]) hs
    | cons a s' =>
      rw [List.cons_append, List.cons_append, List.cons_prefix_cons] at h
      obtain ⟨rfl, h⟩ := h
      obtain ⟨rfl, h'⟩ := ih (fun hh => hs (by simp [hh])) (fun hh => hs' (by simp [hh])) h
      exact ⟨rfl, h'⟩

theorem not_prefix_snoc {a b : List Id} {c : Id} (h : ¬ a <+: b) : ¬ a ++ [c] <+: b :=
  fun hh => h ((List.prefix_append a [c]).trans hh)

theorem prefix_snoc_iff {a b : List Id} {c : Id} : a <+: b ++ [c] ↔ a = b ++ [c] ∨ a <+: b := by
  exact List.prefix_concat_iff

/-- Neither is a prefix of the other. -/
def Inc (a b : List Id) : Prop := ¬ a <+: b ∧ ¬ b <+: a

theorem Inc.symm {a b : List Id} (h : Inc a b) : Inc b a := ⟨h.2, h.1⟩

theorem Inc.snoc {a b : List Id} (h : Inc a b) (c : Id) : Inc (a ++ [c]) b := by
  refine ⟨not_prefix_snoc h.1, fun hh => ?_⟩
  rcases prefix_snoc_iff.1 hh with e | e
  · exact h.1 (e ▸ List.prefix_append a [c])
  · exact h.2 e

theorem inc_snoc_ne {a : List Id} {c d : Id} (h : c ≠ d) : Inc (a ++ [c]) (a ++ [d]) := by
  constructor
  · intro hh
    have := hh.eq_of_length (by simp)
    exact h (by simpa using this)
  · intro hh
    have := hh.eq_of_length (by simp)
    exact h (by simpa using this.symm)

/-! ### The two loops -/

theorem View.send_nodes (v : View) (ev : SigEv) (x : Id) (ps : List (List Id)) : (v.send ev x ps).nodes = v.nodes := rfl

theorem View.kids_of_get {v : View} {x : Id} {n : VNode} (h : v.nodes.get? x = some n) : v.kids x = n.children := by
  unfold View.kids; rw [h]; rfl

theorem View.pars_of_get {v : View} {x : Id} {n : VNode} (h : v.nodes.get? x = some n) : v.pars x = n.parents := by
  unfold View.pars; rw [h]; rfl

theorem View.get_of_has {v : View} {x : Id} (h : v.has x = true) : ∃ n, v.nodes.get? x = some n := (Dict.has_iff _ _).1 h

theorem View.kids_congr {v w : View} (h : v.nodes = w.nodes) : v.kids = w.kids := by
  funext x; unfold View.kids; rw [h]

theorem View.pars_congr {v w : View} (h : v.nodes = w.nodes) : v.pars = w.pars := by
  funext x; unfold View.pars; rw [h]

theorem View.has_congr {v w : View} (h : v.nodes = w.nodes) : v.has = w.has := by
  funext x; unfold View.has; rw [h]

/-- A chain of children below `y`. -/
abbrev Below (v : View) (y : Id) (ext : List Id) : Prop := List.IsChain (fun p c => c ∈ v.kids p) (y :: ext)

theorem below_cases (v : View) (y : Id) (ext : List Id) :
    Below v y ext ↔ ext = [] ∨ ∃ c ∈ v.kids y, ∃ ext', Below v c ext' ∧ ext = c :: ext' := by
  cases ext with
  | nil => simp [Below]
  | cons c ext =>
    simp only [Below, List.isChain_cons_cons]
    constructor
    · rintro ⟨h1, h2⟩; exact Or.inr ⟨c, h1, ext, h2, rfl⟩
    · rintro (h | ⟨c', h1, ext', h2, h3⟩)
      · cases h
      · cases h3; exact ⟨h1, h2⟩

theorem addLoop_spec {starts : List (List Id)} {x : Id} (hs : ∀ s ∈ starts, x ∉ s) (hsn : starts.Nodup) {W : Id → Nat}
    {N : Dict VNode} {K : List Id → List Id} (G : Id → Prop) :
    ∀ (f : Nat) (v : View) (q : List (Id × List Id)) (S : List Id → Prop), v.nodes = N →
      (∀ y, W y = 1 + ((v.kids y).map W).sum) →
      (∀ p, G p → ∀ c, c ∈ v.kids p → v.has c = true ∧ G c) → (∀ p, (v.kids p).Nodup) →
      (∀ s ∈ starts, ∀ l y, l.getLast? = some y → K (s ++ l) = v.kids y) →
      RowsSet v.out S K →
      (∀ i ∈ q, (v.has i.1 = true ∧ G i.1) ∧ i.2.getLast? = some i.1 ∧ ∃ r, i.2 = x :: r) →
      (∀ i ∈ q, ∀ s ∈ starts, (s ++ i.2).dropLast = [] ∨ S (s ++ i.2).dropLast) →
      (∀ i ∈ q, ∀ s ∈ starts, ∀ ext, Below v i.1 ext → ¬ S (s ++ i.2 ++ ext)) →
      (q.map (·.2)).Pairwise Inc →
      (∀ i ∈ q, ∀ s ∈ starts, ∀ r c, s ++ i.2 = r ++ [i.1] → S (r ++ [c]) → ¬ [i.1, c] <+ K r) →
      (q.Pairwise fun i j => ∀ s ∈ starts, ∀ s' ∈ starts, ∀ r, s ++ i.2 = r ++ [i.1] → s' ++ j.2 = r ++ [j.1] →
        ¬ [j.1, i.1] <+ K r) →
      (q.map (fun i => W i.1)).sum ≤ f →
      ∃ v', View.addLoop starts f v q = .ok v' ∧ v'.nodes = v.nodes ∧
        RowsSet v'.out (fun l => S l ∨ ∃ i ∈ q, ∃ s ∈ starts, ∃ ext, Below v i.1 ext ∧ l = s ++ i.2 ++ ext) K := by
  intro f
  induction f with
  | zero =>
    intro v q S hN hW _ _ _ hR _ _ _ _ _ _ hf
    cases q with
    | nil => exact ⟨v, rfl, rfl, hR.congr (by simp)⟩
    | cons i q =>
      have := hW i.1
      simp only [List.map_cons, List.sum_cons] at hf; omega
  | succ f ih =>
    intro v q S hN hW hk hkn hK hR hi hp hn hpw ho hpo hf
    cases q with
    | nil => exact ⟨v, rfl, rfl, hR.congr (by simp)⟩
    | cons i q =>
      obtain ⟨y, rel⟩ := i
      obtain ⟨⟨hy, hgy⟩, hlast, r, hr⟩ := hi (y, rel) (by simp)
      simp only at hy hgy hlast hr
      obtain ⟨n, hg⟩ := View.get_of_has hy
      have hkids := View.kids_of_get hg
      rw [View.addLoop, hg]
      dsimp only
      rw [← hkids]
      have hL : ∀ a ∈ starts.map (· ++ rel), a.getLast? = some y := by
        intro a ha
        obtain ⟨s, -, rfl⟩ := List.mem_map.1 ha
        rw [List.getLast?_append, hlast]; rfl
      have hR1 := hR.addedMany (starts.map (· ++ rel)) hL
        (hsn.map (fun a b hab => by simpa using hab))
        (by
          intro a ha
          obtain ⟨s, hs1, rfl⟩ := List.mem_map.1 ha
          have := hn (y, rel) (by simp) s hs1 [] (by simp [Below])
          simpa using this)
        (by
          intro a ha
          obtain ⟨s, hs1, rfl⟩ := List.mem_map.1 ha
          exact hp (y, rel) (by simp) s hs1)
        (by
          intro a ha r c e
          obtain ⟨s, hs1, rfl⟩ := List.mem_map.1 ha
          exact ho (y, rel) (by simp) s hs1 r c e)
      rw [List.pairwise_cons] at hpo
      obtain ⟨hpo1, hpo2⟩ := hpo
      set v1 := v.send .added y (starts.map (· ++ rel)) with hv1
      have hkk : v1.kids = v.kids := View.kids_congr rfl
      have hhh : v1.has = v.has := View.has_congr rfl
      have hbb : ∀ z e, Below v1 z e ↔ Below v z e := by intro z e; unfold Below; rw [hkk]
      rw [List.map_cons, List.pairwise_cons] at hpw
      obtain ⟨hpw1, hpw2⟩ := hpw
      obtain ⟨v', h1, h2, h3⟩ := ih v1 (q ++ (v.kids y).map (fun c => (c, rel ++ [c])))
        (fun l => S l ∨ l ∈ starts.map (· ++ rel)) hN (by rw [hkk]; exact hW) (by rw [hkk, hhh]; exact hk)
        (by rw [hkk]; exact hkn) (by rw [hkk]; exact hK) hR1 (by
          intro i hi'
          rw [hhh]
          rcases List.mem_append.1 hi' with h | h
          · exact hi i (by simp [h])
          · obtain ⟨c, hc, rfl⟩ := List.mem_map.1 h
            exact ⟨hk y hgy c hc, by simp, r ++ [c], by simp [hr]⟩)
        (by
          intro i hi' s hs1
          rcases List.mem_append.1 hi' with h | h
          · exact (hp i (by simp [h]) s hs1).imp id Or.inl
          · obtain ⟨c, hc, rfl⟩ := List.mem_map.1 h
            right; right
            refine List.mem_map.2 ⟨s, hs1, ?_⟩
            simp only
            rw [← List.append_assoc, List.dropLast_concat])
        (by
          intro i hi' s hs1 ext hb
          rw [hbb] at hb
          rintro (hS | hm)
          · rcases List.mem_append.1 hi' with h | h
            · exact hn i (by simp [h]) s hs1 ext hb hS
            · obtain ⟨c, hc, rfl⟩ := List.mem_map.1 h
              refine hn (y, rel) (by simp) s hs1 (c :: ext) ((below_cases _ _ _).2 (Or.inr ⟨c, hc, ext, hb, rfl⟩)) ?_
              simpa using hS
          · obtain ⟨s', hs', he⟩ := List.mem_map.1 hm
            rcases List.mem_append.1 hi' with h | h
            · obtain ⟨-, -, r2, hr2⟩ := hi i (by simp [h])
              have hpre : s ++ x :: r2 <+: s' ++ x :: r := by
                rw [← hr, ← hr2, he]; exact List.prefix_append _ _
              have := (prefix_split (hs s hs1) (hs s' hs') hpre).2
              rw [← hr, ← hr2] at this
              exact (hpw1 i.2 (List.mem_map.2 ⟨i, h, rfl⟩)).2 this
            · obtain ⟨c, hc, rfl⟩ := List.mem_map.1 h
              have hpre : s ++ x :: (r ++ [c]) <+: s' ++ x :: r := by
                rw [← hr, he]; simp only [hr, List.append_assoc, List.cons_append]
                exact ⟨ext, by simp⟩
              have := (prefix_split (hs s hs1) (hs s' hs') hpre).2.length_le
              simp only [List.length_cons, List.length_append, List.length_nil] at this; omega)
        (by
          rw [List.map_append, List.pairwise_append]
          refine ⟨hpw2, ?_, ?_⟩
          · rw [List.map_map, List.pairwise_map]
            refine (hkn y).imp ?_
            intro a b hab; exact inc_snoc_ne hab
          · intro a ha b hb
            rw [List.map_map] at hb
            obtain ⟨c, hc, rfl⟩ := List.mem_map.1 hb
            exact ((hpw1 a ha).snoc c).symm)
        (by
          intro i hi' s hs1 t c e hc hsub
          rcases List.mem_append.1 hi' with h | h
          · rcases hc with hc | hc
            · exact ho i (by simp [h]) s hs1 t c e hc hsub
            · obtain ⟨s', hs', he⟩ := List.mem_map.1 hc
              have hcy : c = y := by
                have h5 := congrArg List.getLast? he
                rw [List.getLast?_append, hlast] at h5
                simpa using h5.symm
              subst hcy
              exact hpo1 i h s' hs' s hs1 t he e hsub
          · obtain ⟨d, hd, rfl⟩ := List.mem_map.1 h
            simp only at e hsub
            rw [← List.append_assoc] at e
            have ht : t = s ++ rel := (List.append_inj_left' e rfl).symm
            subst ht
            rw [hK s hs1 rel y hlast] at hsub
            rcases hc with hc | hc
            · refine hn (y, rel) (by simp) s hs1 [c] ?_ hc
              exact (below_cases _ _ _).2 (Or.inr ⟨c, hsub.subset (by simp), [], by simp [Below], rfl⟩)
            · obtain ⟨s', hs', he⟩ := List.mem_map.1 hc
              have hpre : s ++ x :: (r ++ [c]) <+: s' ++ x :: r := by
                rw [← hr, he]; simp only [hr, List.append_assoc, List.cons_append]
                exact List.prefix_refl _
              have := (prefix_split (hs s hs1) (hs s' hs') hpre).2.length_le
              simp only [List.length_cons, List.length_append, List.length_nil] at this; omega)
        (by
          rw [List.pairwise_append]
          refine ⟨hpo2, ?_, ?_⟩
          · rw [List.pairwise_map]
            refine (nodup_not_swapped (hkn y)).imp ?_
            intro a b hab s hs1 s' hs' t ea eb hsub
            simp only at ea eb hsub
            rw [← List.append_assoc] at ea
            have ht : t = s ++ rel := (List.append_inj_left' ea rfl).symm
            subst ht
            rw [hK s hs1 rel y hlast] at hsub
            exact hab hsub
          · intro i hi' j hj s hs1 s' hs' t ei ej _
            obtain ⟨c, hc, rfl⟩ := List.mem_map.1 hj
            simp only at ej
            rw [← List.append_assoc] at ej
            have ht : t = s' ++ rel := (List.append_inj_left' ej rfl).symm
            subst ht
            obtain ⟨-, -, r2, hr2⟩ := hi i (by simp [hi'])
            have hpre : s' ++ x :: r <+: s ++ x :: r2 := by
              rw [← hr, ← hr2, ei]; exact List.prefix_append _ _
            have := (prefix_split (hs s' hs') (hs s hs1) hpre).2
            rw [← hr, ← hr2] at this
            exact (hpw1 i.2 (List.mem_map.2 ⟨i, hi', rfl⟩)).1 this)
        (by
          rw [List.map_append, List.sum_append, List.map_map]
          simp only [List.map_cons, List.sum_cons] at hf
          rw [hW y] at hf
          have : (List.map ((fun i : Id × List Id => W i.1) ∘ fun c => (c, rel ++ [c])) (v.kids y)) = (v.kids y).map W := rfl
          rw [this]; omega)
      refine ⟨v', h1, h2, h3.congr fun l => ?_⟩
      constructor
      · rintro ((h | h) | ⟨i, hi', s, hs1, ext, hb, rfl⟩)
        · exact Or.inl h
        · obtain ⟨s, hs1, rfl⟩ := List.mem_map.1 h
          exact Or.inr ⟨(y, rel), by simp, s, hs1, [], by simp [Below], by simp⟩
        · rw [hbb] at hb
          right
          rcases List.mem_append.1 hi' with h | h
          · exact ⟨i, by simp [h], s, hs1, ext, hb, rfl⟩
          · obtain ⟨c, hc, rfl⟩ := List.mem_map.1 h
            exact ⟨(y, rel), by simp, s, hs1, c :: ext, (below_cases _ _ _).2 (Or.inr ⟨c, hc, ext, hb, rfl⟩), by simp⟩
      · rintro (h | ⟨i, hi', s, hs1, ext, hb, rfl⟩)
        · exact Or.inl (Or.inl h)
        · rcases List.mem_cons.1 hi' with rfl | h
          · rcases (below_cases _ _ _).1 hb with rfl | ⟨c, hc, ext', hb', rfl⟩
            · exact Or.inl (Or.inr (List.mem_map.2 ⟨s, hs1, by simp⟩))
            · exact Or.inr ⟨(c, rel ++ [c]), List.mem_append.2 (Or.inr (List.mem_map.2 ⟨c, hc, rfl⟩)), s, hs1, ext',
                (hbb _ _).2 hb', by simp⟩
          · exact Or.inr ⟨i, by simp [h], s, hs1, ext, (hbb _ _).2 hb, rfl⟩

/-- The rows a stack entry of `send_remove_tree` stands for. -/
def StackRows (v : View) (starts : List (List Id)) (i : Id × List Id × Bool) (l : List Id) : Prop :=
  ∃ s ∈ starts, if i.2.2 = true then ∃ ext, Below v i.1 ext ∧ l = s ++ i.2.1 ++ ext else l = s ++ i.2.1

/-- An earlier stack entry is no prefix of a later one, and a later one that is still to be opened is no prefix of an
earlier one. -/
def StackOrd (a b : List Id × Bool) : Prop := ¬ a.1 <+: b.1 ∧ (b.2 = true → ¬ b.1 <+: a.1)

theorem sum_map_two_mul {α : Type} (f : α → Nat) (l : List α) : (l.map (fun a => 2 * f a)).sum = 2 * (l.map f).sum := by
  induction l with
  | nil => rfl
  | cons a l ih => simp only [List.map_cons, List.sum_cons, ih]; omega

theorem removeLoop_spec {starts : List (List Id)} {x : Id} (hs : ∀ s ∈ starts, x ∉ s) (hsn : starts.Nodup) {W : Id → Nat}
    {K : List Id → List Id} (G : Id → Prop) {B : List Id → Prop} (hB : ∀ s ∈ starts, ∀ r, ¬ B (s ++ x :: r)) :
    ∀ (f : Nat) (v : View) (q : List (Id × List Id × Bool)) (S : List Id → Prop),
      (∀ y, W y = 1 + ((v.kids y).map W).sum) →
      (∀ p, G p → ∀ c, c ∈ v.kids p → v.has c = true ∧ G c) → (∀ p, (v.kids p).Nodup) →
      RowsSet v.out S K →
      (∀ i ∈ q, (v.has i.1 = true ∧ G i.1) ∧ i.2.1.getLast? = some i.1 ∧ ∃ r, i.2.1 = x :: r) →
      (∀ l, S l ↔ B l ∨ ∃ i ∈ q, StackRows v starts i l) →
      (q.map (·.2)).Pairwise StackOrd →
      (q.map (fun i => if i.2.2 = true then 2 * W i.1 else 1)).sum ≤ f →
      ∃ v', View.removeLoop starts f v q = .ok v' ∧ v'.nodes = v.nodes ∧ RowsSet v'.out B K := by
  intro f
  induction f with
  | zero =>
    intro v q S hW _ _ hR _ hS _ hf
    cases q with
    | nil => exact ⟨v, rfl, rfl, hR.congr (by intro l; rw [hS]; simp)⟩
    | cons i q =>
      have := hW i.1
      simp only [List.map_cons, List.sum_cons] at hf
      split at hf <;> omega
  | succ f ih =>
    intro v q S hW hk hkn hR hi hS hpw hf
    cases q with
    | nil => exact ⟨v, rfl, rfl, hR.congr (by intro l; rw [hS]; simp)⟩
    | cons i q =>
      obtain ⟨y, rel, first⟩ := i
      obtain ⟨⟨hy, hgy⟩, hlast, r, hr⟩ := hi (y, rel, first) (by simp)
      simp only at hy hgy hlast hr
      obtain ⟨n, hg⟩ := View.get_of_has hy
      have hkids := View.kids_of_get hg
      rw [List.map_cons, List.pairwise_cons] at hpw
      obtain ⟨hpw1, hpw2⟩ := hpw
      rw [View.removeLoop]
      cases first with
      | true =>
        rw [if_pos rfl, hg]
        dsimp only
        rw [← hkids]
        refine ih v _ S hW hk hkn hR ?_ ?_ ?_ ?_
        · intro i hi'
          rcases List.mem_append.1 hi' with h | h
          · rw [List.mem_reverse] at h
            obtain ⟨c, hc, rfl⟩ := List.mem_map.1 h
            exact ⟨hk y hgy c hc, by simp, r ++ [c], by simp [hr]⟩
          · rcases List.mem_cons.1 h with rfl | h
            · exact ⟨⟨hy, hgy⟩, hlast, r, hr⟩
            · exact hi i (by simp [h])
        · intro l
          rw [hS]
          constructor
          · rintro (h | ⟨i, hi', hl⟩)
            · exact Or.inl h
            · right
              rcases List.mem_cons.1 hi' with rfl | h
              · obtain ⟨s, hs1, hl⟩ := hl
                simp only [if_true] at hl
                obtain ⟨ext, hb, rfl⟩ := hl
                rcases (below_cases _ _ _).1 hb with rfl | ⟨c, hc, ext', hb', rfl⟩
                · exact ⟨(y, rel, false), by simp, s, hs1, by simp⟩
                · refine ⟨(c, rel ++ [c], true), ?_, s, hs1, ?_⟩
                  · exact List.mem_append.2 (Or.inl (List.mem_reverse.2 (List.mem_map.2 ⟨c, hc, rfl⟩)))
                  · simp only [if_true]; exact ⟨ext', hb', by simp⟩
              · exact ⟨i, List.mem_append.2 (Or.inr (List.mem_cons_of_mem _ h)), hl⟩
          · rintro (h | ⟨i, hi', hl⟩)
            · exact Or.inl h
            · right
              rcases List.mem_append.1 hi' with h | h
              · rw [List.mem_reverse] at h
                obtain ⟨c, hc, rfl⟩ := List.mem_map.1 h
                obtain ⟨s, hs1, hl⟩ := hl
                simp only [if_true] at hl
                obtain ⟨ext, hb, rfl⟩ := hl
                refine ⟨(y, rel, true), by simp, s, hs1, ?_⟩
                simp only [if_true]
                exact ⟨c :: ext, (below_cases _ _ _).2 (Or.inr ⟨c, hc, ext, hb, rfl⟩), by simp⟩
              · rcases List.mem_cons.1 h with rfl | h
                · obtain ⟨s, hs1, hl⟩ := hl
                  refine ⟨(y, rel, true), by simp, s, hs1, ?_⟩
                  simp only [if_true]
                  simp at hl
                  exact ⟨[], by simp [Below], by simp [hl]⟩
                · exact ⟨i, by simp [h], hl⟩
        · rw [List.map_append, List.pairwise_append]
          refine ⟨?_, ?_, ?_⟩
          · rw [List.map_reverse, List.pairwise_reverse, List.map_map, List.pairwise_map]
            refine (hkn y).imp ?_
            intro a b hab
            exact ⟨(inc_snoc_ne hab).2, fun _ => (inc_snoc_ne hab).1⟩
          · rw [List.map_cons, List.pairwise_cons]
            exact ⟨hpw1, hpw2⟩
          · intro a ha b hb
            rw [List.map_reverse, List.mem_reverse, List.map_map] at ha
            obtain ⟨c, hc, rfl⟩ := List.mem_map.1 ha
            rw [List.map_cons, List.mem_cons] at hb
            rcases hb with rfl | hb
            · refine ⟨fun h => ?_, fun h => by cases h⟩
              have := h.length_le
              simp only [Function.comp, List.length_append, List.length_cons, List.length_nil] at this
              omega
            · obtain ⟨h1, h2⟩ := hpw1 b hb
              exact ⟨not_prefix_snoc h1, fun hbt => ((Inc.snoc ⟨h1, h2 hbt⟩ c)).2⟩
        · rw [List.map_append, List.sum_append, List.map_reverse, List.sum_reverse, List.map_map, List.map_cons, List.sum_cons]
          simp only [List.map_cons, List.sum_cons, if_true] at hf
          rw [hW y] at hf
          have : (List.map ((fun i : Id × List Id × Bool => if i.2.2 = true then 2 * W i.1 else 1) ∘
              fun c => (c, rel ++ [c], true)) (v.kids y)).sum = 2 * ((v.kids y).map W).sum := by
            rw [← sum_map_two_mul]; rfl
          rw [this]
          simp only [Bool.false_eq_true, if_false]
          omega
      | false =>
        rw [if_neg (by simp)]
        have hL : ∀ a ∈ starts.map (· ++ rel), a.getLast? = some y := by
          intro a ha
          obtain ⟨s, -, rfl⟩ := List.mem_map.1 ha
          rw [List.getLast?_append, hlast]; rfl
        have hsplit : ∀ s ∈ starts, ∀ i ∈ q, ∀ s' ∈ starts, ∀ ext, s ++ rel <+: s' ++ i.2.1 ++ ext → s = s' ∧ rel <+: i.2.1 ++ ext := by
          intro s hs1 i hi' s' hs' ext h
          obtain ⟨-, -, r', hr'⟩ := hi i (by simp [hi'])
          rw [hr, hr', List.append_assoc, List.cons_append] at h
          have := prefix_split (hs s hs1) (hs s' hs') h
          rw [hr, hr']; exact this
        have hR1 := hR.deletedMany (starts.map (· ++ rel)) hL
          (hsn.map (fun a b hab => by simpa using hab))
          (by
            intro a ha
            obtain ⟨s, hs1, rfl⟩ := List.mem_map.1 ha
            rw [hS]
            exact Or.inr ⟨(y, rel, false), by simp, s, hs1, by simp⟩)
          (by
            intro a ha b hb hab
            obtain ⟨s, hs1, rfl⟩ := List.mem_map.1 ha
            rw [hS] at hb
            rcases hb with hb | ⟨i, hi', s', hs', hl⟩
            · obtain ⟨t, rfl⟩ := hab
              rw [hr, List.append_assoc, List.cons_append] at hb
              exact absurd hb (hB s hs1 _)
            · rcases List.mem_cons.1 hi' with rfl | h
              · simp at hl
                subst hl
                rw [hr] at hab
                obtain ⟨rfl, -⟩ := prefix_split (hs s hs1) (hs s' hs') hab
                rfl
              · exfalso
                obtain ⟨p1, p2⟩ := hpw1 i.2 (List.mem_map.2 ⟨i, h, rfl⟩)
                by_cases ht : i.2.2 = true
                · rw [if_pos ht] at hl
                  obtain ⟨ext, hb, rfl⟩ := hl
                  have h3 := (hsplit s hs1 i h s' hs' ext hab).2
                  rcases List.prefix_or_prefix_of_prefix h3 (List.prefix_append i.2.1 ext) with h4 | h4
                  · exact p1 h4
                  · exact p2 ht h4
                · rw [if_neg ht] at hl
                  subst hl
                  have := hsplit s hs1 i h s' hs' [] (by simpa using hab)
                  rw [List.append_nil] at this
                  exact p1 this.2)
        set v1 := v.send .deleted y (starts.map (· ++ rel)) with hv1
        have hkk : v1.kids = v.kids := View.kids_congr rfl
        have hhh : v1.has = v.has := View.has_congr rfl
        have hbb : ∀ i l, StackRows v1 starts i l ↔ StackRows v starts i l := by
          intro z e; unfold StackRows Below; rw [hkk]
        refine ih v1 q _ (by rw [hkk]; exact hW) (by rw [hkk, hhh]; exact hk) (by rw [hkk]; exact hkn) hR1 ?_ ?_ hpw2 ?_
        · intro i hi'; rw [hhh]; exact hi i (by simp [hi'])
        · intro l
          rw [hS]
          constructor
          · rintro ⟨h | ⟨i, hi', hl⟩, hnot⟩
            · exact Or.inl h
            · rcases List.mem_cons.1 hi' with rfl | h
              · obtain ⟨s, hs1, hl⟩ := hl
                simp at hl
                exact absurd (List.mem_map.2 ⟨s, hs1, hl.symm⟩) hnot
              · exact Or.inr ⟨i, h, (hbb _ _).2 hl⟩
          · rintro (h | ⟨i, hi', hl⟩)
            · refine ⟨Or.inl h, fun hm => ?_⟩
              obtain ⟨s, hs1, rfl⟩ := List.mem_map.1 hm
              rw [hr] at h
              exact hB s hs1 _ h
            · rw [hbb] at hl
              refine ⟨Or.inr ⟨i, by simp [hi'], hl⟩, fun hm => ?_⟩
              obtain ⟨s, hs1, rfl⟩ := List.mem_map.1 hm
              obtain ⟨p1, p2⟩ := hpw1 i.2 (List.mem_map.2 ⟨i, hi', rfl⟩)
              obtain ⟨s', hs', hl⟩ := hl
              by_cases ht : i.2.2 = true
              · rw [if_pos ht] at hl
                obtain ⟨ext, hb, he⟩ := hl
                have h3 := (hsplit s hs1 i hi' s' hs' ext (by rw [he])).2
                rcases List.prefix_or_prefix_of_prefix h3 (List.prefix_append i.2.1 ext) with h4 | h4
                · exact p1 h4
                · exact p2 ht h4
              · rw [if_neg ht] at hl
                have := hsplit s hs1 i hi' s' hs' [] (by rw [hl, List.append_nil])
                rw [List.append_nil] at this
                exact p1 this.2
        · simp only [List.map_cons, List.sum_cons, Bool.false_eq_true, if_false] at hf
          omega

/-! ### Paths -/

theorem chain_rank {e : Id → Id → Prop} {rank : Id → Nat} (her : ∀ p y, e p y → rank p < rank y) {a : Id} {l : List Id}
    (h : List.IsChain e (a :: l)) : ∀ b ∈ l, rank a < rank b := by
  have h1 : List.IsChain (fun p y => rank p < rank y) (a :: l) := h.imp (fun {p y} => her p y)
  have : IsTrans Id (fun p y => rank p < rank y) := ⟨fun a b c h h' => lt_trans h h'⟩
  rw [List.isChain_iff_pairwise, List.pairwise_cons] at h1
  exact h1.1

theorem chain_rank_last {e : Id → Id → Prop} {rank : Id → Nat} (her : ∀ p y, e p y → rank p < rank y) {a y : Id}
    {l : List Id} (h : List.IsChain e (a :: l)) (hl : (a :: l).getLast? = some y) : ∀ b ∈ a :: l, rank b ≤ rank y := by
  have h1 : List.IsChain (fun p y => rank p < rank y) (a :: l) := h.imp (fun {p y} => her p y)
  have : IsTrans Id (fun p y => rank p < rank y) := ⟨fun a b c h h' => lt_trans h h'⟩
  rw [List.isChain_iff_pairwise] at h1
  obtain ⟨l', hl'⟩ := List.getLast?_eq_some_iff.1 hl
  rw [hl'] at h1 ⊢
  rw [List.pairwise_append] at h1
  intro b hb
  rcases List.mem_append.1 hb with hb | hb
  · exact le_of_lt (h1.2.2 b hb y (by simp))
  · simp at hb; rw [hb]

theorem chain_snoc {e : Id → Id → Prop} {a y : Id} {l : List Id} :
    List.IsChain e (a :: (l ++ [y])) ↔ ∃ p, (a :: l).getLast? = some p ∧ List.IsChain e (a :: l) ∧ e p y := by
  rw [← List.cons_append, List.isChain_append]
  constructor
  · rintro ⟨h1, -, h3⟩
    obtain ⟨p, hp⟩ : ∃ p, (a :: l).getLast? = some p := ⟨_, List.getLast?_eq_some_getLast (by simp)⟩
    exact ⟨p, hp, h1, h3 p hp y (by simp)⟩
  · rintro ⟨p, hp, h1, h2⟩
    refine ⟨h1, by simp, ?_⟩
    intro q hq z hz
    rw [hp] at hq
    simp at hq hz; subst hq; subst hz; exact h2

theorem getLast_snoc (a y : Id) (l : List Id) : (a :: (l ++ [y])).getLast? = some y := by
  rw [← List.cons_append]; exact List.getLast?_concat

/-- The chain ends in `y`. -/
abbrev PathTo (e : Id → Id → Prop) (root : Id) (l : List Id) (y : Id) : Prop :=
  List.IsChain e (root :: l) ∧ (root :: l).getLast? = some y

theorem pathTo_root {e : Id → Id → Prop} {rank : Id → Nat} (her : ∀ p y, e p y → rank p < rank y) {root : Id}
    (l : List Id) : PathTo e root l root ↔ l = [] := by
  constructor
  · rintro ⟨h1, h2⟩
    rcases List.eq_nil_or_concat l with rfl | ⟨l', y, rfl⟩
    · rfl
    · have := chain_rank her h1 y (by simp)
      rw [List.concat_eq_append, getLast_snoc] at h2
      cases h2; omega
  · rintro rfl; exact ⟨List.isChain_singleton _, rfl⟩

theorem pathTo_step {e : Id → Id → Prop} {root y : Id} (hy : y ≠ root) (l : List Id) :
    PathTo e root l y ↔ ∃ p, e p y ∧ ∃ l', PathTo e root l' p ∧ l = l' ++ [y] := by
  constructor
  · rintro ⟨h1, h2⟩
    rcases List.eq_nil_or_concat l with rfl | ⟨l', z, rfl⟩
    · simp at h2; exact absurd h2.symm hy
    · rw [List.concat_eq_append] at h1 h2
      rw [getLast_snoc] at h2
      cases h2
      obtain ⟨p, hp, h3, h4⟩ := chain_snoc.1 h1
      exact ⟨p, h4, l', ⟨h3, hp⟩, by simp⟩
  · rintro ⟨p, hp, l', ⟨h1, h2⟩, rfl⟩
    exact ⟨chain_snoc.2 ⟨p, h2, h1, hp⟩, getLast_snoc _ _ _⟩

/-- What `get_paths_for_node` needs. -/
structure PathsOK (root : Id) (rank : Id → Nat) (v : View) (e : Id → Id → Prop) (k : Nat) : Prop where
  par : ∀ y p, p ∈ v.pars y → v.has p = true ∧ rank p < rank y
  ndP : ∀ y, (v.pars y).Nodup
  edge : ∀ y, rank y ≤ k → ∀ p, p ∈ v.pars y ↔ e p y
  kid : ∀ y, rank y ≤ k → ∀ p ∈ v.pars y, y ∈ v.kids p
  rank : ∀ p y, e p y → rank p < rank y

/-- What `get_paths_for_node` needs for the nodes in `G`. -/
structure PathsOn (rank : Id → Nat) (v : View) (e : Id → Id → Prop) (G : Id → Prop) : Prop where
  par : ∀ y p, p ∈ v.pars y → v.has p = true ∧ rank p < rank y
  ndP : ∀ y, (v.pars y).Nodup
  up : ∀ y, G y → ∀ p ∈ v.pars y, G p
  edge : ∀ y, G y → ∀ p, p ∈ v.pars y ↔ e p y
  kid : ∀ y, G y → ∀ p ∈ v.pars y, y ∈ v.kids p
  rank : ∀ p y, e p y → rank p < rank y

theorem pathsFuel_on {root : Id} {v : View} {e : Id → Id → Prop} {rank ht : Id → Nat} {G : Id → Prop}
    (h : PathsOn rank v e G) (hht : ∀ y p, p ∈ v.pars y → ht p < ht y) :
    ∀ (f : Nat) (y : Id), ht y < f → G y → v.has y = true →
      ∃ ps, View.pathsFuel root v f y = .ok ps ∧ ps.Nodup ∧ ∀ l, l ∈ ps ↔ PathTo e root l y := by
  intro f
  induction f with
  | zero => intro y hy; omega
  | succ f ih =>
    intro y hy hk hh
    rw [View.pathsFuel]
    by_cases hr : y = root
    · rw [if_pos (Or.inl hr)]
      subst hr
      refine ⟨_, rfl, by simp, fun l => ?_⟩
      rw [pathTo_root h.rank]; simp
    · rw [if_neg (by simp [hr, hh])]
      have hex : ∀ p ∈ v.pars y, ∃ ps, View.pathsFuel root v f p = .ok ps ∧ ps.Nodup ∧ ∀ l, l ∈ ps ↔ PathTo e root l p := by
        intro p hp
        have h1 := (h.par y p hp).1
        exact ih p (by have := hht y p hp; omega) (h.up y hk p hp) h1
      classical
      let g : Id → List (List Id) := fun p => if hp : p ∈ v.pars y then (hex p hp).choose else []
      have hg : ∀ p (hp : p ∈ v.pars y), View.pathsFuel root v f p = .ok (g p) ∧ (g p).Nodup ∧
          ∀ l, l ∈ g p ↔ PathTo e root l p := by
        intro p hp
        have := (hex p hp).choose_spec
        simp only [g, dif_pos hp]; exact this
      rw [collect_ok (g := fun p => (g p).map (· ++ [y])) (v.pars y) (by
        intro p hp
        rw [if_neg (by simp [(h.par y p hp).1]), if_neg (by simp [h.kid y hk p hp]), (hg p hp).1])]
      refine ⟨_, rfl, ?_, fun l => ?_⟩
      · rw [List.nodup_flatMap]
        refine ⟨fun p hp => ?_, ?_⟩
        · exact ((hg p hp).2.1).map (fun a b hab => by simpa using hab)
        · refine List.Pairwise.imp_of_mem ?_ (h.ndP y)
          intro p q hp hq hne l hl1 hl2
          simp only [List.mem_map] at hl1 hl2
          obtain ⟨a, ha, rfl⟩ := hl1
          obtain ⟨b, hb, hab⟩ := hl2
          have : b = a := by simpa using hab
          subst this
          have e1 := (((hg p hp).2.2 _).1 ha).2
          have e2 := (((hg q hq).2.2 _).1 hb).2
          rw [e1] at e2
          exact hne (by simpa using e2)
      · rw [pathTo_step hr]
        simp only [List.mem_flatMap, List.mem_map]
        constructor
        · rintro ⟨p, hp, a, ha, rfl⟩; exact ⟨p, (h.edge y hk p).1 hp, a, ((hg p hp).2.2 a).1 ha, rfl⟩
        · rintro ⟨p, hp, a, ha, rfl⟩
          have hp' := (h.edge y hk p).2 hp
          exact ⟨p, hp', a, ((hg p hp').2.2 a).2 ha, rfl⟩

theorem View.pars_keys (v : View) (x : Id) (h : v.pars x ≠ []) : x ∈ v.nodes.keys := by
  rw [Dict.mem_keys]
  by_contra hx
  apply h
  unfold View.pars
  have : v.nodes.get? x = none := by
    unfold Dict.has at hx
    simpa using hx
  rw [this]; rfl

theorem View.kids_keys (v : View) (x : Id) (h : v.kids x ≠ []) : x ∈ v.nodes.keys := by
  rw [Dict.mem_keys]
  by_contra hx
  apply h
  unfold View.kids
  have : v.nodes.get? x = none := by
    unfold Dict.has at hx
    simpa using hx
  rw [this]; rfl

theorem paths_on {root : Id} {v : View} {e : Id → Id → Prop} {rank : Id → Nat} {G : Id → Prop}
    (h : PathsOn rank v e G) {y : Id} (hk : G y) (hy : v.has y = true) :
    ∃ ps, v.paths root y = .ok ps ∧ ps.Nodup ∧ ∀ l, l ∈ ps ↔ PathTo e root l y := by
  have hac : Acyclic v.pars := acyclic_of_height _ rank (fun x y hy => (h.par x y hy).2)
  obtain ⟨ht, hb, hlt⟩ := exists_height v.pars v.nodes.keys v.pars_keys hac
  refine pathsFuel_on h hlt _ y ?_ hk hy
  have := hb y
  have e : v.nodes.keys.length = v.nodes.entries.length := by simp [Dict.keys]
  omega

theorem PathsOK.on {root : Id} {v : View} {e : Id → Id → Prop} {rank : Id → Nat} {k : Nat} (h : PathsOK root rank v e k) :
    PathsOn rank v e (fun y => rank y ≤ k) :=
  ⟨h.par, h.ndP, fun y hy p hp => (by have := (h.par y p hp).2; omega), h.edge, h.kid, h.rank⟩

theorem paths_spec {root : Id} {v : View} {e : Id → Id → Prop} {rank : Id → Nat} {k : Nat}
    (h : PathsOK root rank v e k) {y : Id} (hk : rank y ≤ k) (hy : v.has y = true) :
    ∃ ps, v.paths root y = .ok ps ∧ ps.Nodup ∧ ∀ l, l ∈ ps ↔ PathTo e root l y := paths_on h.on hk hy

theorem walksBelow_eq {v : View} {rank : Id → Nat} (hk : ∀ p c, c ∈ v.kids p → rank p < rank c) (B : Nat)
    (hB : ∀ x, rank x ≤ B) :
    ∃ W : Id → Nat, (∀ y, W y = 1 + ((v.kids y).map W).sum) ∧ ∀ y, v.walksBelow y = W y := by
  have hac : Acyclic v.kids := acyclic_of_height _ (fun x => B - rank x) (fun x y hy => by
    have := hk x y hy
    have := hB y
    show B - rank y < B - rank x
    omega)
  obtain ⟨ht, hb, hlt⟩ := exists_height v.kids v.nodes.keys v.kids_keys hac
  refine ⟨walks v.kids (v.nodes.entries.length + 2), fun y => ?_, fun y => ?_⟩
  · refine walks_eq v.kids ht hlt _ y ?_
    have := hb y
    have e : v.nodes.keys.length = v.nodes.entries.length := by simp [Dict.keys]
    omega
  · have : ∀ d z, v.downWalks d z = walks v.kids d z := by
      intro d
      induction d with
      | zero => intro z; rfl
      | succ d ih =>
        intro z
        rw [View.downWalks, walks]
        congr 2
        exact List.map_congr_left (fun a _ => ih a)
    exact this _ y

/-! ### Adding and removing an edge -/

/-- Rows of a graph. -/
def RowE (e : Id → Id → Prop) (root : Id) (l : List Id) : Prop := l ≠ [] ∧ List.IsChain e (root :: l)

theorem chain_split {e e' : Id → Id → Prop} {p x : Id} (h : ∀ a b, e' a b ↔ e a b ∨ (a = p ∧ b = x)) {a : Id}
    {l : List Id} (hl : List.IsChain e' (a :: l)) :
    List.IsChain e (a :: l) ∨ ∃ s ext, PathTo e a s p ∧ List.IsChain e' (x :: ext) ∧ l = s ++ x :: ext := by
  induction l generalizing a with
  | nil => exact Or.inl (List.isChain_singleton _)
  | cons b l ih =>
    rw [List.isChain_cons_cons] at hl
    rcases (h a b).1 hl.1 with h1 | ⟨rfl, rfl⟩
    · rcases ih hl.2 with h2 | ⟨s, ext, ⟨h2, h3⟩, h4, rfl⟩
      · exact Or.inl (List.isChain_cons_cons.2 ⟨h1, h2⟩)
      · refine Or.inr ⟨b :: s, ext, ⟨List.isChain_cons_cons.2 ⟨h1, h2⟩, ?_⟩, h4, rfl⟩
        rw [List.getLast?_cons_cons]; exact h3
    · exact Or.inr ⟨[], l, ⟨List.isChain_singleton _, rfl⟩, hl.2, rfl⟩

theorem chain_join {e e' : Id → Id → Prop} {p x : Id} (h : ∀ a b, e' a b ↔ e a b ∨ (a = p ∧ b = x)) {a : Id}
    {s ext : List Id} (hs : PathTo e a s p) (hx : List.IsChain e' (x :: ext)) : List.IsChain e' (a :: (s ++ x :: ext)) := by
  rw [← List.cons_append, List.isChain_append]
  refine ⟨hs.1.imp (fun {a b} hab => (h a b).2 (Or.inl hab)), hx, ?_⟩
  intro y hy z hz
  rw [hs.2] at hy
  simp at hy hz; subst hy; subst hz
  exact (h _ _).2 (Or.inr ⟨rfl, rfl⟩)

theorem not_row {e : Id → Id → Prop} {p x root : Id} (h : ¬ e p x) {s ext : List Id}
    (hs : (root :: s).getLast? = some p) : ¬ RowE e root (s ++ x :: ext) := by
  rintro ⟨-, hc⟩
  rw [← List.cons_append, List.isChain_append] at hc
  exact h (hc.2.2 p hs x (by simp))

/-- The children of the last node of a row, in the order of the view; those of the root for the empty row. -/
def View.under (v : View) (root : Id) (r : List Id) : List Id := v.kids (r.getLast?.getD root)

theorem View.under_congr {v w : View} (h : v.nodes = w.nodes) (root : Id) : v.under root = w.under root := by
  funext r; unfold View.under; rw [View.kids_congr h]

theorem View.under_append {v : View} {root y : Id} (s l : List Id) (h : l.getLast? = some y) :
    v.under root (s ++ l) = v.kids y := by
  unfold View.under; rw [List.getLast?_append, h]; rfl

theorem View.under_path {v : View} {root p : Id} {s : List Id} (h : (root :: s).getLast? = some p) :
    v.under root s = v.kids p := by
  unfold View.under
  rw [List.getLast?_cons] at h
  rw [Option.some.inj h]

theorem RowsSet.fewerKids {out : List Sig} {S : List Id → Prop} {v v' : View} {root : Id} (h : RowsSet out S (v.under root))
    (hk : ∀ y, v'.kids y <+ v.kids y) : RowsSet out S (v'.under root) := h.mono fun _ => hk _

theorem RowsSet.sameKids {out : List Sig} {S : List Id → Prop} {v v' : View} {root : Id} (h : RowsSet out S (v.under root))
    (hk : ∀ y, v'.kids y = v.kids y) : RowsSet out S (v'.under root) := h.fewerKids fun y => by rw [hk y]

/-- A child without a row was added to one of the lists. -/
theorem RowsSet.moreKids {out : List Sig} {e : Id → Id → Prop} {v v' : View} {root p x : Id}
    (h : RowsSet out (RowE e root) (v.under root)) (hne : ¬ e p x)
    (hk : ∀ y, v'.kids y = if y = p then v.kids p ++ [x] else v.kids y) : RowsSet out (RowE e root) (v'.under root) := by
  refine h.reorder fun r a b ha hb hab => ?_
  unfold View.under at hab ⊢
  rw [hk] at hab
  split at hab
  · rename_i hp
    rw [hp]
    have hlast : (root :: r).getLast? = some p := by rw [List.getLast?_cons, hp]
    have hx : ∀ c, RowE e root (r ++ [c]) → c ≠ x := by
      rintro c hc rfl
      exact not_row (ext := []) hne hlast hc
    rw [List.sublist_append_iff] at hab
    obtain ⟨l1, l2, e, h1, h2⟩ := hab
    cases l2 with
    | nil => rw [List.append_nil] at e; rw [e]; exact h1
    | cons c l2 =>
      exfalso
      have hc : c = x := by
        have := h2.subset (List.mem_cons_self (a := c) (l := l2))
        simpa using this
      subst hc
      have hm : c ∈ [b, a] := by rw [e]; simp
      simp only [List.mem_cons, List.not_mem_nil, or_false] at hm
      rcases hm with rfl | rfl
      · exact hx _ hb rfl
      · exact hx _ ha rfl
  · exact hab

/-- What the two loops need. -/
structure SendOK (root : Id) (rank : Id → Nat) (v : View) : Prop where
  bound : ∃ B, ∀ y, rank y ≤ B
  kid : ∀ p c, c ∈ v.kids p → rank p < rank c
  ndK : ∀ p, (v.kids p).Nodup

theorem sendAdd_on {root : Id} {rank : Id → Nat} {v : View} (hv : SendOK root rank v) {e e' : Id → Id → Prop} {p x : Id}
    {G D : Id → Prop} (hDx : D x) (hkh : ∀ p, D p → ∀ c, c ∈ v.kids p → v.has c = true ∧ D c)
    (hp : v.has p = true) (hx : v.has x = true) (hrk : rank p < rank x) (hpo : PathsOn rank v e G) (hGp : G p)
    (hee : ∀ a b, e' a b ↔ e a b ∨ (a = p ∧ b = x)) (hne : ¬ e p x)
    (hb : ∀ ext, Below v x ext ↔ List.IsChain e' (x :: ext)) (hlast : ∀ a, e p a → ¬ [x, a] <+ v.kids p)
    (hR : RowsSet v.out (RowE e root) (v.under root)) :
    ∃ v', v.sendAdd root x p = .ok v' ∧ v'.nodes = v.nodes ∧ RowsSet v'.out (RowE e' root) (v'.under root) := by
  obtain ⟨ps, h1, h2, h3⟩ := paths_on hpo hGp hp (root := root)
  obtain ⟨B, hB⟩ := hv.bound
  obtain ⟨W, hW, hWe⟩ := walksBelow_eq hv.kid B hB
  have hnx : ∀ s ∈ ps, x ∉ s := by
    intro s hs hxs
    obtain ⟨a, b⟩ := (h3 s).1 hs
    have := chain_rank_last hpo.rank a b x (by simp [hxs])
    omega
  obtain ⟨v', a1, a2, a3⟩ := addLoop_spec hnx h2 (W := W) D (v.walksBelow x) v [(x, [x])] _ rfl hW
    hkh hv.ndK (fun s _ l y h => View.under_append s l h) hR
    (by
      intro i hi
      simp at hi; subst hi
      exact ⟨⟨hx, hDx⟩, rfl, [], rfl⟩)
    (by
      intro i hi s hs
      simp at hi; subst hi
      show (s ++ [x]).dropLast = [] ∨ _
      rw [List.dropLast_concat]
      by_cases hsn : s = []
      · exact Or.inl hsn
      · exact Or.inr ⟨hsn, ((h3 s).1 hs).1⟩)
    (by
      intro i hi s hs ext hbe hrow
      simp at hi; subst hi
      simp only [List.append_assoc, List.cons_append, List.nil_append] at hrow
      exact not_row hne ((h3 s).1 hs).2 hrow)
    (by simp)
    (by
      intro i hi s hs r c e hrow
      simp at hi; subst hi
      have hr : r = s := (List.append_inj_left' e rfl).symm
      subst hr
      rw [View.under_path ((h3 r).1 hs).2]
      refine hlast c ?_
      have hc := hrow.2
      rw [← List.cons_append, List.isChain_append] at hc
      exact hc.2.2 p ((h3 r).1 hs).2 c (by simp))
    (by simp) (by simp [hWe])
  rw [← View.under_congr a2] at a3
  refine ⟨v', ?_, a2, a3.congr fun l => ?_⟩
  · unfold View.sendAdd; rw [h1]; exact a1
  · constructor
    · rintro (⟨hn, hc⟩ | ⟨i, hi, s, hs, ext, hbe, rfl⟩)
      · exact ⟨hn, hc.imp (fun {a b} hab => (hee a b).2 (Or.inl hab))⟩
      · simp at hi; subst hi
        refine ⟨by simp, ?_⟩
        have := chain_join hee ((h3 s).1 hs) ((hb ext).1 hbe)
        simpa using this
    · rintro ⟨hn, hc⟩
      rcases chain_split hee hc with h | ⟨s, ext, h4, h5, rfl⟩
      · exact Or.inl ⟨hn, h⟩
      · exact Or.inr ⟨(x, [x]), by simp, s, (h3 s).2 h4, ext, (hb ext).2 h5, by simp⟩

theorem sendRemove_on {root : Id} {rank : Id → Nat} {v : View} (hv : SendOK root rank v) {e e' : Id → Id → Prop} {p x : Id}
    {G D : Id → Prop} (hDx : D x) (hkh : ∀ p, D p → ∀ c, c ∈ v.kids p → v.has c = true ∧ D c)
    (hp : v.has p = true) (hx : v.has x = true) (hrk : rank p < rank x) (hpo : PathsOn rank v e' G) (hGp : G p)
    (hee : ∀ a b, e' a b ↔ e a b ∨ (a = p ∧ b = x)) (hne : ¬ e p x)
    (hb : ∀ ext, Below v x ext ↔ List.IsChain e' (x :: ext)) {K : List Id → List Id}
    (hR : RowsSet v.out (RowE e' root) K) :
    ∃ v', v.sendRemove root x p = .ok v' ∧ v'.nodes = v.nodes ∧ RowsSet v'.out (RowE e root) K := by
  have hpo' : ∀ s, PathTo e' root s p ↔ PathTo e root s p := by
    intro s
    constructor
    · rintro ⟨a, b⟩
      refine ⟨?_, b⟩
      rcases chain_split hee a with h | ⟨s1, ext, h4, h5, rfl⟩
      · exact h
      · exfalso
        have := chain_rank_last hpo.rank a b x (by simp)
        omega
    · rintro ⟨a, b⟩
      exact ⟨a.imp (fun {a b} hab => (hee a b).2 (Or.inl hab)), b⟩
  obtain ⟨ps, h1, h2, h3⟩ := paths_on hpo hGp hp (root := root)
  obtain ⟨B, hB⟩ := hv.bound
  obtain ⟨W, hW, hWe⟩ := walksBelow_eq hv.kid B hB
  have hnx : ∀ s ∈ ps, x ∉ s := by
    intro s hs hxs
    obtain ⟨a, b⟩ := (h3 s).1 hs
    have := chain_rank_last hpo.rank a b x (by simp [hxs])
    omega
  obtain ⟨v', a1, a2, a3⟩ := removeLoop_spec hnx h2 (W := W) D (B := RowE e root)
    (fun s hs r => not_row hne ((h3 s).1 hs).2) (2 * v.walksBelow x) v [(x, [x], true)] _ hW
    hkh hv.ndK hR
    (by
      intro i hi
      simp at hi; subst hi
      exact ⟨⟨hx, hDx⟩, rfl, [], rfl⟩)
    (by
      intro l
      constructor
      · rintro ⟨hn, hc⟩
        rcases chain_split hee hc with h | ⟨s, ext, h4, h5, rfl⟩
        · exact Or.inl ⟨hn, h⟩
        · refine Or.inr ⟨(x, [x], true), by simp, s, (h3 s).2 ((hpo' s).2 h4), ?_⟩
          simp only [if_true]
          exact ⟨ext, (hb ext).2 h5, by simp⟩
      · rintro (⟨hn, hc⟩ | ⟨i, hi, s, hs, hl⟩)
        · exact ⟨hn, hc.imp (fun {a b} hab => (hee a b).2 (Or.inl hab))⟩
        · simp at hi; subst hi
          simp only [if_true] at hl
          obtain ⟨ext, hbe, rfl⟩ := hl
          refine ⟨by simp, ?_⟩
          have := chain_join hee ((hpo' s).1 ((h3 s).1 hs)) ((hb ext).1 hbe)
          simpa using this)
    (by simp) (by simp [hWe])
  refine ⟨v', ?_, a2, a3⟩
  unfold View.sendRemove; rw [h1]; exact a1

theorem sendAdd_spec {root : Id} {rank : Id → Nat} {v : View} (hv : SendOK root rank v) {e e' : Id → Id → Prop} {p x : Id}
    (hkh : ∀ p c, c ∈ v.kids p → v.has c = true)
    (hp : v.has p = true) (hx : v.has x = true) (hrk : rank p < rank x) (hpo : PathsOK root rank v e (rank p))
    (hee : ∀ a b, e' a b ↔ e a b ∨ (a = p ∧ b = x)) (hne : ¬ e p x)
    (hb : ∀ ext, Below v x ext ↔ List.IsChain e' (x :: ext)) (hlast : ∀ a, e p a → ¬ [x, a] <+ v.kids p)
    (hR : RowsSet v.out (RowE e root) (v.under root)) :
    ∃ v', v.sendAdd root x p = .ok v' ∧ v'.nodes = v.nodes ∧ RowsSet v'.out (RowE e' root) (v'.under root) :=
  sendAdd_on hv (D := fun _ => True) trivial (fun p _ c hc => ⟨hkh p c hc, trivial⟩) hp hx hrk hpo.on (le_refl _) hee hne hb hlast hR

theorem sendRemove_spec {root : Id} {rank : Id → Nat} {v : View} (hv : SendOK root rank v) {e e' : Id → Id → Prop} {p x : Id}
    (hkh : ∀ p c, c ∈ v.kids p → v.has c = true)
    (hp : v.has p = true) (hx : v.has x = true) (hrk : rank p < rank x) (hpo : PathsOK root rank v e' (rank p))
    (hee : ∀ a b, e' a b ↔ e a b ∨ (a = p ∧ b = x)) (hne : ¬ e p x)
    (hb : ∀ ext, Below v x ext ↔ List.IsChain e' (x :: ext)) {K : List Id → List Id}
    (hR : RowsSet v.out (RowE e' root) K) :
    ∃ v', v.sendRemove root x p = .ok v' ∧ v'.nodes = v.nodes ∧ RowsSet v'.out (RowE e root) K :=
  sendRemove_on hv (D := fun _ => True) trivial (fun p _ c hc => ⟨hkh p c hc, trivial⟩) hp hx hrk hpo.on (le_refl _) hee hne hb hR

end Larch
