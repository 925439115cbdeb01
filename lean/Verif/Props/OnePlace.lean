import Verif.Props.Hierarchy
import Verif.Props.Reading
import Verif.Props.ViewReading
import Verif.Spec.OnePlace

/-!
# C85: in a hierarchy every node has one place
-/

namespace Larch

open Graph Spec

variable {V : Type} {diff : List Id → List Id → List Id}

/-- The last element of a chain. -/
theorem chain_end {R : Id → Id → Prop} {l : List Id} {x : Id} (h : (l ++ [x]).IsChain R) :
    l.IsChain R ∧ ∀ p, l.getLast? = some p → R p x := by
  rw [List.isChain_append] at h
  exact ⟨h.1, fun p hp => h.2.2 p hp x rfl⟩

/-- Where nobody has two predecessors, there is one way from a start to a node. -/
theorem chain_oneWay {R : Id → Id → Prop} {S : Id → Prop} (hu : ∀ p q x, R p x → R q x → p = q) (hs : ∀ x, S x → ∀ p, ¬ R p x) :
    ∀ (l l' : List Id) (x : Id), l.IsChain R → l'.IsChain R → l.getLast? = some x → l'.getLast? = some x →
      (∀ y, l.head? = some y → S y) → (∀ y, l'.head? = some y → S y) → l = l' := by
  intro l
  induction l using List.reverseRecOn with
  | nil => intro l' x _ _ h; cases h
  | append_singleton l z ih =>
    intro l' x hc hc' he he' hh hh'
    rw [List.getLast?_concat] at he
    cases he
    rcases List.eq_nil_or_concat l' with rfl | ⟨k, z', rfl⟩
    · cases he'
    · rw [List.concat_eq_append] at *
      rw [List.getLast?_concat] at he'
      cases he'
      obtain ⟨h1, h2⟩ := chain_end hc
      obtain ⟨h3, h4⟩ := chain_end hc'
      have empty : ∀ m : List Id, m.IsChain R → (∀ p, m.getLast? = some p → R p z) → S z → m = [] := by
        intro m _ hm hz
        cases hl : m.getLast? with
        | none => exact List.getLast?_eq_none_iff.1 hl
        | some p => exact absurd (hm p hl) (hs z hz p)
      cases hl : l.getLast? with
      | none =>
        have : l = [] := List.getLast?_eq_none_iff.1 hl
        subst this
        rw [empty k h3 h4 (hh z rfl)]
      | some p =>
        cases hk : k.getLast? with
        | none =>
          have : k = [] := List.getLast?_eq_none_iff.1 hk
          subst this
          rw [empty l h1 h2 (hh' z rfl)]
        | some q =>
          have hpq := hu p q z (h2 p hl) (h4 q hk)
          subst hpq
          have hd : ∀ m : List Id, (∃ p, m.getLast? = some p) → ∀ y, m.head? = some y → (m ++ [z]).head? = some y := by
            rintro m - y hy
            cases m with
            | nil => cases hy
            | cons a m => exact hy
          rw [ih k p h1 h3 hl hk (fun y hy => hh y (hd l ⟨p, hl⟩ y hy)) fun y hy => hh' y (hd k ⟨p, hk⟩ y hy)]

theorem chain_above {t : Tree} (l : List Id) (x : Id) (hc : l.IsChain (IsParent t)) (he : l.getLast? = some x) :
    ∀ y ∈ l, y = x ∨ Ancestor t y x := by
  induction l using List.reverseRecOn generalizing x with
  | nil => intro y hy; cases hy
  | append_singleton l z ih =>
    rw [List.getLast?_concat] at he
    cases he
    intro y hy
    rcases List.mem_append.1 hy with hy | hy
    · right
      obtain ⟨h1, h2⟩ := chain_end hc
      cases hl : l.getLast? with
      | none => rw [List.getLast?_eq_none_iff.1 hl] at hy; cases hy
      | some p =>
        have hp : IsParent t p z := h2 p hl
        rcases ih p h1 hl y hy with e | e
        · rw [e]; exact Relation.TransGen.single hp
        · exact Relation.TransGen.head hp e
    · exact .inl (List.mem_singleton.1 hy)

theorem chain_all {t : Tree} (ho : Forest t) (l : List Id) (x : Id) (hc : l.IsChain (IsParent t)) (he : l.getLast? = some x)
    (hs : ∀ y, l.head? = some y → ∀ p, ¬ IsParent t p y) : ∀ y, Ancestor t y x → y ∈ l := by
  induction l using List.reverseRecOn generalizing x with
  | nil => cases he
  | append_singleton l z ih =>
    rw [List.getLast?_concat] at he
    cases he
    intro y hy
    obtain ⟨h1, h2⟩ := chain_end hc
    obtain ⟨p, hp, hpy⟩ := Relation.TransGen.head'_iff.1 hy
    cases hl : l.getLast? with
    | none =>
      have := List.getLast?_eq_none_iff.1 hl
      subst this
      exact absurd hp (hs z rfl p)
    | some q =>
      have := ho z p q hp (h2 q hl)
      subst this
      refine List.mem_append_left _ ?_
      rcases Relation.reflTransGen_iff_eq_or_transGen.1 hpy with e | e
      · rw [e]; exact List.mem_of_getLast? hl
      · refine ih p h1 hl (fun y hy => hs y ?_) y e
        cases l with
        | nil => cases hy
        | cons a l => exact hy

theorem onePath {t : Tree} (hg : Good t) (ho : Forest t) {x : Id} (hx : t.has x = true) : OnePath t x := by
  have hch : ∀ p c, IsChild t p c ↔ IsParent t p c := fun p c => by rw [hg.wf.isChild, hg.wf.isParent]
  have hch : IsChild t = IsParent t := by funext p c; exact propext (hch p c)
  obtain ⟨ps, e, hn, hm⟩ := C14_paths t hg x hx
  obtain ⟨l, hl⟩ := C14_has_path t hg x hx
  have one : ∀ l', l' ∈ ps → l' = l := by
    intro l' h'
    have h' := (hm l').1 h'
    exact chain_oneWay (R := IsChild t) (S := fun y => ∀ p, ¬ IsParent t p y) (fun p q y hp hq => by rw [hch] at hp hq; exact ho y p q hp hq)
      (fun y hy p => by rw [hch]; exact hy p) l' l x h'.chain hl.chain h'.ends hl.ends (fun y hy => (h'.starts y hy).2) fun y hy => (hl.starts y hy).2
  have hps : ps = [l] := by
    have hml := (hm l).2 hl
    match ps, hn, hml, one with
    | [], _, hml, _ => cases hml
    | [a], _, _, one => rw [one a (by simp)]
    | a :: b :: r, hn, _, one =>
      rw [one a (by simp), one b (by simp)] at hn
      simp at hn
  have hc := hl.chain
  rw [hch] at hc
  exact ⟨l, by rw [e, hps], (C14_node_for_path t hg l x hl.ends hx).1 hl, ⟨hl.ends, hc, chain_above l x hc hl.ends⟩,
    chain_all ho l x hc hl.ends fun y hy => (hl.starts y hy).2⟩

/-- C85: after any history of edits of a hierarchy every node has exactly one path: its ancestors from the top down, then itself. -/
theorem C85_one_path (ops : List Op) (hp : Along (fun s op => HierarchyEdit s.t op) St.init ops) (x : Id)
    (hx : (runOps St.init ops).t.has x = true) : OnePath (runOps St.init ops).t x := by
  obtain ⟨-, h⟩ := Hier.init.run ops hp
  exact onePath h.good.1 h.forest hx

/-- 3 is below 2, which is below 1. -/
example : OnePath (runOps St.init (hierOps.take 4)).t (.str 3) ∧ (runOps St.init (hierOps.take 4)).t.getPaths (.str 3) = .ok [[.str 1, .str 2, .str 3]] := by
  obtain ⟨h1, h2, h3, h4, -⟩ := hierOps_fair
  exact ⟨C85_one_path (hierOps.take 4) ⟨h1, h2, h3, h4, trivial⟩ (.str 3) (by decide), by decide⟩

/-! ### Views -/

theorem chain_before {R : Id → Id → Prop} : ∀ (l : List Id) (a : Id), (a :: l).IsChain R → ∀ y ∈ l, ∃ p, R p y
  | [], _, _, _, h => by cases h
  | b :: l, a, hc, y, hy => by
    rw [List.isChain_cons_cons] at hc
    rcases List.mem_cons.1 hy with rfl | hy
    · exact ⟨a, hc.1⟩
    · exact chain_before l b hc.2 y hy

theorem chain_mono {R R' : Id → Id → Prop} : ∀ (l : List Id), l.IsChain R → (∀ p ∈ l, ∀ c ∈ l, R p c → R' p c) → l.IsChain R'
  | [], _, _ => .nil
  | [_], _, _ => .singleton _
  | a :: b :: l, hc, h => by
    rw [List.isChain_cons_cons] at hc ⊢
    exact ⟨h a (by simp) b (by simp) hc.1, chain_mono (b :: l) hc.2 fun p hp c hcc => h p (by simp [hp]) c (by simp [hcc])⟩

theorem hasRow {a : FApp V} (hv : ViewOK a.ft) (hh : HoldsTogether a) : ∀ x, a.ft.view.has x = true → x ≠ a.ft.root →
    ∃ l, IsRow a.ft l ∧ l.getLast? = some x := by
  obtain ⟨rank, M, hF⟩ := hv.frame
  have key : ∀ n x, rank x < n → a.ft.view.has x = true → x ≠ a.ft.root → ∃ l, IsRow a.ft l ∧ l.getLast? = some x := by
    intro n
    induction n with
    | zero => intro x h; omega
    | succ n ih =>
      intro x hn hx hr
      obtain ⟨p, hp, hpv, -⟩ := hh.placed x hr hx
      have hk : x ∈ a.ft.view.kids p := by rw [hh.mirror, hp]; simp
      by_cases hpr : p = a.ft.root
      · refine ⟨[x], ⟨by simp, ?_⟩, rfl⟩
        rw [← hpr]
        exact List.IsChain.cons_cons hk (.singleton _)
      · have hlt := (hF.kid p x hk).2
        obtain ⟨l, ⟨h1, h2⟩, h3⟩ := ih p (by omega) hpv hpr
        refine ⟨l ++ [x], ⟨by simp, ?_⟩, List.getLast?_concat⟩
        show ((a.ft.root :: l) ++ [x]).IsChain _
        rw [List.isChain_append]
        refine ⟨h2, .singleton _, fun y hy z hz => ?_⟩
        have : (a.ft.root :: l).getLast? = some p := by
          cases l with
          | nil => cases h3
          | cons b l => rw [List.getLast?_cons_cons]; exact h3
        rw [this] at hy
        cases hy; cases hz
        exact hk
  exact fun x => key (rank x + 1) x (Nat.lt_succ_self _)

theorem oneRow {a : FApp V} (hv : ViewOK a.ft) (hh : HoldsTogether a) {x : Id} (hx : a.ft.view.has x = true) (hr : x ≠ a.ft.root) :
    OneRow a x := by
  have hu : ∀ p q y, y ∈ a.ft.view.kids p → y ∈ a.ft.view.kids q → p = q := by
    intro p q y hp hq
    by_cases hy : y = a.ft.root
    · rw [hh.mirror, hy, hh.top] at hp; cases hp
    · obtain ⟨z, hz, -⟩ := hh.placed y hy (hv.shown p y hp)
      rw [hh.mirror, hz, List.mem_singleton] at hp hq
      rw [hp, hq]
  have hs : ∀ y, y = a.ft.root → ∀ p, ¬ y ∈ a.ft.view.kids p := by
    intro y hy p hp
    rw [hh.mirror, hy, hh.top] at hp; cases hp
  obtain ⟨ps, e, hn, hm⟩ := C31_paths a.ft hv x hx hr
  have last : ∀ l : List Id, l.getLast? = some x → (a.ft.root :: l).getLast? = some x := by
    intro l hl
    cases l with
    | nil => cases hl
    | cons b l => rw [List.getLast?_cons_cons]; exact hl
  have one : ∀ l ∈ ps, ∀ l' ∈ ps, l = l' := by
    intro l hl l' hl'
    obtain ⟨h1, h2⟩ := (hm l).1 hl
    obtain ⟨h3, h4⟩ := (hm l').1 hl'
    have := chain_oneWay (R := fun p c => c ∈ a.ft.view.kids p) (S := fun y => y = a.ft.root) hu hs (a.ft.root :: l) (a.ft.root :: l') x
      h1.2 h3.2 (last l h2) (last l' h4) (fun y hy => by cases hy; rfl) fun y hy => by cases hy; rfl
    exact (List.cons.inj this).2
  have hne : ps ≠ [] := by
    obtain ⟨l, h1, h2⟩ := hasRow hv hh x hx hr
    exact List.ne_nil_of_mem ((hm l).2 ⟨h1, h2⟩)
  match ps, hne with
  | b :: c :: r, _ =>
    rw [one b (by simp) c (by simp)] at hn
    simp at hn
  | [l], _ =>
    obtain ⟨h1, h2⟩ := (hm l).1 (by simp)
    have hin : ∀ y ∈ l, y ≠ a.ft.root := by
      rintro y hy e
      obtain ⟨p, hp⟩ := chain_before l a.ft.root h1.2 y hy
      exact hs y e p hp
    have hc : l.IsChain (IsParent a.s.t) := by
      refine chain_mono l (List.IsChain.tail h1.2) fun p hp c hcc hpc => ?_
      obtain ⟨z, hz, -, hz'⟩ := hh.placed c (hin c hcc) (hv.shown p c hpc)
      rw [hh.mirror, hz, List.mem_singleton] at hpc
      rw [← hpc] at hz'
      exact hz'.resolve_left (hin p hp)
    refine ⟨l, e, ?_, h2, hc, chain_above l x hc h2⟩
    rw [(C31_node_for_path a.ft hv l).1 h1, h2]

/-- C85: in an application that uses the tree as a hierarchy every displayed node has exactly one row in each view, whether the view is up
to date or not; the nodes above it are ancestors of the node, each the parent of the next one, and the node is found at its row. -/
theorem C85_one_row (hdiff : SetDiff diff) (d : Id → V) (cs : List (SuiteAct V)) (hf : HierarchyFairRun diff cs (Suite.init d)) :
    ∃ a, Suite.run diff cs (Suite.init d) = .ok a ∧ (∀ x, a.s.t.has x = true → OnePath a.s.t x) ∧
      ∀ (k : Nat) ft, k ≠ 0 → viewAt a k = some ft → ∀ x, x ≠ ft.root → ft.view.has x = true → OneRow (alone a ft) x := by
  have hff := HierarchyFairRun.forestFairRun hdiff cs Hier.init (FSState.init diff (fun _ => true) d) hf
  obtain ⟨a, e, h⟩ := (FSState.init diff (fun _ => true) d).run hdiff cs hff
  refine ⟨a, e, fun x hx => onePath h.all.good h.forest hx, fun k ft hk0 hk x hr hx => ?_⟩
  have hF := h.views k ft hk0 hk
  exact oneRow (a := alone a ft) ((hF.wstate hdiff).viewOK hdiff) hF.holds hx hr

/-- View 1, which was never refreshed, has the node 2 in one row. -/
example : ∃ a ft, Suite.run someDiff (hierSuite.take 14) (Suite.init fun _ => 0) = .ok a ∧ viewAt a 1 = some ft ∧ OneRow (alone a ft) (.str 2) ∧
    ft.pathsFor (.str 2) = .ok [[.str 3, .str 2]] := by
  obtain ⟨h1, h2, h3, h4, h5, h6, h7, h8, h9, h10, h11, h12, h13, h14, -⟩ := hierSuite_fair
  obtain ⟨a, e, -, h⟩ := C85_one_row someDiff_ok (fun _ => 0) (hierSuite.take 14)
    ⟨h1, h2, h3, h4, h5, h6, h7, h8, h9, h10, h11, h12, h13, h14, trivial⟩
  have ha : (Suite.run someDiff (hierSuite.take 14) (Suite.init fun _ => 0)).state = a := by rw [e]; rfl
  have hv : ((viewAt a 1).map fun ft => (decide ((Id.str 2) ≠ ft.root), ft.view.has (.str 2), ft.pathsFor (.str 2))) =
      some (true, true, .ok [[.str 3, .str 2]]) := by rw [← ha]; decide
  cases hft : viewAt a 1 with
  | none => rw [hft] at hv; cases hv
  | some ft =>
    rw [hft] at hv
    simp only [Option.map_some, Option.some.injEq, Prod.mk.injEq, decide_eq_true_eq] at hv
    exact ⟨a, ft, e, hft, h 1 ft (by decide) hft (.str 2) hv.1 hv.2.1, hv.2.2⟩

end Larch
