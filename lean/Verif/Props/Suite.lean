import Verif.Proofs.Suite
import Verif.Props.ViewCount
import Verif.Props.Waiting

/-!
# C54: any number of views and counters at the same time
-/

namespace Larch

open Spec

variable {V : Type} {diff : List Id → List Id → List Id}

/-! ### Each goes its own way -/

/-- C54: whatever else there is, a view does what it would do alone. -/
theorem C54_view_alone (cs : List (SuiteAct V)) {a a' : Suite V} (h : Suite.run diff cs a = .ok a') {k : Nat} {ft : FT}
    (hk : viewAt a k = some ft) :
    ∃ ft', viewAt a' k = some ft' ∧ FApp.run diff (viewStory diff k cs a) (alone a ft) = .ok (alone a' ft') := by
  induction cs generalizing a ft with
  | nil => cases h; exact ⟨ft, hk, rfl⟩
  | cons c cs ih =>
    change (a.act diff c).andThen (Suite.run diff cs) = _ at h
    cases hc : a.act diff c with
    | err e b => rw [hc] at h; cases h
    | ok b =>
      rw [hc] at h
      obtain ⟨s, hs⟩ := viewAt_some hk
      obtain ⟨ft1, h1, h2⟩ := act_view hc hs
      obtain ⟨ft2, h3, h4⟩ := ih h (viewAt_of h1)
      refine ⟨ft2, h3, ?_⟩
      show FApp.run diff (seenByView a k c ++ viewStory diff k cs (a.act diff c).state) _ = _
      rw [frun_append h2, hc]
      exact h4

/-- C54: whatever else there is, a counter does what it would do alone. -/
theorem C54_count_alone (cs : List (SuiteAct V)) {a a' : Suite V} (h : Suite.run diff cs a = .ok a') {k : Nat} {c : VC}
    (hk : countAt a k = some c) :
    ∃ c', countAt a' k = some c' ∧ CApp.run (countStory diff k cs a) (aloneCount a c) = .ok (aloneCount a' c') := by
  induction cs generalizing a c with
  | nil => cases h; exact ⟨c, hk, rfl⟩
  | cons x cs ih =>
    change (a.act diff x).andThen (Suite.run diff cs) = _ at h
    cases hc : a.act diff x with
    | err e b => rw [hc] at h; cases h
    | ok b =>
      rw [hc] at h
      obtain ⟨c1, h1, h2⟩ := act_count hc (countAt_some hk)
      obtain ⟨c2, h3, h4⟩ := ih h (countAt_of h1)
      refine ⟨c2, h3, ?_⟩
      show CApp.run (seenByCount a k x ++ countStory diff k cs (a.act diff x).state) _ = _
      rw [crun_append h2, hc]
      exact h4

/-! ### All of them together -/

/-- What is kept. -/
structure SState (diff : List Id → List Id → List Id) (fresh : Nat → Bool) (a : Suite V) : Prop where
  good : Good a.s.t
  tidy : NoDangling a.s.t
  bank : BankInv a.bank
  roots : ∀ name, a.s.t.has (rootOf name) = false
  main : ∃ v, a.objs[0]? = some (Obj.view v) ∧ MState diff (aloneMain a v)
  views : ∀ (k : Nat) v, k ≠ 0 → a.objs[k]? = some (Obj.view v) → v.static = false ∧ ∃ ft, v.ft = some ft ∧
    (∃ name, ft.root = rootOf name) ∧ WState diff (fresh k) (alone a ft)
  counts : ∀ (k : Nat) c, a.objs[k]? = some (Obj.count c) → CInv (aloneCount a c)
  named : ∀ n k, KV.get? a.names.views n = some k → ∃ v, a.objs[k]? = some (Obj.view v)
  namedCounts : ∀ n k, KV.get? a.names.viewscount n = some k → ∃ c, a.objs[k]? = some (Obj.count c)
  numbered : a.names.next = a.objs.length

theorem SState.init (diff : List Id → List Id → List Id) (fresh : Nat → Bool) (d : Id → V) : SState diff fresh (Suite.init d) where
  good := init_good
  tidy := init_noDangling
  bank := emptyBank_inv
  roots := fun _ => rfl
  main := ⟨_, rfl, MState.init diff d⟩
  views := fun k v hk h => by
    cases k with
    | zero => exact absurd rfl hk
    | succ k => cases h
  counts := fun k c h => by
    cases k with
    | zero => cases h
    | succ k => cases h
  named := fun n k h => by
    have : k = 0 := by
      change KV.get? (KV.set [] 0 0) n = some k at h
      rw [KV.get?_set] at h
      split at h
      · cases h; rfl
      · cases h
    subst this
    exact ⟨_, rfl⟩
  namedCounts := fun n k h => by cases h
  numbered := rfl

theorem root_of_edit {a a' : Suite V} {op : Op} {ft ft' : FT} (h : (alone a ft).edit diff op = .ok (alone a' ft')) :
    ft'.root = ft.root := by
  have hf := (reactAll_fields (diff := diff) a.bank a.data ((step a.s op).state.log.drop a.s.log.length) ft).2
  unfold FApp.edit FApp.withFT alone at h
  dsimp only at h
  cases hr : Res.forEach (FT.react diff a.bank a.data) ((step a.s op).state.log.drop a.s.log.length) ft with
  | err e x => rw [hr] at h; cases h
  | ok x =>
    rw [hr] at h hf
    have : x = ft' := by
      have := congrArg (fun r : Res (FApp V) => r.state.ft) h
      exact this
    rw [← this]
    exact hf

/-- After an edit that suits each of the objects. -/
theorem SState.edited {fresh : Nat → Bool} {a0 a : Suite V} (h : SState diff fresh a0) {d : Id → V} (ha : a = { a0 with data := d })
    (op : Op) (hg : Good (step a.s op).state.t) (ht : NoDangling (step a.s op).state.t)
    (hr : ∀ name, (step a.s op).state.t.has (rootOf name) = false)
    (hm : ∀ v, MState diff (aloneMain a0 v) → ∃ b, (aloneMain a v).edit diff op = .ok b ∧ MState diff b)
    (hv : ∀ (k : Nat) ft, k ≠ 0 → viewAt a0 k = some ft → (∃ name, ft.root = rootOf name) → WState diff (fresh k) (alone a0 ft) →
      ∃ b, (alone a ft).edit diff op = .ok b ∧ WState diff (fresh k) b)
    (hc : ∀ k c, countAt a0 k = some c → CInv (aloneCount a0 c) → ∃ b, (aloneCount a c).edit op = .ok b ∧ CInv b) :
    ∃ a', a.edit diff op = .ok a' ∧ ∀ fr : Nat → Bool, (∀ k ft, k ≠ 0 → viewAt a0 k = some ft → fr k = true → fresh k = true) →
      SState diff fr a' := by
  have ho : a.objs = a0.objs := by rw [ha]
  obtain ⟨v0, hv0, hm0⟩ := h.main
  obtain ⟨b0, e0, hb0⟩ := hm v0 hm0
  obtain ⟨a', e⟩ := suite_edit_of (diff := diff) (a := a) (op := op)
    (by
      intro k s ft hk
      by_cases h0 : k = 0
      · subst h0
        rw [ho, hv0] at hk
        cases hk
        unfold FApp.edit FApp.withFT alone
        unfold MApp.edit aloneMain at e0
        dsimp only at e0 ⊢
        cases hr : Res.forEach (FT.react diff a.bank a.data) ((step a.s op).state.log.drop a.s.log.length) ft with
        | err e x => rw [hr] at e0; cases e0
        | ok x => exact ⟨_, rfl⟩
      · rw [ho] at hk
        obtain ⟨-, ft1, e1, hn, hb⟩ := h.views k _ h0 hk
        cases e1
        obtain ⟨b, eb, -⟩ := hv k ft h0 (viewAt_of hk) hn hb
        exact ⟨b, eb⟩)
    (by
      intro k c hk
      rw [ho] at hk
      obtain ⟨b, eb, -⟩ := hc k c (countAt_of hk) (h.counts k c hk)
      exact ⟨b, eb⟩)
  refine ⟨a', e, fun fr hfr => ?_⟩
  obtain ⟨e1, e2, e3, e4, e5⟩ := suite_edit_ok e
  have hlen := edit_kinds e
  have kinds : ∀ (k : Nat) o', a'.objs[k]? = some o' → ∃ o, a0.objs[k]? = some o := by
    intro k o' hk
    obtain ⟨o, hoo, -⟩ := forall₂_at' e5 k hk
    exact ⟨o, by rw [← ho]; exact hoo⟩
  refine ⟨by rw [e1]; exact hg, by rw [e1]; exact ht, by rw [e3, ha]; exact h.bank, by rw [e1]; exact hr,
    ?_, ?_, ?_, ?_, ?_, ?_⟩
  · -- the main view
    obtain ⟨s, f⟩ := v0
    cases f with
    | none =>
      refine ⟨_, edit_quiet e (by rw [ho]; exact hv0), ?_⟩
      have : b0 = aloneMain a' ⟨s, none⟩ := by
        unfold MApp.edit aloneMain at e0
        dsimp only at e0
        cases e0
        unfold aloneMain
        rw [e1, e2, e3]
      rw [← this]; exact hb0
    | some ft =>
      obtain ⟨ft', h1, h2⟩ := edit_view e (by rw [ho]; exact hv0)
      refine ⟨_, h1, ?_⟩
      have : b0 = aloneMain a' ⟨s, some ft'⟩ := by
        unfold MApp.edit aloneMain at e0
        unfold FApp.edit FApp.withFT alone at h2
        dsimp only at e0 h2
        cases hr : Res.forEach (FT.react diff a.bank a.data) ((step a.s op).state.log.drop a.s.log.length) ft with
        | err e x => rw [hr] at e0; cases e0
        | ok x =>
          rw [hr] at e0 h2
          cases e0
          have hx : x = ft' := congrArg (fun r : Res (FApp V) => r.state.ft) h2
          unfold aloneMain
          rw [e1, e2, e3, hx]
      rw [← this]; exact hb0
  · -- the other views
    intro k v hk0 hk
    obtain ⟨o, hoo⟩ := kinds k _ hk
    cases o with
    | count c =>
      obtain ⟨c', h1, -⟩ := edit_count e (by rw [ho]; exact hoo)
      rw [hk] at h1; cases h1
    | view v1 =>
      obtain ⟨hs, ft, hft, hn, hb⟩ := h.views k v1 hk0 hoo
      obtain ⟨s, f⟩ := v1
      dsimp only at hs hft
      subst hs hft
      obtain ⟨ft', h1, h2⟩ := edit_view e (by rw [ho]; exact hoo)
      rw [hk] at h1
      cases h1
      obtain ⟨b, eb, hb'⟩ := hv k ft hk0 (viewAt_of hoo) hn hb
      rw [h2] at eb
      cases eb
      refine ⟨rfl, ft', rfl, ?_, hb'.weaken (hfr k ft hk0 (viewAt_of hoo))⟩
      rw [root_of_edit h2]; exact hn
  · -- the counters
    intro k c' hk
    obtain ⟨o, hoo⟩ := kinds k _ hk
    cases o with
    | view v1 =>
      obtain ⟨s, f⟩ := v1
      cases f with
      | none =>
        have := edit_quiet e (k := k) (s := s) (by rw [ho]; exact hoo)
        rw [hk] at this; cases this
      | some ft =>
        obtain ⟨ft', h1, -⟩ := edit_view e (by rw [ho]; exact hoo)
        rw [hk] at h1; cases h1
    | count c =>
      obtain ⟨c1, h1, h2⟩ := edit_count e (by rw [ho]; exact hoo)
      rw [hk] at h1
      cases h1
      obtain ⟨b, eb, hb'⟩ := hc k c (countAt_of hoo) (h.counts k c hoo)
      rw [h2] at eb
      cases eb
      exact hb'
  · intro n k hn
    rw [e4, ha] at hn
    obtain ⟨v, hv1⟩ := h.named n k hn
    obtain ⟨s, f⟩ := v
    cases f with
    | none => exact ⟨_, edit_quiet e (by rw [ho]; exact hv1)⟩
    | some ft =>
      obtain ⟨ft', h1, -⟩ := edit_view e (by rw [ho]; exact hv1)
      exact ⟨_, h1⟩
  · intro n k hn
    rw [e4, ha] at hn
    obtain ⟨c, hc1⟩ := h.namedCounts n k hn
    obtain ⟨c', h1, -⟩ := edit_count e (by rw [ho]; exact hc1)
    exact ⟨_, h1⟩
  · rw [e4, hlen, ha]; exact h.numbered

theorem SState.edit (hdiff : SetDiff diff) {fresh : Nat → Bool} {a : Suite V} (h : SState diff fresh a) (op : Op)
    (hfo : AllFollow fresh a op) (hc : Careful a.s op) (hadd : ∀ nd p, op = .addNode nd p → ∀ name, nd.id ≠ rootOf name)
    (hdel : ∀ x, op = .delNode x true → ∀ y, Descendant a.s.t y x → (a.s.t.getParents y).length ≤ 3) :
    ∃ a', a.edit diff op = .ok a' ∧ ∀ fr : Nat → Bool, (∀ k ft, k ≠ 0 → viewAt a k = some ft → fr k = true → fresh k = true) →
      SState diff fr a' := by
  have ht := hc.tidy h.good h.tidy
  refine h.edited (d := a.data) rfl op (step_good h.good op (ht.safe h.good h.tidy)) (step_noDangling h.good h.tidy op ht)
    (fun name => absent_step _ (h.roots name) op hc fun nd p e => hadd nd p e name) ?_ ?_ ?_
  · intro v hm
    exact hm.edit hdiff op ⟨hc, fun nd p e => hadd nd p e none, fun _ => hdel⟩
  · rintro k ft hk0 hk ⟨name, hn⟩ hb
    have he : EditFair (alone a ft) op := ⟨hc, fun nd p e => by
      show nd.id ≠ ft.root
      rw [hn]; exact hadd nd p e name, hdel⟩
    refine act_wstate hdiff hb (.edit op) ?_
    rcases hfo.1 k ft hk0 hk with ⟨h1, h2⟩ | ⟨h1, h2, h3⟩
    · exact .inl ⟨h1, he, h2⟩
    · exact .inr ⟨h1, he, h2, h3⟩
  · intro k c hk hci
    exact countEdit_follows _ hci h.good h.tidy op hc (hfo.2 k c hk)

theorem SState.change (hdiff : SetDiff diff) {fresh : Nat → Bool} {a : Suite V} (h : SState diff fresh a) (x : Id) (v : V)
    (hfo : AllFollowChange fresh a x v) :
    ∃ a', a.act diff (.change x v) = .ok a' ∧
      ∀ fr : Nat → Bool, (∀ k ft, k ≠ 0 → viewAt a k = some ft → fr k = true → fresh k = true) → SState diff fr a' := by
  have hc : Careful a.s (.refreshNode x) := trivial
  have ht := hc.tidy h.good h.tidy
  refine h.edited (d := fun y => if y = x then v else a.data y) rfl (.refreshNode x)
    (step_good h.good _ (ht.safe h.good h.tidy)) (step_noDangling h.good h.tidy _ ht)
    (fun name => absent_step _ (h.roots name) _ hc fun nd p e => by cases e) ?_ ?_ ?_
  · intro w hm
    exact hm.change hdiff x v
  · intro k ft hk0 hk _ hb
    exact act_wstate hdiff hb (.change x v) (hfo.1 k ft hk0 hk)
  · intro k c hk hci
    exact change_inv (aloneCount a c) hci x v (fun hx => (h.good.wf.ids x hx).2) ((hfo.2 k c hk).imp id fun hu => ⟨h.good.wf, hu⟩)

/-! ### Actions that leave the tree alone -/

theorem refilter_root (b : Bank (Id → V)) (t : Tree) (d : Id → V) (ft : FT) : (ft.refilter diff b t d).state.root = ft.root :=
  (withView_fields _ _).2

theorem withFT_root (a : FApp V) (r : Res FT) : (a.withFT r).state.ft = r.state := by cases r <;> rfl

theorem fact_root (a : FApp V) (c : FAct V) : (a.act diff c).state.ft.root = a.ft.root := by
  cases c with
  | edit op =>
    show (FApp.withFT _ _).state.ft.root = _
    rw [withFT_root]
    exact (reactAll_fields _ _ _ _).2
  | change x v =>
    show (FApp.withFT _ _).state.ft.root = _
    rw [withFT_root]
    exact (reactAll_fields _ _ _ _).2
  | bank c => rfl
  | setParams n p => rfl
  | apply n p rs rf =>
    show (FApp.withFT _ (a.ft.applyFilter diff a.bank a.s.t a.data n p rs rf).2.2).state.ft.root = _
    rw [withFT_root]
    unfold FT.applyFilter
    dsimp only
    have h1 : (if rs then { a.ft with applied := [] } else a.ft : FT).root = a.ft.root := by split <;> rfl
    generalize (if rs then { a.ft with applied := [] } else a.ft : FT) = ft1 at h1 ⊢
    have h2 : (if decide (n ∉ ft1.applied) = true then { ft1 with applied := ft1.applied ++ [n] } else ft1 : FT).root = a.ft.root := by
      split <;> exact h1
    generalize (if decide (n ∉ ft1.applied) = true then { ft1 with applied := ft1.applied ++ [n] } else ft1 : FT) = ft2 at h2 ⊢
    by_cases hg : (FT.givesParams p && (a.bank.getFilter n).isNone) = true
    · rw [if_pos hg]; exact h1
    · rw [if_neg hg]
      generalize (if FT.givesParams p = true then a.bank.setParameters n p else a.bank) = b1
      by_cases hr : (rf && (FT.givesParams p || decide (n ∉ ft1.applied))) = true
      · rw [if_pos hr]; exact (refilter_root _ _ _ _).trans h2
      · rw [if_neg hr]; exact h2
  | unapply n rf =>
    show (FApp.withFT _ _).state.ft.root = _
    rw [withFT_root]
    unfold FT.unapplyFilter
    split
    · dsimp only
      split
      · exact refilter_root _ _ _ _
      · rfl
    · rfl
  | reset rf =>
    show (FApp.withFT _ _).state.ft.root = _
    rw [withFT_root]
    unfold FT.resetFilters
    dsimp only
    split
    · exact refilter_root _ _ _ _
    · rfl
  | currentState =>
    show (FApp.withFT _ _).state.ft.root = _
    rw [withFT_root]
    exact (withView_fields _ _).2

theorem run_root (cs : List (FAct V)) {a a' : FApp V} (h : FApp.run diff cs a = .ok a') : a'.ft.root = a.ft.root := by
  induction cs generalizing a with
  | nil => cases h; rfl
  | cons c cs ih =>
    change (a.act diff c).andThen (FApp.run diff cs) = _ at h
    have hr := fact_root (diff := diff) a c
    cases hc : a.act diff c with
    | err e b => rw [hc] at h; cases h
    | ok b =>
      rw [hc] at h hr
      exact (ih h).trans hr

/-- An action that makes nothing and leaves the tree alone. -/
theorem SState.quiet (hdiff : SetDiff diff) {fresh fr : Nat → Bool} {a a' : Suite V} (h : SState diff fresh a) {c : SuiteAct V}
    (e : a.act diff c = .ok a') (hs : a'.s = a.s) (hn : a'.names = a.names)
    (hl : a'.objs.length = a.objs.length) (hbi : BankInv a'.bank)
    (hm : ∃ v, a'.objs[0]? = some (Obj.view v) ∧ MState diff (aloneMain a' v))
    (hfv : ∀ (k : Nat) ft, k ≠ 0 → viewAt a k = some ft → WaitFairRun diff (fresh k) (seenByView a k c) (alone a ft) ∧
      freshEnd diff (fresh k) (seenByView a k c) (alone a ft) = fr k)
    (hfc : ∀ (k : Nat) vc, countAt a k = some vc → FairRun (seenByCount a k c) (aloneCount a vc)) :
    SState diff fr a' := by
  have kinds : ∀ (k : Nat) o', a'.objs[k]? = some o' → ∃ o, a.objs[k]? = some o := by
    intro k o' hk
    have : k < a.objs.length := by rw [← hl]; exact (List.getElem?_eq_some_iff.1 hk).1
    exact ⟨_, List.getElem?_eq_getElem this⟩
  refine ⟨by rw [hs]; exact h.good, by rw [hs]; exact h.tidy, hbi, by rw [hs]; exact h.roots, hm, ?_, ?_, ?_, ?_, ?_⟩
  · intro k v hk0 hk
    obtain ⟨o, hoo⟩ := kinds k _ hk
    cases o with
    | count c =>
      obtain ⟨c', h1, -⟩ := act_count e hoo
      rw [hk] at h1; cases h1
    | view v1 =>
      obtain ⟨hst, ft, hft, ⟨name, hnm⟩, hb⟩ := h.views k v1 hk0 hoo
      obtain ⟨s, f⟩ := v1
      dsimp only at hst hft
      subst hst hft
      obtain ⟨ft', h1, h2⟩ := act_view e hoo
      rw [hk] at h1
      cases h1
      obtain ⟨f1, f2⟩ := hfv k ft hk0 (viewAt_of hoo)
      obtain ⟨b, eb, hb'⟩ := run_wstate hdiff _ _ _ hb f1
      rw [h2] at eb
      cases eb
      refine ⟨rfl, ft', rfl, ⟨name, ?_⟩, f2 ▸ hb'⟩
      rw [← hnm]; exact run_root _ h2
  · intro k c' hk
    obtain ⟨o, hoo⟩ := kinds k _ hk
    cases o with
    | view v1 =>
      obtain ⟨s, f⟩ := v1
      cases f with
      | none =>
        by_cases hk0 : k = 0
        · subst hk0
          obtain ⟨v, hv, -⟩ := hm
          rw [hk] at hv; cases hv
        · obtain ⟨-, ft, hft, -⟩ := h.views k _ hk0 hoo
          cases hft
      | some ft =>
        obtain ⟨ft', h1, -⟩ := act_view e hoo
        rw [hk] at h1; cases h1
    | count c =>
      obtain ⟨c1, h1, h2⟩ := act_count e hoo
      rw [hk] at h1
      cases h1
      obtain ⟨b, eb, hb'⟩ := run_inv _ _ (h.counts k c hoo) (hfc k c (countAt_of hoo))
      rw [h2] at eb
      cases eb
      exact hb'
  · intro n k hk
    rw [hn] at hk
    obtain ⟨v, hv⟩ := h.named n k hk
    by_cases hk0 : k = 0
    · subst hk0
      obtain ⟨v, hv, -⟩ := hm
      exact ⟨v, hv⟩
    · obtain ⟨-, ft, hft, -⟩ := h.views k v hk0 hv
      obtain ⟨s, f⟩ := v
      dsimp only at hft
      subst hft
      obtain ⟨ft', h1, -⟩ := act_view e hv
      exact ⟨_, h1⟩
  · intro n k hk
    rw [hn] at hk
    obtain ⟨c, hc⟩ := h.namedCounts n k hk
    obtain ⟨c', h1, -⟩ := act_count e hc
    exact ⟨_, h1⟩
  · rw [hn, hl]; exact h.numbered

theorem MState.elsewhere {s : St} {d : Id → V} {b b' : Bank (Id → V)} {v : VT} (h : MState diff ⟨s, d, b, v⟩) :
    MState diff ⟨s, d, b', v⟩ := ⟨h.static, h.good, h.tidy, h.rootFree, h.ft⟩

theorem WState.viewOK (hdiff : SetDiff diff) {fresh : Bool} {a : FApp V} (h : WState diff fresh a) : ViewOK a.ft := by
  obtain ⟨rank, M, hw⟩ := h.whole hdiff
  exact hw.frame.viewOK

theorem freshNext_short {fresh : Nat → Bool} {a : Suite V} {c : SuiteAct V} {k : Nat} {ft : FT} (hk : viewAt a k = some ft)
    {l : List (FAct V)} (hl : seenByView a k c = l) (h1 : l.length ≤ 1) :
    freshEnd diff (fresh k) l (alone a ft) = freshNext fresh a c k := by
  unfold freshNext
  rw [hk]
  dsimp only
  rw [hl]
  match l, h1 with
  | [], _ => rfl
  | [e], _ => rfl
  | _ :: _ :: _, h => simp at h

theorem paramsGiven_cases (n : FName) (p : Option Params) :
    paramsGiven n p = [] ∨ (FT.givesParams p = true ∧ ∃ q, paramsGiven n p = [(n, q)]) := by
  unfold paramsGiven FT.givesParams
  cases p with
  | none => exact .inl rfl
  | some q =>
    dsimp only
    cases q.truthy with
    | true => exact .inr ⟨rfl, q, rfl⟩
    | false => exact .inl rfl

theorem SState.allTrue {fresh : Nat → Bool} {a : Suite V} (h : SState diff fresh a) (hall : AllFresh fresh a) (fr : Nat → Bool) :
    SState diff fr a :=
  { h with
    views := fun k v hk0 hk => by
      obtain ⟨h1, ft, h2, h3, h4⟩ := h.views k v hk0 hk
      refine ⟨h1, ft, h2, h3, ?_⟩
      have hv : viewAt a k = some ft := by unfold viewAt; rw [hk]; exact h2
      exact (h4.right (hall k ft hv)).wstate _ }

theorem applied_of_edit {a a' : Suite V} {op : Op} {ft ft' : FT} (h : (alone a ft).edit diff op = .ok (alone a' ft')) :
    ft'.applied = ft.applied := by
  have hf := (reactAll_fields (diff := diff) a.bank a.data ((step a.s op).state.log.drop a.s.log.length) ft).1
  unfold FApp.edit FApp.withFT alone at h
  dsimp only at h
  cases hr : Res.forEach (FT.react diff a.bank a.data) ((step a.s op).state.log.drop a.s.log.length) ft with
  | err e x => rw [hr] at h; cases h
  | ok x =>
    rw [hr] at h hf
    have : x = ft' := congrArg (fun r : Res (FApp V) => r.state.ft) h
    rw [← this]
    exact hf

theorem countApplied_of_edit {a a' : Suite V} {op : Op} {c c' : VC} (h : (aloneCount a c).edit op = .ok (aloneCount a' c')) :
    c'.applied = c.applied := (countEdit_same h).2.2

theorem refreshed_tree (s : St) (x : Id) : (step s (.refreshNode x)).state.t = s.t := by
  show (modifyNode s x).state.t = _
  unfold modifyNode
  split <;> rfl

theorem AllFollowData.refresh {a : Suite V} (h : AllFollowData a) (x : Id) : AllFollow (fun _ => true) a (.refreshNode x) := by
  refine ⟨fun k ft hk0 hk => .inl ⟨rfl, ?_⟩, fun k c hk => ?_⟩
  · rcases h.1 k ft hk0 hk with h | h | ⟨h1, h2, h3⟩
    · exact .inl h
    · exact .inr (.inl ⟨h, fun _ _ e => (by cases e), fun _ e => (by cases e)⟩)
    · refine .inr (.inr ⟨h1, h2, h3, ?_⟩)
      show SingleParent (step a.s (.refreshNode x)).state.t
      rw [refreshed_tree]; exact h3
  · rcases h.2 k c hk with h | h
    · exact .inl h
    · exact .inr ⟨h, fun _ _ e => by cases e⟩

theorem AllFollowData.kept {a a' : Suite V} (h : AllFollowData a) {x : Id} (e : a.edit diff (.refreshNode x) = .ok a') :
    AllFollowData a' := by
  obtain ⟨e1, -, e3, -, e5⟩ := suite_edit_ok e
  have et : a'.s.t = a.s.t := by rw [e1]; exact refreshed_tree _ _
  refine ⟨fun k ft' hk0 hk => ?_, fun k c' hk => ?_⟩
  · obtain ⟨s, hs⟩ := viewAt_some hk
    obtain ⟨o, ho, -⟩ := forall₂_at' e5 k hs
    cases o with
    | count c =>
      obtain ⟨c', h1, -⟩ := edit_count e ho
      rw [hs] at h1; cases h1
    | view v =>
      obtain ⟨s', f⟩ := v
      cases f with
      | none =>
        have := edit_quiet e ho
        rw [hs] at this; cases this
      | some ft =>
        obtain ⟨ft1, h1, h2⟩ := edit_view e ho
        rw [hs] at h1
        cases h1
        have ha := applied_of_edit h2
        have := h.1 k ft hk0 (viewAt_of ho)
        unfold FollowsData OwnApplied FewerApplied BelowApplied FlatView alone at this ⊢
        dsimp only at this ⊢
        rw [ha, e3, et]
        exact this
  · obtain ⟨o, ho, -⟩ := forall₂_at' e5 k (countAt_some hk)
    cases o with
    | view v =>
      obtain ⟨s', f⟩ := v
      cases f with
      | none =>
        have := edit_quiet e ho
        rw [countAt_some hk] at this; cases this
      | some ft =>
        obtain ⟨ft1, h1, -⟩ := edit_view e ho
        rw [countAt_some hk] at h1; cases h1
    | count c =>
      obtain ⟨c1, h1, h2⟩ := edit_count e ho
      rw [countAt_some hk] at h1
      cases h1
      have ha := countApplied_of_edit h2
      have := h.2 k c (countAt_of ho)
      unfold OwnUsed ChildrenUsed aloneCount at this ⊢
      dsimp only at this ⊢
      rw [ha, e3]
      exact this

theorem SState.refreshAll (hdiff : SetDiff diff) (l : List Id) {a : Suite V} (h : ∀ fr, SState diff fr a) (hfo : AllFollowData a) :
    ∃ a', Res.forEach (fun x (w : Suite V) => w.edit diff (.refreshNode x)) l a = .ok a' ∧ ∀ fr, SState diff fr a' := by
  induction l generalizing a with
  | nil => exact ⟨a, rfl, h⟩
  | cons x l ih =>
    obtain ⟨b, e, hb⟩ := (h fun _ => true).edit hdiff (.refreshNode x) (AllFollowData.refresh hfo x) trivial (fun _ _ e => by cases e)
      (fun _ e => by cases e)
    obtain ⟨a', e', ha'⟩ := ih (fun fr => hb fr fun _ _ _ _ _ => rfl) (AllFollowData.kept hfo e)
    refine ⟨a', ?_, ha'⟩
    unfold Res.forEach
    rw [e]
    exact e'

/-- Nothing happens. -/
theorem SState.idle (hdiff : SetDiff diff) {fresh : Nat → Bool} {a : Suite V} (h : SState diff fresh a) {c : SuiteAct V}
    (e : a.act diff c = .ok a) (hv : ∀ k, seenByView a k c = []) (hc : ∀ k, countAt a k ≠ none → seenByCount a k c = []) :
    SState diff (freshNext fresh a c) a :=
  h.quiet hdiff e rfl rfl rfl h.bank h.main
    (fun k ft _ hk => ⟨by rw [hv k]; trivial, by rw [← freshNext_short (diff := diff) hk (hv k) (by simp), hv k]⟩)
    (fun k vc hk => by rw [hc k (by rw [hk]; simp)]; trivial)

theorem SState.viewThere {fresh : Nat → Bool} {a : Suite V} (h : SState diff fresh a) {k : Nat} {v : VT} (hk0 : k ≠ 0)
    (hk : a.objs[k]? = some (Obj.view v)) : ∃ ft, v = ⟨false, some ft⟩ ∧ WState diff (fresh k) (alone a ft) := by
  obtain ⟨h1, ft, h2, -, h4⟩ := h.views k v hk0 hk
  obtain ⟨s, f⟩ := v
  dsimp only at h1 h2
  subst h1 h2
  exact ⟨ft, rfl, h4⟩

theorem SState.mainStays {fresh : Nat → Bool} {a : Suite V} (h : SState diff fresh a) {k : Nat} (hk0 : k ≠ 0) (o : Obj)
    (b : Bank (Id → V)) :
    ∃ v, (a.objs.set k o)[0]? = some (Obj.view v) ∧ MState diff (aloneMain { a with bank := b, objs := a.objs.set k o } v) := by
  obtain ⟨v, hv, hm⟩ := h.main
  exact ⟨v, by rw [set_other hk0]; exact hv, hm.elsewhere⟩

theorem withFT_ok' {a b : FApp V} {r : Res FT} (h : a.withFT r = .ok b) : ∃ ft, r = .ok ft ∧ b = { a with ft := ft } := by
  cases r with
  | err e ft => cases h
  | ok ft => cases h; exact ⟨ft, rfl, rfl⟩

/-- A question to a view. -/
theorem SState.question {α : Type} (hdiff : SetDiff diff) {fresh : Nat → Bool} {a : Suite V} (h : SState diff fresh a) {k : Nat} {v : VT}
    (hk : a.objs[k]? = some (Obj.view v)) (q : FT → Except Err α) (hq : ∀ ft, ViewOK ft → ∃ r, q ft = .ok r) {c : SuiteAct V}
    (e : a.act diff c = a.asked k (v.ask diff a.bank a.s.t a.data q)) (hv : ∀ j, seenByView a j c = [])
    (hc : ∀ j, seenByCount a j c = []) :
    ∃ a', a.act diff c = .ok a' ∧ SState diff (freshNext fresh a c) a' := by
  have key : ∃ v', a.asked k (v.ask diff a.bank a.s.t a.data q) = .ok { a with objs := a.objs.set k (.view v') } ∧
      ∃ w, (a.objs.set k (Obj.view v'))[0]? = some (Obj.view w) ∧
        MState diff (aloneMain { a with objs := a.objs.set k (.view v') } w) := by
    by_cases hk0 : k = 0
    · subst hk0
      obtain ⟨w, hw, hm⟩ := h.main
      rw [hk] at hw
      cases hw
      obtain ⟨b, eb, hb⟩ := hm.asked hdiff q (fun ft hv => hq ft (hv.viewOK hdiff))
      change (aloneMain a v).asked (v.ask diff a.bank a.s.t a.data q) = _ at eb
      cases hr : v.ask diff a.bank a.s.t a.data q with
      | mk x v' =>
        cases x with
        | error er => rw [hr] at eb; cases eb
        | ok x =>
          rw [hr] at eb
          cases eb
          exact ⟨v', rfl, v', set_same hk, hb⟩
    · obtain ⟨ft, rfl, hb⟩ := h.viewThere hk0 hk
      obtain ⟨r, hr⟩ := hq ft (hb.viewOK hdiff)
      refine ⟨⟨false, some ft⟩, ?_, h.mainStays hk0 _ a.bank⟩
      rw [ask_some, hr]
      rfl
  obtain ⟨v', e', hm⟩ := key
  rw [e'] at e
  refine ⟨_, e, h.quiet hdiff e rfl rfl (List.length_set ..) h.bank hm
    (fun j ft _ hj => ⟨by rw [hv j]; trivial, by rw [← freshNext_short (diff := diff) hj (hv j) (by simp), hv j]⟩)
    (fun j vc hj => by rw [hc j]; trivial)⟩

theorem SState.onView (hdiff : SetDiff diff) {fresh : Nat → Bool} {a : Suite V} (h : SState diff fresh a) (k : Nat) (c : ViewCall)
    (hf : SuiteFair fresh a (.onView k c)) :
    ∃ a', a.act diff (.onView k c) = .ok a' ∧ SState diff (freshNext fresh a (.onView k c)) a' := by
  by_cases hno : ∀ v, a.objs[k]? ≠ some (Obj.view v)
  · have e : a.act diff (.onView k c) = .ok a := by
      show (match a.objs[k]? with | some (.view v) => a.callView diff k v c | _ => .ok a) = _
      split
      · rename_i v hv; exact absurd hv (hno v)
      · rfl
    refine ⟨a, e, h.idle hdiff e (fun j => ?_) (fun j _ => ?_)⟩
    · show (match a.objs[k]? with | some (.view v) => _ | _ => []) = _
      split
      · rename_i v hv; exact absurd hv (hno v)
      · rfl
    · show (match a.objs[k]? with | some (.view v) => _ | _ => []) = _
      split
      · rename_i v hv; exact absurd hv (hno v)
      · rfl
  push Not at hno
  obtain ⟨v, hk⟩ := hno
  have ea : a.act diff (.onView k c) = a.callView diff k v c := by
    show (match a.objs[k]? with | some (.view v) => a.callView diff k v c | _ => .ok a) = _
    rw [hk]
  cases c with
  | apply n p rs rf =>
    obtain ⟨hk0, hp⟩ := hf
    obtain ⟨ft, rfl, hb⟩ := h.viewThere hk0 hk
    obtain ⟨b, eb, -⟩ := act_wstate hdiff hb (.apply n p rs rf) (fun g => (hp g).1)
    obtain ⟨ft', e1, -⟩ := withFT_ok' (r := (ft.applyFilter diff a.bank a.s.t a.data n p rs rf).2.2) eb
    have e2 := applyFilter_bank e1
    have e : a.act diff (.onView k (.apply n p rs rf)) =
        .ok { a with bank := (ft.applyFilter diff a.bank a.s.t a.data n p rs rf).2.1, objs := a.objs.set k (.view ⟨false, some ft'⟩) } := by
      rw [ea]
      show Suite.putFT _ _ _ (ft.applyFilter diff a.bank a.s.t a.data n p rs rf).2.2 = _
      rw [e1]; rfl
    refine ⟨_, e, h.quiet hdiff e rfl rfl (List.length_set ..) ?_ (h.mainStays hk0 _ _) ?_ ?_⟩
    · show BankInv (ft.applyFilter diff a.bank a.s.t a.data n p rs rf).2.1
      rw [e2]; split; exacts [setParameters_inv h.bank n p, h.bank]
    · intro j ft2 _ hj
      by_cases hjk : k = j
      · have es : seenByView a j (.onView k (.apply n p rs rf)) = [.apply n p rs rf] := by
          unfold seenByView; dsimp only; rw [hk]; exact if_pos hjk
        exact ⟨by rw [es]; exact ⟨fun g => (hp g).1, trivial⟩, by rw [← freshNext_short (diff := diff) hj es (by simp), es]⟩
      · have es : seenByView a j (.onView k (.apply n p rs rf)) = (paramsGiven n p).map fun q => .setParams q.1 q.2 := by
          unfold seenByView; dsimp only; rw [hk]; exact if_neg hjk
        rcases paramsGiven_cases n p with g | ⟨g1, q, g⟩
        · rw [g] at es
          exact ⟨by rw [es]; trivial, by rw [← freshNext_short (diff := diff) hj es (by simp), es]⟩
        · rw [g] at es
          exact ⟨by rw [es]; exact ⟨trivial, trivial⟩, by rw [← freshNext_short (diff := diff) hj es (by simp), es]⟩
    · intro j vc hj
      have es : seenByCount a j (.onView k (.apply n p rs rf)) = (paramsGiven n p).map fun q => .setParams q.1 q.2 := by
        unfold seenByCount; dsimp only; rw [hk]
      rw [es]
      rcases paramsGiven_cases n p with g | ⟨g1, q, g⟩
      · rw [g]; trivial
      · rw [g]; exact ⟨(hp g1).2 j vc hj, trivial⟩
  | unapply n rf =>
    have hk0 : k ≠ 0 := hf
    obtain ⟨ft, rfl, hb⟩ := h.viewThere hk0 hk
    obtain ⟨b, eb, -⟩ := act_wstate hdiff hb (.unapply n rf) trivial
    obtain ⟨ft', e1, -⟩ := withFT_ok' (r := (ft.unapplyFilter diff a.bank a.s.t a.data n rf).2) eb
    have e : a.act diff (.onView k (.unapply n rf)) = .ok { a with objs := a.objs.set k (.view ⟨false, some ft'⟩) } := by
      rw [ea]
      show Suite.putFT _ _ _ (ft.unapplyFilter diff a.bank a.s.t a.data n rf).2 = _
      rw [e1]; rfl
    refine ⟨_, e, h.quiet hdiff e rfl rfl (List.length_set ..) h.bank (h.mainStays hk0 _ a.bank) ?_ ?_⟩
    · intro j ft2 _ hj
      by_cases hjk : k = j
      · have es : seenByView a j (.onView k (.unapply n rf)) = [.unapply n rf] := by
          unfold seenByView; dsimp only; rw [hk]; exact if_pos hjk
        exact ⟨by rw [es]; exact ⟨trivial, trivial⟩, by rw [← freshNext_short (diff := diff) hj es (by simp), es]⟩
      · have es : seenByView a j (.onView k (.unapply n rf)) = [] := by
          unfold seenByView; dsimp only; rw [hk]; exact if_neg hjk
        exact ⟨by rw [es]; trivial, by rw [← freshNext_short (diff := diff) hj es (by simp), es]⟩
    · intro j vc hj
      have es : seenByCount a j (.onView k (.unapply n rf)) = [] := by
        unfold seenByCount; dsimp only; rw [hk]
      rw [es]; trivial
  | reset rf =>
    have hk0 : k ≠ 0 := hf
    obtain ⟨ft, rfl, hb⟩ := h.viewThere hk0 hk
    obtain ⟨b, eb, -⟩ := act_wstate hdiff hb (.reset rf) trivial
    obtain ⟨ft', e1, -⟩ := withFT_ok' (r := ft.resetFilters diff a.bank a.s.t a.data rf) eb
    have e : a.act diff (.onView k (.reset rf)) = .ok { a with objs := a.objs.set k (.view ⟨false, some ft'⟩) } := by
      rw [ea]
      show Suite.putFT _ _ _ (ft.resetFilters diff a.bank a.s.t a.data rf) = _
      rw [e1]; rfl
    refine ⟨_, e, h.quiet hdiff e rfl rfl (List.length_set ..) h.bank (h.mainStays hk0 _ a.bank) ?_ ?_⟩
    · intro j ft2 _ hj
      by_cases hjk : k = j
      · have es : seenByView a j (.onView k (.reset rf)) = [.reset rf] := by
          unfold seenByView; dsimp only; rw [hk]; exact if_pos hjk
        exact ⟨by rw [es]; exact ⟨trivial, trivial⟩, by rw [← freshNext_short (diff := diff) hj es (by simp), es]⟩
      · have es : seenByView a j (.onView k (.reset rf)) = [] := by
          unfold seenByView; dsimp only; rw [hk]; exact if_neg hjk
        exact ⟨by rw [es]; trivial, by rw [← freshNext_short (diff := diff) hj es (by simp), es]⟩
    · intro j vc hj
      have es : seenByCount a j (.onView k (.reset rf)) = [] := by
        unfold seenByCount; dsimp only; rw [hk]
      rw [es]; trivial
  | currentState =>
    obtain ⟨rfl, hall, hfo⟩ := hf
    obtain ⟨w, hw, hm⟩ := h.main
    rw [hk] at hw
    cases hw
    obtain ⟨a', e, ha'⟩ := SState.refreshAll hdiff a.s.t.nodes.keys (h.allTrue hall) hfo
    refine ⟨a', ?_, ha' _⟩
    rw [ea]
    unfold Suite.callView
    dsimp only
    rw [if_pos (show v.static = true from hm.static)]
    exact e
  | nNodes fs =>
    refine h.question hdiff hk (fun ft => ft.nNodes a.bank a.s.t a.data fs) (fun ft hv => ?_) ea (fun j => ?_) (fun j => ?_)
    · obtain ⟨l, -, e, -⟩ := C33_nodes (⟨a.s, a.data, a.bank, ft⟩ : FApp V) hv fs
      exact ⟨_, e⟩
    · unfold seenByView; dsimp only; rw [hk]
    · unfold seenByCount; dsimp only; rw [hk]
  | getNodes fs =>
    refine h.question hdiff hk (fun ft => ft.getNodes a.bank a.s.t a.data fs) (fun ft hv => ?_) ea (fun j => ?_) (fun j => ?_)
    · obtain ⟨l, e, -⟩ := C33_nodes (⟨a.s, a.data, a.bank, ft⟩ : FApp V) hv fs
      exact ⟨_, e⟩
    · unfold seenByView; dsimp only; rw [hk]
    · unfold seenByCount; dsimp only; rw [hk]
  | nChildren x r =>
    refine h.question hdiff hk (fun ft => ft.nChildren x r) (fun ft hv => nChildren_ok hv x r) ea (fun j => ?_) (fun j => ?_)
    · unfold seenByView; dsimp only; rw [hk]
    · unfold seenByCount; dsimp only; rw [hk]

theorem SState.onCount (hdiff : SetDiff diff) {fresh : Nat → Bool} {a : Suite V} (h : SState diff fresh a) (k : Nat) (c : CountCall)
    (hf : SuiteFair fresh a (.onCount k c)) :
    ∃ a', a.act diff (.onCount k c) = .ok a' ∧ SState diff (freshNext fresh a (.onCount k c)) a' := by
  by_cases hno : ∀ v, a.objs[k]? ≠ some (Obj.count v)
  · have e : a.act diff (.onCount k c) = .ok a := by
      show (match a.objs[k]? with | some (.count v) => a.callCount k v c | _ => .ok a) = _
      split
      · rename_i v hv; exact absurd hv (hno v)
      · rfl
    refine ⟨a, e, h.idle hdiff e (fun j => rfl) (fun j hj => ?_)⟩
    unfold seenByCount
    refine if_neg ?_
    rintro rfl
    cases hc : countAt a k with
    | none => exact hj hc
    | some v => exact hno v (countAt_some hc)
  push Not at hno
  obtain ⟨v, hk⟩ := hno
  have hk0 : k ≠ 0 := by
    rintro rfl
    obtain ⟨w, hw, -⟩ := h.main
    rw [hk] at hw; cases hw
  have ea : a.act diff (.onCount k c) = a.callCount k v c := by
    show (match a.objs[k]? with | some (.count v) => a.callCount k v c | _ => .ok a) = _
    rw [hk]
  have hi := h.counts k v hk
  -- the counter alone
  have es : ∃ e : CAct V, seenByCount a k (.onCount k c) = [e] ∧ Fair (aloneCount a v) e ∧
      ∀ b, (aloneCount a v).act e = .ok b → ∃ v', a.callCount k v c = .ok { a with objs := a.objs.set k (.count v') } := by
    have put : ∀ {r : Res VC} {b}, (aloneCount a v).withVC r = .ok b →
        ∃ v', a.putVC k r = .ok { a with objs := a.objs.set k (.count v') } := by
      intro r b hb
      cases r with
      | err e x => cases hb
      | ok x => exact ⟨x, rfl⟩
    cases c with
    | apply n rf => exact ⟨_, if_pos rfl, hf, fun b hb => put hb⟩
    | unapply n => exact ⟨_, if_pos rfl, trivial, fun b hb => put hb⟩
    | touch x => exact ⟨_, if_pos rfl, hf, fun b hb => put hb⟩
    | register f => exact ⟨_, if_pos rfl, trivial, fun b hb => ⟨v.register f, rfl⟩⟩
    | unregister f => exact hf.elim
  obtain ⟨e, hs, hfe, hact⟩ := es
  obtain ⟨b, eb, -⟩ := act_inv _ hi e hfe
  obtain ⟨v', e'⟩ := hact b eb
  rw [← ea] at e'
  refine ⟨_, e', h.quiet hdiff e' rfl rfl (List.length_set ..) h.bank (h.mainStays hk0 _ a.bank) ?_ ?_⟩
  · intro j ft _ hj
    exact ⟨trivial, freshNext_short (diff := diff) hj rfl (by simp [seenByView])⟩
  · intro j vc hj
    by_cases hjk : k = j
    · subst hjk
      rw [countAt_of hk] at hj
      cases hj
      rw [hs]
      exact ⟨hfe, trivial⟩
    · have : seenByCount a j (.onCount k c) = [] := by unfold seenByCount; exact if_neg hjk
      rw [this]; trivial

/-- Something new is put at the end. -/
theorem append_some {l : List Obj} {o o' : Obj} {k : Nat} (h : (l ++ [o])[k]? = some o') :
    l[k]? = some o' ∨ (k = l.length ∧ o' = o) := by
  rcases Nat.lt_trichotomy k l.length with hk | hk | hk
  · rw [List.getElem?_append_left hk] at h; exact .inl h
  · subst hk
    rw [List.getElem?_append_right (Nat.le_refl _)] at h
    simp at h
    exact .inr ⟨rfl, h.symm⟩
  · rw [List.getElem?_eq_none (by simp; omega)] at h; cases h

theorem append_old {l : List Obj} {o o' : Obj} {k : Nat} (h : l[k]? = some o') : (l ++ [o])[k]? = some o' := by
  rw [List.getElem?_append_left (List.getElem?_eq_some_iff.1 h).1]; exact h

theorem SState.getView (hdiff : SetDiff diff) {fresh : Nat → Bool} {a : Suite V} (h : SState diff fresh a) (name : Option Nat)
    (refresh : Bool) :
    ∃ a', a.act diff (.getView name refresh) = .ok a' ∧ SState diff (freshNext fresh a (.getView name refresh)) a' := by
  have keep : ∀ k ft, viewAt a k = some ft → freshNext fresh a (.getView name refresh) k = fresh k := by
    intro k ft hk
    unfold freshNext
    rw [hk]; rfl
  have old : ∀ b : Suite V, SState diff fresh b → b.objs = a.objs → SState diff (freshNext fresh a (.getView name refresh)) b := by
    intro b hb ho
    exact { hb with
      views := fun k v hk0 hk => by
        obtain ⟨h1, ft, h2, h3, h4⟩ := hb.views k v hk0 hk
        refine ⟨h1, ft, h2, h3, ?_⟩
        rw [keep k ft (by unfold viewAt; rw [← ho, hk]; exact h2)]
        exact h4 }
  by_cases hnew : (a.names.getViewtree name).1 = a.names.next
  · -- a new view
    have hfresh : ∃ ft, FT.new diff a.bank a.s.t a.data (rootOf name) refresh = .ok ft ∧ ft.root = rootOf name ∧
        WState diff refresh ⟨a.s, a.data, a.bank, ft⟩ := by
      cases refresh with
      | true =>
        obtain ⟨ft, e, hv⟩ := new_vstate hdiff h.good h.tidy a.data a.bank h.bank (rootOf name) (h.roots name)
        exact ⟨ft, e, (new_fields _ _ _ _ _ e).2, hv.wstate _⟩
      | false => exact ⟨_, rfl, rfl, (unfilled_bstate h.good h.tidy a.data a.bank h.bank (rootOf name) (h.roots name) hdiff).wstate⟩
    obtain ⟨ft, e, hroot, hb⟩ := hfresh
    have ea : a.act diff (.getView name refresh) =
        .ok { a with names := (a.names.getViewtree name).2, objs := a.objs ++ [.view (VT.ofFT ft)] } := by
      show a.getView diff name refresh = _
      unfold Suite.getView
      rw [if_pos hnew, e]
    refine ⟨_, ea, h.good, h.tidy, h.bank, h.roots, ?_, ?_, ?_, ?_, ?_, ?_⟩
    · obtain ⟨v, hv, hm⟩ := h.main
      exact ⟨v, append_old hv, hm⟩
    · intro k v hk0 hk
      rcases append_some hk with hk | ⟨rfl, ho⟩
      · obtain ⟨h1, ft, h2, h3, h4⟩ := h.views k v hk0 hk
        refine ⟨h1, ft, h2, h3, ?_⟩
        rw [keep k ft (by unfold viewAt; rw [hk]; exact h2)]
        exact h4
      · cases ho
        refine ⟨rfl, ft, rfl, ⟨name, hroot⟩, ?_⟩
        have : freshNext fresh a (.getView name refresh) a.objs.length = refresh := by
          unfold freshNext viewAt
          rw [List.getElem?_eq_none (Nat.le_refl _)]
        rw [this]
        exact hb
    · intro k c hk
      rcases append_some hk with hk | ⟨rfl, ho⟩
      · exact h.counts k c hk
      · cases ho
    · intro n k hk
      have : KV.get? a.names.views n = some k ∨ k = a.objs.length := by
        unfold Views.getViewtree at hk
        dsimp only at hk
        cases name with
        | none => exact .inl hk
        | some m =>
          dsimp only at hk
          cases hm : KV.get? a.names.views m with
          | some o => rw [hm] at hk; exact .inl hk
          | none =>
            rw [hm] at hk
            dsimp only at hk
            rw [KV.get?_set] at hk
            split at hk
            · cases hk; exact .inr h.numbered
            · exact .inl hk
      rcases this with hk | rfl
      · obtain ⟨v, hv⟩ := h.named n k hk
        exact ⟨v, append_old hv⟩
      · exact ⟨_, List.getElem?_concat_length⟩
    · intro n k hk
      have : KV.get? a.names.viewscount n = some k := by
        unfold Views.getViewtree at hk
        dsimp only at hk
        cases name with
        | none => exact hk
        | some m =>
          dsimp only at hk
          cases hm : KV.get? a.names.views m with
          | some o => rw [hm] at hk; exact hk
          | none => rw [hm] at hk; exact hk
      obtain ⟨c, hc⟩ := h.namedCounts n k this
      exact ⟨c, append_old hc⟩
    · have : (a.names.getViewtree name).2.next = a.names.next + 1 := by
        unfold Views.getViewtree at hnew ⊢
        cases name with
        | none => rfl
        | some m =>
          dsimp only at hnew ⊢
          cases hm : KV.get? a.names.views m with
          | some o =>
            rw [hm] at hnew
            dsimp only at hnew
            obtain ⟨v, hv⟩ := h.named m o hm
            rw [hnew, h.numbered, List.getElem?_eq_none (Nat.le_refl _)] at hv
            cases hv
          | none => rfl
      show (a.names.getViewtree name).2.next = _
      rw [this, h.numbered]
      simp
  · refine ⟨a, ?_, old a h rfl⟩
    show a.getView diff name refresh = _
    unfold Suite.getView
    rw [if_neg hnew]

theorem SState.getCount {fresh : Nat → Bool} {a : Suite V} (h : SState diff fresh a) (name : Option Nat) :
    ∃ a', a.act diff (.getCount name true) = .ok a' ∧ SState diff (freshNext fresh a (.getCount name true)) a' := by
  have keep : ∀ k ft, viewAt a k = some ft → freshNext fresh a (.getCount name true) k = fresh k := by
    intro k ft hk
    unfold freshNext
    rw [hk]; rfl
  by_cases hnew : (a.names.getViewcount name).1 = a.names.next
  · obtain ⟨c, e, hi⟩ := new_inv a.s a.data a.bank h.bank
    have ea : a.act diff (.getCount name true) =
        .ok { a with names := (a.names.getViewcount name).2, objs := a.objs ++ [.count c] } := by
      show a.getCount name true = _
      unfold Suite.getCount
      rw [if_pos hnew, e]
    refine ⟨_, ea, h.good, h.tidy, h.bank, h.roots, ?_, ?_, ?_, ?_, ?_, ?_⟩
    · obtain ⟨v, hv, hm⟩ := h.main
      exact ⟨v, append_old hv, hm⟩
    · intro k v hk0 hk
      rcases append_some hk with hk | ⟨rfl, ho⟩
      · obtain ⟨h1, ft, h2, h3, h4⟩ := h.views k v hk0 hk
        refine ⟨h1, ft, h2, h3, ?_⟩
        rw [keep k ft (by unfold viewAt; rw [hk]; exact h2)]
        exact h4
      · cases ho
    · intro k c' hk
      rcases append_some hk with hk | ⟨rfl, ho⟩
      · exact h.counts k c' hk
      · cases ho; exact hi
    · intro n k hk
      have : KV.get? a.names.views n = some k := by
        unfold Views.getViewcount at hk
        dsimp only at hk
        cases name with
        | none => exact hk
        | some m =>
          dsimp only at hk
          cases hm : KV.get? a.names.viewscount m with
          | some o => rw [hm] at hk; exact hk
          | none => rw [hm] at hk; exact hk
      obtain ⟨v, hv⟩ := h.named n k this
      exact ⟨v, append_old hv⟩
    · intro n k hk
      have : KV.get? a.names.viewscount n = some k ∨ k = a.objs.length := by
        unfold Views.getViewcount at hk
        dsimp only at hk
        cases name with
        | none => exact .inl hk
        | some m =>
          dsimp only at hk
          cases hm : KV.get? a.names.viewscount m with
          | some o => rw [hm] at hk; exact .inl hk
          | none =>
            rw [hm] at hk
            dsimp only at hk
            rw [KV.get?_set] at hk
            split at hk
            · cases hk; exact .inr h.numbered
            · exact .inl hk
      rcases this with hk | rfl
      · obtain ⟨v, hv⟩ := h.namedCounts n k hk
        exact ⟨v, append_old hv⟩
      · exact ⟨_, List.getElem?_concat_length⟩
    · have : (a.names.getViewcount name).2.next = a.names.next + 1 := by
        unfold Views.getViewcount at hnew ⊢
        cases name with
        | none => rfl
        | some m =>
          dsimp only at hnew ⊢
          cases hm : KV.get? a.names.viewscount m with
          | some o =>
            rw [hm] at hnew
            dsimp only at hnew
            obtain ⟨v, hv⟩ := h.namedCounts m o hm
            rw [hnew, h.numbered, List.getElem?_eq_none (Nat.le_refl _)] at hv
            cases hv
          | none => rfl
      show (a.names.getViewcount name).2.next = _
      rw [this, h.numbered]
      simp
  · refine ⟨a, ?_, ?_⟩
    · show a.getCount name true = _
      unfold Suite.getCount
      rw [if_neg hnew]
    · exact { h with
        views := fun k v hk0 hk => by
          obtain ⟨h1, ft, h2, h3, h4⟩ := h.views k v hk0 hk
          refine ⟨h1, ft, h2, h3, ?_⟩
          rw [keep k ft (by unfold viewAt; rw [hk]; exact h2)]
          exact h4 }

theorem SState.act (hdiff : SetDiff diff) {fresh : Nat → Bool} {a : Suite V} (h : SState diff fresh a) (c : SuiteAct V)
    (hf : SuiteFair fresh a c) : ∃ a', a.act diff c = .ok a' ∧ SState diff (freshNext fresh a c) a' := by
  cases c with
  | edit op =>
    obtain ⟨h1, h2, h3, h4⟩ := hf
    obtain ⟨a', e, ha'⟩ := h.edit hdiff op h1 h2 h3 h4
    refine ⟨a', e, ha' _ fun k ft _ hk hf => ?_⟩
    rw [← freshNext_short (diff := diff) hk rfl (by simp [seenByView])] at hf
    exact hf
  | change x v =>
    obtain ⟨a', e, ha'⟩ := h.change hdiff x v hf
    refine ⟨a', e, ha' _ fun k ft _ hk hf => ?_⟩
    rw [← freshNext_short (diff := diff) hk rfl (by simp [seenByView])] at hf
    exact hf
  | bank c =>
    obtain ⟨v, hv, hm⟩ := h.main
    refine ⟨_, rfl, h.quiet (c := .bank c) hdiff rfl rfl rfl rfl (bank_call _ h.bank c) ⟨v, hv, hm.elsewhere⟩ ?_ ?_⟩
    · intro k ft _ hk
      refine ⟨⟨?_, trivial⟩, freshNext_short (diff := diff) hk rfl (by simp [seenByView])⟩
      trivial
    · intro k vc hk
      refine ⟨?_, trivial⟩
      cases c with
      | add n f p => exact hf
      | remove n => exact hf k vc hk
  | getView name rf => exact h.getView hdiff name rf
  | getCount name rf =>
    have : rf = true := hf
    subst this
    exact h.getCount name
  | onView k c => exact h.onView hdiff k c hf
  | onCount k c => exact h.onCount hdiff k c hf

theorem SState.run (hdiff : SetDiff diff) (cs : List (SuiteAct V)) {fresh : Nat → Bool} {a : Suite V} (h : SState diff fresh a)
    (hf : SuiteFairRun diff fresh cs a) :
    ∃ a', Suite.run diff cs a = .ok a' ∧ SState diff (freshAtEnd diff fresh cs a) a' := by
  induction cs generalizing a fresh with
  | nil => exact ⟨a, rfl, h⟩
  | cons c cs ih =>
    obtain ⟨b, e, hb⟩ := h.act hdiff c hf.1
    have hf2 := hf.2
    rw [e] at hf2
    obtain ⟨a', e', h'⟩ := ih hb hf2
    refine ⟨a', ?_, ?_⟩
    · show (a.act diff c).andThen _ = _
      rw [e]; exact e'
    · show SState diff (freshAtEnd diff (freshNext fresh a c) cs (a.act diff c).state) a'
      rw [e]; exact h'

theorem SState.suiteRight (hdiff : SetDiff diff) {fresh : Nat → Bool} {a : Suite V} (h : SState diff fresh a) :
    SuiteRight diff fresh a where
  main := by
    obtain ⟨v, hv, hm⟩ := h.main
    exact ⟨v, hv, hm.agrees hdiff⟩
  views := fun k v hk0 hk => by
    obtain ⟨h1, ft, h2, -, h4⟩ := h.views k v hk0 hk
    exact ⟨h1, ft, h2, h4.viewOK hdiff, h4.observerAgrees, fun hf =>
      ⟨(h4.right hf).rebuilt.showsExactly, (h4.right hf).rebuilt.rightShape⟩⟩
  counts := fun k c hk => (h.counts k c hk).exact
  named := h.named
  namedCounts := h.namedCounts
  numbered := h.numbered

/-- C54: however many views and counters there are, no action raises an exception and all of them are right. -/
theorem C54_all_right_partial (hdiff : SetDiff diff) (d : Id → V) (cs : List (SuiteAct V))
    (hf : SuiteFairRun diff (fun _ => true) cs (Suite.init d)) :
    ∃ a, Suite.run diff cs (Suite.init d) = .ok a ∧
      SuiteRight diff (freshAtEnd diff (fun _ => true) cs (Suite.init d)) a := by
  obtain ⟨a, e, h⟩ := (SState.init diff (fun _ => true) d).run hdiff cs hf
  exact ⟨a, e, h.suiteRight hdiff⟩

/-! ### Filters on a node's own data -/

theorem OwnBank.follow {fresh : Nat → Bool} {a : Suite V} (h : OwnBank a.bank) {op : Op} (hn : NoneToGo fresh a op) :
    AllFollow fresh a op :=
  ⟨fun k ft hk0 hk => (hn k ft hk0 hk).imp (fun hf => ⟨hf, .inl (OwnBank.applied h)⟩) (fun hn => ⟨OwnBank.applied h, hn⟩),
    fun _ _ _ => .inl fun n _ f hf => h n f hf⟩

theorem OwnBank.followChange {fresh : Nat → Bool} {a : Suite V} (h : OwnBank a.bank) {x : Id} {v : V} (hn : NoneToGoData fresh a x v) :
    AllFollowChange fresh a x v :=
  ⟨fun k ft hk0 hk => (hn k ft hk0 hk).imp (fun hf => ⟨hf, .inl (OwnBank.applied h)⟩) (fun hn => ⟨OwnBank.applied h, hn⟩),
    fun _ _ _ => .inl fun n _ f hf => h n f hf⟩

theorem OwnBank.followData {a : Suite V} (h : OwnBank a.bank) : AllFollowData a :=
  ⟨fun _ _ _ _ => .inl (OwnBank.applied h), fun _ _ _ => .inl fun n _ f hf => h n f hf⟩

theorem SuiteOwnFair.fair {fresh : Nat → Bool} {a : Suite V} (h : OwnBank a.bank) {c : SuiteAct V} (hf : SuiteOwnFair fresh a c) :
    SuiteFair fresh a c := by
  cases c with
  | edit op => exact ⟨h.follow hf.1, hf.2⟩
  | change x v => exact h.followChange hf
  | bank c => cases c with
    | add n f p => trivial
    | remove n => exact hf
  | getView n r => exact hf
  | getCount n r => exact hf
  | onCount k c => exact hf
  | onView k c => cases c with
    | currentState => exact ⟨hf.1, hf.2, h.followData⟩
    | _ => exact hf

theorem refreshes_bank (l : List Id) {a a' : Suite V}
    (h : Res.forEach (fun x (w : Suite V) => w.edit diff (.refreshNode x)) l a = .ok a') : a'.bank = a.bank := by
  induction l generalizing a with
  | nil => cases h; rfl
  | cons x l ih =>
    unfold Res.forEach at h
    cases e : a.edit diff (.refreshNode x) with
    | err y w => rw [e] at h; cases h
    | ok w =>
      rw [e] at h
      exact (ih h).trans (suite_edit_ok e).2.2.1

theorem act_ownBank {a a' : Suite V} (hi : BankInv a.bank) (own : OwnBank a.bank) {c : SuiteAct V}
    (hc : ∀ n f p, c = .bank (.add n f p) → OwnData f) (e : a.act diff c = .ok a') : OwnBank a'.bank := by
  have same : a'.bank = a.bank → OwnBank a'.bank := fun h => by rw [h]; exact own
  cases c with
  | edit op => exact same (suite_edit_ok e).2.2.1
  | change x v => exact same (suite_edit_ok e).2.2.1
  | bank c =>
    cases e
    exact add_own hi own c fun n f p h => hc n f p (by rw [h])
  | getView n r =>
    change a.getView diff n r = _ at e
    unfold Suite.getView at e
    split at e
    · split at e
      · cases e; exact own
      · cases e
    · cases e; exact own
  | getCount n r =>
    change a.getCount n r = _ at e
    unfold Suite.getCount at e
    split at e
    · split at e
      · cases e; exact own
      · cases e
    · cases e; exact own
  | onCount k c =>
    change (match a.objs[k]? with | some (.count v) => a.callCount k v c | _ => .ok a) = _ at e
    split at e
    · have put : ∀ {r : Res VC}, a.putVC k r = .ok a' → OwnBank a'.bank := by
        intro r h
        cases r with
        | err e x => cases h
        | ok x => cases h; exact own
      cases c with
      | apply n r => exact put e
      | unapply n => exact put e
      | touch x => exact put e
      | register f => exact put (r := .ok _) e
      | unregister f => cases e
    · cases e; exact own
  | onView k c =>
    change (match a.objs[k]? with | some (.view v) => a.callView diff k v c | _ => .ok a) = _ at e
    split at e
    · rename_i v hv
      have put : ∀ {b : Suite V} {r : Res FT}, b.putFT k v r = .ok a' → a'.bank = b.bank := by
        intro b r h
        cases r with
        | err e x => cases h
        | ok x => cases h; rfl
      have ask : ∀ {α : Type} {r : VT.Answer α}, a.asked k r = .ok a' → OwnBank a'.bank := by
        intro α r h
        obtain ⟨x, w⟩ := r
        cases x with
        | error e => cases h
        | ok x => cases h; exact own
      cases c with
      | apply n p rs rf =>
        unfold Suite.callView at e
        dsimp only at e
        split at e
        · cases e
        · cases e
        · rename_i ft _ _
          change Suite.putFT _ _ _ (ft.applyFilter diff a.bank a.s.t a.data n p rs rf).2.2 = _ at e
          have hb := put e
          cases hr : (ft.applyFilter diff a.bank a.s.t a.data n p rs rf).2.2 with
          | err y w => rw [hr] at e; cases e
          | ok w =>
            have e2 := applyFilter_bank hr
            change a'.bank = (ft.applyFilter diff a.bank a.s.t a.data n p rs rf).2.1 at hb
            rw [hb, e2]
            split
            · exact setParameters_own hi own n p
            · exact own
      | unapply n rf =>
        unfold Suite.callView at e
        dsimp only at e
        split at e
        · cases e
        · cases e
        · exact same (put e)
      | reset rf =>
        unfold Suite.callView at e
        dsimp only at e
        split at e
        · cases e
        · cases e
        · exact same (put e)
      | currentState =>
        unfold Suite.callView at e
        dsimp only at e
        split at e
        · exact same (refreshes_bank _ e)
        · split at e
          · cases e
          · exact same (put e)
      | nNodes fs => exact ask e
      | getNodes fs => exact ask e
      | nChildren x r => exact ask e
    · cases e; exact own

/-- If the filters look only at a node's own data nothing is asked of single edits. -/
theorem SuiteOwnFairRun.fair (hdiff : SetDiff diff) (cs : List (SuiteAct V)) {fresh : Nat → Bool} {a : Suite V} (h : SState diff fresh a)
    (own : OwnBank a.bank) (hf : SuiteOwnFairRun diff fresh cs a) : SuiteFairRun diff fresh cs a := by
  induction cs generalizing a fresh with
  | nil => trivial
  | cons c cs ih =>
    have hf1 := SuiteOwnFair.fair own hf.1
    refine ⟨hf1, ?_⟩
    obtain ⟨b, e, hb⟩ := h.act hdiff c hf1
    have hf2 := hf.2
    rw [e] at hf2 ⊢
    refine ih hb (act_ownBank h.bank own ?_ e) hf2
    rintro n f p rfl
    exact hf.1

theorem ownFairRun_init (hdiff : SetDiff diff) {cs : List (SuiteAct V)} {d : Id → V} (hf : SuiteOwnFairRun diff (fun _ => true) cs (Suite.init d)) :
    SuiteFairRun diff (fun _ => true) cs (Suite.init d) :=
  SuiteOwnFairRun.fair hdiff cs (SState.init diff (fun _ => true) d) emptyBank_own hf

/-! ### A concrete application -/

theorem allFresh_of {fresh : Nat → Bool} {a : Suite V} (h : (List.range a.objs.length).all fresh = true) : AllFresh fresh a := by
  intro k ft hk
  obtain ⟨s, hs⟩ := viewAt_some hk
  have := List.all_eq_true.1 h k (List.mem_range.2 (List.getElem?_eq_some_iff.1 hs).1)
  exact this

theorem noneToGo_of {fresh : Nat → Bool} {a : Suite V} {op : Op} (h : (List.range a.objs.length).all fresh = true) : NoneToGo fresh a op :=
  fun k ft _ hk => .inl (allFresh_of h k ft hk)

theorem noneToGoData_of {fresh : Nat → Bool} {a : Suite V} {x : Id} {v : V} (h : (List.range a.objs.length).all fresh = true) :
    NoneToGoData fresh a x v :=
  fun k ft _ hk => .inl (allFresh_of h k ft hk)

/-- A named view that is filled when it gets its filter, one without filters, a counter with the same filter; the main view is
asked too. Node 2 stops passing the filter, and then gets a child. In the end the first view is asked for again. -/
def suiteHistory : List (SuiteAct Nat) :=
  [ .bank (.add (.plain 1) isEven none), .edit (.addNode (.new (.str 1) .none) .none),
    .getView (some 5) false, .onView 1 (.apply (.plain 1) none false true), .edit (.addNode (.new (.str 2) .none) (.str 1)),
    .getView (some 6) true, .getCount none true, .onCount 3 (.apply (.plain 1) true), .change (.str 2) 7, .onView 0 (.nNodes []),
    .edit (.addNode (.new (.str 3) .none) (.str 2)), .getView (some 5) false ]

theorem small_not_root {i : Nat} {p' : Id} (hi : i < 1000) :
    ∀ nd q, (Op.addNode (.new (.str i) .none) p') = .addNode nd q → ∀ name, nd.id ≠ rootOf name := by
  rintro nd q e name he
  have he : Id.str i = rootOf name := by injection e with e1 e2; rw [← he, ← e1]; rfl
  cases name with
  | none =>
    have : Id.str i = .str 1000 := he
    cases this
    omega
  | some n =>
    have : Id.str i = .str (2 * n + 1001) := he
    injection this
    omega

theorem suiteHistory_fair : SuiteFairRun someDiff (fun _ => true) suiteHistory (Suite.init fun _ => 0) := by
  refine ownFairRun_init someDiff_ok ⟨isEven_own, ⟨noneToGo_of (by decide), careful_add (Made.new _ _) (by decide), small_not_root (by decide), fun _ e => by cases e⟩, trivial,
    ⟨by decide, fun h => (by cases h)⟩, ⟨noneToGo_of (by decide), careful_add (Made.new _ _) (by decide), small_not_root (by decide), fun _ e => by cases e⟩,
    trivial, rfl, rfl, noneToGoData_of (by decide), trivial,
    ⟨noneToGo_of (by decide), careful_add (Made.new _ _) (by decide), small_not_root (by decide), fun _ e => by cases e⟩, trivial, trivial⟩

/-- The concrete case: the first view shows 1 and, at the top, 3; the second one the three nodes in a chain; the counter counts 2
nodes; there are four objects. The story of view 1 has the edits and its own filter. -/
example : ∃ a, Suite.run someDiff suiteHistory (Suite.init fun _ => 0) = .ok a ∧
    SuiteRight someDiff (freshAtEnd someDiff (fun _ => true) suiteHistory (Suite.init fun _ => 0)) a ∧
    freshAtEnd someDiff (fun _ => true) suiteHistory (Suite.init fun _ => 0) 1 = true ∧
    ((viewAt a 1).map fun ft => (ft.view.kids (rootOf (some 5)), ft.view.kids (.str 2))) = some ([.str 1, .str 3], []) ∧
    ((viewAt a 2).map fun ft => (ft.view.kids (rootOf (some 6)), ft.view.kids (.str 2))) = some ([.str 1], [.str 3]) ∧
    ((countAt a 3).map (·.nodes)) = some [.str 1, .str 3] ∧ a.objs.length = 4 := by
  obtain ⟨a, e, h⟩ := C54_all_right_partial someDiff_ok (fun _ => 0) suiteHistory suiteHistory_fair
  refine ⟨a, e, h, by decide, ?_⟩
  have : (Suite.run someDiff suiteHistory (Suite.init fun _ => 0)).state = a := by rw [e]; rfl
  rw [← this]
  exact ⟨by decide, by decide, by decide, by decide⟩

/-- All nodes that views out of date show pass their filters. -/
def allPass (fresh : Nat → Bool) (a : Suite V) (d : Id → V) : Bool :=
  (List.range a.objs.length).all fun k => fresh k || match viewAt a k with
    | some ft => ft.view.nodes.keys.all fun x => x == ft.root || FT.accepts a.bank a.s.t d ft.applied x
    | none => true

theorem allPass_none {fresh : Nat → Bool} {a : Suite V} {d : Id → V} (h : allPass fresh a d = true) {k : Nat} {ft : FT}
    (hk : viewAt a k = some ft) : fresh k = true ∨ NothingToGo { alone a ft with data := d } := by
  obtain ⟨s, hs⟩ := viewAt_some hk
  have := List.all_eq_true.1 h k (List.mem_range.2 (List.getElem?_eq_some_iff.1 hs).1)
  rw [hk, Bool.or_eq_true, List.all_eq_true] at this
  refine this.imp id fun h => nothingToGo_of fun x hx hr => ?_
  have := h x hx
  rw [Bool.or_eq_true] at this
  exact this.resolve_left fun e => hr (eq_of_beq e)

theorem noneToGo_pass {fresh : Nat → Bool} {a : Suite V} {op : Op} (hd : ∀ x, op ≠ .delNode x true) (h : allPass fresh a a.data = true) :
    NoneToGo fresh a op :=
  fun _ _ _ hk => (allPass_none h hk).imp id fun h => ⟨fun x e => absurd e (hd x), h⟩

theorem noneToGoData_pass {fresh : Nat → Bool} {a : Suite V} {x : Id} {v : V}
    (h : allPass fresh a (fun y => if y = x then v else a.data y) = true) : NoneToGoData fresh a x v :=
  fun _ _ _ hk => allPass_none h hk

/-- There are 1 and 4. View 1 is made empty and waits, while 2 is up to date. Node 2 is added below 1, and stops passing the filter that view 1 is then given
with refresh. The filter is taken away without refresh; node 3 is added, 2 passes again, 1 is removed. At last view 1 is refreshed. -/
def waitSuite : List (SuiteAct Nat) :=
  [ .bank (.add (.plain 1) isEven none), .edit (.addNode (.new (.str 1) .none) .none), .edit (.addNode (.new (.str 4) .none) .none),
    .getView (some 5) false, .getView (some 6) true, .edit (.addNode (.new (.str 2) .none) (.str 1)), .change (.str 2) 7, .onView 1 (.apply (.plain 1) none false true),
    .onView 1 (.unapply (.plain 1) false), .edit (.addNode (.new (.str 3) .none) (.str 2)), .change (.str 2) 8,
    .edit (.delNode (.str 1) false), .onView 1 (.reset true) ]

theorem waitSuite_fair : SuiteFairRun someDiff (fun _ => true) waitSuite (Suite.init fun _ => 0) := by
  refine ownFairRun_init someDiff_ok ⟨isEven_own,
    ⟨noneToGo_of (by decide), careful_add (Made.new _ _) (by decide), small_not_root (by decide), fun _ e => by cases e⟩,
    ⟨noneToGo_of (by decide), careful_add (Made.new _ _) (by decide), small_not_root (by decide), fun _ e => by cases e⟩, trivial, trivial,
    ⟨noneToGo_pass (fun _ e => by cases e) (by decide), careful_add (Made.new _ _) (by decide), small_not_root (by decide),
      fun _ e => by cases e⟩,
    noneToGoData_pass (by decide), ⟨by decide, fun h => (by cases h)⟩, (by decide : (1 : Nat) ≠ 0),
    ⟨noneToGo_pass (fun _ e => by cases e) (by decide), careful_add (Made.new _ _) (by decide), small_not_root (by decide),
      fun _ e => by cases e⟩,
    noneToGoData_pass (by decide),
    ⟨noneToGo_pass (fun _ e => by cases e) (by decide), (by decide : (Tree.getParents _ (.str 1)).length ≤ 1), fun _ _ e => (by cases e),
      fun _ e => by cases e⟩,
    (by decide : (1 : Nat) ≠ 0), trivial⟩

/-- The concrete case with a view that waits: after the first edits view 1 shows 2 below 1 and lacks 4; in the end it shows 3 below 2,
and 4. -/
example : ∃ a, Suite.run someDiff waitSuite (Suite.init fun _ => 0) = .ok a ∧
    SuiteRight someDiff (freshAtEnd someDiff (fun _ => true) waitSuite (Suite.init fun _ => 0)) a ∧
    freshAtEnd someDiff (fun _ => true) (waitSuite.take 7) (Suite.init fun _ => 0) 1 = false ∧
    freshAtEnd someDiff (fun _ => true) waitSuite (Suite.init fun _ => 0) 1 = true ∧
    ((viewAt (Suite.run someDiff (waitSuite.take 7) (Suite.init fun _ => 0)).state 1).map fun ft =>
      (ft.view.kids (rootOf (some 5)), ft.view.kids (.str 1))) = some ([.str 1], [.str 2]) ∧
    ((viewAt a 1).map fun ft => (ft.view.kids (rootOf (some 5)), ft.view.kids (.str 2))) = some ([.str 4, .str 2], [.str 3]) := by
  obtain ⟨a, e, h⟩ := C54_all_right_partial someDiff_ok (fun _ => 0) waitSuite waitSuite_fair
  refine ⟨a, e, h, by decide, by decide, by decide, ?_⟩
  have : (Suite.run someDiff waitSuite (Suite.init fun _ => 0)).state = a := by rw [e]; rfl
  rw [← this]
  decide

/-- The concrete case for the theorems about one object: from the time when all objects are there, the history runs, and the
second view and the counter have their stories. -/
example : ∃ a a', Suite.run someDiff (suiteHistory.take 8) (Suite.init fun _ => 0) = .ok a ∧
    Suite.run someDiff (suiteHistory.drop 8 ++ [.onView 1 (.apply (.plain 1) (some { negate := some true }) false true)]) a = .ok a' ∧
    ((viewAt a 2).map fun ft => ft.root) = some (rootOf (some 6)) ∧ ((countAt a 3).map (·.nodes)) = some [.str 1, .str 2] ∧
    (viewStory someDiff 2 (suiteHistory.drop 8 ++ [.onView 1 (.apply (.plain 1) (some { negate := some true }) false true)]) a).length = 3 ∧
    (countStory someDiff 3 (suiteHistory.drop 8 ++ [.onView 1 (.apply (.plain 1) (some { negate := some true }) false true)]) a).length = 3 :=
  ⟨_, _, rfl, rfl, by decide, by decide, by decide, by decide⟩

/-- C54 is not literally true: one view gives a filter parameters, and another view that uses the filter, and was up to date, keeps
showing the wrong nodes. -/
theorem C54_refuted_params : ∃ a ft, Suite.run someDiff
    [ .bank (.add (.plain 1) isEven none), .edit (.addNode (.new (.str 1) .none) .none), .getView none true,
      .onView 1 (.apply (.plain 1) none false true), .getView none true,
      .onView 2 (.apply (.plain 1) (some { negate := some true }) false true) ] (Suite.init fun _ => 0) = .ok a ∧
    viewAt a 1 = some ft ∧ ¬ ShowsExactly (alone a ft) := by
  refine ⟨_, _, rfl, rfl, fun h => ?_⟩
  obtain ⟨f, hf, hd⟩ := ((h.shown (.str 1) (by decide)).1 (by decide)).2 (.plain 1) (by decide)
  cases hf
  exact absurd hd (by decide)

/-- Nor for counters: a view gives the filter of a counter parameters, and the counter reports the old number. -/
theorem C54_refuted_counter : ∃ a c, Suite.run someDiff
    [ .bank (.add (.plain 1) isEven none), .edit (.addNode (.new (.str 1) .none) .none), .getCount none true,
      .onCount 1 (.apply (.plain 1) true), .getView none true,
      .onView 2 (.apply (.plain 1) (some { negate := some true }) false true) ] (Suite.init fun _ => 0) = .ok a ∧
    countAt a 1 = some c ∧ ¬ Exact (aloneCount a c) := by
  refine ⟨_, _, rfl, rfl, fun h => ?_⟩
  obtain ⟨l, -, hl, hn⟩ := h
  obtain ⟨x, rfl⟩ : ∃ x, l = [x] := List.length_eq_one_iff.1 hn.symm
  obtain ⟨hx, hd⟩ := (hl x).1 (by simp)
  have hx' : x ∈ [Id.str 1] := (mem_keys _ x).2 hx
  simp only [List.mem_singleton] at hx'
  subst hx'
  obtain ⟨f, hf, hd⟩ := hd (.plain 1) (by decide)
  cases hf
  exact absurd hd (by decide)

end Larch
