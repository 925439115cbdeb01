import Verif.Spec.LeftSuite
import Verif.Props.Suite
import Verif.Props.Leftover

/-!
# C76: removing nodes with several parents, while there are many views and counters
-/

namespace Larch

open Graph Spec

variable {V : Type} {diff : List Id → List Id → List Id}

theorem VOver.viewOK (hdiff : SetDiff diff) {T : Tree → Prop} {a : FApp V} (h : VOver T diff a) : ViewOK a.ft := by
  obtain ⟨rank, M, hw⟩ := h.fit.whole hdiff h.good.wf h.rootFree
  exact hw.frame.viewOK

theorem considerate_added {s : St} {op : Op} (hc : Considerate s op) : ∀ nd p, op = .addNode nd p → (step s op).isOk = true := by
  rintro nd p rfl
  show (addNode s nd p).isOk = true
  by_cases hx : s.t.has nd.id = true
  · rw [addNode_existing hx]; rfl
  · exact (hc.1.2.resolve_left hx).2.2.2

theorem absent_considerate {s : St} (r : Id) (hr : s.t.has r = false) (op : Op) (hc : Considerate s op)
    (ha : ∀ nd p, op = .addNode nd p → nd.id ≠ r) : (step s op).state.t.has r = false := by
  by_cases hl : op.isLocal = true
  · exact step_keeps (absent_keeps r) s op hl hr
  · cases op with
    | addNode nd p =>
      show (addNode s nd p).state.t.has r = false
      by_cases hx : s.t.has nd.id = true
      · rw [addNode_existing hx]; exact hr
      · have hok := (hc.1.2.resolve_left hx).2.2.2
        cases hres : addNode s nd p with
        | err e s' => rw [hres] at hok; cases hok
        | ok s' =>
          obtain ⟨t', rfl, ht⟩ := addNode_ok (by simpa using hx) hres
          show t'.has r = false
          rw [ht, hr]
          simpa using (ha nd p rfl).symm
    | delNode x rec =>
      refine removeNode_keeps (absent_keeps r).cuts (fun s' x h _ => ?_) _ s x rec hr
      show Tree.has { s'.t with nodes := s'.t.nodes.del x } r = false
      unfold Tree.has at *
      rw [Dict.has_del, h]; simp
    | _ => exact absurd rfl hl

/-- What is kept. -/
structure LState (diff : List Id → List Id → List Id) (a : Suite V) : Prop where
  good : Good a.s.t
  bank : BankInv a.bank
  roots : ∀ name, a.s.t.has (rootOf name) = false
  main : ∃ v, a.objs[0]? = some (Obj.view v) ∧ v.static = true
  others : ∀ (k : Nat) v, k ≠ 0 → a.objs[k]? = some (Obj.view v) → v.static = false ∧ ∃ ft, v.ft = some ft
  views : ∀ (k : Nat) ft, viewAt a k = some ft → (∃ name, ft.root = rootOf name) ∧ VOver (fun _ => True) diff (alone a ft)
  counts : ∀ (k : Nat) c, a.objs[k]? = some (Obj.count c) → CInv (aloneCount a c)
  named : ∀ n k, KV.get? a.names.views n = some k → ∃ v, a.objs[k]? = some (Obj.view v)
  namedCounts : ∀ n k, KV.get? a.names.viewscount n = some k → ∃ c, a.objs[k]? = some (Obj.count c)
  numbered : a.names.next = a.objs.length

theorem LState.init (diff : List Id → List Id → List Id) (d : Id → V) : LState diff (Suite.init d) :=
  let h := SState.init diff (fun _ => true) d
  { good := h.good
    bank := h.bank
    roots := h.roots
    main := ⟨_, rfl, rfl⟩
    others := fun k v hk0 hk => by
      obtain ⟨h1, ft, h2, -⟩ := h.views k v hk0 hk
      exact ⟨h1, ft, h2⟩
    views := fun k ft hk => by
      cases k with
      | zero => cases hk
      | succ k => cases hk
    counts := h.counts
    named := h.named
    namedCounts := h.namedCounts
    numbered := h.numbered }

theorem LState.sound (hdiff : SetDiff diff) {a : Suite V} (h : LState diff a) : SuiteSound a where
  tree := h.good.sound
  views := fun k v hk0 hk => by
    obtain ⟨h1, ft, h2⟩ := h.others k v hk0 hk
    obtain ⟨-, hv⟩ := h.views k ft (by unfold viewAt; rw [hk]; exact h2)
    exact ⟨h1, ft, h2, hv.viewOK hdiff, hv.rebuilt.showsExactly, hv.rebuilt.rightShape, hv.observerAgrees⟩
  counts := fun k c hk => (h.counts k c hk).exact
  named := h.named
  namedCounts := h.namedCounts
  numbered := h.numbered

/-- An action that makes no object. -/
theorem LState.stays {a a' : Suite V} (h : LState diff a) {c : SuiteAct V} (e : a.act diff c = .ok a')
    (hg : Good a'.s.t) (hr : ∀ name, a'.s.t.has (rootOf name) = false) (hn : a'.names = a.names)
    (hl : a'.objs.length = a.objs.length) (hbi : BankInv a'.bank)
    (hm : ∀ s, a.objs[0]? = some (Obj.view ⟨s, none⟩) → ∃ f, a'.objs[0]? = some (Obj.view ⟨s, f⟩) ∧
      ∀ ft, f = some ft → (∃ name, ft.root = rootOf name) ∧ VOver (fun _ => True) diff (alone a' ft))
    (hfv : ∀ (k : Nat) ft, viewAt a k = some ft → (∃ name, ft.root = rootOf name) → VOver (fun _ => True) diff (alone a ft) →
      ∃ b, FApp.run diff (seenByView a k c) (alone a ft) = .ok b ∧ VOver (fun _ => True) diff b)
    (hfc : ∀ (k : Nat) vc, countAt a k = some vc → CInv (aloneCount a vc) →
      ∃ b, CApp.run (seenByCount a k c) (aloneCount a vc) = .ok b ∧ CInv b) :
    LState diff a' := by
  have kinds : ∀ (k : Nat) o', a'.objs[k]? = some o' → ∃ o, a.objs[k]? = some o := by
    intro k o' hk
    have : k < a.objs.length := by rw [← hl]; exact (List.getElem?_eq_some_iff.1 hk).1
    exact ⟨_, List.getElem?_eq_getElem this⟩
  -- every view stays a view
  have view : ∀ (k : Nat) s f, a.objs[k]? = some (Obj.view ⟨s, f⟩) → ∃ f', a'.objs[k]? = some (Obj.view ⟨s, f'⟩) ∧
      (f.isSome = true → f'.isSome = true) ∧
      ∀ ft, f' = some ft → (∃ name, ft.root = rootOf name) ∧ VOver (fun _ => True) diff (alone a' ft) := by
    intro k s f hk
    cases f with
    | none =>
      by_cases hk0 : k = 0
      · subst hk0
        obtain ⟨f, h1, h2⟩ := hm s hk
        exact ⟨f, h1, (fun h => by cases h), h2⟩
      · obtain ⟨-, ft, hft⟩ := h.others k _ hk0 hk
        cases hft
    | some ft =>
      obtain ⟨ft', h1, h2⟩ := act_view e hk
      obtain ⟨⟨name, hnm⟩, hv⟩ := h.views k ft (viewAt_of hk)
      obtain ⟨b, eb, hb⟩ := hfv k ft (viewAt_of hk) ⟨name, hnm⟩ hv
      rw [h2] at eb
      cases eb
      refine ⟨some ft', h1, fun _ => rfl, fun ft2 e2 => ?_⟩
      cases e2
      refine ⟨⟨name, ?_⟩, hb⟩
      rw [← hnm]; exact run_root _ h2
  refine ⟨hg, hbi, hr, ?_, ?_, ?_, ?_, ?_, ?_, ?_⟩
  · obtain ⟨⟨s, f⟩, hv, hs⟩ := h.main
    obtain ⟨f', h1, -⟩ := view 0 s f hv
    exact ⟨_, h1, hs⟩
  · intro k v hk0 hk
    obtain ⟨o, hoo⟩ := kinds k _ hk
    cases o with
    | count c =>
      obtain ⟨c', h1, -⟩ := act_count e hoo
      rw [hk] at h1; cases h1
    | view v1 =>
      obtain ⟨hst, ft, hft⟩ := h.others k v1 hk0 hoo
      obtain ⟨s, f⟩ := v1
      dsimp only at hst hft
      subst hst hft
      obtain ⟨f', h1, h2, -⟩ := view k _ _ hoo
      rw [hk] at h1
      cases h1
      exact ⟨rfl, Option.isSome_iff_exists.1 (h2 rfl)⟩
  · intro k ft hk
    obtain ⟨s, hs⟩ := viewAt_some hk
    obtain ⟨o, hoo⟩ := kinds k _ hs
    cases o with
    | count c =>
      obtain ⟨c', h1, -⟩ := act_count e hoo
      rw [hs] at h1; cases h1
    | view v1 =>
      obtain ⟨s1, f⟩ := v1
      obtain ⟨f', h1, -, h3⟩ := view k _ _ hoo
      rw [hs] at h1
      cases h1
      exact h3 ft rfl
  · intro k c' hk
    obtain ⟨o, hoo⟩ := kinds k _ hk
    cases o with
    | view v1 =>
      obtain ⟨s1, f⟩ := v1
      obtain ⟨f', h1, -⟩ := view k _ _ hoo
      rw [hk] at h1; cases h1
    | count c =>
      obtain ⟨c1, h1, h2⟩ := act_count e hoo
      rw [hk] at h1
      cases h1
      obtain ⟨b, eb, hb'⟩ := hfc k c (countAt_of hoo) (h.counts k c hoo)
      rw [h2] at eb
      cases eb
      exact hb'
  · intro n k hk
    rw [hn] at hk
    obtain ⟨⟨s, f⟩, hv⟩ := h.named n k hk
    obtain ⟨f', h1, -⟩ := view k s f hv
    exact ⟨_, h1⟩
  · intro n k hk
    rw [hn] at hk
    obtain ⟨c, hc⟩ := h.namedCounts n k hk
    obtain ⟨c', h1, -⟩ := act_count e hc
    exact ⟨_, h1⟩
  · rw [hn, hl]; exact h.numbered

/-- The tree after an action. -/
def TreeAfter (a a' : Suite V) (c : SuiteAct V) : Prop :=
  (∀ op, c = .edit op → a'.s = (step a.s op).state) ∧ ((∀ op, c ≠ .edit op) → a'.s.t = a.s.t)

theorem treeAfter_same {a a' : Suite V} {c : SuiteAct V} (hc : ∀ op, c ≠ .edit op) (hs : a'.s = a.s) : TreeAfter a a' c :=
  ⟨fun op e => absurd e (hc op), fun _ => by rw [hs]⟩

theorem LState.edit (hdiff : SetDiff diff) {a : Suite V} (h : LState diff a) (op : Op) (hf : SuiteLeftFair Considerate a (.edit op)) :
    ∃ a', a.act diff (.edit op) = .ok a' ∧ LState diff a' ∧ TreeAfter a a' (.edit op) := by
  obtain ⟨hc, hadd, hdel, ho1, ho2⟩ := hf
  have view : ∀ (k : Nat) ft, viewAt a k = some ft → ∃ b, (alone a ft).act diff (.edit op) = .ok b ∧ VOver (fun _ => True) diff b := by
    intro k ft hk
    obtain ⟨⟨name, hn⟩, hv⟩ := h.views k ft hk
    obtain ⟨b, eb, hb⟩ := left_act hdiff hv (.edit op) ⟨hc, ho1 k ft hk, fun nd p e => by
      show nd.id ≠ ft.root
      rw [hn]; exact hadd nd p e name, hdel⟩
    exact ⟨b, eb, hb.weaken trivial⟩
  have count : ∀ (k : Nat) c, countAt a k = some c → ∃ b, (aloneCount a c).edit op = .ok b ∧ CInv b :=
    fun k c hk => edit_own _ (h.counts k c (countAt_some hk)) (ho2 k c hk) op (considerate_added hc)
  obtain ⟨a', e⟩ := suite_edit_of (diff := diff) (a := a) (op := op)
    (fun k s ft hk => by
      obtain ⟨b, eb, -⟩ := view k ft (viewAt_of hk)
      exact ⟨b, eb⟩)
    (fun k c hk => by
      obtain ⟨b, eb, -⟩ := count k c (countAt_of hk)
      exact ⟨b, eb⟩)
  obtain ⟨e1, e2, e3, e4, -⟩ := suite_edit_ok e
  refine ⟨a', e, ?_, fun op' he => by cases he; exact e1, fun hne => absurd rfl (hne op)⟩
  refine h.stays (c := .edit op) e (by rw [e1]; exact step_good h.good op (Considerate.safe h.good hc))
    (fun name => by rw [e1]; exact absent_considerate _ (h.roots name) op hc fun nd p he => hadd nd p he name)
    e4 (edit_kinds e) (by rw [e3]; exact h.bank) (fun s hs => ⟨none, edit_quiet e hs, fun ft he => by cases he⟩)
    (fun k ft hk _ _ => ?_) (fun k c hk _ => ?_)
  · obtain ⟨b, eb, hb⟩ := view k ft hk
    exact ⟨b, frun_one eb, hb⟩
  · obtain ⟨b, eb, hb⟩ := count k c hk
    exact ⟨b, crun_one eb, hb⟩

theorem LState.change (hdiff : SetDiff diff) {a : Suite V} (h : LState diff a) (x : Id) (v : V) (hf : AllOwn a) :
    ∃ a', a.act diff (.change x v) = .ok a' ∧ LState diff a' ∧ TreeAfter a a' (.change x v) := by
  have view : ∀ (k : Nat) ft, viewAt a k = some ft → ∃ b, (alone a ft).act diff (.change x v) = .ok b ∧ VOver (fun _ => True) diff b := by
    intro k ft hk
    obtain ⟨b, eb, hb⟩ := left_act hdiff (h.views k ft hk).2 (.change x v) (hf.1 k ft hk)
    exact ⟨b, eb, hb.weaken trivial⟩
  have count : ∀ (k : Nat) c, countAt a k = some c → ∃ b, (aloneCount a c).act (.change x v) = .ok b ∧ CInv b :=
    fun k c hk => change_inv _ (h.counts k c (countAt_some hk)) x v (fun hx => (h.good.wf.ids x hx).2) (.inl (hf.2 k c hk))
  obtain ⟨a', e⟩ := suite_edit_of (diff := diff) (a := { a with data := fun y => if y = x then v else a.data y }) (op := .refreshNode x)
    (fun k s ft hk => by
      obtain ⟨b, eb, -⟩ := view k ft (viewAt_of hk)
      exact ⟨b, eb⟩)
    (fun k c hk => by
      obtain ⟨b, eb, -⟩ := count k c (countAt_of hk)
      exact ⟨b, eb⟩)
  obtain ⟨e1, e2, e3, e4, -⟩ := suite_edit_ok e
  have et : a'.s.t = a.s.t := by rw [e1]; exact refreshed_tree _ _
  refine ⟨a', e, ?_, (fun op' he => nomatch he), fun _ => et⟩
  refine h.stays (c := .change x v) e (by rw [et]; exact h.good) (fun name => by rw [et]; exact h.roots name)
    e4 (edit_kinds (a := { a with data := fun y => if y = x then v else a.data y }) e) (by rw [e3]; exact h.bank)
    (fun s hs => ⟨none, edit_quiet (a := { a with data := fun y => if y = x then v else a.data y }) e hs, fun ft he => by cases he⟩)
    (fun k ft hk _ _ => ?_) (fun k c hk _ => ?_)
  · obtain ⟨b, eb, hb⟩ := view k ft hk
    exact ⟨b, frun_one eb, hb⟩
  · obtain ⟨b, eb, hb⟩ := count k c hk
    exact ⟨b, crun_one eb, hb⟩

/-- An action that makes no object and leaves the tree alone. -/
theorem LState.quiet (hdiff : SetDiff diff) {a a' : Suite V} (h : LState diff a) {c : SuiteAct V} (e : a.act diff c = .ok a')
    (hs : a'.s = a.s) (hn : a'.names = a.names) (hl : a'.objs.length = a.objs.length) (hbi : BankInv a'.bank)
    (hm : ∀ s, a.objs[0]? = some (Obj.view ⟨s, none⟩) → ∃ f, a'.objs[0]? = some (Obj.view ⟨s, f⟩) ∧
      ∀ ft, f = some ft → (∃ name, ft.root = rootOf name) ∧ VOver (fun _ => True) diff (alone a' ft))
    (hfv : ∀ (k : Nat) ft, viewAt a k = some ft → LeftFairRun diff (seenByView a k c) (alone a ft))
    (hfc : ∀ (k : Nat) vc, countAt a k = some vc → FairRun (seenByCount a k c) (aloneCount a vc)) : LState diff a' :=
  h.stays e (by rw [hs]; exact h.good) (by rw [hs]; exact h.roots) hn hl hbi hm (fun k ft hk _ hv => left_run hdiff _ hv (hfv k ft hk))
    fun k vc hk hc => run_inv _ _ hc (hfc k vc hk)

theorem LState.idle (hdiff : SetDiff diff) {a : Suite V} (h : LState diff a) {c : SuiteAct V} (e : a.act diff c = .ok a)
    (hv : ∀ k, seenByView a k c = []) (hc : ∀ k, countAt a k ≠ none → seenByCount a k c = []) : LState diff a :=
  h.quiet hdiff e rfl rfl rfl h.bank (fun s hs => ⟨none, hs, fun ft e => by cases e⟩) (fun k ft hk => by rw [hv k]; trivial)
    (fun k vc hk => by rw [hc k (by rw [hk]; simp)]; trivial)

theorem LState.viewThere {a : Suite V} (h : LState diff a) {k : Nat} {v : VT} (hk0 : k ≠ 0) (hk : a.objs[k]? = some (Obj.view v)) :
    ∃ ft, v = ⟨false, some ft⟩ ∧ VOver (fun _ => True) diff (alone a ft) := by
  obtain ⟨h1, ft, h2⟩ := h.others k v hk0 hk
  obtain ⟨s, f⟩ := v
  dsimp only at h1 h2
  subst h1 h2
  exact ⟨ft, rfl, (h.views k ft (viewAt_of hk)).2⟩

theorem LState.mainStays {a : Suite V} {k : Nat} (hk0 : k ≠ 0) (o : Obj) (b : Bank (Id → V)) :
    ∀ s, a.objs[0]? = some (Obj.view ⟨s, none⟩) → ∃ f, (a.objs.set k o)[0]? = some (Obj.view ⟨s, f⟩) ∧
      ∀ ft, f = some ft → (∃ name, ft.root = rootOf name) ∧ VOver (fun _ => True) diff (alone { a with bank := b, objs := a.objs.set k o } ft) :=
  fun s hs => ⟨none, by rw [set_other hk0]; exact hs, fun ft e => by cases e⟩

/-- A question to a view. -/
theorem LState.question {α : Type} (hdiff : SetDiff diff) {a : Suite V} (h : LState diff a) {k : Nat} {v : VT}
    (hk : a.objs[k]? = some (Obj.view v)) (q : FT → Except Err α) (hq : ∀ ft, ViewOK ft → ∃ r, q ft = .ok r) {c : SuiteAct V}
    (hne : ∀ op, c ≠ .edit op)
    (e : a.act diff c = a.asked k (v.ask diff a.bank a.s.t a.data q)) (hv : ∀ j, seenByView a j c = [])
    (hc : ∀ j, seenByCount a j c = []) :
    ∃ a', a.act diff c = .ok a' ∧ LState diff a' ∧ TreeAfter a a' c := by
  have key : ∃ ft, v.ensure diff a.bank a.s.t a.data = .ok ft ∧ (v.ft = none → ft.root = rootOf none) ∧ VOver (fun _ => True) diff (alone a ft) := by
    cases hf : v.ft with
    | some ft =>
      exact ⟨ft, by unfold VT.ensure; rw [hf], (fun h => by cases h), (h.views k ft (by unfold viewAt; rw [hk]; exact hf)).2⟩
    | none =>
      obtain ⟨ft, e, hv⟩ := new_vover hdiff h.good (T := fun _ => True) trivial a.data a.bank h.bank anonRoot (h.roots none)
      exact ⟨ft, by unfold VT.ensure; rw [hf]; exact e, fun _ => (new_fields _ _ _ _ _ e).2, hv⟩
  obtain ⟨ft, e1, e2, h3⟩ := key
  obtain ⟨r, hr⟩ := hq ft (h3.viewOK hdiff)
  have ea : a.act diff c = .ok { a with objs := a.objs.set k (.view { v with ft := some ft }) } := by
    rw [e]
    unfold VT.ask
    rw [e1]
    dsimp only
    rw [hr]
    rfl
  refine ⟨_, ea, ?_, treeAfter_same hne rfl⟩
  refine h.quiet hdiff ea rfl rfl (List.length_set ..) h.bank ?_ (fun j ft _ => by rw [hv j]; trivial) (fun j vc _ => by rw [hc j]; trivial)
  intro s hs
  by_cases hk0 : k = 0
  · subst hk0
    rw [hk] at hs
    cases hs
    refine ⟨some ft, set_same hk, fun ft2 e => ?_⟩
    cases e
    exact ⟨⟨none, e2 rfl⟩, h3⟩
  · exact ⟨none, by show (a.objs.set k _)[0]? = _; rw [set_other hk0]; exact hs, fun ft e => by cases e⟩

theorem LState.onView (hdiff : SetDiff diff) {a : Suite V} (h : LState diff a) (k : Nat) (c : ViewCall) {P : St → Op → Prop}
    (hf : SuiteLeftFair P a (.onView k c)) :
    ∃ a', a.act diff (.onView k c) = .ok a' ∧ LState diff a' ∧ TreeAfter a a' (.onView k c) := by
  have hne : ∀ op, SuiteAct.onView k c ≠ (.edit op : SuiteAct V) := fun op e => by cases e
  by_cases hno : ∀ v, a.objs[k]? ≠ some (Obj.view v)
  · have e : a.act diff (.onView k c) = .ok a := by
      show (match a.objs[k]? with | some (.view v) => a.callView diff k v c | _ => .ok a) = _
      split
      · rename_i v hv; exact absurd hv (hno v)
      · rfl
    refine ⟨a, e, h.idle hdiff e (fun j => ?_) (fun j _ => ?_), treeAfter_same hne rfl⟩
    · show (match a.objs[k]? with | some (.view v) => _ | _ => []) = _
      split
      · rename_i v hv; exact absurd hv (hno v)
      · rfl
    · show (match a.objs[k]? with | some (.view v) => _ | _ => []) = _
      split
      · rename_i v hv; exact absurd hv (hno v)
      · rfl
  push Not at hno
  obtain ⟨v, hk⟩ := hno
  have ea : a.act diff (.onView k c) = a.callView diff k v c := by
    show (match a.objs[k]? with | some (.view v) => a.callView diff k v c | _ => .ok a) = _
    rw [hk]
  cases c with
  | apply n p rs rf =>
    obtain ⟨hk0, hrf, hp⟩ := hf
    obtain ⟨ft, rfl, hb⟩ := h.viewThere hk0 hk
    obtain ⟨b, eb, -⟩ := left_act hdiff hb (.apply n p rs rf) ⟨hrf, fun g => (hp g).1⟩
    obtain ⟨ft', e1, -⟩ := withFT_ok' (r := (ft.applyFilter diff a.bank a.s.t a.data n p rs rf).2.2) eb
    have e2 := applyFilter_bank e1
    have e : a.act diff (.onView k (.apply n p rs rf)) =
        .ok { a with bank := (ft.applyFilter diff a.bank a.s.t a.data n p rs rf).2.1, objs := a.objs.set k (.view ⟨false, some ft'⟩) } := by
      rw [ea]
      show Suite.putFT _ _ _ (ft.applyFilter diff a.bank a.s.t a.data n p rs rf).2.2 = _
      rw [e1]; rfl
    refine ⟨_, e, h.quiet hdiff e rfl rfl (List.length_set ..) ?_ (LState.mainStays hk0 _ _) ?_ ?_, treeAfter_same hne rfl⟩
    · show BankInv (ft.applyFilter diff a.bank a.s.t a.data n p rs rf).2.1
      rw [e2]; split; exacts [setParameters_inv h.bank n p, h.bank]
    · intro j ft2 hj
      by_cases hjk : k = j
      · have es : seenByView a j (.onView k (.apply n p rs rf)) = [.apply n p rs rf] := by
          unfold seenByView; dsimp only; rw [hk]; exact if_pos hjk
        rw [es]
        exact ⟨⟨hrf, fun g => (hp g).1⟩, trivial⟩
      · have es : seenByView a j (.onView k (.apply n p rs rf)) = (paramsGiven n p).map fun q => .setParams q.1 q.2 := by
          unfold seenByView; dsimp only; rw [hk]; exact if_neg hjk
        rw [es]
        rcases paramsGiven_cases n p with g | ⟨g1, q, g⟩
        · rw [g]; trivial
        · rw [g]; exact ⟨(hp g1).2.1 j ft2 (fun e => hjk (Option.some.inj e).symm) hj, trivial⟩
    · intro j vc hj
      have es : seenByCount a j (.onView k (.apply n p rs rf)) = (paramsGiven n p).map fun q => .setParams q.1 q.2 := by
        unfold seenByCount; dsimp only; rw [hk]
      rw [es]
      rcases paramsGiven_cases n p with g | ⟨g1, q, g⟩
      · rw [g]; trivial
      · rw [g]; exact ⟨(hp g1).2.2 j vc hj, trivial⟩
  | unapply n rf =>
    obtain ⟨hk0, hrf⟩ := hf
    obtain ⟨ft, rfl, hb⟩ := h.viewThere hk0 hk
    obtain ⟨b, eb, -⟩ := left_act hdiff hb (.unapply n rf) hrf
    obtain ⟨ft', e1, -⟩ := withFT_ok' (r := (ft.unapplyFilter diff a.bank a.s.t a.data n rf).2) eb
    have e : a.act diff (.onView k (.unapply n rf)) = .ok { a with objs := a.objs.set k (.view ⟨false, some ft'⟩) } := by
      rw [ea]
      show Suite.putFT _ _ _ (ft.unapplyFilter diff a.bank a.s.t a.data n rf).2 = _
      rw [e1]; rfl
    refine ⟨_, e, h.quiet hdiff e rfl rfl (List.length_set ..) h.bank (LState.mainStays hk0 _ a.bank) ?_ ?_, treeAfter_same hne rfl⟩
    · intro j ft2 hj
      by_cases hjk : k = j
      · have es : seenByView a j (.onView k (.unapply n rf)) = [.unapply n rf] := by
          unfold seenByView; dsimp only; rw [hk]; exact if_pos hjk
        rw [es]; exact ⟨hrf, trivial⟩
      · have es : seenByView a j (.onView k (.unapply n rf)) = [] := by
          unfold seenByView; dsimp only; rw [hk]; exact if_neg hjk
        rw [es]; trivial
    · intro j vc hj
      have es : seenByCount a j (.onView k (.unapply n rf)) = [] := by
        unfold seenByCount; dsimp only; rw [hk]
      rw [es]; trivial
  | reset rf =>
    obtain ⟨hk0, hrf⟩ := hf
    obtain ⟨ft, rfl, hb⟩ := h.viewThere hk0 hk
    obtain ⟨b, eb, -⟩ := left_act hdiff hb (.reset rf) hrf
    obtain ⟨ft', e1, -⟩ := withFT_ok' (r := ft.resetFilters diff a.bank a.s.t a.data rf) eb
    have e : a.act diff (.onView k (.reset rf)) = .ok { a with objs := a.objs.set k (.view ⟨false, some ft'⟩) } := by
      rw [ea]
      show Suite.putFT _ _ _ (ft.resetFilters diff a.bank a.s.t a.data rf) = _
      rw [e1]; rfl
    refine ⟨_, e, h.quiet hdiff e rfl rfl (List.length_set ..) h.bank (LState.mainStays hk0 _ a.bank) ?_ ?_, treeAfter_same hne rfl⟩
    · intro j ft2 hj
      by_cases hjk : k = j
      · have es : seenByView a j (.onView k (.reset rf)) = [.reset rf] := by
          unfold seenByView; dsimp only; rw [hk]; exact if_pos hjk
        rw [es]; exact ⟨hrf, trivial⟩
      · have es : seenByView a j (.onView k (.reset rf)) = [] := by
          unfold seenByView; dsimp only; rw [hk]; exact if_neg hjk
        rw [es]; trivial
    · intro j vc hj
      have es : seenByCount a j (.onView k (.reset rf)) = [] := by
        unfold seenByCount; dsimp only; rw [hk]
      rw [es]; trivial
  | currentState => exact hf.elim
  | nNodes fs =>
    refine h.question hdiff hk (fun ft => ft.nNodes a.bank a.s.t a.data fs) (fun ft hv => ?_) hne ea (fun j => ?_) (fun j => ?_)
    · obtain ⟨l, -, e, -⟩ := C33_nodes (⟨a.s, a.data, a.bank, ft⟩ : FApp V) hv fs
      exact ⟨_, e⟩
    · unfold seenByView; dsimp only; rw [hk]
    · unfold seenByCount; dsimp only; rw [hk]
  | getNodes fs =>
    refine h.question hdiff hk (fun ft => ft.getNodes a.bank a.s.t a.data fs) (fun ft hv => ?_) hne ea (fun j => ?_) (fun j => ?_)
    · obtain ⟨l, e, -⟩ := C33_nodes (⟨a.s, a.data, a.bank, ft⟩ : FApp V) hv fs
      exact ⟨_, e⟩
    · unfold seenByView; dsimp only; rw [hk]
    · unfold seenByCount; dsimp only; rw [hk]
  | nChildren x r =>
    refine h.question hdiff hk (fun ft => ft.nChildren x r) (fun ft hv => nChildren_ok hv x r) hne ea (fun j => ?_) (fun j => ?_)
    · unfold seenByView; dsimp only; rw [hk]
    · unfold seenByCount; dsimp only; rw [hk]

theorem LState.onCount (hdiff : SetDiff diff) {a : Suite V} (h : LState diff a) (k : Nat) (c : CountCall) {P : St → Op → Prop}
    (hf : SuiteLeftFair P a (.onCount k c)) :
    ∃ a', a.act diff (.onCount k c) = .ok a' ∧ LState diff a' ∧ TreeAfter a a' (.onCount k c) := by
  have hne : ∀ op, SuiteAct.onCount k c ≠ (.edit op : SuiteAct V) := fun op e => by cases e
  by_cases hno : ∀ v, a.objs[k]? ≠ some (Obj.count v)
  · have e : a.act diff (.onCount k c) = .ok a := by
      show (match a.objs[k]? with | some (.count v) => a.callCount k v c | _ => .ok a) = _
      split
      · rename_i v hv; exact absurd hv (hno v)
      · rfl
    refine ⟨a, e, h.idle hdiff e (fun j => rfl) (fun j hj => ?_), treeAfter_same hne rfl⟩
    unfold seenByCount
    refine if_neg ?_
    rintro rfl
    cases hc : countAt a k with
    | none => exact hj hc
    | some v => exact hno v (countAt_some hc)
  push Not at hno
  obtain ⟨v, hk⟩ := hno
  have hk0 : k ≠ 0 := by
    rintro rfl
    obtain ⟨w, hw, -⟩ := h.main
    rw [hk] at hw; cases hw
  have ea : a.act diff (.onCount k c) = a.callCount k v c := by
    show (match a.objs[k]? with | some (.count v) => a.callCount k v c | _ => .ok a) = _
    rw [hk]
  have hi := h.counts k v hk
  have es : ∃ e : CAct V, seenByCount a k (.onCount k c) = [e] ∧ Fair (aloneCount a v) e ∧
      ∀ b, (aloneCount a v).act e = .ok b → ∃ v', a.callCount k v c = .ok { a with objs := a.objs.set k (.count v') } := by
    have put : ∀ {r : Res VC} {b}, (aloneCount a v).withVC r = .ok b →
        ∃ v', a.putVC k r = .ok { a with objs := a.objs.set k (.count v') } := by
      intro r b hb
      cases r with
      | err e x => cases hb
      | ok x => exact ⟨x, rfl⟩
    cases c with
    | apply n rf => exact ⟨_, if_pos rfl, hf, fun b hb => put hb⟩
    | unapply n => exact ⟨_, if_pos rfl, trivial, fun b hb => put hb⟩
    | touch x => exact ⟨_, if_pos rfl, hf, fun b hb => put hb⟩
    | register f => exact ⟨_, if_pos rfl, trivial, fun b hb => ⟨v.register f, rfl⟩⟩
    | unregister f => exact hf.elim
  obtain ⟨e, hs, hfe, hact⟩ := es
  obtain ⟨b, eb, -⟩ := act_inv _ hi e hfe
  obtain ⟨v', e'⟩ := hact b eb
  rw [← ea] at e'
  refine ⟨_, e', h.quiet hdiff e' rfl rfl (List.length_set ..) h.bank (LState.mainStays hk0 _ a.bank) (fun j ft hj => trivial) ?_,
    treeAfter_same hne rfl⟩
  intro j vc hj
  by_cases hjk : k = j
  · subst hjk
    rw [countAt_of hk] at hj
    cases hj
    rw [hs]
    exact ⟨hfe, trivial⟩
  · have : seenByCount a j (.onCount k c) = [] := by unfold seenByCount; exact if_neg hjk
    rw [this]; trivial

/-- A new object comes last; the names are left to show. -/
theorem LState.grown {a a' : Suite V} (h : LState diff a) {o : Obj} (hs : a'.s = a.s) (hd : a'.data = a.data) (hb : a'.bank = a.bank)
    (ho : a'.objs = a.objs ++ [o])
    (hv : ∀ v, o = .view v → v.static = false ∧ ∃ ft, v.ft = some ft ∧ (∃ name, ft.root = rootOf name) ∧ VOver (fun _ => True) diff (alone a ft))
    (hc : ∀ c, o = .count c → CInv (aloneCount a c))
    (n1 : ∀ n k, KV.get? a'.names.views n = some k → ∃ v, (a.objs ++ [o])[k]? = some (Obj.view v))
    (n2 : ∀ n k, KV.get? a'.names.viewscount n = some k → ∃ c, (a.objs ++ [o])[k]? = some (Obj.count c))
    (n3 : a'.names.next = (a.objs ++ [o]).length) : LState diff a' := by
  have ev : ∀ ft, alone a' ft = alone a ft := fun ft => by unfold alone; rw [hs, hd, hb]
  have ec : ∀ c, aloneCount a' c = aloneCount a c := fun c => by unfold aloneCount; rw [hs, hd, hb]
  have len0 : a.objs.length ≠ 0 := by
    obtain ⟨v, hv, -⟩ := h.main
    have := (List.getElem?_eq_some_iff.1 hv).1
    omega
  refine ⟨by rw [hs]; exact h.good, by rw [hb]; exact h.bank, by rw [hs]; exact h.roots, ?_, ?_, ?_, ?_, by rw [ho]; exact n1,
    by rw [ho]; exact n2, by rw [ho]; exact n3⟩
  · obtain ⟨v, hv, hm⟩ := h.main
    exact ⟨v, by rw [ho]; exact append_old hv, hm⟩
  · intro k v hk0 hk
    rw [ho] at hk
    rcases append_some hk with hk | ⟨rfl, e⟩
    · exact h.others k v hk0 hk
    · obtain ⟨h1, ft, h2, -⟩ := hv v e.symm
      exact ⟨h1, ft, h2⟩
  · intro k ft hk
    rw [ev]
    obtain ⟨s, hk⟩ := viewAt_some hk
    rw [ho] at hk
    rcases append_some hk with hk | ⟨rfl, e⟩
    · exact h.views k ft (viewAt_of hk)
    · obtain ⟨h1, ft1, h2, h3⟩ := hv _ e.symm
      cases h2
      exact h3
  · intro k c hk
    rw [ec]
    rw [ho] at hk
    rcases append_some hk with hk | ⟨rfl, e⟩
    · exact h.counts k c hk
    · exact hc c e.symm

theorem LState.getView (hdiff : SetDiff diff) {a : Suite V} (h : LState diff a) (name : Option Nat) :
    ∃ a', a.act diff (.getView name true) = .ok a' ∧ LState diff a' ∧ TreeAfter a a' (.getView name true) := by
  have hne : ∀ op, SuiteAct.getView name true ≠ (.edit op : SuiteAct V) := fun op e => by cases e
  by_cases hnew : (a.names.getViewtree name).1 = a.names.next
  · obtain ⟨ft, e, hv⟩ := new_vover hdiff h.good (T := fun _ => True) trivial a.data a.bank h.bank (rootOf name) (h.roots name)
    have ea : a.act diff (.getView name true) =
        .ok { a with names := (a.names.getViewtree name).2, objs := a.objs ++ [.view (VT.ofFT ft)] } := by
      show a.getView diff name true = _
      unfold Suite.getView
      rw [if_pos hnew, e]
    refine ⟨_, ea, h.grown rfl rfl rfl rfl (fun v hv' => ?_) (fun c hc => by cases hc) ?_ ?_ ?_, treeAfter_same hne rfl⟩
    · cases hv'
      exact ⟨rfl, ft, rfl, ⟨name, (new_fields _ _ _ _ _ e).2⟩, hv⟩
    · intro n k hk
      have : KV.get? a.names.views n = some k ∨ k = a.objs.length := by
        unfold Views.getViewtree at hk
        dsimp only at hk
        cases name with
        | none => exact .inl hk
        | some m =>
          dsimp only at hk
          cases hm : KV.get? a.names.views m with
          | some o => rw [hm] at hk; exact .inl hk
          | none =>
            rw [hm] at hk
            dsimp only at hk
            rw [KV.get?_set] at hk
            split at hk
            · cases hk; exact .inr h.numbered
            · exact .inl hk
      rcases this with hk | rfl
      · obtain ⟨v, hv⟩ := h.named n k hk
        exact ⟨v, append_old hv⟩
      · exact ⟨_, List.getElem?_concat_length⟩
    · intro n k hk
      have : KV.get? a.names.viewscount n = some k := by
        unfold Views.getViewtree at hk
        dsimp only at hk
        cases name with
        | none => exact hk
        | some m =>
          dsimp only at hk
          cases hm : KV.get? a.names.views m with
          | some o => rw [hm] at hk; exact hk
          | none => rw [hm] at hk; exact hk
      obtain ⟨c, hc⟩ := h.namedCounts n k this
      exact ⟨c, append_old hc⟩
    · have : (a.names.getViewtree name).2.next = a.names.next + 1 := by
        unfold Views.getViewtree at hnew ⊢
        cases name with
        | none => rfl
        | some m =>
          dsimp only at hnew ⊢
          cases hm : KV.get? a.names.views m with
          | some o =>
            rw [hm] at hnew
            dsimp only at hnew
            obtain ⟨v, hv⟩ := h.named m o hm
            rw [hnew, h.numbered, List.getElem?_eq_none (Nat.le_refl _)] at hv
            cases hv
          | none => rfl
      show (a.names.getViewtree name).2.next = _
      rw [this, h.numbered]
      simp
  · refine ⟨a, ?_, h, treeAfter_same hne rfl⟩
    show a.getView diff name true = _
    unfold Suite.getView
    rw [if_neg hnew]

theorem LState.getCount {a : Suite V} (h : LState diff a) (name : Option Nat) :
    ∃ a', a.act diff (.getCount name true) = .ok a' ∧ LState diff a' ∧ TreeAfter a a' (.getCount name true) := by
  have hne : ∀ op, SuiteAct.getCount name true ≠ (.edit op : SuiteAct V) := fun op e => by cases e
  by_cases hnew : (a.names.getViewcount name).1 = a.names.next
  · obtain ⟨c, e, hi⟩ := new_inv a.s a.data a.bank h.bank
    have ea : a.act diff (.getCount name true) =
        .ok { a with names := (a.names.getViewcount name).2, objs := a.objs ++ [.count c] } := by
      show a.getCount name true = _
      unfold Suite.getCount
      rw [if_pos hnew, e]
    refine ⟨_, ea, h.grown rfl rfl rfl rfl (fun v hv => by cases hv) (fun c' hc => by cases hc; exact hi) ?_ ?_ ?_, treeAfter_same hne rfl⟩
    · intro n k hk
      have : KV.get? a.names.views n = some k := by
        unfold Views.getViewcount at hk
        dsimp only at hk
        cases name with
        | none => exact hk
        | some m =>
          dsimp only at hk
          cases hm : KV.get? a.names.viewscount m with
          | some o => rw [hm] at hk; exact hk
          | none => rw [hm] at hk; exact hk
      obtain ⟨v, hv⟩ := h.named n k this
      exact ⟨v, append_old hv⟩
    · intro n k hk
      have : KV.get? a.names.viewscount n = some k ∨ k = a.objs.length := by
        unfold Views.getViewcount at hk
        dsimp only at hk
        cases name with
        | none => exact .inl hk
        | some m =>
          dsimp only at hk
          cases hm : KV.get? a.names.viewscount m with
          | some o => rw [hm] at hk; exact .inl hk
          | none =>
            rw [hm] at hk
            dsimp only at hk
            rw [KV.get?_set] at hk
            split at hk
            · cases hk; exact .inr h.numbered
            · exact .inl hk
      rcases this with hk | rfl
      · obtain ⟨v, hv⟩ := h.namedCounts n k hk
        exact ⟨v, append_old hv⟩
      · exact ⟨_, List.getElem?_concat_length⟩
    · have : (a.names.getViewcount name).2.next = a.names.next + 1 := by
        unfold Views.getViewcount at hnew ⊢
        cases name with
        | none => rfl
        | some m =>
          dsimp only at hnew ⊢
          cases hm : KV.get? a.names.viewscount m with
          | some o =>
            rw [hm] at hnew
            dsimp only at hnew
            obtain ⟨v, hv⟩ := h.namedCounts m o hm
            rw [hnew, h.numbered, List.getElem?_eq_none (Nat.le_refl _)] at hv
            cases hv
          | none => rfl
      show (a.names.getViewcount name).2.next = _
      rw [this, h.numbered]
      simp
  · refine ⟨a, ?_, h, treeAfter_same hne rfl⟩
    show a.getCount name true = _
    unfold Suite.getCount
    rw [if_neg hnew]

theorem LState.act (hdiff : SetDiff diff) {a : Suite V} (h : LState diff a) (c : SuiteAct V) (hf : SuiteLeftFair Considerate a c) :
    ∃ a', a.act diff c = .ok a' ∧ LState diff a' ∧ TreeAfter a a' c := by
  cases c with
  | edit op => exact h.edit hdiff op hf
  | change x v => exact h.change hdiff x v hf
  | bank c =>
    refine ⟨_, rfl, h.quiet (c := .bank c) hdiff rfl rfl rfl rfl (bank_call _ h.bank c) (fun s hs => ⟨none, hs, fun ft e => by cases e⟩) ?_ ?_,
      treeAfter_same (fun op e => by cases e) rfl⟩
    · intro k ft hk
      refine ⟨?_, trivial⟩
      cases c with
      | add n f p => exact hf k ft hk
      | remove n => exact hf.1 k ft (fun e => by cases e) hk
    · intro k vc hk
      refine ⟨?_, trivial⟩
      cases c with
      | add n f p => trivial
      | remove n => exact hf.2 k vc hk
  | getView name rf =>
    have : rf = true := hf
    subst this
    exact h.getView hdiff name
  | getCount name rf =>
    have : rf = true := hf
    subst this
    exact h.getCount name
  | onView k c => exact h.onView hdiff k c hf
  | onCount k c => exact h.onCount hdiff k c hf

theorem LState.run (hdiff : SetDiff diff) (cs : List (SuiteAct V)) {a : Suite V} (h : LState diff a)
    (hf : SuiteLeftFairRun Considerate diff cs a) : ∃ a', Suite.run diff cs a = .ok a' ∧ LState diff a' := by
  induction cs generalizing a with
  | nil => exact ⟨a, rfl, h⟩
  | cons c cs ih =>
    obtain ⟨b, e, hb, -⟩ := h.act hdiff c hf.1
    have hf2 := hf.2
    rw [e] at hf2
    obtain ⟨a', e', h'⟩ := ih hb hf2
    exact ⟨a', by show (a.act diff c).andThen _ = _; rw [e]; exact e', h'⟩

theorem SuiteLeftFair.weaken {P Q : St → Op → Prop} {a : Suite V} {c : SuiteAct V} (h : ∀ op, c = .edit op → P a.s op → Q a.s op)
    (hf : SuiteLeftFair P a c) : SuiteLeftFair Q a c := by
  cases c with
  | edit op => exact ⟨h op rfl hf.1, hf.2⟩
  | bank c => cases c <;> exact hf
  | onView k c => cases c <;> exact hf
  | onCount k c => cases c <;> exact hf
  | _ => exact hf

theorem newId_suite (hdiff : SetDiff diff) : ∀ (cs : List (SuiteAct V)) {S : Id → Prop} {a : Suite V}, LState diff a → Known S a.s.t →
    (∀ x ∈ addedIds (suiteEdits cs), ¬ S x) → (addedIds (suiteEdits cs)).Nodup → SuiteLeftFairRun Decent diff cs a →
    SuiteLeftFairRun Considerate diff cs a
  | [], _, _, _, _, _, _, _ => trivial
  | c :: cs, S, a, h, hk, hS, hnd, hf => by
    by_cases hq : ∃ op, c = .edit op
    · obtain ⟨op, rfl⟩ := hq
      have e : addedIds (suiteEdits (SuiteAct.edit op :: cs)) = addedId op ++ addedIds (suiteEdits cs) := rfl
      rw [e] at hS hnd
      rw [List.nodup_append] at hnd
      obtain ⟨-, hnd, hdis⟩ := hnd
      have hl : SuiteLeftFair Considerate a (.edit op) :=
        SuiteLeftFair.weaken (fun op' e hp => by
          cases e
          exact hk.considerate hp fun x hx => hS x (List.mem_append_left _ hx)) hf.1
      obtain ⟨a1, e1, h1, ht⟩ := h.act hdiff _ hl
      have hf2 := hf.2
      rw [e1] at hf2
      have hk1 : Known (fun x => S x ∨ x ∈ addedId op) a1.s.t := by rw [ht.1 op rfl]; exact step_known h.good hk op hf.1.1
      refine ⟨hl, ?_⟩
      rw [e1]
      refine newId_suite hdiff cs h1 hk1 ?_ hnd hf2
      rintro x hx (hs | hs)
      · exact hS x (List.mem_append_right _ hx) hs
      · exact hdis x hs x hx rfl
    · have hl : SuiteLeftFair Considerate a c := SuiteLeftFair.weaken (fun op e _ => absurd ⟨op, e⟩ hq) hf.1
      have he : suiteEdits (c :: cs) = suiteEdits cs := by
        cases c with
        | edit op => exact absurd ⟨op, rfl⟩ hq
        | _ => rfl
      rw [he] at hS hnd
      obtain ⟨a1, e1, h1, ht⟩ := h.act hdiff c hl
      have hf2 := hf.2
      rw [e1] at hf2
      refine ⟨hl, ?_⟩
      rw [e1]
      have hk1 : Known S a1.s.t := by rw [ht.2 fun op e => hq ⟨op, e⟩]; exact hk
      exact newId_suite hdiff cs h1 hk1 hS hnd hf2

/-- C76, many views and counters: after every history of considerate edits, changes of data and filters, and requests for views
and counters, the tree, all views and all counters are right, and nothing has raised. -/
theorem C76_suite_partial (hdiff : SetDiff diff) (d : Id → V) (cs : List (SuiteAct V))
    (hf : SuiteLeftFairRun Considerate diff cs (Suite.init d)) :
    ∃ a, Suite.run diff cs (Suite.init d) = .ok a ∧ SuiteSound a := by
  obtain ⟨a, e, h⟩ := (LState.init diff d).run hdiff cs hf
  exact ⟨a, e, h.sound hdiff⟩

/-- The same for an application that never uses an id twice. -/
theorem C76_suite_new_ids_partial (hdiff : SetDiff diff) (d : Id → V) (cs : List (SuiteAct V))
    (hf : SuiteLeftFairRun Decent diff cs (Suite.init d)) (hn : (addedIds (suiteEdits cs)).Nodup) :
    ∃ a, Suite.run diff cs (Suite.init d) = .ok a ∧ SuiteSound a :=
  C76_suite_partial hdiff d cs (newId_suite hdiff cs (LState.init diff d) (Known.init fun _ => False) (fun _ _ h => h) hn hf)

/-! ### A concrete history -/

theorem OwnBank.allOwn {a : Suite V} (h : OwnBank a.bank) : AllOwn a :=
  ⟨fun _ _ _ => OwnBank.applied h, fun _ _ _ n _ f hf => h n f hf⟩

/-- Node 3 has the parents 1 and 2. One view and a counter show even data, another view shows everything. Node 3 is removed, node 4
comes below 2 and 1, the data of 2 become odd, and 4 is removed with everything below. -/
def leftSuiteHistory : List (SuiteAct Nat) :=
  [ .bank (.add (.plain 1) isEven none), .edit (.addNode (.new (.str 1) .none) .none), .edit (.addNode (.new (.str 2) .none) .none),
    .edit (.addNode (.new (.str 3) .none) (.str 1)), .edit (.addParent (.str 3) (.str 2)),
    .getView (some 5) true, .onView 1 (.apply (.plain 1) none false true), .getView (some 6) true, .getCount none true,
    .onCount 3 (.apply (.plain 1) true), .onView 0 (.nNodes []), .edit (.delNode (.str 3) false),
    .edit (.addNode (.new (.str 4) .none) (.str 2)), .edit (.addParent (.str 4) (.str 1)), .edit (.addNode (.new (.str 5) .none) (.str 4)),
    .change (.str 2) 7, .edit (.delNode (.str 4) true) ]

theorem leftSuite_own : OwnBank (Bank.run ({} : Bank (Id → Nat)) [.add (.plain 1) isEven none]) :=
  add_own emptyBank_inv (fun n f h => by cases h) (.add (.plain 1) isEven none) fun n f p e => by cases e; exact isEven_own

theorem leftSuiteHistory_fair : SuiteLeftFairRun Decent someDiff leftSuiteHistory (Suite.init fun _ => 0) := by
  have own : ∀ {a : Suite Nat}, a.bank = Bank.run {} [.add (.plain 1) isEven none] → AllOwn a := fun e => OwnBank.allOwn (e ▸ leftSuite_own)
  have noAdd : ∀ {op : Op}, addedId op = [] → ∀ nd p, op = .addNode nd p → ∀ name, nd.id ≠ rootOf name := by
    intro op h nd p e; subst e; cases h
  have noDel : ∀ {op : Op} {t : Tree}, (∀ x, op ≠ .delNode x true) → ∀ x, op = .delNode x true → ∀ y, Descendant t y x →
      (t.getParents y).length ≤ 3 := fun h x e => absurd e (h x)
  refine ⟨fun k ft hk => ?_, ⟨decent_add (Made.new _ _) (by decide), small_not_root (by decide), noDel (fun x e => nomatch e), own rfl⟩,
    ⟨decent_add (Made.new _ _) (by decide), small_not_root (by decide), noDel (fun x e => nomatch e), own rfl⟩,
    ⟨decent_add (Made.new _ _) (by decide), small_not_root (by decide), noDel (fun x e => nomatch e), own rfl⟩,
    ⟨trivial, noAdd rfl, noDel (fun x e => nomatch e), own rfl⟩,
    rfl, ⟨by decide, rfl, fun h => nomatch h⟩, rfl, rfl, rfl, trivial,
    ⟨?_, noAdd rfl, noDel (fun x e => nomatch e), own rfl⟩,
    ⟨decent_add (Made.new _ _) (by decide), small_not_root (by decide), noDel (fun x e => nomatch e), own rfl⟩,
    ⟨trivial, noAdd rfl, noDel (fun x e => nomatch e), own rfl⟩,
    ⟨decent_add (Made.new _ _) (by decide), small_not_root (by decide), noDel (fun x e => nomatch e), own rfl⟩,
    own rfl, ⟨trivial, noAdd rfl, ?_, own rfl⟩, trivial⟩
  · cases k with
    | zero => cases hk
    | succ k => cases hk
  · show ∀ nd, Tree.node? _ (.str 3) = some nd → _
    intro nd hnd
    cases hnd
    decide
  · intro x h y hy
    cases h
    have := descendants_in [.str 5] (by decide) y hy
    simp only [List.mem_singleton] at this
    subst this
    decide

example : ∃ a, Suite.run someDiff leftSuiteHistory (Suite.init fun _ => 0) = .ok a ∧ SuiteSound a ∧ a.objs.length = 4 ∧
    ((viewAt a 1).map fun ft => ft.view.kids (rootOf (some 5))) = some [.str 1] ∧
    ((viewAt a 2).map fun ft => ft.view.kids (rootOf (some 6))) = some [.str 1, .str 2] ∧
    ((countAt a 3).map (·.nodes)) = some [.str 1] ∧ a.s.t.rawChildren (.str 2) = [.str 3] ∧ a.s.t.has (.str 3) = false := by
  obtain ⟨a, e, h⟩ := C76_suite_new_ids_partial someDiff_ok (fun _ => 0) leftSuiteHistory leftSuiteHistory_fair (by decide)
  refine ⟨a, e, h, ?_⟩
  have : (Suite.run someDiff leftSuiteHistory (Suite.init fun _ => 0)).state = a := by rw [e]; rfl
  rw [← this]
  exact ⟨by decide, by decide, by decide, by decide, by decide, by decide⟩

end Larch
