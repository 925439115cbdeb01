import Verif.Props.ForestWait
import Verif.Props.Suite
import Verif.Props.ViewReading
import Verif.Spec.ForestSuite

/-!
# C83: any number of views of a forest
-/

namespace Larch

open Graph Spec

variable {V : Type} {diff : List Id → List Id → List Id}

/-- An action that leaves the tree alone. -/
def SuiteAct.still : SuiteAct V → Prop
  | .edit _ | .change _ _ | .onView _ .currentState => False
  | _ => True

/-- Then the tree stays, and no view is new except the one asked for. -/
theorem act_still {a a' : Suite V} {c : SuiteAct V} (h : a.act diff c = .ok a') (hc : c.still) :
    a'.s = a.s ∧ ∀ (k : Nat) v, a'.objs[k]? = some (Obj.view v) → (∃ o, a.objs[k]? = some o) ∨
      ∃ name rf ft, c = .getView name rf ∧ FT.new diff a.bank a.s.t a.data (rootOf name) rf = .ok ft ∧ v = VT.ofFT ft ∧
        a'.bank = a.bank ∧ a'.data = a.data := by
  have len : ∀ {l : List Obj}, l.length = a.objs.length → ∀ (k : Nat) v, l[k]? = some (Obj.view v) → ∃ o, a.objs[k]? = some o := by
    intro l hl k v hk
    have : k < a.objs.length := by rw [← hl]; exact (List.getElem?_eq_some_iff.1 hk).1
    exact ⟨_, List.getElem?_eq_getElem this⟩
  cases c with
  | edit op => exact hc.elim
  | change x v => exact hc.elim
  | bank c => cases h; exact ⟨rfl, fun k v hk => .inl ⟨_, hk⟩⟩
  | getView name rf =>
    change a.getView diff name rf = .ok a' at h
    unfold Suite.getView at h
    split at h
    · cases hn : FT.new diff a.bank a.s.t a.data (rootOf name) rf with
      | err e ft => rw [hn] at h; cases h
      | ok ft =>
        rw [hn] at h
        cases h
        refine ⟨rfl, fun k v hk => ?_⟩
        rcases append_some hk with hk | ⟨rfl, ho⟩
        · exact .inl ⟨_, hk⟩
        · cases ho
          exact .inr ⟨name, rf, ft, rfl, hn, rfl, rfl, rfl⟩
    · cases h; exact ⟨rfl, fun k v hk => .inl ⟨_, hk⟩⟩
  | getCount name rf =>
    change a.getCount name rf = .ok a' at h
    unfold Suite.getCount at h
    split at h
    · cases hn : VC.new a.bank a.s.t a.data rf with
      | err e c => rw [hn] at h; cases h
      | ok c =>
        rw [hn] at h
        cases h
        refine ⟨rfl, fun k v hk => ?_⟩
        rcases append_some hk with hk | ⟨rfl, ho⟩
        · exact .inl ⟨_, hk⟩
        · cases ho
    · cases h; exact ⟨rfl, fun k v hk => .inl ⟨_, hk⟩⟩
  | onView j c =>
    change (match a.objs[j]? with
      | some (.view v) => a.callView diff j v c
      | _ => .ok a) = .ok a' at h
    split at h
    · rename_i v hv
      cases c with
      | currentState => exact hc.elim
      | apply n p rs rf =>
        obtain ⟨ft, -, -, h⟩ := filter_call h
        obtain ⟨ft', -, rfl⟩ := putFT_ok h
        exact ⟨rfl, fun k v hk => .inl (len (by simp) k v hk)⟩
      | unapply n rf =>
        obtain ⟨ft, -, -, h⟩ := filter_call h
        obtain ⟨ft', -, rfl⟩ := putFT_ok h
        exact ⟨rfl, fun k v hk => .inl (len (by simp) k v hk)⟩
      | reset rf =>
        obtain ⟨ft, -, -, h⟩ := filter_call h
        obtain ⟨ft', -, rfl⟩ := putFT_ok h
        exact ⟨rfl, fun k v hk => .inl (len (by simp) k v hk)⟩
      | nNodes fs => rw [asked_ok h]; exact ⟨rfl, fun k v hk => .inl (len (by simp) k v hk)⟩
      | getNodes fs => rw [asked_ok h]; exact ⟨rfl, fun k v hk => .inl (len (by simp) k v hk)⟩
      | nChildren x r => rw [asked_ok h]; exact ⟨rfl, fun k v hk => .inl (len (by simp) k v hk)⟩
    · cases h; exact ⟨rfl, fun k v hk => .inl ⟨_, hk⟩⟩
  | onCount j c =>
    change (match a.objs[j]? with
      | some (.count v) => a.callCount j v c
      | _ => .ok a) = .ok a' at h
    split at h
    · cases c <;> (unfold Suite.callCount at h; obtain ⟨vc, -, rfl⟩ := putVC_ok h; exact ⟨rfl, fun k v hk => .inl (len (by simp) k v hk)⟩)
    · cases h; exact ⟨rfl, fun k v hk => .inl ⟨_, hk⟩⟩

/-- What is kept. -/
structure FSState (diff : List Id → List Id → List Id) (fresh : Nat → Bool) (a : Suite V) : Prop where
  all : SState diff (fun _ => false) a
  forest : Forest a.s.t
  views : ∀ (k : Nat) ft, k ≠ 0 → viewAt a k = some ft → FState diff (fresh k) (alone a ft)

theorem FState.any {fresh : Bool} {a : FApp V} (h : FState diff fresh a) : FState diff false a :=
  h.still rfl h.bank rfl rfl rfl fun hc => by cases hc

theorem FSState.any {fresh : Nat → Bool} {a : Suite V} (h : FSState diff fresh a) : FSState diff (fun _ => false) a :=
  ⟨h.all, h.forest, fun k ft hk0 hk => (h.views k ft hk0 hk).any⟩

theorem Forest.few {t : Tree} (hw : WF t) (h : Forest t) (x : Id) : (t.getParents x).length ≤ 3 := by
  have hn : (t.getParents x).Nodup := by rw [hw.getParents_eq]; exact hw.ndP x
  match hl : t.getParents x with
  | [] => simp
  | [_] => simp
  | p :: q :: l =>
    have hp : IsParent t p x := by show p ∈ t.getParents x; rw [hl]; simp
    have hq : IsParent t q x := by show q ∈ t.getParents x; rw [hl]; simp
    rw [hl, h x p q hp hq] at hn
    simp at hn

/-- An edit, perhaps after a change of the data. -/
theorem FSState.edit (hdiff : SetDiff diff) {fresh : Nat → Bool} {a : Suite V} (h : FSState diff fresh a) (d : Id → V) (op : Op)
    (hc : Careful a.s op) (hadd : ∀ nd p, op = .addNode nd p → ∀ name, nd.id ≠ rootOf name) (ho : Forest (step a.s op).state.t)
    (hm : ∀ v, MState diff (aloneMain a v) → ∃ b, (aloneMain { a with data := d } v).edit diff op = .ok b ∧ MState diff b)
    (hco : ∀ k c, countAt a k = some c → CInv (aloneCount a c) → ∃ b, (aloneCount { a with data := d } c).edit op = .ok b ∧ CInv b) :
    ∃ a', ({ a with data := d } : Suite V).edit diff op = .ok a' ∧ SState diff (fun _ => false) a' := by
  have ht := hc.tidy h.all.good h.all.tidy
  obtain ⟨a', e, ha⟩ := h.all.edited (d := d) (a := { a with data := d }) rfl op (step_good h.all.good op (ht.safe h.all.good h.all.tidy))
    (step_noDangling h.all.good h.all.tidy op ht) (fun name => absent_step _ (h.all.roots name) op hc fun nd p e => hadd nd p e name) hm
    (by
      rintro k ft hk0 hk ⟨name, hn⟩ -
      have hF : FState diff false (alone { a with data := d } ft) :=
        (h.views k ft hk0 hk).still rfl h.all.bank rfl rfl rfl fun hc => by cases hc
      obtain ⟨b, eb, hb⟩ := act_fstate hdiff hF (.edit op) ⟨⟨hc, fun nd p e => by
        show nd.id ≠ ft.root
        rw [hn]; exact hadd nd p e name, fun _ _ y _ => Forest.few h.all.good.wf h.forest y⟩, ho⟩
      exact ⟨b, eb, hb.any.wstate hdiff⟩)
    hco
  exact ⟨a', e, ha _ fun _ _ _ _ hc => by cases hc⟩

/-- A view that was there before. -/
theorem FSState.seen (hdiff : SetDiff diff) {fresh : Nat → Bool} {a a' : Suite V} (h : FSState diff fresh a) {c : SuiteAct V}
    (e : a.act diff c = .ok a') {k : Nat} (hk0 : k ≠ 0) {ft' : FT} (hk : viewAt a' k = some ft') (ho : ∃ o, a.objs[k]? = some o)
    (hf : ∀ ft, viewAt a k = some ft → ForestFairRun diff (seenByView a k c) (alone a ft)) :
    FState diff (forestNext diff fresh a c k) (alone a' ft') := by
  obtain ⟨o, ho⟩ := ho
  obtain ⟨s', hs'⟩ := viewAt_some hk
  cases o with
  | count vc =>
    obtain ⟨c', h1, -⟩ := act_count e ho
    rw [hs'] at h1; cases h1
  | view v1 =>
    obtain ⟨hst, ft, hft, -, -⟩ := h.all.views k v1 hk0 ho
    obtain ⟨s, f⟩ := v1
    dsimp only at hst hft
    subst hst hft
    obtain ⟨ft1, h1, h2⟩ := act_view e ho
    rw [hs'] at h1
    cases h1
    have hv := viewAt_of ho
    obtain ⟨b, eb, hb⟩ := run_fstate hdiff _ _ _ (h.views k ft hk0 hv) (hf ft hv)
    rw [h2] at eb
    cases eb
    unfold forestNext
    rw [hv]
    exact hb

/-- Touching nodes keeps the tree. -/
theorem forestFair_refresh (l : List Id) {a : FApp V} (h : Forest a.s.t) :
    ForestFairRun diff (l.map fun x => FAct.edit (.refreshNode x)) a := by
  induction l generalizing a with
  | nil => trivial
  | cons x l ih =>
    have ht : (a.act diff (.edit (.refreshNode x))).state.s.t = a.s.t := by
      show (a.edit diff (.refreshNode x)).state.s.t = a.s.t
      unfold FApp.edit FApp.withFT
      dsimp only
      split <;> exact refreshed_tree _ _
    refine ⟨⟨⟨trivial, fun _ _ e => (by cases e), fun _ e => (by cases e)⟩, ?_⟩, ih (by rw [ht]; exact h)⟩
    rw [refreshed_tree]; exact h

theorem CountersFollow.kept {a a' : Suite V} (h : CountersFollow a) {x : Id} (e : a.edit diff (.refreshNode x) = .ok a') :
    CountersFollow a' := by
  obtain ⟨e1, -, e3, -, e5⟩ := suite_edit_ok e
  intro k c' hk
  obtain ⟨o, ho, -⟩ := forall₂_at' e5 k (countAt_some hk)
  cases o with
  | view v =>
    obtain ⟨s', f⟩ := v
    cases f with
    | none =>
      have := edit_quiet e ho
      rw [countAt_some hk] at this; cases this
    | some ft =>
      obtain ⟨ft1, h1, -⟩ := edit_view e ho
      rw [countAt_some hk] at h1; cases h1
  | count c =>
    obtain ⟨c1, h1, h2⟩ := edit_count e ho
    rw [countAt_some hk] at h1
    cases h1
    have ha := countApplied_of_edit h2
    have := h k c (countAt_of ho)
    unfold OwnUsed ChildrenUsed aloneCount at this ⊢
    dsimp only at this ⊢
    rw [ha, e3]
    exact this

theorem FSState.kinds {a a' : Suite V} (hl : a'.objs.length = a.objs.length) {k : Nat} {ft : FT} (hk : viewAt a' k = some ft) :
    ∃ o, a.objs[k]? = some o := by
  obtain ⟨s, hs⟩ := viewAt_some hk
  have : k < a.objs.length := by rw [← hl]; exact (List.getElem?_eq_some_iff.1 hs).1
  exact ⟨_, List.getElem?_eq_getElem this⟩

theorem FSState.plainEdit (hdiff : SetDiff diff) {fresh : Nat → Bool} {a : Suite V} (h : FSState diff fresh a) (op : Op)
    (hc : Careful a.s op) (hadd : ∀ nd p, op = .addNode nd p → ∀ name, nd.id ≠ rootOf name) (ho : Forest (step a.s op).state.t)
    (hco : ∀ k c, countAt a k = some c → CountFollows (aloneCount a c) op) :
    ∃ a', a.edit diff op = .ok a' ∧ FSState diff (forestNext diff fresh a (.edit op)) a' := by
  obtain ⟨a', e, ha⟩ := h.edit hdiff a.data op hc hadd ho
    (fun v hm => hm.edit hdiff op ⟨hc, fun nd p e => hadd nd p e none, fun _ _ _ y _ => Forest.few h.all.good.wf h.forest y⟩)
    (fun k c hk hci => countEdit_follows _ hci h.all.good h.all.tidy op hc (hco k c hk))
  have e : a.edit diff op = .ok a' := e
  refine ⟨a', e, ha, by rw [(suite_edit_ok e).1]; exact ho, fun k ft' hk0 hk => ?_⟩
  refine h.seen (c := .edit op) hdiff e hk0 hk (FSState.kinds (edit_kinds e) hk) fun ft hv => ⟨⟨⟨hc, fun nd p e => ?_, fun _ _ y _ => Forest.few h.all.good.wf h.forest y⟩, ho⟩, trivial⟩
  obtain ⟨s, hs⟩ := viewAt_some hv
  obtain ⟨-, ft1, e1, ⟨name, hn⟩, -⟩ := h.all.views k _ hk0 hs
  cases e1
  show nd.id ≠ ft.root
  rw [hn]; exact hadd nd p e name

theorem FSState.refreshAll (hdiff : SetDiff diff) (l : List Id) {a : Suite V} (h : FSState diff (fun _ => false) a) (hco : CountersFollow a) :
    ∃ a', Res.forEach (fun x (w : Suite V) => w.edit diff (.refreshNode x)) l a = .ok a' ∧ FSState diff (fun _ => false) a' ∧
      a'.objs.length = a.objs.length := by
  induction l generalizing a with
  | nil => exact ⟨a, rfl, h, rfl⟩
  | cons x l ih =>
    obtain ⟨b, e, hb⟩ := h.plainEdit hdiff (.refreshNode x) trivial (fun _ _ e => by cases e) (by rw [refreshed_tree]; exact h.forest)
      (fun k c hk => by
        rcases hco k c hk with h | h
        · exact .inl h
        · exact .inr ⟨h, fun _ _ e => by cases e⟩)
    obtain ⟨a', e', h', hl⟩ := ih hb.any (CountersFollow.kept hco e)
    refine ⟨a', ?_, h', hl.trans (edit_kinds e)⟩
    unfold Res.forEach
    rw [e]
    exact e'

theorem FSState.act (hdiff : SetDiff diff) {fresh : Nat → Bool} {a : Suite V} (h : FSState diff fresh a) (c : SuiteAct V)
    (hf : ForestSuiteFair a c) : ∃ a', a.act diff c = .ok a' ∧ FSState diff (forestNext diff fresh a c) a' := by
  -- what leaves the tree alone
  have still : SuiteFair (fun _ => false) a c → c.still →
      (∀ k ft, k ≠ 0 → viewAt a k = some ft → ForestFairRun diff (seenByView a k c) (alone a ft)) →
      ∃ a', a.act diff c = .ok a' ∧ FSState diff (forestNext diff fresh a c) a' := by
    intro hf hs hr
    obtain ⟨a', e, ha⟩ := h.all.act hdiff c hf
    obtain ⟨es, en⟩ := act_still e hs
    refine ⟨a', e, { ha with views := fun k v hk0 hk => ?_ }, by rw [es]; exact h.forest, fun k ft' hk0 hk => ?_⟩
    · obtain ⟨h1, ft, h2, h3, h4⟩ := ha.views k v hk0 hk
      exact ⟨h1, ft, h2, h3, h4.weaken fun hc => by cases hc⟩
    · obtain ⟨s', hs'⟩ := viewAt_some hk
      by_cases hold : ∃ o, a.objs[k]? = some o
      · exact h.seen hdiff e hk0 hk hold fun ft hv => hr k ft hk0 hv
      · obtain ⟨name, rf, ft, rfl, hn, hv, eb, ed⟩ := (en k _ hs').resolve_left hold
        cases hv
        have hno : viewAt a k = none := by
          unfold viewAt
          cases ho : a.objs[k]? with
          | none => rfl
          | some o => exact absurd ⟨o, ho⟩ hold
        have : forestNext diff fresh a (.getView name rf) k = rf := by
          unfold forestNext
          rw [hno]
        rw [this]
        have hfs : FState diff rf ⟨a.s, a.data, a.bank, ft'⟩ := by
          cases rf with
          | true =>
            obtain ⟨ft1, e1, hv⟩ := new_vstate hdiff h.all.good h.all.tidy a.data a.bank h.all.bank (rootOf name) (h.all.roots name)
            rw [hn] at e1
            cases e1
            exact hv.fstate hdiff h.forest _
          | false =>
            have := (unfilled_bstate h.all.good h.all.tidy a.data a.bank h.all.bank (rootOf name) (h.all.roots name) hdiff).fstate hdiff h.forest
            cases hn
            exact this
        unfold alone
        rw [es, ed, eb]
        exact hfs
  cases c with
  | edit op =>
    obtain ⟨h1, h2, h3, h4⟩ := hf
    exact h.plainEdit hdiff op h1 h2 h3 h4
  | change x v =>
    obtain ⟨a', e, ha⟩ := h.edit hdiff (fun y => if y = x then v else a.data y) (.refreshNode x) trivial (fun _ _ e => by cases e)
      (by rw [refreshed_tree]; exact h.forest) (fun w hm => hm.change hdiff x v)
      (fun k c hk hci => change_inv (aloneCount a c) hci x v (fun hx => (h.all.good.wf.ids x hx).2)
        ((hf k c hk).imp id fun hu => ⟨h.all.good.wf, hu⟩))
    refine ⟨a', e, ha, by rw [(suite_edit_ok e).1]; show Forest (step a.s _).state.t; rw [refreshed_tree]; exact h.forest, fun k ft' hk0 hk => ?_⟩
    exact h.seen (c := .change x v) hdiff e hk0 hk (FSState.kinds (a := { a with data := fun y => if y = x then v else a.data y }) (edit_kinds e) hk) fun ft hv => ⟨trivial, trivial⟩
  | bank c => exact still hf trivial fun k ft _ _ => ⟨trivial, trivial⟩
  | getView name rf => exact still hf trivial fun k ft _ _ => trivial
  | getCount name rf => exact still hf trivial fun k ft _ _ => trivial
  | onCount j c => exact still hf trivial fun k ft _ _ => trivial
  | onView j c =>
    have hsee : ∀ k c, (∀ v, a.objs[j]? ≠ some (Obj.view v)) → seenByView a k (.onView j c) = [] := by
      intro k c hno
      unfold seenByView
      dsimp only
      cases hj : a.objs[j]? with
      | none => rfl
      | some o =>
        cases o with
        | count c => rfl
        | view v => exact absurd hj (hno v)
    cases c with
    | currentState =>
      obtain ⟨rfl, hco⟩ := hf
      obtain ⟨w, hw, hm⟩ := h.all.main
      obtain ⟨a', e, ha, hl⟩ := h.any.refreshAll hdiff a.s.t.nodes.keys hco
      have e1 : a.act diff (.onView 0 .currentState) = .ok a' := by
        show (match a.objs[0]? with
          | some (.view v) => a.callView diff 0 v .currentState
          | _ => .ok a) = _
        rw [hw]
        show a.callView diff 0 w .currentState = _
        unfold Suite.callView
        dsimp only
        rw [if_pos (show w.static = true from hm.static)]
        exact e
      refine ⟨a', e1, ha.all, ha.forest, fun k ft' hk0 hk => ?_⟩
      refine h.seen hdiff e1 hk0 hk (FSState.kinds hl hk) fun ft hv => ?_
      have : seenByView a k (.onView 0 .currentState) = a.s.t.nodes.keys.map fun x => FAct.edit (.refreshNode x) := by
        unfold seenByView
        dsimp only
        rw [hw]
        dsimp only
        rw [if_pos (show w.static = true from hm.static)]
      rw [this]
      exact forestFair_refresh _ h.forest
    | apply n p rs rf =>
      refine still hf trivial fun k ft hk0 hk => ?_
      by_cases hv : ∃ v, a.objs[j]? = some (Obj.view v)
      · obtain ⟨v, hv⟩ := hv
        unfold seenByView
        dsimp only
        rw [hv]
        dsimp only
        split
        · exact ⟨fun hg => (hf.2 hg).1, trivial⟩
        · rcases paramsGiven_cases n p with e | ⟨-, q, e⟩
          · rw [e]; trivial
          · rw [e]; exact ⟨trivial, trivial⟩
      · rw [hsee k _ fun v hc => hv ⟨v, hc⟩]; trivial
    | unapply n rf =>
      refine still hf trivial fun k ft hk0 hk => ?_
      unfold seenByView
      dsimp only
      split
      · split
        · exact ⟨trivial, trivial⟩
        · trivial
      · trivial
    | reset rf =>
      refine still hf trivial fun k ft hk0 hk => ?_
      unfold seenByView
      dsimp only
      split
      · split
        · exact ⟨trivial, trivial⟩
        · trivial
      · trivial
    | nNodes fs =>
      refine still hf trivial fun k ft hk0 hk => ?_
      unfold seenByView
      dsimp only
      split <;> trivial
    | getNodes fs =>
      refine still hf trivial fun k ft hk0 hk => ?_
      unfold seenByView
      dsimp only
      split <;> trivial
    | nChildren x r =>
      refine still hf trivial fun k ft hk0 hk => ?_
      unfold seenByView
      dsimp only
      split <;> trivial

theorem FSState.run (hdiff : SetDiff diff) (cs : List (SuiteAct V)) {fresh : Nat → Bool} {a : Suite V} (h : FSState diff fresh a)
    (hf : ForestSuiteFairRun diff cs a) :
    ∃ a', Suite.run diff cs a = .ok a' ∧ FSState diff (forestEnd diff fresh cs a) a' := by
  induction cs generalizing a fresh with
  | nil => exact ⟨a, rfl, h⟩
  | cons c cs ih =>
    obtain ⟨b, e, hb⟩ := h.act hdiff c hf.1
    have hf2 := hf.2
    rw [e] at hf2
    obtain ⟨a', e', h'⟩ := ih hb hf2
    refine ⟨a', ?_, ?_⟩
    · show (a.act diff c).andThen _ = _
      rw [e]; exact e'
    · show FSState diff (forestEnd diff (forestNext diff fresh a c) cs (a.act diff c).state) a'
      rw [e]; exact h'

theorem FSState.init (diff : List Id → List Id → List Id) (fresh : Nat → Bool) (d : Id → V) : FSState diff fresh (Suite.init d) :=
  ⟨SState.init diff _ d, fun x p q hp _ => (by cases hp), fun k ft hk0 hk => by
    obtain ⟨s, hs⟩ := viewAt_some hk
    cases k with
    | zero => exact absurd rfl hk0
    | succ k => cases hs⟩

theorem FSState.sstate (hdiff : SetDiff diff) {fresh : Nat → Bool} {a : Suite V} (h : FSState diff fresh a) : SState diff fresh a :=
  { h.all with
    views := fun k v hk0 hk => by
      obtain ⟨h1, ft, h2, h3, -⟩ := h.all.views k v hk0 hk
      exact ⟨h1, ft, h2, h3, (h.views k ft hk0 (by unfold viewAt; rw [hk]; exact h2)).wstate hdiff⟩ }

/-- C83: as long as no node has two parents, no action of an application with any number of views and counters fails, whatever
the views' filters look at and however long the views are out of date. The main view and the counters are right, every view holds together
and its observers have exactly its rows, and every view that is up to date shows exactly the wanted nodes in the right shape. -/
theorem C83_all_right (hdiff : SetDiff diff) (d : Id → V) (cs : List (SuiteAct V)) (hf : ForestSuiteFairRun diff cs (Suite.init d)) :
    ∃ a, Suite.run diff cs (Suite.init d) = .ok a ∧ SuiteRight diff (forestEnd diff (fun _ => true) cs (Suite.init d)) a ∧
      ∀ (k : Nat) ft, k ≠ 0 → viewAt a k = some ft → HoldsTogether (alone a ft) := by
  obtain ⟨a, e, h⟩ := (FSState.init diff (fun _ => true) d).run hdiff cs hf
  exact ⟨a, e, (h.sstate hdiff).suiteRight hdiff, fun k ft hk0 hk => (h.views k ft hk0 hk).holds⟩

/-- C83: whenever one of the views is refreshed by resetting its filters, it shows exactly the wanted nodes in the right shape, though
it may have missed any number of changes; the others hold together as before. -/
theorem C83_refreshed (hdiff : SetDiff diff) (d : Id → V) (cs : List (SuiteAct V)) (hf : ForestSuiteFairRun diff cs (Suite.init d)) :
    ∃ a, Suite.run diff cs (Suite.init d) = .ok a ∧ ∀ (k : Nat) ft, k ≠ 0 → viewAt a k = some ft →
      ∃ a' ft', a.act diff (.onView k (.reset true)) = .ok a' ∧ viewAt a' k = some ft' ∧ ft'.applied = [] ∧
        ShowsExactly (alone a' ft') ∧ RightShape (alone a' ft') ∧ ObserverAgrees (alone a' ft') ∧
        ∀ (j : Nat) gt, j ≠ 0 → viewAt a' j = some gt → HoldsTogether (alone a' gt) := by
  obtain ⟨a, e, h⟩ := (FSState.init diff (fun _ => true) d).run hdiff cs hf
  refine ⟨a, e, fun k ft hk0 hk => ?_⟩
  obtain ⟨a', e', h'⟩ := h.act hdiff (.onView k (.reset true)) hk0
  obtain ⟨s, hs⟩ := viewAt_some hk
  obtain ⟨hst, -⟩ := h.all.views k _ hk0 hs
  dsimp only at hst
  subst hst
  obtain ⟨ft', h1, h2⟩ := act_view e' hs
  have hsee : seenByView a k (.onView k (.reset true)) = [FAct.reset true] := by
    unfold seenByView
    dsimp only
    rw [hs]
    dsimp only
    rw [if_pos (by simp)]
  have hfr : forestNext diff (forestEnd diff (fun _ => true) cs (Suite.init d)) a (.onView k (.reset true)) k = true := by
    unfold forestNext
    rw [hk]
    dsimp only
    rw [hsee]
    rfl
  have hF := h'.views k ft' hk0 (viewAt_of h1)
  have hr := hF.right hfr
  refine ⟨a', ft', e', viewAt_of h1, ?_, hr.rebuilt.showsExactly, hr.rebuilt.rightShape, (hF.wstate hdiff).observerAgrees,
    fun j gt hj0 hj => (h'.views j gt hj0 hj).holds⟩
  rw [hsee] at h2
  have hz := (C29_reset hdiff (alone a ft) true).1
  have hrun : FApp.run diff [.reset true] (alone a ft) = ((alone a ft).act diff (.reset true)).andThen fun b => .ok b := rfl
  rw [hrun] at h2
  cases hact : (alone a ft).act diff (.reset true) with
  | err er b => rw [hact] at h2; cases h2
  | ok b =>
    rw [hact] at h2 hz
    cases h2
    exact hz

/-- No counter has filters. -/
def countersBare (a : Suite V) : Bool := a.objs.all fun o => match o with
  | .count c => c.applied.isEmpty
  | .view _ => true

theorem countersBare_own {a : Suite V} (h : countersBare a = true) {k : Nat} {c : VC} (hk : countAt a k = some c) : OwnUsed (aloneCount a c) := by
  have := List.all_eq_true.1 h _ (List.mem_of_getElem? (countAt_some hk))
  have : c.applied = [] := List.isEmpty_iff.1 this
  intro n hn
  have hn : n ∈ c.applied := hn
  rw [this] at hn
  cases hn

/-- Two views, the first of which is not filled; a counter; a filter that looks at the parents. While view 1 waits, 2 gets the parent 3,
data change, and 1 is removed with everything below it. -/
def forestSuite : List (SuiteAct Nat) :=
  [ .bank (.add (.plain 1) parentEven none), .edit (.addNode (.new (.str 1) .none) .none), .edit (.addNode (.new (.str 2) .none) (.str 1)),
    .edit (.addNode (.new (.str 3) .none) .none), .getView (some 5) false, .getView (some 6) true, .getCount none true,
    .onView 2 (.apply (.plain 1) none false true), .change (.str 1) 7, .edit (.setParent (.str 2) (.str 3)), .onView 0 .currentState,
    .edit (.addNode (.new (.str 4) .none) (.str 2)), .edit (.delNode (.str 1) true), .change (.str 3) 9, .onView 2 (.reset true) ]

theorem forestSuite_fair : ForestSuiteFairRun someDiff forestSuite (Suite.init fun _ => 0) := by
  refine ⟨trivial, ⟨careful_add (Made.new _ _) (by decide), small_not_root (by decide), forest_keys (by decide), fun _ _ hk => .inl (countersBare_own (by decide) hk)⟩,
    ⟨careful_add (Made.new _ _) (by decide), small_not_root (by decide), forest_keys (by decide), fun _ _ hk => .inl (countersBare_own (by decide) hk)⟩,
    ⟨careful_add (Made.new _ _) (by decide), small_not_root (by decide), forest_keys (by decide), fun _ _ hk => .inl (countersBare_own (by decide) hk)⟩,
    trivial, trivial, rfl, ⟨by decide, fun h => (by cases h)⟩, fun _ _ hk => .inl (countersBare_own (by decide) hk),
    ⟨trivial, fun _ _ e => (by cases e), forest_keys (by decide), fun _ _ hk => .inl (countersBare_own (by decide) hk)⟩,
    ⟨rfl, fun _ _ hk => .inl (countersBare_own (by decide) hk)⟩,
    ⟨careful_add (Made.new _ _) (by decide), small_not_root (by decide), forest_keys (by decide), fun _ _ hk => .inl (countersBare_own (by decide) hk)⟩,
    ⟨⟨by decide, fun y hy => ?_⟩, fun _ _ e => (by cases e), forest_keys (by decide), fun _ _ hk => .inl (countersBare_own (by decide) hk)⟩,
    fun _ _ hk => .inl (countersBare_own (by decide) hk), (by decide : (2 : Nat) ≠ 0), trivial⟩
  have := descendants_in [] (by decide) y hy
  cases this

/-- The concrete case: view 1, which was never refreshed, shows 2 below 3, because it heard of that edit; view 2 shows 2 though the
filter rejects it since the data of its parent 3 changed; then it is reset. -/
example : ∃ a, Suite.run someDiff forestSuite (Suite.init fun _ => 0) = .ok a ∧
    SuiteRight someDiff (forestEnd someDiff (fun _ => true) forestSuite (Suite.init fun _ => 0)) a ∧
    forestEnd someDiff (fun _ => true) forestSuite (Suite.init fun _ => 0) 2 = true ∧
    ((viewAt a 1).map fun ft => (ft.view.kids (rootOf (some 5)), ft.view.kids (.str 3))) = some ([.str 3], [.str 2]) ∧
    ((viewAt a 2).map fun ft => ft.view.kids (.str 2)) = some [.str 4] := by
  obtain ⟨a, e, h, -⟩ := C83_all_right someDiff_ok (fun _ => 0) forestSuite forestSuite_fair
  refine ⟨a, e, h, rfl, ?_⟩
  have : (Suite.run someDiff forestSuite (Suite.init fun _ => 0)).state = a := by rw [e]; rfl
  rw [← this]
  decide

example : ((viewAt (Suite.run someDiff (forestSuite.take 14) (Suite.init fun _ => 0)).state 2).map fun ft =>
      (ft.view.has (.str 2), FT.accepts (Suite.run someDiff (forestSuite.take 14) (Suite.init fun _ => 0)).state.bank
        (Suite.run someDiff (forestSuite.take 14) (Suite.init fun _ => 0)).state.s.t
        (Suite.run someDiff (forestSuite.take 14) (Suite.init fun _ => 0)).state.data ft.applied (.str 2))) = some (true, false) := by
  decide

/-- After 14 actions view 1 is refreshed for the first time. -/
example : ∃ a, Suite.run someDiff (forestSuite.take 14) (Suite.init fun _ => 0) = .ok a ∧ ∃ ft a' ft', viewAt a 1 = some ft ∧
    a.act someDiff (.onView 1 (.reset true)) = .ok a' ∧ viewAt a' 1 = some ft' ∧ ShowsExactly (alone a' ft') := by
  obtain ⟨h1, h2, h3, h4, h5, h6, h7, h8, h9, h10, h11, h12, h13, h14, -⟩ := forestSuite_fair
  obtain ⟨a, e, h⟩ := C83_refreshed someDiff_ok (fun _ => 0) (forestSuite.take 14)
    ⟨h1, h2, h3, h4, h5, h6, h7, h8, h9, h10, h11, h12, h13, h14, trivial⟩
  have ha : (Suite.run someDiff (forestSuite.take 14) (Suite.init fun _ => 0)).state = a := by rw [e]; rfl
  have hv : (viewAt a 1).isSome = true := by rw [← ha]; decide
  obtain ⟨ft, hft⟩ := Option.isSome_iff_exists.1 hv
  obtain ⟨a', ft', e', hk, -, hs, -⟩ := h 1 ft (by decide) hft
  exact ⟨a, e, ft, a', ft', hft, e', hk, hs⟩

end Larch
