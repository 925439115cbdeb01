import Verif.Spec.ViewTree
import Verif.Props.ViewReading
import Verif.Props.Reading

/-!
# C39: the main view agrees with the tree
-/

namespace Larch

open Graph Spec

variable {V : Type} {diff : List Id → List Id → List Id}

/-- The `FilteredTree` of the main view, if there is one, is right. -/
structure MState (diff : List Id → List Id → List Id) (a : MApp V) : Prop where
  static : a.vt.static = true
  good : Good a.s.t
  tidy : NoDangling a.s.t
  rootFree : a.s.t.has anonRoot = false
  ft : ∀ ft, a.vt.ft = some ft → ft.applied = [] ∧ ft.root = anonRoot ∧ VState diff ⟨a.s, a.data, {}, ft⟩

theorem emptyBank_inv : BankInv ({} : Bank (Id → V)) := ⟨rfl, by simp [KV.keys]⟩

theorem emptyBank_own : OwnBank ({} : Bank (Id → V)) := fun n f hf => by cases hf

/-! ### Without filters the bank does not matter -/

theorem react_bank (b b' : Bank (Id → V)) (d : Id → V) (n : Note) (ft : FT) (h : ft.applied = []) :
    FT.react diff b d n ft = FT.react diff b' d n ft := by
  have : FT.env diff b n.snap d ft = FT.env diff b' n.snap d ft := by
    unfold FT.env; rw [h]; rfl
  unfold FT.react; rw [this]

theorem withView_fields (ft : FT) (r : Res View) : (ft.withView r).state.applied = ft.applied ∧ (ft.withView r).state.root = ft.root := by
  cases r <;> exact ⟨rfl, rfl⟩

theorem react_fields (b : Bank (Id → V)) (d : Id → V) (n : Note) (ft : FT) :
    (FT.react diff b d n ft).state.applied = ft.applied ∧ (FT.react diff b d n ft).state.root = ft.root := by
  unfold FT.react; exact withView_fields _ _

theorem forEach_congr {σ α : Type} {f g : α → σ → Res σ} (P : σ → Prop) (hfg : ∀ a s, P s → f a s = g a s)
    (hP : ∀ a s, P s → P (g a s).state) (l : List α) (s : σ) (h : P s) : Res.forEach f l s = Res.forEach g l s := by
  induction l generalizing s with
  | nil => rfl
  | cons a l ih =>
    have h2 := hP a s h
    unfold Res.forEach
    rw [hfg a s h]
    cases e : g a s with
    | err e' s' => rfl
    | ok s' => rw [e] at h2; exact ih s' h2

theorem reactAll_bank (b b' : Bank (Id → V)) (d : Id → V) (l : List Note) (ft : FT) (h : ft.applied = []) :
    Res.forEach (FT.react diff b d) l ft = Res.forEach (FT.react diff b' d) l ft :=
  forEach_congr (fun ft => ft.applied = []) (fun n ft h => react_bank b b' d n ft h)
    (fun n ft h => (react_fields b' d n ft).1.trans h) l ft h

theorem reactAll_fields (b : Bank (Id → V)) (d : Id → V) (l : List Note) (ft : FT) :
    (Res.forEach (FT.react diff b d) l ft).state.applied = ft.applied ∧ (Res.forEach (FT.react diff b d) l ft).state.root = ft.root := by
  induction l generalizing ft with
  | nil => exact ⟨rfl, rfl⟩
  | cons n l ih =>
    unfold Res.forEach
    have hf := react_fields (diff := diff) b d n ft
    cases e : FT.react diff b d n ft with
    | err e' s => rw [e] at hf; exact hf
    | ok s => rw [e] at hf; exact ⟨(ih s).1.trans hf.1, (ih s).2.trans hf.2⟩

theorem new_fields (b : Bank (Id → V)) (t : Tree) (d : Id → V) (root : Id) (ft : FT) (e : FT.new diff b t d root true = .ok ft) :
    ft.applied = [] ∧ ft.root = root := by
  have h2 : ∀ r : Res View, FT.withView { root := root, flat := FT.anyFlat b [], view := ⟨View.rootOnly root, []⟩ } r = .ok ft →
      ft.applied = [] ∧ ft.root = root := by
    intro r hr
    cases r with
    | ok v => cases hr; exact ⟨rfl, rfl⟩
    | err e v => cases hr
  exact h2 _ e

theorem MState.ensure (hdiff : SetDiff diff) {a : MApp V} (h : MState diff a) :
    ∃ ft, a.vt.ensure diff a.bank a.s.t a.data = .ok ft ∧ ft.applied = [] ∧ ft.root = anonRoot ∧
      VState diff ⟨a.s, a.data, {}, ft⟩ := by
  unfold VT.ensure
  cases hft : a.vt.ft with
  | some ft => exact ⟨ft, rfl, h.ft ft hft⟩
  | none =>
    obtain ⟨ft, e, hv⟩ := new_vstate hdiff h.good h.tidy a.data {} emptyBank_inv anonRoot h.rootFree
    have e' : FT.new diff a.bank a.s.t a.data anonRoot true = .ok ft := e
    have hf := new_fields _ _ _ _ _ e
    exact ⟨ft, e', hf.1, hf.2, hv⟩

/-! ### Histories -/

theorem MState.init (diff : List Id → List Id → List Id) (d : Id → V) : MState diff (MApp.init d) :=
  ⟨rfl, init_good, init_noDangling, rfl, fun ft h => by cases h⟩

theorem absent_keeps (r : Id) : Keeps (fun s => s.t.has r = false) where
  nodes := fun {s s'} h hn _ => by unfold Tree.has at *; rw [hn]; exact h
  create := fun {s p c t'} h hc _ => by rw [← h]; exact (Tree.create_eq_some hc).2.2.has r
  destroy := fun {s p c t'} h hc => by rw [← h]; exact (Tree.destroy_eq_some hc).2.2.has r
  eraseParent := fun h _ _ => (Tree.has_updNode _ _ _ _).trans h
  appendChild := fun h _ _ _ => (Tree.has_updNode _ _ _ _).trans h
  setParentsEnabled := fun h _ _ => (Tree.has_updNode _ _ _ _).trans h
  setChildrenEnabled := fun h _ _ => (Tree.has_updNode _ _ _ _).trans h
  modified := fun h _ _ => h

/-- Only `add_node` makes a node appear. -/
theorem absent_step {s : St} (r : Id) (hr : s.t.has r = false) (op : Op) (hc : Careful s op)
    (ha : ∀ nd p, op = .addNode nd p → nd.id ≠ r) : (step s op).state.t.has r = false := by
  by_cases hl : op.isLocal = true
  · exact step_keeps (absent_keeps r) s op hl hr
  · cases op with
    | addNode nd p =>
      show (addNode s nd p).state.t.has r = false
      by_cases hx : s.t.has nd.id = true
      · rw [addNode_existing hx]; exact hr
      · have hok := (hc.2.resolve_left hx).2.2.2
        cases hres : addNode s nd p with
        | err e s' => rw [hres] at hok; cases hok
        | ok s' =>
          obtain ⟨t', rfl, ht⟩ := addNode_ok (by simpa using hx) hres
          show t'.has r = false
          rw [ht, hr]
          simpa using (ha nd p rfl).symm
    | delNode x rec =>
      refine removeNode_keeps (absent_keeps r).cuts (fun s' x h _ => ?_) _ s x rec hr
      show Tree.has { s'.t with nodes := s'.t.nodes.del x } r = false
      unfold Tree.has at *
      rw [Dict.has_del, h]; simp
    | _ => exact absurd rfl hl

theorem MState.edit (hdiff : SetDiff diff) {a : MApp V} (h : MState diff a) (op : Op) (hf : MainFair a (.edit op)) :
    ∃ a', a.edit diff op = .ok a' ∧ MState diff a' := by
  obtain ⟨hc, hadd, hdel⟩ := hf
  have ht := hc.tidy h.good h.tidy
  have hg := step_good h.good op (ht.safe h.good h.tidy)
  have hnd := step_noDangling h.good h.tidy op ht
  have hroot := absent_step anonRoot h.rootFree op hc hadd
  unfold MApp.edit
  dsimp only
  cases hft : a.vt.ft with
  | none => exact ⟨_, rfl, h.static, hg, hnd, hroot, fun ft e => by rw [hft] at e; cases e⟩
  | some ft =>
    obtain ⟨h1, h2, hv⟩ := h.ft ft hft
    obtain ⟨a', e, hv'⟩ := edit_vstate hdiff hv op ⟨⟨hc, fun nd p ho => by rw [h2]; exact hadd nd p ho, hdel (by rw [hft]; rfl)⟩, .inl emptyBank_own.applied⟩
    have hfl := reactAll_fields (diff := diff) ({} : Bank (Id → V)) a.data ((step a.s op).state.log.drop a.s.log.length) ft
    dsimp only
    rw [reactAll_bank a.bank {} a.data _ ft h1]
    unfold FApp.edit FApp.withFT at e
    dsimp only at e ⊢
    cases er : Res.forEach (FT.react diff ({} : Bank (Id → V)) a.data) ((step a.s op).state.log.drop a.s.log.length) ft with
    | err e' ft' => rw [er] at e; cases e
    | ok ft' =>
      rw [er] at e hfl
      cases e
      exact ⟨_, rfl, h.static, hg, hnd, hroot, fun ft2 e2 => by cases e2; exact ⟨hfl.1.trans h1, hfl.2.trans h2, hv'⟩⟩

theorem MState.change (hdiff : SetDiff diff) {a : MApp V} (h : MState diff a) (x : Id) (v : V) :
    ∃ a', a.act diff (.change x v) = .ok a' ∧ MState diff a' := by
  have hc : Careful a.s (.refreshNode x) := trivial
  have ht := hc.tidy h.good h.tidy
  have hg := step_good h.good (.refreshNode x) (ht.safe h.good h.tidy)
  have hnd := step_noDangling h.good h.tidy (.refreshNode x) ht
  have hroot := absent_step anonRoot h.rootFree (.refreshNode x) hc (fun _ _ ho => by cases ho)
  show ∃ a', MApp.edit diff _ _ = _ ∧ _
  unfold MApp.edit
  dsimp only
  cases hft : a.vt.ft with
  | none => exact ⟨_, rfl, h.static, hg, hnd, hroot, fun ft e => by rw [hft] at e; cases e⟩
  | some ft =>
    obtain ⟨h1, h2, hv⟩ := h.ft ft hft
    obtain ⟨a', e, hv'⟩ := change_vstate hdiff hv x v (.inl emptyBank_own.applied)
    have hfl := reactAll_fields (diff := diff) ({} : Bank (Id → V)) (fun y => if y = x then v else a.data y)
      ((step a.s (.refreshNode x)).state.log.drop a.s.log.length) ft
    dsimp only
    rw [reactAll_bank a.bank {} _ _ ft h1]
    change FApp.edit diff _ _ = _ at e
    unfold FApp.edit FApp.withFT at e
    dsimp only at e ⊢
    cases er : Res.forEach (FT.react diff ({} : Bank (Id → V)) (fun y => if y = x then v else a.data y))
        ((step a.s (.refreshNode x)).state.log.drop a.s.log.length) ft with
    | err e' ft' => rw [er] at e; cases e
    | ok ft' =>
      rw [er] at e hfl
      cases e
      exact ⟨_, rfl, h.static, hg, hnd, hroot, fun ft2 e2 => by cases e2; exact ⟨hfl.1.trans h1, hfl.2.trans h2, hv'⟩⟩

theorem MState.asked {α : Type} (hdiff : SetDiff diff) {a : MApp V} (h : MState diff a) (q : FT → Except Err α)
    (hq : ∀ ft, VState diff ⟨a.s, a.data, {}, ft⟩ → ∃ r, q ft = .ok r) :
    ∃ a', a.asked (a.vt.ask diff a.bank a.s.t a.data q) = .ok a' ∧ MState diff a' := by
  obtain ⟨ft, e, h1, h2, hv⟩ := h.ensure hdiff
  obtain ⟨r, hr⟩ := hq ft hv
  unfold VT.ask
  rw [e]
  dsimp only
  rw [hr]
  exact ⟨_, rfl, h.static, h.good, h.tidy, h.rootFree, fun ft2 e2 => by cases e2; exact ⟨h1, h2, hv⟩⟩

theorem nChildren_ok {ft : FT} (h : ViewOK ft) (x : Id) (r : Bool) : ∃ n, ft.nChildren x r = .ok n := by
  unfold FT.nChildren
  dsimp only
  split
  · exact ⟨_, rfl⟩
  · rename_i hx
    split
    · obtain ⟨exts, e, -⟩ := h.count (x := ft.orRoot x) (by simpa using hx)
      exact ⟨_, e⟩
    · exact ⟨_, rfl⟩

theorem MState.act (hdiff : SetDiff diff) {a : MApp V} (h : MState diff a) (c : MAct V) (hf : MainFair a c) :
    ∃ a', a.act diff c = .ok a' ∧ MState diff a' := by
  cases c with
  | edit op => exact h.edit hdiff op hf
  | change x v => exact h.change hdiff x v
  | bank c => exact ⟨_, rfl, h.static, h.good, h.tidy, h.rootFree, h.ft⟩
  | setParams n p => exact ⟨_, rfl, h.static, h.good, h.tidy, h.rootFree, h.ft⟩
  | nNodes fs =>
    refine h.asked hdiff _ (fun ft hv => ?_)
    obtain ⟨l, -, e, -⟩ := C33_nodes (⟨a.s, a.data, a.bank, ft⟩ : FApp V) (hv.viewOK hdiff) fs
    exact ⟨_, e⟩
  | getNodes fs =>
    refine h.asked hdiff _ (fun ft hv => ?_)
    obtain ⟨l, e, -⟩ := C33_nodes (⟨a.s, a.data, a.bank, ft⟩ : FApp V) (hv.viewOK hdiff) fs
    exact ⟨_, e⟩
  | nChildren x r => exact h.asked hdiff _ (fun ft hv => nChildren_ok (hv.viewOK hdiff) x r)

theorem MState.run (hdiff : SetDiff diff) (cs : List (MAct V)) (a : MApp V) (h : MState diff a) (hf : MainFairRun diff cs a) :
    ∃ a', MApp.run diff cs a = .ok a' ∧ MState diff a' := by
  induction cs generalizing a with
  | nil => exact ⟨a, rfl, h⟩
  | cons c cs ih =>
    obtain ⟨a1, e1, h1⟩ := h.act hdiff c hf.1
    have hf2 := hf.2
    rw [e1] at hf2
    obtain ⟨a2, e2, h2⟩ := ih a1 h1 hf2
    refine ⟨a2, ?_, h2⟩
    unfold MApp.run
    rw [e1]
    exact e2

/-! ### The answers -/

section
variable {a : MApp V}

theorem wanted_plain {s : St} {d : Id → V} {b : Bank (Id → V)} {ft : FT} (h : ft.applied = []) (x : Id) :
    Wanted (⟨s, d, b, ft⟩ : FApp V) x ↔ s.t.has x = true := by
  unfold Wanted
  simp only [h]
  simp

theorem wantedParent_plain {s : St} {d : Id → V} {b : Bank (Id → V)} {ft : FT} (hg : Good s.t) (h : ft.applied = []) (p x : Id) :
    WantedParent (⟨s, d, b, ft⟩ : FApp V) p x ↔ IsParent s.t p x := by
  have hnf : ¬ FlatView (⟨s, d, b, ft⟩ : FApp V) := by
    rintro ⟨n, hn, -⟩
    simp only [h] at hn
    cases hn
  unfold WantedParent
  rw [wanted_plain h]
  exact ⟨fun h => h.2.1, fun hp => ⟨hnf, hp, (hg.wf.agree.exists_both p x hp).1⟩⟩

/-- The rows of a `FilteredTree` without filters are those of the tree. -/
structure PlainView (t : Tree) (ft : FT) : Prop where
  ok : ViewOK ft
  shown : ∀ x, x ≠ ft.root → (ft.view.has x = true ↔ t.has x = true)
  kids : ∀ p, p ≠ ft.root → ∀ c, c ∈ ft.view.kids p ↔ IsChild t p c
  top : ∀ c, c ∈ ft.view.kids ft.root ↔ c ∈ t.rootChildren

theorem VState.plain (hdiff : SetDiff diff) {s : St} {d : Id → V} {ft : FT} (h : VState diff ⟨s, d, {}, ft⟩) (ha : ft.applied = []) :
    PlainView s.t ft := by
  have hok := h.viewOK hdiff
  have hs := h.rebuilt.showsExactly
  have hr := h.rebuilt.rightShape
  have hg := h.good
  dsimp only at hg hok
  have shown : ∀ x, x ≠ ft.root → (ft.view.has x = true ↔ s.t.has x = true) := by
    intro x hx
    have := hs.shown x hx
    rw [wanted_plain ha] at this
    exact this
  have pars : ∀ x, s.t.has x = true → ∀ p, p ∈ ft.view.pars x ↔ IsParent s.t p x ∨ (p = ft.root ∧ ∀ q, ¬ IsParent s.t q x) := by
    intro x hx p
    have := hr.parents x ((wanted_plain ha x).2 hx) p
    simp only [wantedParent_plain hg ha] at this
    exact this
  have hkid : ∀ p c, c ∈ ft.view.kids p → s.t.has c = true := by
    intro p c hc
    have hc2 := hok.shown p c hc
    refine (shown c ?_).1 hc2
    rintro rfl
    have := (hok.mirror p ft.root).1 hc
    rw [hok.top] at this; cases this
  refine ⟨hok, shown, fun p hp c => ?_, fun c => ?_⟩
  · constructor
    · intro hc
      rcases (pars c (hkid p c hc) p).1 ((hok.mirror p c).1 hc) with h1 | ⟨h1, -⟩
      · exact (hg.wf.agree.mirror p c).2 h1
      · exact absurd h1 hp
    · intro hc
      have hc' := (hg.wf.agree.mirror p c).1 hc
      exact (hok.mirror p c).2 ((pars c (hg.wf.agree.exists_both p c hc').2 p).2 (.inl hc'))
  · rw [hg.topLevel.exact]
    constructor
    · intro hc
      have hh := hkid _ c hc
      rcases (pars c hh ft.root).1 ((hok.mirror _ c).1 hc) with h1 | ⟨-, h1⟩
      · have := (hg.wf.agree.exists_both _ _ h1).1
        have hrf := h.rootFree
        dsimp only at hrf
        rw [hrf] at this; cases this
      · exact ⟨hh, h1⟩
    · rintro ⟨hh, h1⟩
      exact (hok.mirror _ c).2 ((pars c hh ft.root).2 (.inr ⟨rfl, h1⟩))

theorem length_of_mem_iff {α : Type} {l l' : List α} (h : l.Nodup) (h' : l'.Nodup) (hm : ∀ x, x ∈ l ↔ x ∈ l') : l.length = l'.length := by
  classical
  exact ((List.perm_ext_iff_of_nodup h h').2 hm).length_eq

theorem getNode_ok {t : Tree} {x : Id} (hx : t.has x = true) : ∃ nd, t.node? x = some nd ∧ t.getNode x = .ok nd := by
  obtain ⟨nd, hnd⟩ : ∃ nd, t.node? x = some nd := by rw [Tree.has_eq] at hx; exact Option.isSome_iff_exists.1 hx
  exact ⟨nd, hnd, by unfold Tree.getNode; rw [hnd]⟩

theorem getNode_none {t : Tree} (h : WF t) : t.getNode .none = .ok t.root := by
  unfold Tree.getNode
  have : t.node? .none = none := by
    by_contra hne
    have : t.has .none = true := by rw [Tree.has_eq]; exact Option.ne_none_iff_isSome.1 hne
    have := (h.ids _ this).1
    cases this
  rw [this]; simp

/-- Without leftovers, the raw list of children is the list of children. -/
theorem childrenOf_raw {t : Tree} (h : WF t) (hn : NoDangling t) {x : Id} {nd : Node} (hnd : t.node? x = some nd) :
    t.childrenOf nd = nd.children := by
  have hraw : t.rawChildren x = nd.children := by unfold Tree.rawChildren; rw [hnd]; rfl
  have hh : ∀ c ∈ nd.children, t.has c = true := fun c hc => hn x c (by rw [hraw]; exact hc)
  unfold Tree.childrenOf
  rw [(h.self x nd hnd).2]
  cases hen : nd.childrenEnabled with
  | true => simp only [Bool.and_self, if_true]; exact List.filter_eq_self.2 hh
  | false =>
    have : nd.children = [] := by
      by_contra hne
      obtain ⟨c, hc⟩ := List.exists_mem_of_ne_nil _ hne
      have h1 := h.flagC x nd hnd hen c hc
      rw [hh c hc] at h1; cases h1
    rw [this]; simp

theorem nodeHasChild_ok {t : Tree} (h : WF t) (hn : NoDangling t) {x : Id} {nd : Node} (hnd : t.node? x = some nd) :
    Tree.nodeHasChild nd = decide (nd.children ≠ []) := by
  unfold Tree.nodeHasChild
  cases hen : nd.childrenEnabled with
  | true => cases nd.children <;> simp
  | false =>
    have : nd.children = [] := by
      by_contra hne
      obtain ⟨c, hc⟩ := List.exists_mem_of_ne_nil _ hne
      have h1 := h.flagC x nd hnd hen c hc
      have hraw : t.rawChildren x = nd.children := by unfold Tree.rawChildren; rw [hnd]; rfl
      rw [hn x c (by rw [hraw]; exact hc)] at h1; cases h1
    simp [this]

theorem nthChild_list (l : List Id) (nd : Node) (n : Nat) (h : nd.children = l) :
    (if l.length > n then Tree.nthChild nd n else .error .valueError) =
      match l[n]? with | some c => .ok c | none => .error .valueError := by
  unfold Tree.nthChild
  rw [h]
  split
  · rfl
  · rename_i hn
    rw [List.getElem?_eq_none (by omega)]

theorem MState.agrees (hdiff : SetDiff diff) (h : MState diff a) : MainAgrees diff a := by
  obtain ⟨ft, e, ha, hr, hv⟩ := h.ensure hdiff
  have hp := hv.plain hdiff ha
  have hok := hp.ok
  have hst := h.static
  have hnr : ∀ x, a.s.t.has x = true → x ≠ ft.root := by
    intro x hx he
    rw [he, hr, h.rootFree] at hx; cases hx
  have hnn : ∀ x, a.s.t.has x = true → x ≠ .none := by
    intro x hx he
    have := (h.good.wf.ids x hx).1
    rw [he] at this; cases this
  have ask : ∀ {α : Type} (q : FT → Except Err α), (a.vt.ask diff a.bank a.s.t a.data q).1 = q ft := by
    intro α q; unfold VT.ask; rw [e]
  have hacc : ∀ fs x, Accepted (⟨a.s, a.data, a.bank, ft⟩ : FApp V) fs x ↔
      a.s.t.has x = true ∧ ∀ n ∈ fs, ∀ f, a.bank.getFilter n = some f → f.isDisplayed a.s.t a.data x = true := by
    intro fs x
    unfold Accepted
    constructor
    · rintro ⟨h1, h2, h3⟩; exact ⟨(hp.shown x h1).1 h2, h3⟩
    · rintro ⟨h2, h3⟩; exact ⟨hnr x h2, (hp.shown x (hnr x h2)).2 h2, h3⟩
  have hroot : a.s.t.rootChildren = a.s.t.root.children := rootChildren_eq h.good
  have hnone : a.s.t.getNode .none = .ok a.s.t.root := getNode_none h.good.wf
  refine ⟨fun x => ?_, ?_, fun fs => ?_, fun x hx => ?_, ?_, fun x n hx => ?_, fun n => ?_, fun x hx => ?_, fun x hx => ?_,
    fun x hx hxn hxr r => ?_, fun x hx hxn hxe => ?_, by unfold VT.filtersRefused; rw [if_pos hst]⟩
  · unfold VT.isDisplayed; rw [if_pos hst]
  · obtain ⟨l, -, e2, hnd, hm⟩ := C33_nodes (⟨a.s, a.data, a.bank, ft⟩ : FApp V) hok []
    refine ⟨a.s.t.allNodes, by unfold VT.allNodes; rw [if_pos hst], h.good.wf.keys, fun x => Dict.mem_keys _ _, ?_⟩
    unfold VT.nNodes
    rw [ask, e2]
    congr 1
    refine length_of_mem_iff hnd h.good.wf.keys (fun x => ?_)
    rw [hm, hacc]
    refine Iff.trans ?_ (Dict.mem_keys a.s.t.nodes x).symm
    simp only [List.not_mem_nil, false_imp_iff, implies_true, and_true]
    rfl
  · obtain ⟨l, e1, e2, hnd, hm⟩ := C33_nodes (⟨a.s, a.data, a.bank, ft⟩ : FApp V) hok fs
    refine ⟨l, ?_, ?_, hnd, fun x => by rw [hm, hacc]⟩
    · unfold VT.getNodes; rw [ask]; exact e1
    · unfold VT.nNodes; rw [ask]; exact e2
  · obtain ⟨nd, hnd, hgn⟩ := getNode_ok hx
    have hch : a.s.t.getChildren x = a.s.t.childrenOf nd := by unfold Tree.getChildren; rw [hnd]; rfl
    refine ⟨?_, ?_, ?_⟩
    · unfold VT.allChildren
      rw [if_pos hst, if_pos (by simp [hx]), hgn, hch]
    · unfold VT.nChildren
      rw [ask, (C32_direct ft hok x (hnn x hx)).1]
      congr 1
      exact length_of_mem_iff (hok.children_once x) (h.good.wf.agree.children_once x) (fun c => hp.kids x (hnr x hx) c)
    · unfold VT.hasChild
      rw [if_pos hst, hgn, hch, childrenOf_raw h.good.wf h.tidy hnd]
      exact congrArg _ (nodeHasChild_ok h.good.wf h.tidy hnd)
  · refine ⟨?_, ?_, ?_⟩
    · unfold VT.allChildren
      rw [if_pos hst, if_pos (by rfl), hnone]; rfl
    · unfold VT.nChildren
      rw [ask]
      unfold FT.nChildren FT.orRoot
      dsimp only
      rw [if_pos rfl, if_neg (by simp [hok.root]), if_neg (by simp)]
      congr 1
      exact length_of_mem_iff (hok.children_once _) h.good.topLevel.once hp.top
    · unfold VT.hasChild
      rw [if_pos hst, hnone, hroot]
      unfold Tree.nodeHasChild
      dsimp only
      rw [h.good.wf.rootKids]
      cases a.s.t.root.children <;> simp
  · obtain ⟨nd, hnd, hgn⟩ := getNode_ok hx
    have hch : a.s.t.getChildren x = a.s.t.childrenOf nd := by unfold Tree.getChildren; rw [hnd]; rfl
    have hid := h.good.wf.ids x hx
    unfold VT.nthChild
    rw [if_pos hst, if_neg (by simp [hid.1, hid.2]), hgn]
    dsimp only
    rw [← hch]
    exact nthChild_list _ nd n (by rw [hch, childrenOf_raw h.good.wf h.tidy hnd])
  · unfold VT.nthChild
    rw [if_pos hst, if_pos (by rfl)]
    dsimp only
    exact nthChild_list _ _ n hroot.symm
  · have hvx := (hp.shown x (hnr x hx)).2 hx
    obtain ⟨exts, e1, hnd, hm⟩ := hok.count hvx
    refine ⟨exts, ?_, hnd, fun l => ?_⟩
    · unfold VT.nChildren
      rw [ask]
      unfold FT.nChildren FT.orRoot
      dsimp only
      rw [if_neg (hnn x hx), if_neg (by simp [hvx]), if_pos rfl]
      exact e1
    · rw [hm]
      refine and_congr_right' ?_
      clear hm e1
      induction l generalizing x with
      | nil => simp
      | cons c l ih =>
        rw [List.isChain_cons_cons, List.isChain_cons_cons]
        constructor
        · rintro ⟨h1, h2⟩
          have h1' := (hp.kids x (hnr x hx) c).1 h1
          have hc := (h.good.wf.agree.exists_both x c ((h.good.wf.agree.mirror x c).1 h1')).2
          exact ⟨h1', (ih c hc ((hp.shown c (hnr c hc)).2 hc)).1 h2⟩
        · rintro ⟨h1, h2⟩
          have hc := (h.good.wf.agree.exists_both x c ((h.good.wf.agree.mirror x c).1 h1)).2
          exact ⟨(hp.kids x (hnr x hx) c).2 h1, (ih c hc ((hp.shown c (hnr c hc)).2 hc)).2 h2⟩
  · obtain ⟨nd, hnd, hgn⟩ := getNode_ok hx
    have hpa : a.s.t.getParents x = a.s.t.parentsOf nd := by unfold Tree.getParents; rw [hnd]; rfl
    have e1 : a.vt.nodeParents a.s.t x = .ok (a.s.t.getParents x) := by
      unfold VT.nodeParents
      rw [if_pos hst, hgn, hpa]
    refine ⟨e1, ?_⟩
    unfold VT.hasParent
    rw [e1]
    dsimp only
    congr 1
    simp [List.length_pos_iff]
  · have hxv : ft.view.has x = false := by
      have := hp.shown x (by rw [hr]; exact hxr)
      rw [hx] at this
      simpa using this
    have := (C32_direct ft hok x hxn).2.2.2 hxv
    unfold VT.nChildren
    rw [ask]
    cases r
    · exact this.2
    · exact this.1
  · have hfx : x.falsy = false := by
      cases x
      · exact absurd rfl hxn
      · exact absurd rfl hxe
      · rfl
    unfold VT.allChildren
    rw [if_pos hst, if_neg (by simp [hfx, hx])]

end

/-- C39: after every history in which the application keeps to `MainFair`, questions to the main view included, no exception was
raised and the main view answers as the tree does. Filters and their parameters, data and the bank may change freely. -/
theorem C39_main_view_partial (hdiff : SetDiff diff) (d : Id → V) (cs : List (MAct V)) (hf : MainFairRun diff cs (MApp.init d)) :
    ∃ a, MApp.run diff cs (MApp.init d) = .ok a ∧ MainAgrees diff a := by
  obtain ⟨a, e, h⟩ := (MState.init diff d).run hdiff cs _ hf
  exact ⟨a, e, h.agrees hdiff⟩

/-- A question makes the `FilteredTree`; it then follows edits; a filter is used in a question only. Node 3 gets a second parent. -/
def mainHistory : List (MAct Nat) :=
  [ .edit (.addNode (.new (.str 1) .none) .none), .edit (.addNode (.new (.str 2) .none) (.str 1)), .nNodes [],
    .edit (.addNode (.new (.str 3) .none) (.str 2)), .edit (.newRelationship (.str 1) (.str 3)), .change (.str 2) 7,
    .bank (.add (.plain 1) isEven none), .getNodes [.plain 1], .nChildren (.str 1) true ]

theorem mainHistory_fair : MainFairRun someDiff mainHistory (MApp.init fun _ => 0) := by
  have nd : ∀ {op : Op}, (∀ x, op ≠ .delNode x true) → ∀ {P : Id → Prop}, ∀ x, op = .delNode x true → P x :=
    fun h _ x e => absurd e (h x)
  refine ⟨⟨careful_add (Made.new _ _) (by decide), ?_, fun _ => nd (by simp)⟩, ⟨careful_add (Made.new _ _) (by decide), ?_, fun _ => nd (by simp)⟩, trivial,
    ⟨careful_add (Made.new _ _) (by decide), ?_, fun _ => nd (by simp)⟩, ⟨?_, ?_, fun _ => nd (by simp)⟩, trivial, trivial, trivial, trivial, trivial⟩
  · intro nd p h; cases h; decide
  · intro nd p h; cases h; decide
  · intro nd p h; cases h; decide
  · exact Tree.allEnabled_accept (by decide) _ _
  · intro nd p h; cases h

/-- The concrete case: three nodes; 2 does not pass the filter; below 1 there are 2, 2 > 3 and 3. -/
example : ∃ a, MApp.run someDiff mainHistory (MApp.init fun _ => 0) = .ok a ∧ MainAgrees someDiff a ∧
    (a.vt.getNodes someDiff a.bank a.s.t a.data [.plain 1]).1 = .ok [.str 1, .str 3] ∧
    (a.vt.nNodes someDiff a.bank a.s.t a.data []).1 = .ok 3 ∧
    (a.vt.nChildren someDiff a.bank a.s.t a.data (.str 1) true).1 = .ok 3 ∧
    a.vt.nthChild a.s.t (.str 1) 1 = .ok (.str 3) := by
  obtain ⟨a, e, h⟩ := C39_main_view_partial someDiff_ok (fun _ => 0) mainHistory mainHistory_fair
  refine ⟨a, e, h, ?_⟩
  have : (MApp.run someDiff mainHistory (MApp.init fun _ => 0)).state = a := by rw [e]; rfl
  rw [← this]
  exact ⟨by rfl, by rfl, by rfl, by rfl⟩

/-- C39 is not literally true: a node called `'anonymous_root'` is in the tree but not counted. -/
theorem C39_refuted_name : ∃ a, MApp.run someDiff [.edit (.addNode (.new anonRoot .none) .none)] (MApp.init fun _ => 0) = .ok a ∧
    a.s.t.has anonRoot = true ∧ ¬ MainAgrees someDiff a := by
  refine ⟨_, rfl, by rfl, fun h => ?_⟩
  obtain ⟨l, e, -, -, e2⟩ := h.nodes
  have e' : Except.ok [anonRoot] = (Except.ok l : Except Err _) := e
  cases e'
  have : (Except.ok 0 : Except Err Nat) = .ok 1 := e2
  cases this

/-- C39 is not literally true after the removal of a node with two parents (`tree.py:238-240`): `node_nth_child` gives the removed
node as the first child of the parent that was skipped, although `node_all_children` starts with another one. -/
theorem C39_refuted_removed : ∃ a, MApp.run someDiff
    [ .edit (.addNode (.new (.str 1) .none) .none), .edit (.addNode (.new (.str 2) .none) .none),
      .edit (.addNode (.new (.str 3) .none) (.str 1)), .edit (.newRelationship (.str 2) (.str 3)),
      .edit (.addNode (.new (.str 4) .none) (.str 2)), .edit (.delNode (.str 3) false) ] (MApp.init fun _ => 0) = .ok a ∧
    a.vt.isDisplayed a.s.t (.str 3) = .ok false ∧
    a.vt.allChildren a.s.t (.str 2) = .ok [.str 4] ∧ a.vt.nthChild a.s.t (.str 2) 0 = .ok (.str 3) :=
  ⟨_, rfl, by rfl, by rfl, by rfl⟩

end Larch
