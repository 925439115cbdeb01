import Verif.Spec.Suite
import Verif.Props.Batch
import Verif.Props.ViewTree

/-!
# Many views and counters: every object goes its own way
-/

namespace Larch

open Spec

variable {V : Type} {diff : List Id → List Id → List Id}

/-! ### Notifications -/

theorem reactAll_ok {b : Bank (Id → V)} {d : Id → V} {n : Note} {l l' : List Obj} :
    Obj.reactAll diff b d n l = .ok l' ↔ List.Forall₂ (fun o o' => o.react diff b d n = .ok o') l l' := by
  induction l generalizing l' with
  | nil =>
    constructor
    · intro h; cases h; exact .nil
    · intro h; cases h; rfl
  | cons o l ih =>
    unfold Obj.reactAll
    constructor
    · intro h
      cases ho : o.react diff b d n with
      | err e o' => rw [ho] at h; cases h
      | ok o' =>
        rw [ho] at h
        dsimp only at h
        cases hl : Obj.reactAll diff b d n l with
        | err e l2 => rw [hl] at h; cases h
        | ok l2 =>
          rw [hl] at h
          cases h
          exact .cons ho (ih.1 hl)
    · intro h
      cases h with
      | cons h1 h2 => rw [h1, ih.2 h2]

theorem reactAlls_ok {b : Bank (Id → V)} {d : Id → V} {ns : List Note} {l l' : List Obj} :
    Res.forEach (Obj.reactAll diff b d) ns l = .ok l' ↔
      List.Forall₂ (fun o o' => Res.forEach (Obj.react diff b d) ns o = .ok o') l l' := by
  induction ns generalizing l with
  | nil =>
    constructor
    · intro h; cases h; exact List.forall₂_same.2 fun _ _ => rfl
    · intro h
      have : l = l' := List.forall₂_eq_eq_eq ▸ (h.imp fun a b (e : Res.ok a = Res.ok b) => by cases e; rfl)
      rw [this]; rfl
  | cons n ns ih =>
    unfold Res.forEach
    constructor
    · intro h
      cases hn : Obj.reactAll diff b d n l with
      | err e l1 => rw [hn] at h; cases h
      | ok l1 =>
        rw [hn] at h
        have h1 := reactAll_ok.1 hn
        have h2 := ih.1 h
        clear hn h ih
        induction h1 generalizing l' with
        | nil => cases h2; exact .nil
        | cons e _ ih' =>
          cases h2 with
          | cons e2 h2' => exact .cons (by rw [e]; exact e2) (ih' h2')
    · intro h
      have hs : ∃ l1, List.Forall₂ (fun o o' => o.react diff b d n = .ok o') l l1 ∧
          List.Forall₂ (fun o o' => Res.forEach (Obj.react diff b d) ns o = .ok o') l1 l' := by
        clear ih
        induction h with
        | nil => exact ⟨[], .nil, .nil⟩
        | cons e _ ih' =>
          rename_i o o2 l2 l3 _
          obtain ⟨l1, h1, h2⟩ := ih'
          cases ho : o.react diff b d n with
          | err e' o1 => rw [ho] at e; cases e
          | ok o1 => rw [ho] at e; exact ⟨o1 :: l1, .cons ho h1, .cons e h2⟩
      obtain ⟨l1, h1, h2⟩ := hs
      rw [reactAll_ok.2 h1]
      exact ih.2 h2

theorem reactAlls_exists {b : Bank (Id → V)} {d : Id → V} {ns : List Note} (l : List Obj)
    (h : ∀ o ∈ l, ∃ o', Res.forEach (Obj.react diff b d) ns o = .ok o') :
    ∃ l', Res.forEach (Obj.reactAll diff b d) ns l = .ok l' := by
  have : ∃ l', List.Forall₂ (fun o o' => Res.forEach (Obj.react diff b d) ns o = .ok o') l l' := by
    induction l with
    | nil => exact ⟨[], .nil⟩
    | cons o l ih =>
      obtain ⟨o', ho⟩ := h o (by simp)
      obtain ⟨l', hl⟩ := ih fun o ho => h o (by simp [ho])
      exact ⟨o' :: l', .cons ho hl⟩
  obtain ⟨l', hl⟩ := this
  exact ⟨l', reactAlls_ok.2 hl⟩

theorem forall₂_at {α β : Type} {R : α → β → Prop} {l : List α} {l' : List β} (h : List.Forall₂ R l l') (k : Nat) {x : α}
    (hx : l[k]? = some x) : ∃ y, l'[k]? = some y ∧ R x y := by
  induction h generalizing k with
  | nil => cases hx
  | cons h1 _ ih =>
    cases k with
    | zero => cases hx; exact ⟨_, rfl, h1⟩
    | succ k => exact ih k hx

theorem forall₂_at' {α β : Type} {R : α → β → Prop} {l : List α} {l' : List β} (h : List.Forall₂ R l l') (k : Nat) {y : β}
    (hy : l'[k]? = some y) : ∃ x, l[k]? = some x ∧ R x y := by
  induction h generalizing k with
  | nil => cases hy
  | cons h1 _ ih =>
    cases k with
    | zero => cases hy; exact ⟨_, rfl, h1⟩
    | succ k => exact ih k hy

/-- What the notifications do to a view. -/
theorem view_reacts (b : Bank (Id → V)) (d : Id → V) (ns : List Note) (s : Bool) (ft : FT) :
    Res.forEach (Obj.react diff b d) ns (.view ⟨s, some ft⟩) =
      match Res.forEach (FT.react diff b d) ns ft with
      | .ok ft' => .ok (.view ⟨s, some ft'⟩)
      | .err e ft' => .err e (.view ⟨s, some ft'⟩) := by
  induction ns generalizing ft with
  | nil => rfl
  | cons n ns ih =>
    unfold Res.forEach
    have e : Obj.react diff b d n (.view ⟨s, some ft⟩) =
      match ft.react diff b d n with
      | .ok ft' => .ok (.view ⟨s, some ft'⟩)
      | .err e ft' => .err e (.view ⟨s, some ft'⟩) := rfl
    rw [e]
    cases ft.react diff b d n with
    | err e ft' => rfl
    | ok ft' => exact ih ft'

theorem quiet_reacts (b : Bank (Id → V)) (d : Id → V) (ns : List Note) (s : Bool) :
    Res.forEach (Obj.react diff b d) ns (.view ⟨s, none⟩) = .ok (.view ⟨s, none⟩) := by
  induction ns with
  | nil => rfl
  | cons n ns ih =>
    unfold Res.forEach
    have e : Obj.react diff b d n (.view ⟨s, none⟩) = .ok (.view ⟨s, none⟩) := rfl
    rw [e]
    exact ih

theorem count_reacts (b : Bank (Id → V)) (d : Id → V) (ns : List Note) (c : VC) :
    Res.forEach (Obj.react diff b d) ns (.count c) =
      match Res.forEach (VC.react b d) ns c with
      | .ok c' => .ok (.count c')
      | .err e c' => .err e (.count c') := by
  induction ns generalizing c with
  | nil => rfl
  | cons n ns ih =>
    unfold Res.forEach
    have e : Obj.react diff b d n (.count c) =
      match c.react b d n with
      | .ok c' => .ok (.count c')
      | .err e c' => .err e (.count c') := rfl
    rw [e]
    cases c.react b d n with
    | err e c' => rfl
    | ok c' => exact ih c'

theorem suite_edit_ok {a a' : Suite V} {op : Op} (h : a.edit diff op = .ok a') :
    a'.s = (step a.s op).state ∧ a'.data = a.data ∧ a'.bank = a.bank ∧ a'.names = a.names ∧
      List.Forall₂ (fun o o' => Res.forEach (Obj.react diff a.bank a.data) ((step a.s op).state.log.drop a.s.log.length) o = .ok o')
        a.objs a'.objs := by
  unfold Suite.edit at h
  dsimp only at h
  cases hl : Res.forEach (Obj.reactAll diff a.bank a.data) ((step a.s op).state.log.drop a.s.log.length) a.objs with
  | err e l => rw [hl] at h; cases h
  | ok l =>
    rw [hl] at h
    cases h
    exact ⟨rfl, rfl, rfl, rfl, reactAlls_ok.1 hl⟩

/-! ### One object alone -/

/-- Object `k` is a view with this `FilteredTree`. -/
theorem viewAt_some {a : Suite V} {k : Nat} {ft : FT} (h : viewAt a k = some ft) :
    ∃ s, a.objs[k]? = some (Obj.view ⟨s, some ft⟩) := by
  unfold viewAt at h
  split at h
  · rename_i v hv
    obtain ⟨s, f⟩ := v
    cases h
    exact ⟨s, hv⟩
  · cases h

theorem viewAt_of {a : Suite V} {k : Nat} {s : Bool} {ft : FT} (h : a.objs[k]? = some (Obj.view ⟨s, some ft⟩)) :
    viewAt a k = some ft := by unfold viewAt; rw [h]

theorem countAt_some {a : Suite V} {k : Nat} {c : VC} (h : countAt a k = some c) : a.objs[k]? = some (Obj.count c) := by
  unfold countAt at h
  split at h
  · rename_i v hv
    cases h
    exact hv
  · cases h

theorem countAt_of {a : Suite V} {k : Nat} {c : VC} (h : a.objs[k]? = some (Obj.count c)) : countAt a k = some c := by
  unfold countAt; rw [h]

theorem edit_view {a a' : Suite V} {op : Op} (h : a.edit diff op = .ok a') {k : Nat} {s : Bool} {ft : FT}
    (hk : a.objs[k]? = some (Obj.view ⟨s, some ft⟩)) :
    ∃ ft', a'.objs[k]? = some (Obj.view ⟨s, some ft'⟩) ∧ (alone a ft).edit diff op = .ok (alone a' ft') := by
  obtain ⟨h1, h2, h3, -, h5⟩ := suite_edit_ok h
  obtain ⟨o', ho, hr⟩ := forall₂_at h5 k hk
  rw [view_reacts] at hr
  unfold FApp.edit FApp.withFT alone
  dsimp only
  cases hf : Res.forEach (FT.react diff a.bank a.data) ((step a.s op).state.log.drop a.s.log.length) ft with
  | err e ft' => rw [hf] at hr; cases hr
  | ok ft' =>
    rw [hf] at hr
    cases hr
    exact ⟨ft', ho, by rw [h1, h2, h3]⟩

theorem edit_count {a a' : Suite V} {op : Op} (h : a.edit diff op = .ok a') {k : Nat} {c : VC}
    (hk : a.objs[k]? = some (Obj.count c)) :
    ∃ c', a'.objs[k]? = some (Obj.count c') ∧ (aloneCount a c).edit op = .ok (aloneCount a' c') := by
  obtain ⟨h1, h2, h3, -, h5⟩ := suite_edit_ok h
  obtain ⟨o', ho, hr⟩ := forall₂_at h5 k hk
  rw [count_reacts] at hr
  unfold CApp.edit aloneCount
  dsimp only
  cases hf : Res.forEach (VC.react a.bank a.data) ((step a.s op).state.log.drop a.s.log.length) c with
  | err e c' => rw [hf] at hr; cases hr
  | ok c' =>
    rw [hf] at hr
    cases hr
    exact ⟨c', ho, by rw [h1, h2, h3]⟩

/-- Nobody is told of the edit who was not there. -/
theorem edit_kinds {a a' : Suite V} {op : Op} (h : a.edit diff op = .ok a') : a'.objs.length = a.objs.length :=
  (suite_edit_ok h).2.2.2.2.length_eq.symm

theorem edit_quiet {a a' : Suite V} {op : Op} (h : a.edit diff op = .ok a') {k : Nat} {s : Bool}
    (hk : a.objs[k]? = some (Obj.view ⟨s, none⟩)) : a'.objs[k]? = some (Obj.view ⟨s, none⟩) := by
  obtain ⟨-, -, -, -, h5⟩ := suite_edit_ok h
  obtain ⟨o', ho, hr⟩ := forall₂_at h5 k hk
  rw [quiet_reacts] at hr
  cases hr
  exact ho

/-- The edit succeeds if no object fails. -/
theorem suite_edit_of {a : Suite V} {op : Op}
    (hv : ∀ (k : Nat) s ft, a.objs[k]? = some (Obj.view ⟨s, some ft⟩) → ∃ b, (alone a ft).edit diff op = .ok b)
    (hc : ∀ (k : Nat) c, a.objs[k]? = some (Obj.count c) → ∃ b, (aloneCount a c).edit op = .ok b) :
    ∃ a', a.edit diff op = .ok a' := by
  obtain ⟨l, hl⟩ := reactAlls_exists (diff := diff) (b := a.bank) (d := a.data)
    (ns := (step a.s op).state.log.drop a.s.log.length) a.objs (by
      intro o ho
      obtain ⟨k, hk⟩ := List.mem_iff_getElem?.1 ho
      cases o with
      | count c =>
        obtain ⟨b, hb⟩ := hc k c hk
        rw [count_reacts]
        unfold CApp.edit aloneCount at hb
        dsimp only at hb
        cases hf : Res.forEach (VC.react a.bank a.data) ((step a.s op).state.log.drop a.s.log.length) c with
        | err e c' => rw [hf] at hb; cases hb
        | ok c' => exact ⟨_, rfl⟩
      | view v =>
        obtain ⟨s, f⟩ := v
        cases f with
        | none => exact ⟨_, quiet_reacts _ _ _ _⟩
        | some ft =>
          obtain ⟨b, hb⟩ := hv k s ft hk
          rw [view_reacts]
          unfold FApp.edit FApp.withFT alone at hb
          dsimp only at hb
          cases hf : Res.forEach (FT.react diff a.bank a.data) ((step a.s op).state.log.drop a.s.log.length) ft with
          | err e ft' => rw [hf] at hb; cases hb
          | ok ft' => exact ⟨_, rfl⟩)
  exact ⟨{ a with s := (step a.s op).state, objs := l }, by unfold Suite.edit; dsimp only; rw [hl]⟩

theorem frun_one {a b : FApp V} {c : FAct V} (h : a.act diff c = .ok b) : FApp.run diff [c] a = .ok b := by
  unfold FApp.run; rw [h]; rfl

theorem crun_one {a b : CApp V} {c : CAct V} (h : a.act c = .ok b) : CApp.run [c] a = .ok b := by
  unfold CApp.run; rw [h]; rfl

theorem frun_append {a b : FApp V} {cs ds : List (FAct V)} (h : FApp.run diff cs a = .ok b) :
    FApp.run diff (cs ++ ds) a = FApp.run diff ds b := by
  induction cs generalizing a with
  | nil => cases h; rfl
  | cons c cs ih =>
    show (a.act diff c).andThen (FApp.run diff (cs ++ ds)) = _
    change (a.act diff c).andThen (FApp.run diff cs) = _ at h
    cases hc : a.act diff c with
    | err e x => rw [hc] at h; cases h
    | ok x => rw [hc] at h; exact ih h

theorem crun_append {a b : CApp V} {cs ds : List (CAct V)} (h : CApp.run cs a = .ok b) :
    CApp.run (cs ++ ds) a = CApp.run ds b := by
  induction cs generalizing a with
  | nil => cases h; rfl
  | cons c cs ih =>
    show (a.act c).andThen (CApp.run (cs ++ ds)) = _
    change (a.act c).andThen (CApp.run cs) = _ at h
    cases hc : a.act c with
    | err e x => rw [hc] at h; cases h
    | ok x => rw [hc] at h; exact ih h

/-- `refresh_all`: one edit after the other. -/
theorem refreshes_view {a a' : Suite V} (l : List Id)
    (h : Res.forEach (fun x (w : Suite V) => w.edit diff (.refreshNode x)) l a = .ok a') {k : Nat} {s : Bool} {ft : FT}
    (hk : a.objs[k]? = some (Obj.view ⟨s, some ft⟩)) :
    ∃ ft', a'.objs[k]? = some (Obj.view ⟨s, some ft'⟩) ∧
      FApp.run diff (l.map fun x => .edit (.refreshNode x)) (alone a ft) = .ok (alone a' ft') := by
  induction l generalizing a ft with
  | nil => cases h; exact ⟨ft, hk, rfl⟩
  | cons x l ih =>
    unfold Res.forEach at h
    cases he : a.edit diff (.refreshNode x) with
    | err e b => rw [he] at h; cases h
    | ok b =>
      rw [he] at h
      obtain ⟨ft1, h1, h2⟩ := edit_view he hk
      obtain ⟨ft2, h3, h4⟩ := ih h h1
      refine ⟨ft2, h3, ?_⟩
      show (FApp.act diff _ _).andThen _ = _
      have : (alone a ft).act diff (.edit (.refreshNode x)) = .ok (alone b ft1) := h2
      rw [this]
      exact h4

theorem refreshes_count {a a' : Suite V} (l : List Id)
    (h : Res.forEach (fun x (w : Suite V) => w.edit diff (.refreshNode x)) l a = .ok a') {k : Nat} {c : VC}
    (hk : a.objs[k]? = some (Obj.count c)) :
    ∃ c', a'.objs[k]? = some (Obj.count c') ∧
      CApp.run (l.map fun x => .edit (.refreshNode x)) (aloneCount a c) = .ok (aloneCount a' c') := by
  induction l generalizing a c with
  | nil => cases h; exact ⟨c, hk, rfl⟩
  | cons x l ih =>
    unfold Res.forEach at h
    cases he : a.edit diff (.refreshNode x) with
    | err e b => rw [he] at h; cases h
    | ok b =>
      rw [he] at h
      obtain ⟨ft1, h1, h2⟩ := edit_count he hk
      obtain ⟨ft2, h3, h4⟩ := ih h h1
      refine ⟨ft2, h3, ?_⟩
      show (CApp.act _ _).andThen _ = _
      have : (aloneCount a c).act (.edit (.refreshNode x)) = .ok (aloneCount b ft1) := h2
      rw [this]
      exact h4

theorem set_other {l : List Obj} {j k : Nat} (h : j ≠ k) (o : Obj) : (l.set j o)[k]? = l[k]? :=
  List.getElem?_set_ne h

theorem set_same {l : List Obj} {k : Nat} {o o' : Obj} (h : l[k]? = some o') : (l.set k o)[k]? = some o := by
  have : k < l.length := (List.getElem?_eq_some_iff.1 h).1
  rw [List.getElem?_set_self this]

/-- An application of a filter that succeeds leaves the bank with the parameters. -/
theorem applyFilter_bank {b : Bank (Id → V)} {t : Tree} {d : Id → V} {ft : FT} {n : FName} {p : Option Params} {rs rf : Bool}
    {ft' : FT} (h : (ft.applyFilter diff b t d n p rs rf).2.2 = .ok ft') :
    (ft.applyFilter diff b t d n p rs rf).2.1 = if FT.givesParams p then b.setParameters n p else b := by
  unfold FT.applyFilter at h ⊢
  by_cases hg : (FT.givesParams p && (b.getFilter n).isNone) = true
  · rw [if_pos hg] at h; cases h
  · rw [if_neg hg]
    dsimp only
    rw [apply_ite (fun z : Bool × Bank (Id → V) × Res FT => z.2.1)]
    exact ite_self _

theorem setParams_run (a : FApp V) (n : FName) (p : Option Params) :
    FApp.run diff ((paramsGiven n p).map fun q => .setParams q.1 q.2) a =
      .ok { a with bank := if FT.givesParams p then a.bank.setParameters n p else a.bank } := by
  unfold paramsGiven FT.givesParams
  cases p with
  | none => rfl
  | some q => dsimp only; split <;> rfl

theorem setParams_crun (a : CApp V) (n : FName) (p : Option Params) :
    CApp.run ((paramsGiven n p).map fun q => .setParams q.1 q.2) a =
      .ok { a with bank := if FT.givesParams p then a.bank.setParameters n p else a.bank } := by
  unfold paramsGiven FT.givesParams
  cases p with
  | none => rfl
  | some q => dsimp only; split <;> rfl

theorem ask_some {α : Type} (b : Bank (Id → V)) (t : Tree) (d : Id → V) (s : Bool) (ft : FT) (q : FT → Except Err α) :
    VT.ask diff b t d ⟨s, some ft⟩ q = (q ft, ⟨s, some ft⟩) := rfl

theorem asked_ok {α : Type} {a a' : Suite V} {j : Nat} {r : VT.Answer α} (h : a.asked j r = .ok a') :
    a' = { a with objs := a.objs.set j (.view r.2) } := by
  obtain ⟨x, v⟩ := r
  cases x with
  | error e => cases h
  | ok x => cases h; rfl

theorem putFT_ok {a a' : Suite V} {j : Nat} {v : VT} {r : Res FT} (h : a.putFT j v r = .ok a') :
    ∃ ft, r = .ok ft ∧ a' = { a with objs := a.objs.set j (.view { v with ft := some ft }) } := by
  cases r with
  | err e ft => cases h
  | ok ft => cases h; exact ⟨ft, rfl, rfl⟩

theorem putVC_ok {a a' : Suite V} {j : Nat} {r : Res VC} (h : a.putVC j r = .ok a') :
    ∃ c, r = .ok c ∧ a' = { a with objs := a.objs.set j (.count c) } := by
  cases r with
  | err e c => cases h
  | ok c => cases h; exact ⟨c, rfl, rfl⟩

/-- A method of a filtered view that succeeds. -/
theorem filter_call {a a' : Suite V} {v : VT} {f : FT → Res (Suite V)}
    (h : (match v.filtersRefused, v.ft with
      | some e, _ => Res.err e a
      | none, none => .err .attributeError a
      | none, some ft => f ft) = .ok a') : ∃ ft, v.ft = some ft ∧ v.static = false ∧ f ft = .ok a' := by
  cases hs : v.filtersRefused with
  | some e => rw [hs] at h; cases h
  | none =>
    rw [hs] at h
    cases hf : v.ft with
    | none => rw [hf] at h; cases h
    | some ft =>
      rw [hf] at h
      refine ⟨ft, rfl, ?_, h⟩
      unfold VT.filtersRefused at hs
      split at hs
      · cases hs
      · rename_i hn; simpa using hn

/-- A view goes its own way: it does what it would do alone, with what it notices of the action. -/
theorem act_view {a a' : Suite V} {c : SuiteAct V} (h : a.act diff c = .ok a') {k : Nat} {s : Bool} {ft : FT}
    (hk : a.objs[k]? = some (Obj.view ⟨s, some ft⟩)) :
    ∃ ft', a'.objs[k]? = some (Obj.view ⟨s, some ft'⟩) ∧
      FApp.run diff (seenByView a k c) (alone a ft) = .ok (alone a' ft') := by
  cases c with
  | edit op =>
    obtain ⟨ft', h1, h2⟩ := edit_view h hk
    exact ⟨ft', h1, frun_one h2⟩
  | change x v =>
    obtain ⟨ft', h1, h2⟩ := edit_view (a := { a with data := fun y => if y = x then v else a.data y }) h hk
    exact ⟨ft', h1, frun_one h2⟩
  | bank c => cases h; exact ⟨ft, hk, rfl⟩
  | getView name rf =>
    change a.getView diff name rf = .ok a' at h
    unfold Suite.getView at h
    split at h
    · split at h
      · cases h
        exact ⟨ft, by rw [List.getElem?_append_left (List.getElem?_eq_some_iff.1 hk).1]; exact hk, rfl⟩
      · cases h
    · cases h; exact ⟨ft, hk, rfl⟩
  | getCount name rf =>
    change a.getCount name rf = .ok a' at h
    unfold Suite.getCount at h
    split at h
    · split at h
      · cases h
        exact ⟨ft, by rw [List.getElem?_append_left (List.getElem?_eq_some_iff.1 hk).1]; exact hk, rfl⟩
      · cases h
    · cases h; exact ⟨ft, hk, rfl⟩
  | onCount j c =>
    have hs : ∀ r, (match a.objs[j]? with | some (.count v) => a.callCount j v c | _ => .ok a) = r → r = .ok a' →
        ∃ ft', a'.objs[k]? = some (Obj.view ⟨s, some ft'⟩) ∧ FApp.run diff [] (alone a ft) = .ok (alone a' ft') := by
      intro r hr e
      split at hr
      · rename_i v hj
        have hjk : j ≠ k := by rintro rfl; rw [hk] at hj; cases hj
        rw [e] at hr
        have : ∃ r, a.putVC j r = .ok a' := by unfold Suite.callCount at hr; cases c <;> exact ⟨_, hr⟩
        obtain ⟨r, hr⟩ := this
        obtain ⟨c', -, rfl⟩ := putVC_ok hr
        exact ⟨ft, by rw [set_other hjk]; exact hk, rfl⟩
      · rw [e] at hr; cases hr; exact ⟨ft, hk, rfl⟩
    exact hs _ rfl h
  | onView j c =>
    change (match a.objs[j]? with | some (.view v) => a.callView diff j v c | _ => .ok a) = .ok a' at h
    unfold seenByView
    dsimp only
    split at h
    · rename_i v hj
      rw [hj]
      dsimp only
      have hv : j = k → v = ⟨s, some ft⟩ := by rintro rfl; rw [hk] at hj; cases hj; rfl
      cases c with
      | apply n p rs rf =>
        obtain ⟨ft0, e0, -, h⟩ := filter_call h
        dsimp only at h ⊢
        obtain ⟨ft1, e1, rfl⟩ := putFT_ok h
        by_cases hjk : j = k
        · rw [if_pos hjk]
          have := hv hjk
          subst this hjk
          cases e0
          refine ⟨ft1, set_same hk, frun_one ?_⟩
          show FApp.withFT { alone a ft with bank := (ft.applyFilter diff a.bank a.s.t a.data n p rs rf).2.1 }
            (ft.applyFilter diff a.bank a.s.t a.data n p rs rf).2.2 = _
          rw [e1]
          rfl
        · rw [if_neg hjk]
          refine ⟨ft, by rw [set_other hjk]; exact hk, ?_⟩
          rw [setParams_run]
          show _ = Res.ok (⟨a.s, a.data, (ft0.applyFilter diff a.bank a.s.t a.data n p rs rf).2.1, ft⟩ : FApp V)
          rw [applyFilter_bank e1]
          rfl
      | unapply n rf =>
        obtain ⟨ft0, e0, -, h⟩ := filter_call h
        obtain ⟨ft1, e1, rfl⟩ := putFT_ok h
        dsimp only
        by_cases hjk : j = k
        · rw [if_pos hjk]
          have := hv hjk
          subst this hjk
          cases e0
          refine ⟨ft1, set_same hk, frun_one ?_⟩
          show FApp.withFT _ _ = _
          rw [show ((alone a ft).ft.unapplyFilter diff (alone a ft).bank (alone a ft).s.t (alone a ft).data n rf).2 =
            (ft.unapplyFilter diff a.bank a.s.t a.data n rf).2 from rfl, e1]
          rfl
        · rw [if_neg hjk]
          exact ⟨ft, by rw [set_other hjk]; exact hk, rfl⟩
      | reset rf =>
        obtain ⟨ft0, e0, -, h⟩ := filter_call h
        obtain ⟨ft1, e1, rfl⟩ := putFT_ok h
        dsimp only
        by_cases hjk : j = k
        · rw [if_pos hjk]
          have := hv hjk
          subst this hjk
          cases e0
          refine ⟨ft1, set_same hk, frun_one ?_⟩
          show FApp.withFT _ _ = _
          rw [show (alone a ft).ft.resetFilters diff (alone a ft).bank (alone a ft).s.t (alone a ft).data rf =
            ft.resetFilters diff a.bank a.s.t a.data rf from rfl, e1]
          rfl
        · rw [if_neg hjk]
          exact ⟨ft, by rw [set_other hjk]; exact hk, rfl⟩
      | currentState =>
        unfold Suite.callView at h
        dsimp only at h ⊢
        split at h
        · rename_i hst
          rw [if_pos hst]
          exact refreshes_view _ h hk
        · rename_i hst
          rw [if_neg hst]
          split at h
          · cases h
          · rename_i ft0 e0
            obtain ⟨ft1, e1, rfl⟩ := putFT_ok h
            by_cases hjk : j = k
            · rw [if_pos hjk]
              have := hv hjk
              subst this hjk
              cases e0
              refine ⟨ft1, set_same hk, frun_one ?_⟩
              show FApp.withFT _ _ = _
              rw [show (alone a ft).ft.currentState = ft.currentState from rfl, e1]
              rfl
            · rw [if_neg hjk]
              exact ⟨ft, by rw [set_other hjk]; exact hk, rfl⟩
      | nNodes fs =>
        have := asked_ok h
        subst this
        by_cases hjk : j = k
        · have := hv hjk
          subst this hjk
          exact ⟨ft, set_same hk, rfl⟩
        · exact ⟨ft, by rw [set_other hjk]; exact hk, rfl⟩
      | getNodes fs =>
        have := asked_ok h
        subst this
        by_cases hjk : j = k
        · have := hv hjk
          subst this hjk
          exact ⟨ft, set_same hk, rfl⟩
        · exact ⟨ft, by rw [set_other hjk]; exact hk, rfl⟩
      | nChildren x r =>
        have := asked_ok h
        subst this
        by_cases hjk : j = k
        · have := hv hjk
          subst this hjk
          exact ⟨ft, set_same hk, rfl⟩
        · exact ⟨ft, by rw [set_other hjk]; exact hk, rfl⟩
    · rename_i hno
      cases h
      refine ⟨ft, hk, ?_⟩
      split
      · rename_i v hj; exact absurd hj (hno v)
      · rfl

/-- A counter goes its own way. -/
theorem act_count {a a' : Suite V} {c : SuiteAct V} (h : a.act diff c = .ok a') {k : Nat} {vc : VC}
    (hk : a.objs[k]? = some (Obj.count vc)) :
    ∃ vc', a'.objs[k]? = some (Obj.count vc') ∧ CApp.run (seenByCount a k c) (aloneCount a vc) = .ok (aloneCount a' vc') := by
  cases c with
  | edit op =>
    obtain ⟨c', h1, h2⟩ := edit_count h hk
    exact ⟨c', h1, crun_one h2⟩
  | change x v =>
    obtain ⟨c', h1, h2⟩ := edit_count (a := { a with data := fun y => if y = x then v else a.data y }) h hk
    exact ⟨c', h1, crun_one h2⟩
  | bank c => cases h; exact ⟨vc, hk, rfl⟩
  | getView name rf =>
    change a.getView diff name rf = .ok a' at h
    unfold Suite.getView at h
    split at h
    · split at h
      · cases h
        exact ⟨vc, by rw [List.getElem?_append_left (List.getElem?_eq_some_iff.1 hk).1]; exact hk, rfl⟩
      · cases h
    · cases h; exact ⟨vc, hk, rfl⟩
  | getCount name rf =>
    change a.getCount name rf = .ok a' at h
    unfold Suite.getCount at h
    split at h
    · split at h
      · cases h
        exact ⟨vc, by rw [List.getElem?_append_left (List.getElem?_eq_some_iff.1 hk).1]; exact hk, rfl⟩
      · cases h
    · cases h; exact ⟨vc, hk, rfl⟩
  | onCount j c =>
    change (match a.objs[j]? with | some (.count v) => a.callCount j v c | _ => .ok a) = .ok a' at h
    unfold seenByCount
    dsimp only
    split at h
    · rename_i v hj
      by_cases hjk : j = k
      · rw [if_pos hjk]
        subst hjk
        rw [hk] at hj
        cases hj
        unfold Suite.callCount at h
        cases c with
        | apply n rf =>
          obtain ⟨c', e, rfl⟩ := putVC_ok h
          refine ⟨c', set_same hk, crun_one ?_⟩
          show CApp.withVC (aloneCount a vc) (vc.applyFilter a.bank a.s.t a.data n rf) = _
          rw [e]; rfl
        | unapply n =>
          obtain ⟨c', e, rfl⟩ := putVC_ok h
          refine ⟨c', set_same hk, crun_one ?_⟩
          show CApp.withVC (aloneCount a vc) (vc.unapplyFilter a.bank a.s.t a.data n) = _
          rw [e]; rfl
        | touch x =>
          obtain ⟨c', e, rfl⟩ := putVC_ok h
          refine ⟨c', set_same hk, crun_one ?_⟩
          show CApp.withVC (aloneCount a vc) (VC.modify a.bank a.s.t a.data x vc) = _
          rw [e]; rfl
        | register f =>
          obtain ⟨c', e, rfl⟩ := putVC_ok h
          cases e
          exact ⟨_, set_same hk, crun_one rfl⟩
        | unregister f =>
          obtain ⟨c', e, rfl⟩ := putVC_ok h
          cases e
      · rw [if_neg hjk]
        have : ∃ r, a.putVC j r = .ok a' := by unfold Suite.callCount at h; cases c <;> exact ⟨_, h⟩
        obtain ⟨r, hr⟩ := this
        obtain ⟨c', -, rfl⟩ := putVC_ok hr
        exact ⟨vc, by rw [set_other hjk]; exact hk, rfl⟩
    · rename_i hno
      cases h
      have hjk : j ≠ k := by rintro rfl; exact hno vc hk
      rw [if_neg hjk]
      exact ⟨vc, hk, rfl⟩
  | onView j c =>
    change (match a.objs[j]? with | some (.view v) => a.callView diff j v c | _ => .ok a) = .ok a' at h
    unfold seenByCount
    dsimp only
    split at h
    · rename_i v hj
      rw [hj]
      dsimp only
      have hjk : j ≠ k := by rintro rfl; rw [hk] at hj; cases hj
      cases c with
      | apply n p rs rf =>
        obtain ⟨ft0, e0, -, h⟩ := filter_call h
        dsimp only at h ⊢
        obtain ⟨ft1, e1, rfl⟩ := putFT_ok h
        refine ⟨vc, by rw [set_other hjk]; exact hk, ?_⟩
        rw [setParams_crun]
        show _ = Res.ok (⟨a.s, a.data, (ft0.applyFilter diff a.bank a.s.t a.data n p rs rf).2.1, vc⟩ : CApp V)
        rw [applyFilter_bank e1]
        rfl
      | unapply n rf =>
        obtain ⟨ft0, e0, -, h⟩ := filter_call h
        obtain ⟨ft1, e1, rfl⟩ := putFT_ok h
        exact ⟨vc, by rw [set_other hjk]; exact hk, rfl⟩
      | reset rf =>
        obtain ⟨ft0, e0, -, h⟩ := filter_call h
        obtain ⟨ft1, e1, rfl⟩ := putFT_ok h
        exact ⟨vc, by rw [set_other hjk]; exact hk, rfl⟩
      | currentState =>
        unfold Suite.callView at h
        dsimp only at h ⊢
        split at h
        · rename_i hst
          rw [if_pos hst]
          exact refreshes_count _ h hk
        · rename_i hst
          rw [if_neg hst]
          split at h
          · cases h
          · obtain ⟨ft1, e1, rfl⟩ := putFT_ok h
            exact ⟨vc, by rw [set_other hjk]; exact hk, rfl⟩
      | nNodes fs =>
        have := asked_ok h
        subst this
        exact ⟨vc, by rw [set_other hjk]; exact hk, rfl⟩
      | getNodes fs =>
        have := asked_ok h
        subst this
        exact ⟨vc, by rw [set_other hjk]; exact hk, rfl⟩
      | nChildren x r =>
        have := asked_ok h
        subst this
        exact ⟨vc, by rw [set_other hjk]; exact hk, rfl⟩
    · rename_i hno
      cases h
      refine ⟨vc, hk, ?_⟩
      split
      · rename_i v hj; exact absurd hj (hno v)
      · rfl

end Larch
