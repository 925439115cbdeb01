import Verif.Proofs.LiveApp
import Verif.Proofs.Touched
import Verif.Props.RunOnce
import Verif.Props.Untouched
import Verif.Props.ViewReading

/-!
# C52: callbacks look at the view in the middle of its work

Only `_partial`: the conditions are those of C24 to C27 (`ViewFair`), and, for actions that run once, those of C35.
-/

namespace Larch

open Spec

variable {V : Type} {diff : List Id → List Id → List Id}

/-- An action does not change the virtual root. -/
theorem act_root {a a' : FApp V} {c : FAct V} (h : a.act diff c = .ok a') : a'.ft.root = a.ft.root := by
  have hv : ∀ (ft : FT) (r : Res View), (ft.withView r).state.root = ft.root := by
    intro ft r; cases r <;> rfl
  have hf : ∀ (b : Bank (Id → V)) (t : Tree) (d : Id → V) (ft : FT), (ft.refilter diff b t d).state.root = ft.root := by
    intro b t d ft; exact hv _ _
  have key : (a.act diff c).state.ft.root = a.ft.root := by
    cases c with
    | edit op => exact (edit_same a op).2.2.2
    | change x v => exact (edit_same { a with data := fun y => if y = x then v else a.data y } (.refreshNode x)).2.2.2
    | bank c => rfl
    | setParams n p => rfl
    | apply n p rs rf =>
      change (FApp.withFT { a with bank := (a.ft.applyFilter diff a.bank a.s.t a.data n p rs rf).2.1 }
        (a.ft.applyFilter diff a.bank a.s.t a.data n p rs rf).2.2).state.ft.root = _
      rw [withFT_applied]
      unfold FT.applyFilter
      dsimp only
      repeat' split
      all_goals first | rfl | exact hf _ _ _ _
    | unapply n rf =>
      change (FApp.withFT a (a.ft.unapplyFilter diff a.bank a.s.t a.data n rf).2).state.ft.root = _
      rw [withFT_applied]
      unfold FT.unapplyFilter
      dsimp only
      repeat' split
      all_goals first | rfl | exact hf _ _ _ _
    | reset rf =>
      change (FApp.withFT a (a.ft.resetFilters diff a.bank a.s.t a.data rf)).state.ft.root = _
      rw [withFT_applied]
      unfold FT.resetFilters
      dsimp only
      repeat' split
      all_goals first | rfl | exact hf _ _ _ _
    | currentState =>
      change (FApp.withFT a _).state.ft.root = _
      rw [withFT_applied]
      exact hv _ _
  rw [h] at key
  exact key

/-- The names in the tree while an action is going on are those before or after. -/
theorem allNow_of {G : Id → Prop} {a : FApp V} {c : FAct V} (h : VState diff a) (hf : ViewFair a c)
    (h0 : ∀ y, a.s.t.has y = true → G y) (h1 : ∀ y, (a.act diff c).state.s.t.has y = true → G y) : AllNow G a c := by
  have key : ∀ (b : FApp V) (op : Op), b.s = a.s → Careful b.s op → (b.edit diff op).state.s = (step b.s op).state →
      (∀ y, (b.edit diff op).state.s.t.has y = true → G y) →
      ∀ n ∈ (step b.s op).state.log.drop b.s.log.length, ∀ y, n.snap.has y = true → G y := by
    intro b op hs hc he hg n hn y hy
    obtain ⟨l, e, hb⟩ := step_between (s := b.s) (by rw [hs]; exact h.good) (by rw [hs]; exact h.tidy) op hc
    rw [e, List.drop_left] at hn
    rw [he] at hg
    have := (hb n hn).has y
    by_cases hy1 : (step b.s op).state.t.has y = true
    · exact hg y hy1
    · by_cases hy0 : b.s.t.has y = true
      · exact h0 y (by rw [← hs]; exact hy0)
      · rw [this (by rw [Bool.not_eq_true] at hy1 hy0; rw [hy1, hy0])] at hy
        exact absurd hy hy0
  have hs : ∀ (b : FApp V) (op : Op), (b.edit diff op).state.s = (step b.s op).state := by
    intro b op
    unfold FApp.edit
    dsimp only
    generalize Res.forEach _ _ _ = r
    cases r <;> rfl
  cases c with
  | edit op => exact key a op rfl hf.1.1 (hs _ _) h1
  | change x v =>
    exact key { a with data := fun y => if y = x then v else a.data y } (.refreshNode x) rfl trivial (hs _ _) h1
  | bank c => exact h0
  | setParams n p => exact h0
  | apply n p rs rf => exact h0
  | unapply n rf => exact h0
  | reset rf => exact h0
  | currentState => exact h0

/-! ### Histories -/

/-- The history `hs` goes from `a` to `a'`, and this is what the callbacks go through. The nodes signalled have the property
`G`. -/
inductive Story (diff : List Id → List Id → List Id) (G : Id → Prop) {V σ : Type} : FApp V → List (LiveAct V σ) → List (Happening σ) → FApp V → Prop
  | nil {a : FApp V} (v : VState diff a) : Story diff G a [] [] a
  | app {a a1 a' : FApp V} {c : FAct V} {hs : List (LiveAct V σ)} {tr : Calls} {t : List (Happening σ)} (v : VState diff a)
      (e : a.act diff c = .ok a1) (names : ∀ k ∈ tr, G k.2.nid) (seen : ∀ k ∈ tr, Seen a.ft.root k.1 k.2) (out : a1.ft.view.out = a.ft.view.out ++ tr.map Prod.snd)
      (ends : ∀ (cb : Handler σ) (s : σ), AgreesApp ((⟨a, s⟩ : Live V σ).appAct diff cb c) (callAll cb tr s) a1)
      (rest : Story diff G a1 hs t a') : Story diff G a (.app c :: hs) (tr.map (fun k => .call k.1 k.2) ++ t) a'
  | own {a a' : FApp V} {g : View → σ → Res σ} {hs : List (LiveAct V σ)} {t : List (Happening σ)} (v : VState diff a) (rest : Story diff G a hs t a') :
      Story diff G a (.own g :: hs) (.own a.ft.view g :: t) a'

/-- The nodes of the tree have the property at every moment of the history. -/
def AlongNow {σ : Type} (diff : List Id → List Id → List Id) (G : Id → Prop) : List (LiveAct V σ) → FApp V → Prop
  | [], _ => True
  | .app c :: hs, a => AllNow G a c ∧ AlongNow diff G hs (a.act diff c).state
  | .own _ :: hs, a => AlongNow diff G hs a

theorem happenAll_append {σ : Type} (cb : Handler σ) (t1 t2 : List (Happening σ)) (a : σ) :
    happenAll cb (t1 ++ t2) a = (happenAll cb t1 a).andThen (happenAll cb t2) := by
  induction t1 generalizing a with
  | nil => rfl
  | cons c t1 ih =>
    cases c with
    | call u s =>
      show (cb u s a).andThen (happenAll cb (t1 ++ t2)) = ((cb u s a).andThen (happenAll cb t1)).andThen (happenAll cb t2)
      cases cb u s a with
      | err e s => rfl
      | ok s => exact ih s
    | own u g =>
      show (g u a).andThen (happenAll cb (t1 ++ t2)) = ((g u a).andThen (happenAll cb t1)).andThen (happenAll cb t2)
      cases g u a with
      | err e s => rfl
      | ok s => exact ih s

theorem happenAll_calls {σ : Type} (cb : Handler σ) (tr : Calls) (a : σ) :
    happenAll cb (tr.map fun k => .call k.1 k.2) a = callAll cb tr a := by
  induction tr generalizing a with
  | nil => rfl
  | cons k tr ih =>
    show (cb k.1 k.2 a).andThen _ = (cb k.1 k.2 a).andThen _
    cases cb k.1 k.2 a with
    | err e s => rfl
    | ok s => exact ih s

namespace Story

variable {σ : Type} {G : Id → Prop}

theorem start {a a' : FApp V} {hs : List (LiveAct V σ)} {t : List (Happening σ)} (h : Story diff G a hs t a') : VState diff a := by
  cases h <;> assumption

theorem finish {a a' : FApp V} {hs : List (LiveAct V σ)} {t : List (Happening σ)} (h : Story diff G a hs t a') : VState diff a' := by
  induction h with
  | nil v => exact v
  | app v e names seen out ends rest ih => exact ih
  | own v rest ih => exact ih

theorem acts {a a' : FApp V} {hs : List (LiveAct V σ)} {t : List (Happening σ)} (h : Story diff G a hs t a') :
    FApp.run diff (appActs hs) a = .ok a' := by
  induction h with
  | nil v => rfl
  | app v e names seen out ends rest ih =>
    show (FApp.act diff _ _).andThen _ = _
    rw [e]
    exact ih
  | own v rest ih => exact ih

theorem root {a a' : FApp V} {hs : List (LiveAct V σ)} {t : List (Happening σ)} (h : Story diff G a hs t a') :
    a'.ft.root = a.ft.root := by
  induction h with
  | nil v => rfl
  | app v e names seen out ends rest ih => rw [ih, act_root e]
  | own v rest ih => exact ih

theorem calls_seen {a a' : FApp V} {hs : List (LiveAct V σ)} {t : List (Happening σ)} (h : Story diff G a hs t a') :
    ∀ u s, .call u s ∈ t → Seen a.ft.root u s := by
  induction h with
  | nil v => intro u s hc; cases hc
  | app v e names seen out ends rest ih =>
    intro u s hc
    rcases List.mem_append.1 hc with hc | hc
    · obtain ⟨k, hk, e⟩ := List.mem_map.1 hc
      cases e
      exact seen k hk
    · rw [← act_root e]; exact ih u s hc
  | own v rest ih =>
    intro u s hc
    rcases List.mem_cons.1 hc with hc | hc
    · cases hc
    · exact ih u s hc

theorem callsOf_calls (tr : Calls) (t : List (Happening σ)) :
    callsOf (tr.map (fun k => .call k.1 k.2) ++ t) = tr.map Prod.snd ++ callsOf t := by
  unfold callsOf
  rw [List.filterMap_append, List.filterMap_map]
  congr 1
  induction tr with
  | nil => rfl
  | cons k tr ih => simp [ih]

theorem outs {a a' : FApp V} {hs : List (LiveAct V σ)} {t : List (Happening σ)} (h : Story diff G a hs t a') :
    a'.ft.view.out = a.ft.view.out ++ callsOf t := by
  induction h with
  | nil v => simp [callsOf]
  | app v e names seen out ends rest ih => rw [ih, out, callsOf_calls, List.append_assoc]
  | own v rest ih => exact ih

theorem owned {a a' : FApp V} {hs : List (LiveAct V σ)} {t : List (Happening σ)} (h : Story diff G a hs t a') :
    owns t = ownActs hs := by
  induction h with
  | nil v => rfl
  | @app a a1 a' c hs tr t v e names seen out ends rest ih =>
    show owns (_ ++ _) = ownActs hs
    rw [← ih]
    clear seen out ends names
    induction tr with
    | nil => rfl
    | cons k tr ih => exact ih
  | own v rest ih => show _ :: owns _ = _ :: ownActs _; rw [ih]

theorem agrees {a a' : FApp V} {hs : List (LiveAct V σ)} {t : List (Happening σ)} (h : Story diff G a hs t a') (cb : Handler σ) :
    ∀ s, AgreesApp (Live.run diff cb hs ⟨a, s⟩) (happenAll cb t s) a' := by
  induction h with
  | nil v => intro s; rfl
  | @app a a1 a' c hs tr t v e names seen out ends rest ih =>
    intro s
    rw [happenAll_append, happenAll_calls]
    have e1 := ends cb s
    cases ht : callAll cb tr s with
    | err e s' =>
      rw [ht] at e1
      obtain ⟨u, hu⟩ := e1
      exact ⟨u, by show (Live.appAct diff cb _ c).andThen _ = _; rw [hu]; rfl⟩
    | ok s' =>
      rw [ht] at e1
      have e1' : Live.appAct diff cb ⟨a, s⟩ c = .ok ⟨a1, s'⟩ := e1
      show AgreesApp ((Live.appAct diff cb _ c).andThen _) (happenAll cb t s') a'
      rw [e1']
      exact ih s'
  | @own a a' g hs t v rest ih =>
    intro s
    show AgreesApp ((Live.act diff cb ⟨a, s⟩ (.own g)).andThen _) ((g a.ft.view s).andThen _) a'
    unfold Live.act
    dsimp only
    cases g a.ft.view s with
    | err e s' => exact ⟨a, rfl⟩
    | ok s' => exact ih s'

theorem split {a a' : FApp V} {h1 h2 : List (LiveAct V σ)} {t : List (Happening σ)} (h : Story diff G a (h1 ++ h2) t a') :
    ∃ t1 t2 a1, t = t1 ++ t2 ∧ Story diff G a h1 t1 a1 ∧ Story diff G a1 h2 t2 a' := by
  induction h1 generalizing a t with
  | nil => exact ⟨[], t, a, rfl, .nil h.start, h⟩
  | cons c h1 ih =>
    rw [List.cons_append] at h
    cases h with
    | app v e names seen out ends rest =>
      obtain ⟨t1, t2, a1, rfl, r1, r2⟩ := ih rest
      exact ⟨_, t2, a1, (List.append_assoc _ _ _).symm, .app v e names seen out ends r1, r2⟩
    | own v rest =>
      obtain ⟨t1, t2, a1, rfl, r1, r2⟩ := ih rest
      exact ⟨_, t2, a1, rfl, .own v r1, r2⟩

/-- Every fair history has one. -/
theorem of {a : FApp V} (hdiff : SetDiff diff) (h : VState diff a) (hv : All G a.ft.root a.ft.view) :
    ∀ (hs : List (LiveAct V σ)), ViewFairRun diff (appActs hs) a → AlongNow diff G hs a →
    ∃ t a', Story diff G a hs t a' := by
  intro hs
  induction hs generalizing a with
  | nil => intro _ _; exact ⟨[], a, .nil h⟩
  | cons c hs ih =>
    intro hf hn
    cases c with
    | own g =>
      obtain ⟨t, a', r⟩ := ih h hv hf hn
      exact ⟨_, a', .own h r⟩
    | app c =>
      obtain ⟨h1, h2⟩ := hf
      obtain ⟨n1, n2⟩ := hn
      obtain ⟨a1, e, v1⟩ := act_vstate hdiff h c h1
      obtain ⟨tr, p, o, k, f⟩ := act_follows n1 e
      rw [show (FApp.act diff a c).state = a1 by rw [e]; rfl] at h2 n2
      obtain ⟨t, a', r⟩ := ih v1 (by rw [act_root e]; exact (k hv).1) h2 n2
      exact ⟨_, a', .app h e (k hv).2 p o (fun cb s => f σ cb s) r⟩

end Story

theorem VState.shown_names {G : Id → Prop} {a : FApp V} (h : VState diff a) (ht : ∀ y, a.s.t.has y = true → G y) :
    All G a.ft.root a.ft.view := by
  obtain ⟨r, -, hv⟩ := h.fit.inv
  have hr : a.ft.view.pars a.ft.root = [] := hv.rootPars
  refine ⟨fun y hy hyr => ht y (accepts_has (hv.sub y hy hyr)), fun p hp => ?_, hr⟩
  have := (hv.mirror _ (by simp) p).2 hp
  rw [hr] at this; cases this

/-- A displayed node has a row. -/
theorem VState.has_row {a : FApp V} (h : VState diff a) {x : Id} (hx : a.ft.view.has x = true) (hr : x ≠ a.ft.root) :
    ∃ l, IsRow a.ft l ∧ l.getLast? = some x := by
  obtain ⟨r, -, hv⟩ := h.fit.inv
  induction hn : r x using Nat.strong_induction_on generalizing x with
  | _ n ih =>
    subst hn
    have hd := hv.sub x hx hr
    have hne : ∃ p, p ∈ npAll (FT.env diff a.bank a.s.t a.data a.ft) x := by
      by_cases hc : candAll (FT.env diff a.bank a.s.t a.data a.ft) x = []
      · exact ⟨_, mem_npAll.2 (Or.inr ⟨rfl, hc⟩)⟩
      · obtain ⟨p, hp⟩ := List.exists_mem_of_ne_nil _ hc
        exact ⟨p, mem_npAll.2 (Or.inl hp)⟩
    obtain ⟨p, hp⟩ := hne
    have hp := (h.fit.settled x hd (fun h => h) p).2 hp
    have hk := (hv.mirror x (fun h => h) p).1 hp
    obtain ⟨h1, h2⟩ := hv.par x p hp
    by_cases hpr : p = a.ft.root
    · subst hpr
      exact ⟨[x], ⟨by simp, by simpa using hk⟩, rfl⟩
    · obtain ⟨l, ⟨l1, l2⟩, l3⟩ := ih (r p) h2 h1 hpr rfl
      refine ⟨l ++ [x], ⟨by simp, ?_⟩, by simp⟩
      rw [← List.cons_append, List.isChain_append]
      refine ⟨l2, by simp, fun y hy z hz => ?_⟩
      rw [List.getLast?_cons, l3] at hy
      simp at hy hz
      subst hy; subst hz
      exact hk

/-- A node that was not displayed and is displayed now has been announced. -/
theorem appeared {a a' : FApp V} (h : VState diff a) (h' : VState diff a') (hr : a'.ft.root = a.ft.root) {l : List Sig}
    (ho : a'.ft.view.out = a.ft.view.out ++ l) {x : Id} (hx : a.ft.view.has x = false) (hx' : a'.ft.view.has x = true) :
    Appeared x l := by
  have hxr : x ≠ a.ft.root := by
    rintro rfl
    obtain ⟨r, -, hv⟩ := h.fit.inv
    have := hv.rootIn
    change a.ft.view.has a.ft.root = true at this
    rw [hx] at this; cases this
  obtain ⟨row, h1, h2⟩ := h'.has_row hx' (by rw [hr]; exact hxr)
  obtain ⟨rows, e, -, m⟩ := h.observerAgrees
  obtain ⟨rows', e', -, m'⟩ := h'.observerAgrees
  rw [ho, replay_append, e] at e'
  rcases replay_mem l e' row ((m' row).2 h1) with hm | ⟨s, hs, he, hp⟩
  · have := (h.row_wanted ((m row).1 hm) h2).1
    rw [hx] at this; cases this
  · refine ⟨s, hs, he, ?_⟩
    have hlast : ∀ (l : List Sig) {rows rows' : List (List Id)}, replay l rows = some rows' → ∀ s ∈ l, s.path.getLast? = some s.nid := by
      intro l
      induction l with
      | nil => intro _ _ _ s hs; cases hs
      | cons c l ih =>
        intro rows rows' h s hs
        obtain ⟨rows1, h1, h2⟩ := Option.bind_eq_some_iff.1 h
        rcases List.mem_cons.1 hs with rfl | hs
        · exact applySig_last h1
        · exact ih h2 s hs
    have := hlast l e' s hs
    rw [hp, h2] at this
    exact (Option.some.inj this).symm

/-! ### What is claimed -/

/-- **C52** (partial). Whatever the callbacks of a view do with their own state, and however they look at the view while it
works: in every fair history, interleaved with anything else that looks at the view, the application and the view end up as
if the signals had only been recorded; the callbacks are called for exactly those signals; at every such moment the path ends
with the node, and unless a row is deleted the node is displayed and the path is a row of the view as it is then. An exception
comes out of the history only if a callback (or the other code) raises it.

Missing: callbacks that edit the tree or the view, and the conditions of `ViewFair`. A callback may well be given a view whose
paths can not be computed (`C52_refuted_two_parents`). -/
theorem C52_callbacks_partial {σ : Type} {ops : List Op} {bcs : List (Bank.Call (Id → V))} {root : Id} (h : ViewStart ops root)
    (hdiff : SetDiff diff) (d : Id → V) :
    ∃ ft, FT.new diff (Bank.run {} bcs) (runOps St.init ops).t d root true = .ok ft ∧
      ∀ hs : List (LiveAct V σ), ViewFairRun diff (appActs hs) ⟨runOps St.init ops, d, Bank.run {} bcs, ft⟩ →
        ∃ a t, FApp.run diff (appActs hs) ⟨runOps St.init ops, d, Bank.run {} bcs, ft⟩ = .ok a ∧
          a.ft.view.out = ft.view.out ++ callsOf t ∧ owns t = ownActs hs ∧ (∀ u s, .call u s ∈ t → Seen ft.root u s) ∧
          ∀ (cb : Handler σ) (s : σ),
            match happenAll cb t s with
            | .ok s' => Live.run diff cb hs ⟨⟨runOps St.init ops, d, Bank.run {} bcs, ft⟩, s⟩ = .ok ⟨a, s'⟩
            | .err e s' => ∃ a', Live.run diff cb hs ⟨⟨runOps St.init ops, d, Bank.run {} bcs, ft⟩, s⟩ = .err e ⟨a', s'⟩ := by
  obtain ⟨ft, e, hr⟩ := h.run hdiff d
  refine ⟨ft, e, fun hs hf => ?_⟩
  obtain ⟨a0, e0, v0⟩ := hr [] trivial
  cases e0
  have triv : ∀ (hs : List (LiveAct V σ)) (a : FApp V), AlongNow diff (fun _ => True) hs a := by
    intro hs
    induction hs with
    | nil => intro a; trivial
    | cons c hs ih =>
      intro a
      cases c with
      | app c => exact ⟨by cases c <;> simp [AllNow], ih _⟩
      | own g => exact ih a
  obtain ⟨t, a, st⟩ := Story.of (G := fun _ => True) hdiff v0 (v0.shown_names fun _ _ => trivial) hs hf (triv _ _)
  refine ⟨a, t, st.acts, st.outs, st.owned, st.calls_seen, fun cb s => ?_⟩
  have := st.agrees cb s
  unfold AgreesApp at this
  split at this
  · next h => rw [h]; exact this
  · next h => rw [h]; exact this

theorem edits_live (hs : List (OnceAct V)) : appActs (hs.map OnceAct.live) = edits hs := by
  induction hs with
  | nil => rfl
  | cons c hs ih =>
    cases c with
    | app c => exact congrArg (c :: ·) ih
    | queue x f => exact ih

theorem NamedRun.now {hs : List (OnceAct V)} {a : FApp V} (h : NamedRun diff hs a) : ∀ y, a.s.t.has y = true → ProperId y := by
  induction hs with
  | nil => exact h
  | cons c hs ih =>
    cases c with
    | app c => exact h.1
    | queue x f => exact ih h.2

theorem NamedRun.along (hdiff : SetDiff diff) : ∀ {hs : List (OnceAct V)} {a : FApp V}, VState diff a → ViewFairRun diff (edits hs) a →
    NamedRun diff hs a → AlongNow diff ProperId (hs.map OnceAct.live) a := by
  intro hs
  induction hs with
  | nil => intro a _ _ _; trivial
  | cons c hs ih =>
    intro a hv hf hn
    cases c with
    | app c =>
      obtain ⟨a1, e, v1⟩ := act_vstate hdiff hv c hf.1
      refine ⟨allNow_of hv hf.1 hn.1 (NamedRun.now hn.2), ih ?_ hf.2 hn.2⟩
      rw [e]; exact v1
    | queue x f => exact ih hv hf hn.2

/-- The number `RunOnce.start` gives the callback of a signal, and the node. -/
def toldAs (s : Sig) : Nat × Id := (evFn s.ev, s.nid)

theorem onceRun_calls (tr : Calls) (r : RunOnce) : callAll onceHandler tr r =
    RunOnce.run (fun _ => false) (tr.map fun k => .signal k.1.has k.2.ev k.2.nid) r := by
  induction tr generalizing r with
  | nil => rfl
  | cons k tr ih =>
    show (onceHandler k.1 k.2 r).andThen (callAll onceHandler tr) = (RunOnce.signal _ _ _ _ r).andThen _
    unfold onceHandler
    cases RunOnce.signal (fun _ => false) k.1.has k.2.ev k.2.nid r with
    | err e s => rfl
    | ok s => exact ih s

theorem announced_calls (tr : Calls) : announced (tr.map fun k => .signal k.1.has k.2.ev k.2.nid) = tr.map (toldAs ∘ Prod.snd) := by
  induction tr with
  | nil => rfl
  | cons k tr ih =>
    show _ :: announced _ = _ :: _
    rw [ih]
    congr 1

theorem appears_append (x : Id) (h k : List RunOnce.Act) : appears x (h ++ k) = (appears x h || appears x k) := by
  unfold appears; simp

theorem appears_calls (x : Id) (tr : Calls) :
    appears x (tr.map fun k => .signal k.1.has k.2.ev k.2.nid) = true ↔ Appeared x (tr.map Prod.snd) := by
  unfold appears Appeared
  simp only [List.any_map, List.any_eq_true, Function.comp, Bool.and_eq_true, decide_eq_true_eq, List.mem_map]
  constructor
  · rintro ⟨k, hk, h⟩; exact ⟨k.2, ⟨k, hk, rfl⟩, h⟩
  · rintro ⟨s, ⟨k, hk, rfl⟩, h⟩; exact ⟨k, hk, h⟩

theorem Appeared.append {x : Id} {l k : List Sig} : Appeared x (l ++ k) ↔ Appeared x l ∨ Appeared x k := by
  unfold Appeared
  constructor
  · rintro ⟨s, hs, h⟩
    rcases List.mem_append.1 hs with hs | hs
    · exact Or.inl ⟨s, hs, h⟩
    · exact Or.inr ⟨s, hs, h⟩
  · rintro (⟨s, hs, h⟩ | ⟨s, hs, h⟩)
    · exact ⟨s, by simp [hs], h⟩
    · exact ⟨s, by simp [hs], h⟩

/-- The history of `RunOnce` in a history of the application. -/
structure OnceOf (hs : List (OnceAct V)) (t : List (Happening RunOnce)) (h : List RunOnce.Act) : Prop where
  same : ∀ r, happenAll onceHandler t r = RunOnce.run (fun _ => false) h r
  proper : ∀ c ∈ h, Proper c
  told : announced h = (callsOf t).map toldAs
  others : ∀ s x f, .queue s x f ∈ h → Queued f hs
  seen : ∀ x, appears x h = true ↔ Appeared x (callsOf t)

theorem onceOf : ∀ {hs : List (OnceAct V)} {t : List (Happening RunOnce)} {a a' : FApp V}, NamedRun diff hs a →
    Story diff ProperId a (hs.map OnceAct.live) t a' → ∃ h, OnceOf hs t h := by
  intro hs
  induction hs with
  | nil =>
    intro t a a' _ st
    cases st
    exact ⟨[], fun _ => rfl, by simp, rfl, fun _ _ _ h => by (cases h), fun x => by simp [appears, Appeared, callsOf]⟩
  | cons c hs ih =>
    intro t a a' hn st
    cases c with
    | app c =>
      rw [List.map_cons, OnceAct.live] at st
      cases st with
      | @app _ a1 _ _ _ tr t v e names seen out ends rest =>
        obtain ⟨h, o⟩ := ih (by have := hn.2; rw [e] at this; exact this) rest
        refine ⟨(tr.map fun k => .signal k.1.has k.2.ev k.2.nid) ++ h, fun r => ?_, fun c hc => ?_, ?_, fun s x f hq => ?_, fun x => ?_⟩
        · rw [happenAll_append, happenAll_calls, once_run_append, onceRun_calls]
          cases RunOnce.run (fun _ => false) (tr.map fun k => .signal k.1.has k.2.ev k.2.nid) r with
          | err e s => rfl
          | ok s => exact o.same s
        · rcases List.mem_append.1 hc with hc | hc
          · obtain ⟨k, hk, rfl⟩ := List.mem_map.1 hc
            obtain ⟨n1, n2, n3⟩ := names k hk
            exact ⟨n1, n2, n3, fun he => (seen k hk).shown (by rw [he]; simp)⟩
          · exact o.proper c hc
        · rw [announced_append, announced_calls, o.told, Story.callsOf_calls, List.map_append, List.map_map]
        · rcases List.mem_append.1 hq with hq | hq
          · obtain ⟨k, -, e⟩ := List.mem_map.1 hq
            cases e
          · obtain ⟨y, hy⟩ := o.others s x f hq
            exact ⟨y, by simp [hy]⟩
        · rw [appears_append, Bool.or_eq_true, appears_calls, o.seen, Story.callsOf_calls, Appeared.append]
    | queue x f =>
      rw [List.map_cons, OnceAct.live] at st
      cases st with
      | @own _ _ _ _ t v rest =>
        obtain ⟨h, o⟩ := ih hn.2 rest
        refine ⟨.queue a.ft.view.has x f :: h, fun r => ?_, fun c hc => ?_, o.told, fun s z g hq => ?_, fun y => ?_⟩
        · show (RunOnce.queue r _ x f).andThen _ = (RunOnce.queue r _ x f).andThen _
          cases RunOnce.queue r a.ft.view.has x f with
          | err e s => rfl
          | ok s => exact o.same s
        · rcases List.mem_cons.1 hc with rfl | hc
          · exact hn.1
          · exact o.proper c hc
        · rcases List.mem_cons.1 hq with hq | hq
          · cases hq; exact ⟨x, by simp⟩
          · obtain ⟨y, hy⟩ := o.others s z g hq
            exact ⟨y, by simp [hy]⟩
        · have : appears y (.queue a.ft.view.has x f :: h) = appears y h := by unfold appears; simp
          rw [this]
          exact o.seen y

theorem due_skip (f : Nat) (h k : List RunOnce.Act) (hq : ∀ s x g, .queue s x g ∈ h → g ≠ f) :
    due f (h ++ k) = due f k ∧ (atOnce h).count f = 0 := by
  induction h with
  | nil => exact ⟨rfl, rfl⟩
  | cons c h ih =>
    have ih := ih (fun s x g hg => hq s x g (by simp [hg]))
    cases c with
    | signal s e x => exact ih
    | queue s x g =>
      have hne := hq s x g (by simp)
      constructor
      · show (if g = f ∧ s x = false ∧ appears x (h ++ k) then 1 else 0) + due f (h ++ k) = _
        rw [ih.1, if_neg (fun e => hne e.1), Nat.zero_add]
      · show (if s x then g :: atOnce h else atOnce h).count f = 0
        split
        · rw [List.count_cons_of_ne hne]; exact ih.2
        · exact ih.2

/-- **C52** (partial), for actions that run once. In a fair history of a view in use, in which no node has the name of an event
and actions are queued at any moment: nothing fails, and application, view and signals are as without queued actions. An
action queued once, for a displayed node, is handed to the main loop and to nobody else. If its node is not displayed when it
is queued, it has been executed exactly once if the node was announced since, and not at all otherwise; and the node was
announced if it was displayed after any later action. So the action is executed when the node appears.

Missing: what C35 lacks, and the conditions of `ViewFair`; the actions look at the view but do not change it. -/
theorem C52_runonce_partial {ops : List Op} {bcs : List (Bank.Call (Id → V))} {root : Id} (h : ViewStart ops root)
    (hdiff : SetDiff diff) (d : Id → V) :
    ∃ ft, FT.new diff (Bank.run {} bcs) (runOps St.init ops).t d root true = .ok ft ∧
      ∀ hs : List (OnceAct V), ViewFairRun diff (edits hs) ⟨runOps St.init ops, d, Bank.run {} bcs, ft⟩ →
        NamedRun diff hs ⟨runOps St.init ops, d, Bank.run {} bcs, ft⟩ →
        ∃ a r, FApp.run diff (edits hs) ⟨runOps St.init ops, d, Bank.run {} bcs, ft⟩ = .ok a ∧
          Live.run diff onceHandler (hs.map OnceAct.live) ⟨⟨runOps St.init ops, d, Bank.run {} bcs, ft⟩, RunOnce.start⟩ = .ok ⟨a, r⟩ ∧
          (∃ l, a.ft.view.out = ft.view.out ++ l ∧ r.told = l.map toldAs) ∧
          ∀ h1 x f h2, hs = h1 ++ .queue x f :: h2 → ¬ Queued f h1 → ¬ Queued f h2 →
            ∃ a1 l, FApp.run diff (edits h1) ⟨runOps St.init ops, d, Bank.run {} bcs, ft⟩ = .ok a1 ∧
              a.ft.view.out = a1.ft.view.out ++ l ∧
              (a1.ft.view.has x = true → r.idle.count f = 1 ∧ r.ran.count f = 0) ∧
              (a1.ft.view.has x = false → r.idle.count f = 0 ∧ (Appeared x l → r.ran.count f = 1) ∧ (¬ Appeared x l → r.ran.count f = 0) ∧
                ∀ k1 k2 a2, h2 = k1 ++ k2 → FApp.run diff (edits k1) a1 = .ok a2 → a2.ft.view.has x = true → Appeared x l) := by
  obtain ⟨ft, e, hr⟩ := h.run hdiff d
  refine ⟨ft, e, fun hs hf hn => ?_⟩
  obtain ⟨a0, e0, v0⟩ := hr [] trivial
  have ea : a0 = ⟨runOps St.init ops, d, Bank.run {} bcs, ft⟩ := by cases e0; rfl
  rw [← ea] at hf hn ⊢
  have hft : ft = a0.ft := by rw [ea]
  rw [hft]
  obtain ⟨t, a, st⟩ := Story.of hdiff v0 (v0.shown_names (NamedRun.now hn)) (hs.map OnceAct.live)
    (by rw [edits_live]; exact hf) (NamedRun.along hdiff v0 hf hn)
  obtain ⟨H, o⟩ := onceOf hn st
  obtain ⟨r, r1, r2, r3, r4⟩ := C35_runonce_partial (bad := fun _ => false) (fun _ => rfl) H o.proper
  have run := st.agrees onceHandler RunOnce.start
  rw [o.same, r1] at run
  refine ⟨a, r, by rw [← edits_live]; exact st.acts, run, ⟨_, st.outs, by rw [r4, o.told]⟩, ?_⟩
  rintro h1 x f h2 rfl q1 q2
  rw [List.map_append, List.map_cons] at st
  obtain ⟨t1, t2, a1, rfl, s1, s2⟩ := st.split
  have named : ∀ (h1 : List (OnceAct V)) {h2 : List (OnceAct V)} {a a1 : FApp V} {t1}, NamedRun diff (h1 ++ h2) a →
      Story diff ProperId a (h1.map OnceAct.live) t1 a1 → NamedRun diff h1 a ∧ NamedRun diff h2 a1 := by
    intro h1
    induction h1 with
    | nil => intro h2 a a1 t1 hn st; cases st; exact ⟨NamedRun.now hn, hn⟩
    | cons c h1 ih =>
      intro h2 a a1 t1 hn st
      cases c with
      | app c =>
        cases st with
        | app v e names seen out ends rest =>
          have h := ih (by have := hn.2; rw [e] at this; exact this) rest
          exact ⟨⟨hn.1, by rw [e]; exact h.1⟩, h.2⟩
      | queue y g =>
        cases st with
        | own v rest =>
          have h := ih hn.2 rest
          exact ⟨⟨hn.1, h.1⟩, h.2⟩
  obtain ⟨n1, n2⟩ := named h1 hn s1
  obtain ⟨H1, o1⟩ := onceOf n1 s1
  cases s2 with
  | @own _ _ _ _ t2 v2 s2 =>
    obtain ⟨H2, o2⟩ := onceOf n2.2 s2
    have outs2 := s2.outs
    -- the same history, put together
    have o' : ∀ r, happenAll onceHandler (t1 ++ .own a1.ft.view (fun u r => RunOnce.queue r u.has x f) :: t2) r =
        RunOnce.run (fun _ => false) (H1 ++ .queue a1.ft.view.has x f :: H2) r := by
      intro r
      rw [happenAll_append, once_run_append, o1.same]
      cases RunOnce.run (fun _ => false) H1 r with
      | err e s => rfl
      | ok s =>
        show (RunOnce.queue s _ x f).andThen _ = (RunOnce.queue s _ x f).andThen _
        cases RunOnce.queue s a1.ft.view.has x f with
        | err e s => rfl
        | ok s => exact o2.same s
    have p' : ∀ c ∈ H1 ++ .queue a1.ft.view.has x f :: H2, Proper c := by
      intro c hc
      rcases List.mem_append.1 hc with hc | hc
      · exact o1.proper c hc
      · rcases List.mem_cons.1 hc with rfl | hc
        · exact n2.1
        · exact o2.proper c hc
    obtain ⟨r', r1', r2', r3', -⟩ := C35_runonce_partial (bad := fun _ => false) (fun _ => rfl) _ p'
    rw [← o', o.same, r1] at r1'
    cases r1'
    have k1 := due_skip f H1 (.queue a1.ft.view.has x f :: H2) (fun s y g hg e => q1 (e ▸ o1.others s y g hg))
    have k2 := due_skip f H2 [] (fun s y g hg e => q2 (e ▸ o2.others s y g hg))
    rw [List.append_nil] at k2
    have ran : r.ran.count f = (if a1.ft.view.has x = false ∧ appears x H2 then 1 else 0) := by
      rw [r3' f, k1.1]
      show (if f = f ∧ a1.ft.view.has x = false ∧ appears x H2 then 1 else 0) + due f H2 = _
      rw [k2.1]
      simp [due]
    have idle : r.idle.count f = if a1.ft.view.has x then 1 else 0 := by
      rw [r2', atOnce_append, List.count_append, k1.2]
      show 0 + (if a1.ft.view.has x then f :: atOnce H2 else atOnce H2).count f = _
      split
      · rw [List.count_cons_self, k2.2]
      · rw [k2.2]
    refine ⟨a1, callsOf t2, by rw [← edits_live]; exact s1.acts, outs2, fun hx => ?_, fun hx => ⟨?_, fun ha => ?_, fun ha => ?_, ?_⟩⟩
    · rw [idle, ran, hx]; simp
    · rw [idle, hx]; simp
    · rw [ran, if_pos ⟨hx, (o2.seen x).2 ha⟩]
    · rw [ran, if_neg (fun e => ha ((o2.seen x).1 e.2))]
    · rintro k1 k2 a2 rfl hrun ha2
      rw [List.map_append] at s2
      obtain ⟨u1, u2, a3, rfl, s3, s4⟩ := s2.split
      have := s3.acts
      rw [edits_live, hrun] at this
      cases this
      have happ := appeared s3.start s3.finish s3.root s3.outs hx ha2
      unfold callsOf
      rw [List.filterMap_append]
      exact Appeared.append.2 (Or.inl happ)

/-! ### A concrete case -/

def liveOps : List Op := [.addNode (.new (.str 11) .none) .none, .addNode (.new (.str 12) .none) .none,
  .addNode (.new (.str 13) .none) (.str 11), .addNode (.new (.str 14) .none) (.str 13), .newRelationship (.str 12) (.str 13)]

theorem liveStart : ViewStart liveOps (.str 100) := by
  refine ⟨⟨careful_add (Made.new _ _) (by decide), careful_add (Made.new _ _) (by decide), careful_add (Made.new _ _) (by decide),
    careful_add (Made.new _ _) (by decide), Tree.allEnabled_accept (by decide) _ _, trivial⟩, by decide⟩

/-- 13 is a child of 11 and 12, and 14 is its child. -/
def liveApp : FApp Nat := ⟨runOps St.init liveOps, fun _ => 0, Bank.run {} countBank,
  (FT.new someDiff (Bank.run {} countBank) (runOps St.init liveOps).t (fun _ => 0) (.str 100) true).state⟩

/-- 13 is hidden, actions are queued for 13, 14 and 11, and 13 appears again; then it disappears and appears once more. -/
def liveHistory : List (OnceAct Nat) :=
  [.app (.apply (.plain 1) none false true), .app (.change (.str 13) 1), .queue (.str 13) 7, .queue (.str 14) 8, .queue (.str 15) 9,
   .app (.change (.str 13) 2), .app (.change (.str 13) 3), .app (.change (.str 13) 4)]

theorem liveHistory_fair : ViewFairRun someDiff (edits liveHistory) liveApp :=
  countBank_fair rfl ⟨⟨rfl, fun h => by cases h⟩, trivial, trivial, trivial, trivial, trivial⟩

theorem properId_of {n : Nat} (h : 10 ≤ n) : ProperId (.str n) := by
  refine ⟨rfl, fun ev => ?_, ?_⟩
  · cases ev <;> · simp only [SigEv.key, ne_eq, Id.str.injEq]; omega
  · simp only [reorderedKey, ne_eq, Id.str.injEq]; omega

theorem liveHistory_named : NamedRun someDiff liveHistory liveApp := by
  have hk : ∀ a : FApp Nat, a.s.t.nodes.keys = [.str 11, .str 12, .str 13, .str 14] → ∀ y, a.s.t.has y = true → ProperId y := by
    intro a h y hy
    have : y ∈ a.s.t.nodes.keys := (Dict.mem_keys _ _).2 hy
    rw [h] at this
    simp only [List.mem_cons, List.not_mem_nil, or_false] at this
    rcases this with rfl | rfl | rfl | rfl <;> exact properId_of (by omega)
  refine ⟨hk _ (by decide), hk _ (by decide), properId_of (by omega), properId_of (by omega), properId_of (by omega), hk _ (by decide), hk _ (by decide), hk _ (by decide), hk _ (by decide)⟩

example : ProperId (.str 100) ∧ ViewFairRun someDiff (edits liveHistory) liveApp ∧ NamedRun someDiff liveHistory liveApp ∧
    ∃ a r, Live.run someDiff onceHandler (liveHistory.map OnceAct.live) ⟨liveApp, RunOnce.start⟩ = .ok ⟨a, r⟩ ∧ r.ran = [7] ∧ r.idle = [8] ∧
      ((r.told.filter (·.2 = .str 13)).map Prod.fst).filter (· ≠ 2) = [1, 1, 0, 0, 1, 1, 0, 0, 1, 1, 0, 0] := by
  refine ⟨properId_of (by omega), liveHistory_fair, liveHistory_named, ?_⟩
  refine ⟨_, _, rfl, ?_, ?_, ?_⟩ <;> decide

/-! ### The limits -/

/-- A callback that asks for the paths of `x` when it appears, as `get_paths_for_node` does (`filteredtree.py:415-440`), and
counts how often it got an answer. This is what an action does that `TreeView.collapse_node` has queued for a node that is not
displayed (`liblarch_gtk/__init__.py:246-279`). -/
def askPaths (root x : Id) : Handler Nat := fun u s n =>
  if s.ev = .added ∧ s.nid = x then
    match u.paths root x with
    | .ok _ => .ok (n + 1)
    | .error e => .err e n
  else .ok n

/-- **A callback can not ask for the paths of a node that appears below two parents.** The history is fair, and the node is
displayed when the callback is called. But the parents of the node are known to the view before the node is a child of each of
them, so the question raises, the exception leaves the view, and the view is left broken: the node is never put below its second
parent, and asking for its paths raises from now on. -/
theorem C52_refuted_two_parents :
    ViewFairRun someDiff [.apply (.plain 1) none false true, .change (.str 13) 1, .change (.str 13) 2] liveApp ∧
    ∃ a0, FApp.run someDiff [.apply (.plain 1) none false true, .change (.str 13) 1] liveApp = .ok a0 ∧
      (∃ a, a0.act someDiff (.change (.str 13) 2) = .ok a ∧ .str 13 ∈ a.ft.view.kids (.str 12)) ∧
      ∃ a, Live.run someDiff (askPaths (.str 100) (.str 13)) [.app (.change (.str 13) 2)] ⟨a0, 0⟩ = .err .inconsistent ⟨a, 0⟩ ∧
        a.ft.view.has (.str 13) = true ∧ .str 12 ∈ a.ft.view.pars (.str 13) ∧ .str 13 ∉ a.ft.view.kids (.str 12) ∧
        a.ft.pathsFor (.str 13) = .error .inconsistent := by
  refine ⟨countBank_fair rfl ⟨⟨rfl, fun h => by cases h⟩, trivial, trivial, trivial⟩, _, rfl, ⟨_, rfl, by decide⟩, _, rfl, by decide, by decide, by decide, rfl⟩

/-- Below one parent it can: 14 is shown below 13, which has two rows. -/
example : ∃ a0 a, FApp.run someDiff [.apply (.plain 1) none false true, .change (.str 14) 1] liveApp = .ok a0 ∧
    Live.run someDiff (askPaths (.str 100) (.str 14)) [.app (.change (.str 14) 2)] ⟨a0, 0⟩ = .ok ⟨a, 2⟩ :=
  ⟨_, _, rfl, rfl⟩

end Larch
