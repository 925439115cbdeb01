import Verif.Spec.RunOnce
import Verif.Lib.Dict
import Mathlib.Data.List.Induction

/-!
# C35: actions that run once
-/

namespace Larch

open Spec RunOnce

/-- The actions waiting for a node. -/
def waiting (r : RunOnce) (x : Id) : List CItem := (r.cllbcks.get? x).getD []

/-- Ids that can name a node here. -/
def Plain (x : Id) : Prop := x.falsy = false ∧ (∀ ev : SigEv, x ≠ ev.key) ∧ x ≠ reorderedKey

/-- The number of the callback registered for an event. -/
def evFn : SigEv → Nat
  | .added => 0
  | .deleted => 1
  | .modified => 2

/-- Events have their callbacks, and under the other keys there are actions for exactly that node. -/
structure RInv (r : RunOnce) : Prop where
  events : ∀ ev : SigEv, r.cllbcks.get? ev.key = some [.func (evFn ev), .nothing, .nothing]
  items : ∀ x, Plain x → ∀ i ∈ waiting r x, ∃ f, i = .entry f x

/-- The functions of the items. -/
def fns (l : List CItem) : List Nat := l.filterMap fun | .entry f _ => some f | _ => none

theorem start_inv : RInv start := by
  refine ⟨fun ev => by cases ev <;> rfl, fun x hx i hi => ?_⟩
  exfalso
  obtain ⟨-, h1, h2⟩ := hx
  have : start.cllbcks.get? x = none := by
    have a1 := h1 .added; have a2 := h1 .deleted; have a3 := h1 .modified
    unfold start setEvent
    dsimp only
    rw [Dict.get?_set, if_neg h2, Dict.get?_set, if_neg a3, Dict.get?_set, if_neg a2, Dict.get?_set, if_neg a1]
    rfl
  unfold waiting at hi
  rw [this] at hi
  cases hi

theorem once_queue_spec {r : RunOnce} (h : RInv r) {shown : Id → Bool} {x : Id} (hx : Plain x) (f : Nat) :
    ∃ r', r.queue shown x f = .ok r' ∧ RInv r' ∧ r'.told = r.told ∧ r'.ran = r.ran ∧
      r'.idle = r.idle ++ (if shown x then [f] else []) ∧
      ∀ y, Plain y → waiting r' y = waiting r y ++ if y = x ∧ shown x = false then [.entry f x] else [] := by
  unfold RunOnce.queue
  rw [if_neg (by simp [hx.1])]
  cases hs : shown x with
  | true => exact ⟨_, rfl, ⟨h.events, h.items⟩, rfl, rfl, rfl, fun y _ => by simp [waiting]⟩
  | false =>
    have hw : ∀ y, waiting { r with cllbcks := r.cllbcks.set x ((r.cllbcks.get? x).getD [] ++ [.entry f x]) } y
        = waiting r y ++ if y = x then [.entry f x] else [] := by
      intro y
      unfold waiting
      dsimp only
      rw [Dict.get?_set]
      by_cases hy : y = x
      · subst hy; simp
      · simp [hy]
    refine ⟨_, rfl, ⟨fun ev => ?_, fun y hy i hi => ?_⟩, rfl, rfl, by simp, fun y _ => ?_⟩
    · dsimp only
      rw [Dict.get?_set, if_neg (fun e => hx.2.1 ev e.symm)]
      exact h.events ev
    · rw [hw] at hi
      rcases List.mem_append.1 hi with hi | hi
      · exact h.items y hy i hi
      · split at hi
        · next e => rw [List.mem_singleton] at hi; exact ⟨f, by rw [hi, e]⟩
        · cases hi
    · rw [hw]; simp

theorem runItems_spec {bad : Nat → Bool} {shown : Id → Bool} {x : Id} (hx : Plain x) (hs : shown x = true)
    (l : List CItem) (hl : ∀ i ∈ l, ∃ f, i = .entry f x) (hb : ∀ f ∈ fns l, bad f = false) (r : RunOnce) :
    ∃ r', Res.forEach (runItem bad shown x) l r = .ok r' ∧ r'.ran = r.ran ++ fns l ∧ (r'.idle = r.idle ∧ r'.told = r.told) ∧
      (∀ y, y ≠ x → r'.cllbcks.get? y = r.cllbcks.get? y) ∧
      r'.cllbcks.get? x = if l = [] then r.cllbcks.get? x else none := by
  induction l generalizing r with
  | nil => exact ⟨r, rfl, by simp [fns], ⟨rfl, rfl⟩, fun _ _ => rfl, by simp⟩
  | cons i l ih =>
    obtain ⟨f, rfl⟩ := hl i (by simp)
    have hf : bad f = false := hb f (by simp [fns])
    have e : runItem bad shown x (.entry f x) r = .ok { r with ran := r.ran ++ [f], cllbcks := r.cllbcks.del x } := by
      unfold runItem
      dsimp only
      rw [if_pos (by simp [hx.1, hs]), if_neg (by simp [hf])]
    obtain ⟨r', e1, e2, e3, e4, e5⟩ := ih (fun j hj => hl j (by simp [hj]))
      (fun g hg => hb g (by
        unfold fns at hg ⊢
        rw [List.filterMap_cons]
        exact List.mem_cons_of_mem _ hg)) { r with ran := r.ran ++ [f], cllbcks := r.cllbcks.del x }
    refine ⟨r', by rw [Res.forEach, e]; exact e1, ?_, e3, fun y hy => ?_, ?_⟩
    · rw [e2]; simp [fns]
    · rw [e4 y hy]; dsimp only; rw [Dict.get?_del, if_neg hy]
    · rw [e5]; dsimp only; rw [Dict.get?_del, if_pos rfl]; simp

theorem once_signal_spec {bad : Nat → Bool} {r : RunOnce} (h : RInv r) {shown : Id → Bool} {x : Id} (hx : Plain x) (ev : SigEv)
    (hs : ev = .added → shown x = true) (hb : ∀ f ∈ fns (waiting r x), bad f = false) :
    ∃ r', r.signal bad shown ev x = .ok r' ∧ RInv r' ∧ r'.told = r.told ++ [(evFn ev, x)] ∧ r'.idle = r.idle ∧
      r'.ran = r.ran ++ (if ev = .added then fns (waiting r x) else []) ∧
      ∀ y, Plain y → waiting r' y = if ev = .added ∧ y = x then [] else waiting r y := by
  have fin : ∀ r1 : RunOnce, RInv r1 → ∃ r', (match r1.cllbcks.get? ev.key with
      | none => Res.ok r1
      | some [i, _, _] => (match i with
        | .func f => .ok { r1 with told := r1.told ++ [(f, x)] }
        | .nothing => .ok r1
        | .entry _ _ => .err .typeError r1)
      | some _ => .err .valueError r1) = .ok r' ∧ r'.cllbcks = r1.cllbcks ∧ r'.ran = r1.ran ∧ r'.idle = r1.idle ∧
        r'.told = r1.told ++ [(evFn ev, x)] := by
    intro r1 h1
    rw [h1.events ev]
    exact ⟨_, rfl, rfl, rfl, rfl, rfl⟩
  unfold RunOnce.signal
  by_cases hev : ev = .added
  · subst hev
    rw [if_pos rfl]
    obtain ⟨r1, e1, e2, ⟨e3, e3'⟩, e4, e5⟩ := runItems_spec hx (hs rfl) (waiting r x) (h.items x hx) hb r
    have e1' : Res.forEach (runItem bad shown x) ((r.cllbcks.get? x).getD []) r = .ok r1 := e1
    have h1 : RInv r1 := by
      refine ⟨fun ev => ?_, fun y hy i hi => ?_⟩
      · rw [e4 _ (fun e => hx.2.1 ev e.symm)]; exact h.events ev
      · by_cases hyx : y = x
        · subst hyx
          exfalso
          unfold waiting at hi
          rw [e5] at hi
          by_cases hw : waiting r y = []
          · rw [if_pos hw] at hi
            unfold waiting at hw
            rw [hw] at hi; cases hi
          · rw [if_neg hw] at hi; cases hi
        · unfold waiting at hi
          rw [e4 y hyx] at hi
          exact h.items y hy i hi
    obtain ⟨r', f1, f2, f3, f4, f5⟩ := fin r1 h1
    rw [e1', Res.andThen_ok]
    refine ⟨r', f1, ⟨fun ev => by rw [f2]; exact h1.events ev, fun y hy i hi => h1.items y hy i (by
      unfold waiting at hi ⊢; rw [f2] at hi; exact hi)⟩, by rw [f5, e3'], by rw [f4, e3], by rw [f3, e2]; simp, fun y hy => ?_⟩
    unfold waiting
    rw [f2]
    by_cases hyx : y = x
    · subst hyx
      rw [e5]
      refine Eq.trans ?_ (if_pos (⟨rfl, rfl⟩ : SigEv.added = SigEv.added ∧ y = y)).symm
      by_cases hw : waiting r y = []
      · rw [if_pos hw]; exact hw
      · rw [if_neg hw]; rfl
    · rw [e4 y hyx, if_neg (fun e => hyx e.2)]
  · rw [if_neg hev, Res.andThen_ok]
    obtain ⟨r', f1, f2, f3, f4, f5⟩ := fin r h
    refine ⟨r', f1, ⟨fun ev => by rw [f2]; exact h.events ev, fun y hy i hi => h.items y hy i (by
      unfold waiting at hi ⊢; rw [f2] at hi; exact hi)⟩, f5, f4, by rw [f3]; simp [hev], fun y hy => ?_⟩
    unfold waiting
    rw [f2, if_neg (fun e => hev e.1)]

/-- How often `f` waits for `x` at the end of the history. -/
def pend (f : Nat) (x : Id) : List Act → Nat
  | [] => 0
  | .queue shown y g :: h =>
    (if g = f ∧ y = x ∧ shown y = false ∧ appears x h = false then 1 else 0) + pend f x h
  | .signal _ _ _ :: h => pend f x h

theorem appears_snoc_queue (x : Id) (h : List Act) (shown : Id → Bool) (y : Id) (g : Nat) :
    appears x (h ++ [.queue shown y g]) = appears x h := by
  unfold appears; simp

theorem appears_snoc_signal (x : Id) (h : List Act) (shown : Id → Bool) (ev : SigEv) (y : Id) :
    appears x (h ++ [.signal shown ev y]) = (appears x h || (ev = .added && y = x)) := by
  unfold appears; simp

theorem due_queue (f : Nat) (h : List Act) (shown : Id → Bool) (y : Id) (g : Nat) :
    due f (h ++ [.queue shown y g]) = due f h := by
  induction h with
  | nil => simp [due, appears]
  | cons c h ih =>
    cases c with
    | queue s x k => simp only [List.cons_append, due, ih, appears_snoc_queue]
    | signal s e x => simp only [List.cons_append, due, ih]

theorem pend_queue (f : Nat) (x : Id) (h : List Act) (shown : Id → Bool) (y : Id) (g : Nat) :
    pend f x (h ++ [.queue shown y g]) = pend f x h + if g = f ∧ y = x ∧ shown y = false then 1 else 0 := by
  induction h with
  | nil => simp [pend, appears]
  | cons c h ih =>
    cases c with
    | queue s x k => simp only [List.cons_append, pend, ih, appears_snoc_queue]; omega
    | signal s e x => simp only [List.cons_append, pend, ih]

theorem due_signal (f : Nat) (h : List Act) (shown : Id → Bool) (ev : SigEv) (y : Id) :
    due f (h ++ [.signal shown ev y]) = due f h + if ev = .added then pend f y h else 0 := by
  induction h with
  | nil => simp [due, pend]
  | cons c h ih =>
    cases c with
    | signal s e x => simp only [List.cons_append, due, pend, ih]
    | queue s x k =>
      simp only [List.cons_append, due, pend, ih, appears_snoc_signal]
      by_cases hev : ev = .added
      · by_cases hy : y = x
        · subst hy
          by_cases ha : appears y h <;> by_cases hk : k = f <;> by_cases hs : s y = false <;> simp [ha, hk, hs, hev] <;>
            omega
        · have hy' : ¬ x = y := fun e => hy e.symm
          simp [hev, hy, hy']
          omega
      · simp [hev]

theorem pend_signal (f : Nat) (x : Id) (h : List Act) (shown : Id → Bool) (ev : SigEv) (y : Id) :
    pend f x (h ++ [.signal shown ev y]) = if ev = .added ∧ x = y then 0 else pend f x h := by
  induction h with
  | nil => simp [pend]
  | cons c h ih =>
    cases c with
    | signal s e z => simp only [List.cons_append, pend, ih]
    | queue s z k =>
      simp only [List.cons_append, pend, ih, appears_snoc_signal]
      by_cases hev : ev = .added
      · by_cases hy : x = y
        · subst hy; simp [hev]
        · have hy' : ¬ y = x := fun e => hy e.symm
          simp [hev, hy, hy']
      · simp [hev]

theorem atOnce_append (h k : List Act) : atOnce (h ++ k) = atOnce h ++ atOnce k := by
  induction h with
  | nil => rfl
  | cons c h ih =>
    cases c with
    | signal s e z => simp only [List.cons_append, atOnce, ih]
    | queue s z g => simp only [List.cons_append, atOnce, ih]; split <;> rfl

theorem announced_append (h k : List Act) : announced (h ++ k) = announced h ++ announced k := by
  induction h with
  | nil => rfl
  | cons c h ih => cases c <;> simp only [List.cons_append, announced, ih]

theorem once_run_append (bad : Nat → Bool) (h k : List Act) (r : RunOnce) :
    RunOnce.run bad (h ++ k) r = (RunOnce.run bad h r).andThen (RunOnce.run bad k) := by
  induction h generalizing r with
  | nil => rfl
  | cons c h ih =>
    simp only [List.cons_append, RunOnce.run]
    cases r.act bad c with
    | ok s => exact ih s
    | err e s => rfl

theorem once_run_spec {bad : Nat → Bool} (hb : ∀ f, bad f = false) (h : List Act) (hp : ∀ c ∈ h, Proper c) :
    ∃ r, RunOnce.run bad h start = .ok r ∧ RInv r ∧ r.told = announced h ∧ r.idle = atOnce h ∧
      (∀ f, r.ran.count f = due f h) ∧ ∀ f x, Plain x → (fns (waiting r x)).count f = pend f x h := by
  induction h using List.reverseRecOn with
  | nil =>
    refine ⟨start, rfl, start_inv, rfl, rfl, fun f => rfl, fun f x hx => ?_⟩
    have : waiting start x = [] := by
      rw [List.eq_nil_iff_forall_not_mem]
      intro i hi
      obtain ⟨-, h1, h2⟩ := hx
      have : start.cllbcks.get? x = none := by
        have a1 := h1 .added; have a2 := h1 .deleted; have a3 := h1 .modified
        unfold start setEvent
        dsimp only
        rw [Dict.get?_set, if_neg h2, Dict.get?_set, if_neg a3, Dict.get?_set, if_neg a2, Dict.get?_set, if_neg a1]
        rfl
      unfold waiting at hi
      rw [this] at hi
      cases hi
    rw [this]; rfl
  | append_singleton h c ih =>
    obtain ⟨r, e, hi, htold, hidle, hran, hw⟩ := ih (fun c hc => hp c (by simp [hc]))
    have hc := hp c (by simp)
    rw [once_run_append, e, Res.andThen_ok]
    cases c with
    | queue shown x g =>
      obtain ⟨r', e1, i1, q0, q1, q2, q3⟩ := once_queue_spec (shown := shown) hi (x := x) hc g
      refine ⟨r', by simp only [RunOnce.run, RunOnce.act, e1, Res.andThen_ok], i1, ?_, ?_, fun f => ?_, fun f y hy => ?_⟩
      · rw [q0, htold, announced_append]; simp [announced]
      · rw [q2, hidle, atOnce_append]; simp [atOnce]
      · rw [q1, due_queue]; exact hran f
      · rw [q3 y hy, pend_queue, ← hw f y hy]
        by_cases hxy : y = x
        · subst hxy
          by_cases hs : shown y = false <;> by_cases hg : g = f <;> simp [hs, fns, hg]
        · have : ¬ x = y := fun e => hxy e.symm
          simp [hxy, this]
    | signal shown ev x =>
      obtain ⟨h1, h2, h3, h4⟩ := hc
      obtain ⟨r', e1, i1, q0, q1, q2, q3⟩ := once_signal_spec (bad := bad) (shown := shown) hi (x := x) ⟨h1, h2, h3⟩ ev h4
        (fun f _ => hb f)
      refine ⟨r', by simp only [RunOnce.run, RunOnce.act, e1, Res.andThen_ok], i1, ?_, ?_, fun f => ?_, fun f y hy => ?_⟩
      · rw [q0, htold, announced_append]; cases ev <;> simp [announced, evFn]
      · rw [q1, hidle, atOnce_append]; simp [atOnce]
      · rw [q2, due_signal, List.count_append, hran f]
        split
        · rw [hw f x ⟨h1, h2, h3⟩]
        · simp
      · rw [q3 y hy, pend_signal]
        split
        · rfl
        · exact hw f y hy

/-- **C35** (partial). In every history of a view, in which no id is the name of an event and no action raises: nothing
fails; an action queued for a displayed node is handed to the main loop at once, and every other action has been executed
exactly once if its node has been announced since it was queued, and not at all if it has not. Since this holds at the
end of every history, it holds at every moment of a history, so the action is executed at the first announcement. The
signals of the view are not disturbed.

Missing: ids that are names of events, and actions that raise; the claim is false for both (`C35_refuted_shown`,
`C35_refuted_poison`, `C35_refuted_raise`). -/
theorem C35_runonce_partial {bad : Nat → Bool} (hb : ∀ f, bad f = false) (h : List Act) (hp : ∀ c ∈ h, Proper c) :
    ∃ r, RunOnce.run bad h start = .ok r ∧ r.idle = atOnce h ∧ (∀ f, r.ran.count f = due f h) ∧
      r.told = announced h := by
  obtain ⟨r, h1, -, h0, h2, h3, -⟩ := once_run_spec hb h hp
  exact ⟨r, h1, h2, h3, h0⟩

/-- Actions for two nodes; one node appears twice (it has two rows), and an action is queued again when it is there. -/
def onceHistory : List Act :=
  [.queue (fun _ => false) (.str 10) 7, .queue (fun _ => false) (.str 10) 8, .queue (fun _ => false) (.str 11) 9,
   .signal (fun y => y = .str 10) .added (.str 10), .signal (fun y => y = .str 10) .added (.str 10),
   .signal (fun y => y = .str 10) .modified (.str 10), .queue (fun y => y = .str 10) (.str 10) 7]

example : (∀ c ∈ onceHistory, Proper c) ∧ due 7 onceHistory = 1 ∧ due 8 onceHistory = 1 ∧ due 9 onceHistory = 0 ∧
    atOnce onceHistory = [7] ∧
    ∃ r, RunOnce.run (fun _ => false) onceHistory start = .ok r ∧ r.ran = [7, 8] ∧ r.idle = [7] ∧
      r.told = [(0, .str 10), (0, .str 10), (2, .str 10)] := by
  refine ⟨?_, by decide, by decide, by decide, by decide, _, rfl, rfl, rfl, rfl⟩
  intro c hc
  have aux : ∀ n, 10 ≤ n → (Id.str n).falsy = false ∧ (∀ ev : SigEv, Id.str n ≠ ev.key) ∧ Id.str n ≠ reorderedKey := by
    intro n hn
    refine ⟨rfl, fun ev => ?_, ?_⟩
    · cases ev <;> · simp only [SigEv.key, ne_eq, Id.str.injEq]; omega
    · simp only [reorderedKey, ne_eq, Id.str.injEq]; omega
  simp only [onceHistory, List.mem_cons, List.not_mem_nil, or_false] at hc
  rcases hc with rfl | rfl | rfl | rfl | rfl | rfl | rfl
  · exact aux 10 (by omega)
  · exact aux 10 (by omega)
  · exact aux 11 (by omega)
  · exact ⟨(aux 10 (by omega)).1, (aux 10 (by omega)).2.1, (aux 10 (by omega)).2.2, fun _ => by simp⟩
  · exact ⟨(aux 10 (by omega)).1, (aux 10 (by omega)).2.1, (aux 10 (by omega)).2.2, fun _ => by simp⟩
  · exact ⟨(aux 10 (by omega)).1, (aux 10 (by omega)).2.1, (aux 10 (by omega)).2.2, fun h => by cases h⟩
  · exact aux 10 (by omega)

/-- **C35 is false for ids that are names of events**: showing a node called `'added'` raises `TypeError` although nobody
queued an action, since its id leads to the callback of the view. -/
theorem C35_refuted_shown :
    ∃ r, start.signal (fun _ => false) (fun y => y = .str 1) .added (.str 1) = .err .typeError r := ⟨_, rfl⟩

/-- **One action queued for a hidden node called `'modified'` makes every later modification of any displayed node
fail**, and the action is never executed: it is appended to the callback of the view, which can then not be unpacked. -/
theorem C35_refuted_poison (x : Id) (shown : Id → Bool) :
    ∃ r, start.queue (fun _ => false) (.str 2) 7 = .ok r ∧
      ∃ r', r.signal (fun _ => false) shown .modified x = .err .valueError r' ∧ 7 ∉ r'.ran :=
  ⟨_, rfl, _, rfl, by decide⟩

/-- **An action that raises is executed again** when the node appears the next time. -/
theorem C35_refuted_raise :
    ∃ r1 r2 r3, start.queue (fun _ => false) (.str 10) 7 = .ok r1 ∧
      r1.signal (fun f => f = 7) (fun _ => true) .added (.str 10) = .err .inconsistent r2 ∧
      r2.signal (fun f => f = 7) (fun _ => true) .added (.str 10) = .err .inconsistent r3 ∧ r3.ran = [7, 7] :=
  ⟨_, _, _, rfl, rfl, rfl, rfl⟩

end Larch
