import Verif.Proofs.ViewPrefix
import Verif.Proofs.ViewApp

/-!
# Which rows an update of a view touches

A principle for invariants of `__update_node`: it is enough to look at the single steps.
-/

namespace Larch

open Spec

theorem andThen_eq_ok {r : Res View} {k : View → Res View} {v : View} (h : r.andThen k = .ok v) :
    ∃ w, r = .ok w ∧ k w = .ok v := by
  cases r with
  | err e s => cases h
  | ok w => exact ⟨w, rfl, h⟩

theorem withFT_ok {V : Type} {a a' : FApp V} {r : Res FT} (h : a.withFT r = .ok a') : ∃ ft, r = .ok ft ∧ a' = { a with ft := ft } := by
  cases r with
  | err e s => cases h
  | ok v => exact ⟨v, rfl, (Res.ok.inj h).symm⟩

/-- A row of a node in a view. -/
theorem RowE.pathTo {e : Id → Id → Prop} {root x : Id} {l : List Id} (h : RowE e root l) (hl : l.getLast? = some x) :
    PathTo e root l x := by
  refine ⟨h.2, ?_⟩
  rw [List.getLast?_cons, hl]; rfl

/-! ### The signals of a step -/

/-- The row uses the step from `p` to `x`. -/
def Uses (root : Id) (l : List Id) (p x : Id) : Prop := [p, x] <:+: root :: l

theorem Uses.mem {root : Id} {l : List Id} {p x : Id} (h : Uses root l p x) : x ∈ l := by
  obtain ⟨s, t, h⟩ := h
  cases s with
  | nil =>
    simp only [List.nil_append, List.cons_append, List.cons.injEq] at h
    rw [← h.2]; simp
  | cons a s =>
    simp only [List.cons_append, List.cons.injEq] at h
    rw [← h.2]; simp

theorem uses_of {root : Id} {s r : List Id} {p x : Id} (h : s.getLast? = some p ∨ s = [] ∧ p = root) :
    Uses root (s ++ x :: r) p x := by
  rcases h with h | ⟨rfl, rfl⟩
  · obtain ⟨l, rfl⟩ := List.getLast?_eq_some_iff.1 h
    exact ⟨root :: l, r, by simp⟩
  · exact ⟨[], r, by simp⟩

theorem uses_last {root x : Id} {l : List Id} (h : l.getLast? = some x) : ∃ p, Uses root l p x := by
  obtain ⟨s, rfl⟩ := List.getLast?_eq_some_iff.1 h
  rcases List.eq_nil_or_concat s with rfl | ⟨s', p, rfl⟩
  · exact ⟨root, uses_of (Or.inr ⟨rfl, rfl⟩)⟩
  · exact ⟨p, uses_of (Or.inl (by simp))⟩

theorem collect_mem {α β : Type} {f : α → Except Err (List β)} : ∀ {l : List α} {r : List β}, Tree.collect f l = .ok r →
    ∀ y ∈ r, ∃ a ∈ l, ∃ ys, f a = .ok ys ∧ y ∈ ys := by
  intro l
  induction l with
  | nil => intro r h y hy; cases h; cases hy
  | cons a l ih =>
    intro r h y hy
    unfold Tree.collect at h
    cases hf : f a with
    | error e => rw [hf] at h; cases h
    | ok ys =>
      rw [hf] at h
      dsimp only at h
      cases hc : Tree.collect f l with
      | error e => rw [hc] at h; cases h
      | ok zs =>
        rw [hc] at h
        cases h
        rcases List.mem_append.1 hy with hy | hy
        · exact ⟨a, by simp, ys, hf, hy⟩
        · obtain ⟨b, h1, h2⟩ := ih hc y hy
          exact ⟨b, by simp [h1], h2⟩

theorem paths_last {root p : Id} {v : View} {ps : List (List Id)} (h : v.paths root p = .ok ps) (hr : p ≠ root) (hp : v.has p = true) :
    ∀ l ∈ ps, l.getLast? = some p := by
  intro l hl
  unfold View.paths View.pathsFuel at h
  rw [if_neg (by simp [hr, hp])] at h
  obtain ⟨q, -, ys, h1, h2⟩ := collect_mem h l hl
  split at h1
  · cases h1
  split at h1
  · cases h1
  split at h1
  · cases h1
  · cases h1
    obtain ⟨l', -, rfl⟩ := List.mem_map.1 h2
    simp

theorem paths_top {root : Id} {v : View} {ps : List (List Id)} (h : v.paths root root = .ok ps) : ps = [[]] := by
  unfold View.paths View.pathsFuel at h
  rw [if_pos (Or.inl rfl)] at h
  cases h
  rfl

theorem addLoop_sends (starts : List (List Id)) (x : Id) (f : Nat) : ∀ (v v' : View) (q : List (Id × List Id)),
    (∀ i ∈ q, ∃ r, i.2 = x :: r) → View.addLoop starts f v q = .ok v' →
    ∃ sigs, v' = { v with out := v.out ++ sigs } ∧ ∀ s ∈ sigs, s.ev = .added ∧ ∃ a ∈ starts, ∃ r, s.path = a ++ x :: r := by
  induction f with
  | zero =>
    intro v v' q hq h
    cases q with
    | nil => unfold View.addLoop at h; cases h; exact ⟨[], by simp, by simp⟩
    | cons i q => unfold View.addLoop at h; cases h
  | succ f ih =>
    intro v v' q hq h
    cases q with
    | nil => unfold View.addLoop at h; cases h; exact ⟨[], by simp, by simp⟩
    | cons i q =>
      obtain ⟨y, rel⟩ := i
      unfold View.addLoop at h
      dsimp only at h
      cases hn : v.nodes.get? y with
      | none => rw [hn] at h; cases h
      | some n =>
        rw [hn] at h
        dsimp only at h
        obtain ⟨r0, hr0⟩ := hq (y, rel) (by simp)
        have hr0' : rel = x :: r0 := hr0
        subst hr0'
        obtain ⟨sigs, e1, e2⟩ := ih _ v' _ (by
          intro i hi
          rcases List.mem_append.1 hi with hi | hi
          · exact hq i (by simp [hi])
          · obtain ⟨c, -, rfl⟩ := List.mem_map.1 hi
            exact ⟨r0 ++ [c], by simp⟩) h
        refine ⟨(starts.map (· ++ x :: r0)).map (fun p => ⟨.added, y, p⟩) ++ sigs, ?_, ?_⟩
        · rw [e1]; simp [View.send]
        · intro s hs
          rcases List.mem_append.1 hs with hs | hs
          · obtain ⟨p, hp, rfl⟩ := List.mem_map.1 hs
            obtain ⟨a, ha, rfl⟩ := List.mem_map.1 hp
            exact ⟨rfl, a, ha, r0, rfl⟩
          · exact e2 s hs

theorem removeLoop_sends (starts : List (List Id)) (x : Id) (f : Nat) : ∀ (v v' : View) (q : List (Id × List Id × Bool)),
    (∀ i ∈ q, ∃ r, i.2.1 = x :: r) → View.removeLoop starts f v q = .ok v' →
    ∃ sigs, v' = { v with out := v.out ++ sigs } ∧ ∀ s ∈ sigs, s.ev = .deleted ∧ ∃ a ∈ starts, ∃ r, s.path = a ++ x :: r := by
  induction f with
  | zero =>
    intro v v' q hq h
    cases q with
    | nil => unfold View.removeLoop at h; cases h; exact ⟨[], by simp, by simp⟩
    | cons i q => unfold View.removeLoop at h; cases h
  | succ f ih =>
    intro v v' q hq h
    cases q with
    | nil => unfold View.removeLoop at h; cases h; exact ⟨[], by simp, by simp⟩
    | cons i q =>
      obtain ⟨y, rel, first⟩ := i
      obtain ⟨r0, hr0⟩ := hq (y, rel, first) (by simp)
      have hr0' : rel = x :: r0 := hr0
      subst hr0'
      unfold View.removeLoop at h
      cases first with
      | true =>
        rw [if_pos rfl] at h
        cases hn : v.nodes.get? y with
        | none => rw [hn] at h; cases h
        | some n =>
          rw [hn] at h
          dsimp only at h
          refine ih _ v' _ ?_ h
          intro i hi
          rcases List.mem_append.1 hi with hi | hi
          · rw [List.mem_reverse] at hi
            obtain ⟨c, -, rfl⟩ := List.mem_map.1 hi
            exact ⟨r0 ++ [c], by simp⟩
          · rcases List.mem_cons.1 hi with rfl | hi
            · exact ⟨r0, rfl⟩
            · exact hq i (by simp [hi])
      | false =>
        rw [if_neg (by simp)] at h
        obtain ⟨sigs, e1, e2⟩ := ih _ v' q (fun i hi => hq i (by simp [hi])) h
        refine ⟨(starts.map (· ++ x :: r0)).map (fun p => ⟨.deleted, y, p⟩) ++ sigs, ?_, ?_⟩
        · rw [e1]; simp [View.send]
        · intro s hs
          rcases List.mem_append.1 hs with hs | hs
          · obtain ⟨p, hp, rfl⟩ := List.mem_map.1 hs
            obtain ⟨a, ha, rfl⟩ := List.mem_map.1 hp
            exact ⟨rfl, a, ha, r0, rfl⟩
          · exact e2 s hs

theorem paths_uses {root p : Id} {v : View} {ps : List (List Id)} (h : v.paths root p = .ok ps) (hp : v.has p = true) :
    ∀ l ∈ ps, l.getLast? = some p ∨ l = [] ∧ p = root := by
  intro l hl
  by_cases e : p = root
  · subst e
    rw [paths_top h] at hl
    exact Or.inr ⟨by simpa using hl, rfl⟩
  · exact Or.inl (paths_last h e hp l hl)

theorem sendAdd_uses {root x p : Id} {v v' : View} (h : v.sendAdd root x p = .ok v') (hp : v.has p = true) :
    ∃ sigs, v' = { v with out := v.out ++ sigs } ∧ ∀ s ∈ sigs, s.ev = .added ∧ Uses root s.path p x := by
  unfold View.sendAdd at h
  cases hs : v.paths root p with
  | error e => rw [hs] at h; cases h
  | ok starts =>
    rw [hs] at h
    obtain ⟨sigs, e1, e2⟩ := addLoop_sends starts x _ v v' _ (by simp) h
    refine ⟨sigs, e1, fun s hm => ?_⟩
    obtain ⟨h1, a, ha, r, h2⟩ := e2 s hm
    exact ⟨h1, by rw [h2]; exact uses_of (paths_uses hs hp a ha)⟩

theorem sendRemove_uses {root x p : Id} {v v' : View} (h : v.sendRemove root x p = .ok v') :
    ∃ sigs, v' = { v with out := v.out ++ sigs } ∧
      (v.has p = true → ∀ s ∈ sigs, s.ev = .deleted ∧ Uses root s.path p x) := by
  unfold View.sendRemove at h
  cases hs : v.paths root p with
  | error e => rw [hs] at h; cases h
  | ok starts =>
    rw [hs] at h
    obtain ⟨sigs, e1, e2⟩ := removeLoop_sends starts x _ v v' _ (by simp) h
    refine ⟨sigs, e1, fun hp s hm => ?_⟩
    obtain ⟨h1, a, ha, r, h2⟩ := e2 s hm
    exact ⟨h1, by rw [h2]; exact uses_of (paths_uses hs hp a ha)⟩

theorem dropKid_inv {v v' : View} {p x : Id} (h : v.dropKid p x = .ok v') :
    v.has p = true ∧ v' = v.upd p fun n => { n with children := n.children.erase x } := by
  unfold View.dropKid at h
  cases hn : v.nodes.get? p with
  | none => rw [hn] at h; cases h
  | some n =>
    rw [hn] at h
    dsimp only at h
    split at h
    · cases h; exact ⟨(Dict.has_iff _ _).2 ⟨n, hn⟩, rfl⟩
    · cases h

theorem dropPar_inv {v v' : View} {c x : Id} (h : v.dropPar c x = .ok v') :
    x ∈ v.pars c ∧ v' = v.upd c fun n => { n with parents := n.parents.erase x } := by
  unfold View.dropPar at h
  cases hn : v.nodes.get? c with
  | none => rw [hn] at h; cases h
  | some n =>
    rw [hn] at h
    dsimp only at h
    split at h
    · cases h; exact ⟨by rw [View.pars_of_get hn]; assumption, rfl⟩
    · cases h

theorem forEach_keep {α σ : Type} {body : α → σ → Res σ} (P : σ → Prop) : ∀ {l : List α} {v v' : σ},
    (∀ a ∈ l, ∀ w w', P w → body a w = .ok w' → P w') → P v → Res.forEach body l v = .ok v' → P v' := by
  intro l
  induction l with
  | nil => intro v v' _ hv h; cases h; exact hv
  | cons a l ih =>
    intro v v' hb hv h
    unfold Res.forEach at h
    cases ha : body a v with
    | err e s => rw [ha] at h; cases h
    | ok w =>
      rw [ha] at h
      exact ih (fun b hb' => hb b (by simp [hb'])) (hb a (by simp) v w hv ha) h

/-! ### Invariants of an update -/

/-- `I` survives every step of an update; `D` are the steps from a parent to a child that may be taken away, `A` those that
may be added. `S` says how much is known about the rows below a node that vanishes. -/
structure Closed (E : VEnv) (S : Prop) (I : View → Prop) (D A : Id → Id → Prop) : Prop where
  modified : ∀ v x ps, I v → I (v.send .modified x ps)
  insert : ∀ v x, I v → v.has x = false → E.disp x = true → x ≠ E.root → I { v with nodes := v.nodes.set x {} }
  setPars : ∀ v x, I v → v.has x = true → E.disp x = true → x ≠ E.root →
    I (v.upd x fun n => { n with parents := (E.newPars v x).filter v.has })
  dead : ∀ v x p, I v → E.disp x = true → x ≠ E.root → p ∈ v.pars x → p ∉ E.newPars v x → D p x
  live : ∀ v x p, I v → E.disp x = true → x ≠ E.root → p ∈ E.newPars v x → p ∉ v.pars x → A p x
  orphan : ∀ v x c, I v → E.disp x = false → x ≠ E.root → c ∈ v.kids x → D x c
  deleted : ∀ v p x sigs, I v → D p x → (∀ s ∈ sigs, s.ev = SigEv.deleted ∧ Uses E.root s.path p x) → I { v with out := v.out ++ sigs }
  orphanSig : ∀ v x c sigs, I v → D x c → (S → ∀ s ∈ sigs, s.ev = SigEv.deleted ∧ Uses E.root s.path x c) →
    I { v with out := v.out ++ sigs }
  added : ∀ v p x sigs, I v → A p x → (∀ s ∈ sigs, s.ev = SigEv.added ∧ Uses E.root s.path p x) → I { v with out := v.out ++ sigs }
  dropKid : ∀ v p x, I v → I (v.upd p fun n => { n with children := n.children.erase x })
  addKid : ∀ v p x, I v → A p x → v.has p = true → I (v.upd p fun n => { n with children := n.children ++ [x] })
  dropPar : ∀ v x c, I v → D x c → x ∈ v.pars c → E.disp x = false → x ≠ E.root →
    I (v.upd c fun n => { n with parents := n.parents.erase x })
  gone : ∀ v x sigs, I v → v.has x = true → E.disp x = false → x ≠ E.root →
    (∀ s ∈ sigs, s.ev = SigEv.deleted ∧ ∃ p, Uses E.root s.path p x) → I { nodes := v.nodes.del x, out := v.out ++ sigs }

variable {E : VEnv} {S : Prop} {I : View → Prop} {D A : Id → Id → Prop}

/-- What is known about a recursive call. -/
def Keeps1 (I : View → Prop) (up : Id → View → Res View) : Prop := ∀ y v v', up y v = .ok v' → I v → I v'

/-- What is not to be shown does not come. -/
def Stays (E : VEnv) (up : Id → View → Res View) : Prop :=
  ∀ y v v', up y v = .ok v' → ∀ z, E.disp z = false → z ≠ E.root → v.has z = false → v'.has z = false

theorem leave_keep (hI : Closed E S I D A) {up : Id → View → Res View} (hup : Keeps1 I up) {g : Bool} {x p : Id} (hd : D p x) {v v' : View}
    (h : E.leave up g x p v = .ok v') (hi : I v) : I v' := by
  unfold VEnv.leave at h
  obtain ⟨v1, h1, h⟩ := andThen_eq_ok h
  obtain ⟨v2, h2, h⟩ := andThen_eq_ok h
  obtain ⟨sigs, rfl, hs⟩ := sendRemove_uses h1
  obtain ⟨hp, rfl⟩ := dropKid_inv h2
  have a2 := hI.dropKid _ p x (hI.deleted v p x sigs hi hd (hs hp))
  split at h
  · exact hup p _ _ h a2
  · cases h; exact a2

theorem join_keep (hI : Closed E S I D A) {up : Id → View → Res View} (hup : Keeps1 I up) {g : Bool} {x p : Id} (ha : A p x) {v v' : View}
    (h : E.join up g x p v = .ok v') (hi : I v) : I v' := by
  unfold VEnv.join at h
  split at h
  · cases h
  rename_i hp
  have hp' : v.has p = true := by simpa using hp
  obtain ⟨v1, h1, h⟩ := andThen_eq_ok h
  obtain ⟨sigs, rfl, hs⟩ := sendAdd_uses h1 (by rw [View.has_upd]; exact hp')
  have a2 := hI.added _ p x sigs (hI.addKid v p x hi ha hp') ha hs
  split at h
  · exact hup p _ _ h a2
  · cases h; exact a2

theorem ups_keep {up : Id → View → Res View} (hup : Keeps1 I up) {l : List Id} {v v' : View} (h : Res.forEach up l v = .ok v') (hi : I v) :
    I v' := forEach_keep I (fun a _ w w' hw hb => hup a w w' hb hw) hi h

theorem settle_keep (hdiff : SetDiff E.diff) (hI : Closed E S I D A) {up : Id → View → Res View} (hup : Keeps1 I up) {x : Id} {dir : Dir}
    (hd : E.disp x = true) (hx : x ≠ E.root) {v v' : View} (h : E.settle up x dir v = .ok v') (hi : I v) : I v' := by
  unfold VEnv.settle at h
  dsimp only at h
  obtain ⟨v2, h2, h⟩ := andThen_eq_ok h
  have i1 : I (if (!v.has x) = true then { v with nodes := v.nodes.set x {} } else v) := by
    by_cases e : v.has x = true
    · rw [if_neg (by simp [e])]; exact hi
    · rw [if_pos (by simp [e])]
      exact hI.insert v x hi (by simpa using e) hd hx
  generalize (if (!v.has x) = true then ({ v with nodes := v.nodes.set x {} } : View) else v) = v1 at i1 h2
  have i2 : I v2 := by
    split at h2
    · exact ups_keep hup h2 i1
    · cases h2; exact i1
  cases hn : v2.nodes.get? x with
  | none => rw [hn] at h; cases h
  | some n =>
    rw [hn] at h
    dsimp only at h
    have hpx : n.parents = v2.pars x := (View.pars_of_get hn).symm
    have hh2 : v2.has x = true := (Dict.has_iff _ _).2 ⟨n, hn⟩
    obtain ⟨v4, h4, h⟩ := andThen_eq_ok h
    obtain ⟨v5, h5, h⟩ := andThen_eq_ok h
    obtain ⟨v6, h6, h⟩ := andThen_eq_ok h
    have i3 := hI.setPars v2 x i2 hh2 hd hx
    have i4 : I v4 := forEach_keep I (fun p hp w w' hw hb => leave_keep hI hup (by
      have := ((hdiff _ _).2 p).1 hp
      exact hI.dead v2 x p i2 hd hx (hpx ▸ this.1) this.2) hb hw) i3 h4
    have i5 : I v5 := forEach_keep I (fun p hp w w' hw hb => join_keep hI hup (by
      have := ((hdiff _ _).2 p).1 hp
      exact hI.live v2 x p i2 hd hx this.1 (hpx ▸ this.2)) hb hw) i4 h5
    have i6 : I v6 := by
      generalize (if dir = Dir.down ∧ E.root ∈ E.diff (E.newPars v2 x) n.parents then Dir.both else dir) = dd at h6
      cases hg : dd.goesUp with
      | true => rw [hg, if_pos rfl] at h6; exact ups_keep hup h6 i5
      | false => rw [hg, if_neg (by simp)] at h6; cases h6; exact i5
    split at h
    · cases h; exact i6
    · cases hp : v6.paths E.root x with
      | error e => rw [hp] at h; cases h
      | ok ps => rw [hp] at h; cases h; exact hI.modified _ _ _ i6

theorem vanish_keep (hI : Closed E S I D A) {up down : Id → View → Res View} (hup : Keeps1 I up) (hdn : Keeps1 I down)
    (hst : S → Stays E down) {x : Id} (hd : E.disp x = false) (hx : x ≠ E.root) {v v' : View} (hv : v.has x = true)
    (h : E.vanish up down x v = .ok v') (hi : I v) : I v' := by
  unfold VEnv.vanish at h
  cases hp : v.paths E.root x with
  | error e => rw [hp] at h; cases h
  | ok ps =>
    rw [hp] at h
    dsimp only at h
    obtain ⟨v1, h1, h⟩ := andThen_eq_ok h
    cases hn : v1.nodes.get? x with
    | none => rw [hn] at h; cases h
    | some n =>
      rw [hn] at h
      dsimp only at h
      have hh1 : v1.has x = true := (Dict.has_iff _ _).2 ⟨n, hn⟩
      obtain ⟨v3, h3, h⟩ := andThen_eq_ok h
      have loop : ∀ (l : List Id) (w : View), (∀ c ∈ l, D x c) → Res.forEach (E.abandon down x) l w = .ok v1 → I w → I v1 ∧ (S → w.has x = true) := by
        intro l
        induction l with
        | nil => intro w _ e hw; cases e; exact ⟨hw, fun _ => hh1⟩
        | cons c l ih =>
          intro w hl e hw
          unfold Res.forEach at e
          obtain ⟨w1, e1, e⟩ := andThen_eq_ok e
          unfold VEnv.abandon at e1
          obtain ⟨w2, f1, e1⟩ := andThen_eq_ok e1
          obtain ⟨w3, f2, e1⟩ := andThen_eq_ok e1
          obtain ⟨sigs, rfl, hs⟩ := sendRemove_uses f1
          obtain ⟨hpc, rfl⟩ := dropPar_inv f2
          have hback : (S → w1.has x = true) → S → w.has x = true := by
            intro hw1 hS
            by_contra hc
            have hc' : w.has x = false := by simpa using hc
            have := hst hS c _ _ e1 x hd hx (by rw [View.has_upd]; exact hc')
            rw [hw1 hS] at this
            cases this
          -- backwards: the node is there at the end, so it was there before
          have hw1S : S → w1.has x = true := by
            intro hS
            by_contra hc
            have hc' : w1.has x = false := by simpa using hc
            have := forEach_keep (fun u : View => u.has x = false) (fun b _ u u' hu hb => by
              unfold VEnv.abandon at hb
              obtain ⟨u2, g1, hb⟩ := andThen_eq_ok hb
              obtain ⟨u3, g2, hb⟩ := andThen_eq_ok hb
              obtain ⟨sigs', rfl, -⟩ := sendRemove_uses g1
              obtain ⟨-, rfl⟩ := dropPar_inv g2
              exact hst hS b _ _ hb x hd hx (by rw [View.has_upd]; exact hu)) hc' e
            rw [hh1] at this
            cases this
          have hwS := hback hw1S
          have j1 := hI.orphanSig w x c sigs hw (hl c (by simp)) (fun hS => hs (hwS hS))
          have j2 := hI.dropPar _ x c j1 (hl c (by simp)) hpc hd hx
          exact ⟨(ih w1 (fun b hb => hl b (by simp [hb])) e (hdn c _ _ e1 j2)).1, hwS⟩
      have i1 := (loop _ v (fun c hc => hI.orphan v x c hi hd hx (List.mem_reverse.1 hc)) h1 hi).1
      have i2 := hI.gone v1 x (ps.map fun p => ⟨SigEv.deleted, x, p⟩) i1 hh1 hd hx (by
        intro s hs
        obtain ⟨l, hl, rfl⟩ := List.mem_map.1 hs
        exact ⟨rfl, uses_last (paths_last hp hx hv l hl)⟩)
      have i3 : I v3 := forEach_keep I (fun p _ w w' hw hb => by
        obtain ⟨u, g1, g2⟩ := andThen_eq_ok hb
        obtain ⟨-, rfl⟩ := dropKid_inv g1
        exact hup p _ _ g2 (hI.dropKid w p x hw)) i2 h3
      cases hE : E.has x with
      | false => rw [hE, if_neg (by simp)] at h; cases h; exact i3
      | true =>
        rw [hE, if_pos rfl] at h
        refine forEach_keep I (fun p _ w w' hw hb => ?_) i3 h
        split at hb
        · exact hup p _ _ hb hw
        · cases hb; exact hw

theorem update_keep (hdiff : SetDiff E.diff) (hI : Closed E S I D A)
    (hst : S → ∀ f dir, Stays E (fun y v => E.update f y dir v)) (f : Nat) : ∀ dir, Keeps1 I (fun y v => E.update f y dir v) := by
  induction f with
  | zero => intro dir y v v' h; cases h
  | succ f ih =>
    intro dir y v v' h hi
    dsimp only at h
    unfold VEnv.update at h
    split at h
    · cases h; exact hi
    rename_i hr
    split at h
    · split at h
      · exact ups_keep (ih .up) h hi
      · cases h; exact hi
    rename_i hc
    split at h
    · rename_i hd
      obtain ⟨v1, h1, h⟩ := andThen_eq_ok h
      have i1 := settle_keep hdiff hI (ih .up) hd hr h1 hi
      split at h
      · cases h
      split at h
      · refine forEach_keep I (fun c _ w w' hw hb => ?_) i1 h
        split at hb
        · exact ih .down c _ _ hb hw
        · cases hb; exact hw
      · cases h; exact i1
    · rename_i hd
      have hd' : E.disp y = false := by simpa using hd
      have hv : v.has y = true := by
        by_contra hv
        exact hc ⟨by simpa using hv, hd'⟩
      exact vanish_keep hI (ih .up) (ih .down) (fun hS => hst hS f .down) hd' hr hv h hi

/-- What is not to be shown does not come. -/
theorem update_stays (hdiff : SetDiff E.diff) (f : Nat) (dir : Dir) : Stays E (fun y v => E.update f y dir v) := by
  intro y v v' h z hz hr hv
  refine update_keep (S := False) (I := fun v => v.has z = false) (D := fun _ _ => True) (A := fun _ _ => True) hdiff ?_
    (fun h => h.elim) f dir y v v' h hv
  refine ⟨fun v x ps h => h, ?_, ?_, fun _ _ _ _ _ _ _ _ => trivial, fun _ _ _ _ _ _ _ _ => trivial, fun _ _ _ _ _ _ _ => trivial,
    fun _ _ _ _ h _ _ => h, fun _ _ _ _ h _ _ => h, fun _ _ _ _ h _ _ => h, ?_, ?_, ?_, ?_⟩
  · intro v x h _ hd _
    have hzx : z ≠ x := by rintro rfl; rw [hd] at hz; cases hz
    show (v.nodes.set x {}).has z = false
    rw [Dict.has_set]
    simp only [hzx, decide_false, Bool.false_or]
    exact h
  · intro v x h _ _ _; rw [View.has_upd]; exact h
  · intro v p x h; rw [View.has_upd]; exact h
  · intro v p x h _ _; rw [View.has_upd]; exact h
  · intro v x c h _ _ _ _; rw [View.has_upd]; exact h
  · intro v x _ h _ _ _ _
    show (v.nodes.del x).has z = false
    have h' : v.nodes.has z = false := h
    rw [Dict.has_del, h']
    simp

/-- The principle: what every step keeps, an update keeps. -/
theorem update_closed (hdiff : SetDiff E.diff) (hI : Closed E True I D A) {f : Nat} {x : Id} {dir : Dir} {v v' : View}
    (h : E.update f x dir v = .ok v') (hi : I v) : I v' :=
  update_keep hdiff hI (fun _ f dir => update_stays hdiff f dir) f dir x v v' h hi

end Larch
