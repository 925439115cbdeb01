import Verif.Model.Rough
import Verif.Proofs.ViewUpdate

/-!
# Updates interrupted by a filter that raises

An interrupted update has done the same as one that is not interrupted, up to some moment. At that moment everything in the
view fits together, except that the parents of some nodes may disagree with the children lists.
-/

namespace Larch

open Spec Graph

/-! ### Cut short -/

/-- `r'` is `r`, or ended by an exception in a state with `I`. -/
def CutShort (I : View → Prop) (r r' : Res View) : Prop := r' = r ∨ ∃ e w, r' = .err e w ∧ I w

theorem CutShort.same {I : View → Prop} (r : Res View) : CutShort I r r := Or.inl rfl

theorem CutShort.here {I : View → Prop} {r : Res View} {e : Err} {w : View} (h : I w) : CutShort I r (.err e w) := Or.inr ⟨e, w, rfl, h⟩

theorem CutShort.andThen {I : View → Prop} {r r' : Res View} {k k' : View → Res View} (h : CutShort I r r')
    (hk : ∀ v, r = .ok v → CutShort I (k v) (k' v)) : CutShort I (r.andThen k) (r'.andThen k') := by
  rcases h with rfl | ⟨e, w, rfl, hw⟩
  · cases r' with
    | ok v => exact hk v rfl
    | err e v => exact Or.inl rfl
  · exact Or.inr ⟨e, w, rfl, hw⟩

theorem CutShort.forEach {I : View → Prop} {α : Type} {body body' : α → View → Res View} (P : List α → View → Prop)
    (h : ∀ a l s, P (a :: l) s → ∃ s', body a s = .ok s' ∧ P l s')
    (hn : ∀ a l s, P (a :: l) s → CutShort I (body a s) (body' a s)) :
    ∀ (l : List α) (s : View), P l s → CutShort I (Res.forEach body l s) (Res.forEach body' l s) := by
  intro l
  induction l with
  | nil => intro s _; exact .same _
  | cons a l ih =>
    intro s hs
    obtain ⟨s1, h1, h2⟩ := h a l s hs
    rcases hn a l s hs with e | ⟨e, w, e', hw⟩
    · rw [Res.forEach, Res.forEach, e, h1]
      exact ih s1 h2
    · refine Or.inr ⟨e, w, ?_, hw⟩
      rw [Res.forEach, e']
      rfl

/-! ### Answers -/

/-- The questions that are answered are answered as `disp` says. -/
def Truthful (E : VEnv) (ask : View → Id → Except Err Bool) : Prop := ∀ v x b, ask v x = .ok b → b = E.disp x

theorem askAll_ok {ask : Id → Except Err Bool} {disp : Id → Bool} (h : ∀ x b, ask x = .ok b → b = disp x) :
    ∀ {l l' : List Id}, askAll ask l = .ok l' → l' = l.filter disp := by
  intro l
  induction l with
  | nil => intro l' hl; cases hl; rfl
  | cons x l ih =>
    intro l' hl
    unfold askAll at hl
    cases hx : ask x with
    | error e => rw [hx] at hl; cases hl
    | ok b =>
      rw [hx] at hl
      dsimp only at hl
      cases hr : askAll ask l with
      | error e => rw [hr] at hl; cases hl
      | ok l1 =>
        rw [hr] at hl
        dsimp only at hl
        cases hl
        rw [ih hr, List.filter_cons, h x b hx]

theorem newKidsR_ok {E : VEnv} {ask : View → Id → Except Err Bool} (h : Truthful E ask) {v : View} {x : Id} {l : List Id}
    (hl : E.newKidsR ask v x = .ok l) : l = E.newKids x := by
  unfold VEnv.newKidsR at hl
  unfold VEnv.newKids
  split at hl
  · rename_i hc
    rw [if_pos hc]; exact askAll_ok (h v) hl
  · rename_i hc
    rw [if_neg hc]; cases hl; rfl

theorem newParsR_ok {E : VEnv} {ask : View → Id → Except Err Bool} (h : Truthful E ask) {v : View} {x : Id} {l : List Id}
    (hl : E.newParsR ask v x = .ok l) : l = E.newPars v x := by
  unfold VEnv.newParsR at hl
  unfold VEnv.newPars
  by_cases hc : E.flat = false ∧ E.has x = true
  · rw [if_pos hc] at hl ⊢
    cases hr : askAll (ask v) ((E.par x).filter v.has) with
    | error e => rw [hr] at hl; cases hl
    | ok l1 =>
      rw [hr] at hl
      dsimp only at hl
      cases hl
      have := askAll_ok (h v) hr
      rw [List.filter_filter] at this
      rw [this]
      have e : (fun a => E.disp a && v.has a) = fun p => v.has p && E.disp p := by funext a; exact Bool.and_comm _ _
      rw [e]
  · rw [if_neg hc] at hl ⊢
    dsimp only at hl
    cases hl
    rfl

/-! ### Nothing raised -/

theorem forEach_reached {α σ : Type} {body body' : α → σ → Res σ} (h : ∀ a s s', body' a s = .ok s' → body a s = .ok s') :
    ∀ {l : List α} {s s' : σ}, Res.forEach body' l s = .ok s' → Res.forEach body l s = .ok s' := by
  intro l
  induction l with
  | nil => intro s s' e; exact e
  | cons a l ih =>
    intro s s' e
    rw [Res.forEach] at e ⊢
    cases hb : body' a s with
    | err x y => rw [hb] at e; cases e
    | ok s1 => rw [hb] at e; rw [h _ _ _ hb]; exact ih e

theorem andThen_reached {r r' : Res View} {k k' : View → Res View} {v : View} (e : r'.andThen k' = .ok v)
    (h : ∀ w, r' = .ok w → r = .ok w) (hk : ∀ w, r' = .ok w → k' w = .ok v → k w = .ok v) : r.andThen k = .ok v := by
  cases r' with
  | err x y => cases e
  | ok w => rw [h w rfl]; exact hk w rfl e

section

variable {E : VEnv} {ask : View → Id → Except Err Bool}

theorem leave_reached {up up' : Id → View → Res View} (h : ∀ p v v', up' p v = .ok v' → up p v = .ok v') (g : Bool) (x p : Id)
    (v v' : View) (e : E.leave up' g x p v = .ok v') : E.leave up g x p v = .ok v' := by
  unfold VEnv.leave at e ⊢
  refine andThen_reached e (fun w h => h) fun w _ e => andThen_reached e (fun w h => h) fun w _ e => ?_
  cases g with
  | false => exact e
  | true => exact h _ _ _ e

theorem join_reached {up up' : Id → View → Res View} (h : ∀ p v v', up' p v = .ok v' → up p v = .ok v') (g : Bool) (x p : Id)
    (v v' : View) (e : E.join up' g x p v = .ok v') : E.join up g x p v = .ok v' := by
  unfold VEnv.join at e ⊢
  split at e
  · cases e
  · rename_i hc
    rw [if_neg hc]
    refine andThen_reached e (fun w h => h) fun w _ e => ?_
    cases g with
    | false => exact e
    | true => exact h _ _ _ e

theorem vanish_reached {up up' down down' : Id → View → Res View} (h : ∀ p v v', up' p v = .ok v' → up p v = .ok v')
    (h' : ∀ p v v', down' p v = .ok v' → down p v = .ok v') {x : Id} {v v' : View}
    (e : E.vanish up' down' x v = .ok v') : E.vanish up down x v = .ok v' := by
  unfold VEnv.vanish at e ⊢
  cases hp : v.paths E.root x with
  | error y => rw [hp] at e; cases e
  | ok ps =>
    rw [hp] at e
    dsimp only at e ⊢
    refine andThen_reached e (fun w e => forEach_reached (fun c u u' e => ?_) e) fun w _ e => ?_
    · unfold VEnv.abandon at e ⊢
      exact andThen_reached e (fun w h => h) fun w _ e => andThen_reached e (fun w h => h) fun w _ e => h' _ _ _ e
    · cases hn : w.nodes.get? x with
      | none => rw [hn] at e; cases e
      | some n =>
        rw [hn] at e
        dsimp only at e ⊢
        refine andThen_reached e (fun w e => forEach_reached (fun c u u' e => ?_) e) fun w _ e => ?_
        · exact andThen_reached e (fun w h => h) fun w _ e => h _ _ _ e
        · split at e
          · rename_i hx
            rw [if_pos hx]
            refine forEach_reached (fun c u u' e => ?_) e
            split at e
            · rename_i hc; rw [if_pos hc]; exact h _ _ _ e
            · rename_i hc; rw [if_neg hc]; exact e
          · rename_i hx
            rw [if_neg hx]; exact e

theorem settle_reached (hask : Truthful E ask) {up up' : Id → View → Res View} (h : ∀ p v v', up' p v = .ok v' → up p v = .ok v')
    {x : Id} {dir : Dir} {v v' : View} (e : E.settleR ask up' x dir v = .ok v') : E.settle up x dir v = .ok v' := by
  unfold VEnv.settleR at e
  unfold VEnv.settle
  dsimp only at e ⊢
  generalize hv1 : (if (!v.has x) = true then ({ v with nodes := v.nodes.set x {} } : View) else v) = v1 at e ⊢
  cases hp : E.newParsR ask v1 x with
  | error y => rw [hp] at e; cases e
  | ok first =>
    rw [hp] at e
    dsimp only at e
    rw [newParsR_ok hask hp] at e
    refine andThen_reached e (fun w e => ?_) fun w _ e => ?_
    · split at e
      · rename_i hx; rw [if_pos hx]; exact forEach_reached h e
      · rename_i hx; rw [if_neg hx]; exact e
    · cases hn : w.nodes.get? x with
      | none => rw [hn] at e; cases e
      | some n =>
        rw [hn] at e
        dsimp only at e ⊢
        cases hp2 : E.newParsR ask w x with
        | error y => rw [hp2] at e; cases e
        | ok new =>
          rw [hp2] at e
          dsimp only at e
          have hnew := newParsR_ok hask hp2
          subst hnew
          generalize (if dir = Dir.down ∧ E.root ∈ E.diff (E.newPars w x) n.parents then Dir.both else dir) = dir' at e ⊢
          refine andThen_reached e (fun w e => forEach_reached (leave_reached h _ _) e) fun w _ e => ?_
          refine andThen_reached e (fun w e => forEach_reached (join_reached h _ _) e) fun w _ e => ?_
          refine andThen_reached e (fun w e => ?_) fun w _ e => e
          split at e
          · rename_i hx; rw [if_pos hx]; exact forEach_reached h e
          · rename_i hx; rw [if_neg hx]; exact e

/-- An update during which nothing raises is an update. -/
theorem update_reached (hask : Truthful E ask) : ∀ (f : Nat) (x : Id) (dir : Dir) (v v' : View),
    E.updateR ask f x dir v = .ok v' → E.update f x dir v = .ok v' := by
  intro f
  induction f with
  | zero => intro x dir v v' e; cases e
  | succ f ih =>
    intro x dir v v' e
    unfold VEnv.updateR at e
    unfold VEnv.update
    split at e
    · rename_i hr; rw [if_pos hr]; exact e
    · rename_i hr
      rw [if_neg hr]
      cases ha : ask v x with
      | error y => rw [ha] at e; cases e
      | ok wanted =>
        rw [ha] at e
        dsimp only at e
        rw [hask v x wanted ha] at e
        split at e
        · rename_i hc
          rw [if_pos hc]
          split at e
          · rename_i hx; rw [if_pos hx]; exact forEach_reached (fun p v v' e => ih p .up v v' e) e
          · rename_i hx; rw [if_neg hx]; exact e
        · rename_i hc
          rw [if_neg hc]
          split at e
          · rename_i hd
            rw [if_pos hd]
            refine andThen_reached e (fun w e => settle_reached hask (fun p v v' e => ih p .up v v' e) e) fun w _ e => ?_
            split at e
            · cases e
            · rename_i hw
              rw [if_neg hw]
              cases hk : E.newKidsR ask w x with
              | error y => rw [hk] at e; cases e
              | ok new =>
                rw [hk] at e
                dsimp only at e
                have := newKidsR_ok hask hk
                subst this
                split at e
                · rename_i hg
                  rw [if_pos hg]
                  refine forEach_reached (fun c u u' e => ?_) e
                  split at e
                  · rename_i hc; rw [if_pos hc]; exact ih _ _ _ _ e
                  · rename_i hc; rw [if_neg hc]; exact e
                · rename_i hg
                  rw [if_neg hg]; exact e
          · rename_i hd
            rw [if_neg hd]
            exact vanish_reached (fun p v v' e => ih p .up v v' e) (fun p v v' e => ih p .down v v' e) e

theorem fillLoop_reached (hask : Truthful E ask) (depth : Nat) : ∀ (f : Nat) (v : View) (q : List Id) (v' : View),
    E.fillLoopR ask depth f v q = .ok v' → E.fillLoop depth f v q = .ok v' := by
  intro f
  induction f with
  | zero => intro v q v' e; cases q <;> exact e
  | succ f ih =>
    intro v q v' e
    cases q with
    | nil => exact e
    | cons x q =>
      unfold VEnv.fillLoopR at e
      unfold VEnv.fillLoop
      refine andThen_reached e (fun w e => update_reached hask _ _ _ _ _ e) fun w _ e => ?_
      split at e
      · cases e
      · rename_i hx; rw [if_neg hx]; exact ih _ _ _ e

theorem refilter_reached (hask : Truthful E ask) {depth rounds : Nat} {v v' : View} (e : E.refilterR ask depth rounds v = .ok v') :
    E.refilter depth rounds v = .ok v' := by
  unfold VEnv.refilterR at e
  unfold VEnv.refilter
  exact andThen_reached e (fun w h => h) fun w _ e => fillLoop_reached hask _ _ _ _ _ e

end

/-! ### Something raised, and nothing had to be hidden -/

section

variable {E : VEnv} {ask : View → Id → Except Err Bool} {rank : Id → Nat} {M : Nat}

/-- Everything fits together, except that the parents of some nodes may disagree with the children lists. -/
def Ajar (E : VEnv) (rank : Id → Nat) (v : View) : Prop := ∃ X, VInv E rank X v

/-- What is assumed of the recursive calls upwards. -/
def UpShort (E : VEnv) (rank : Id → Nat) (k : Nat) (up up' : Id → View → Res View) : Prop :=
  ∀ (p : Id) (v : View) (X : Id → Prop), rank p < k → VInv E rank X v → (∀ y, rank y ≤ rank p → ¬ X y) →
    CutShort (Ajar E rank) (up p v) (up' p v)

theorem ups_short {k : Nat} {up up' : Id → View → Res View} (hup : UpSpec E rank k up) (hs : UpShort E rank k up up') {X : Id → Prop}
    (hX : ∀ y, rank y < k → ¬ X y) (L : List Id) (hL : ∀ p ∈ L, rank p < k) (v : View) (hv : VInv E rank X v) :
    CutShort (Ajar E rank) (Res.forEach up L v) (Res.forEach up' L v) := by
  refine CutShort.forEach (fun l w => (∀ p ∈ l, rank p < k) ∧ VInv E rank X w) ?_ ?_ L v ⟨hL, hv⟩
  · rintro p l w ⟨hl, h1⟩
    obtain ⟨w', a1, a2, -, -⟩ := hup p w X (hl p (by simp)) h1 (fun y hy => hX y (by have := hl p (by simp); omega))
    exact ⟨w', a1, fun q hq => hl q (by simp [hq]), a2⟩
  · rintro p l w ⟨hl, h1⟩
    exact hs p w X (hl p (by simp)) h1 (fun y hy => hX y (by have := hl p (by simp); omega))

theorem leave_split (up : Id → View → Res View) (g : Bool) (x p : Id) (v : View) :
    E.leave up g x p v = (E.leave (fun _ v => .ok v) false x p v).andThen fun w => if g then up p w else .ok w := by
  unfold VEnv.leave
  cases v.sendRemove E.root x p with
  | err e w => rfl
  | ok w =>
    simp only [Res.andThen_ok]
    cases w.dropKid p x with
    | err e u => rfl
    | ok u => rfl

theorem join_split (up : Id → View → Res View) (g : Bool) (x p : Id) (v : View) :
    E.join up g x p v = (E.join (fun _ v => .ok v) false x p v).andThen fun w => if g then up p w else .ok w := by
  unfold VEnv.join
  split
  · rfl
  · cases (v.upd p fun n => { n with children := n.children ++ [x] }).sendAdd E.root x p with
    | err e u => rfl
    | ok u => rfl

theorem upSpec_stay (k : Nat) : UpSpec E rank k (fun _ v => .ok v) :=
  fun _ v _ _ hv _ => ⟨v, rfl, hv, Grow.refl _ _, FrameGe.refl _ _ _⟩

theorem leave_short (hE : EOK E rank M) {up up' : Id → View → Res View} {x : Id} (hs : UpShort E rank (rank x) up up')
    {X : Id → Prop} (hX : ∀ y, rank y < rank x → ¬ X y) (hXx : X x) {v : View} (hv : VInv E rank X v) (g : Bool) {p : Id}
    (hp : x ∈ v.kids p) : CutShort (Ajar E rank) (E.leave up g x p v) (E.leave up' g x p v) := by
  obtain ⟨w, a1, a2, -⟩ := leave_ok hE (upSpec_stay _) hX hXx hv false hp
  rw [leave_split up, leave_split up', a1]
  cases g with
  | false => exact .same _
  | true => exact hs p w X (hv.kid p x hp).2 a2 (fun y hy => hX y (by have := (hv.kid p x hp).2; omega))

theorem join_short (hE : EOK E rank M) {up up' : Id → View → Res View} {x : Id} (hs : UpShort E rank (rank x) up up')
    {X : Id → Prop} (hX : ∀ y, rank y < rank x → ¬ X y) (hXx : X x) {v : View} (hv : VInv E rank X v) (g : Bool) {p : Id}
    (hpin : v.has p = true) (hx : v.has x = true) (hrk : rank p < rank x) (hp : x ∉ v.kids p) :
    CutShort (Ajar E rank) (E.join up g x p v) (E.join up' g x p v) := by
  obtain ⟨w, a1, a2, -⟩ := join_ok hE (upSpec_stay _) hX hXx hv false hpin hx hrk hp
  rw [join_split up, join_split up', a1]
  cases g with
  | false => exact .same _
  | true => exact hs p w X hrk a2 (fun y hy => hX y (by omega))

theorem settle_short (hE : EOK E rank M) (hask : Truthful E ask) {up up' : Id → View → Res View} {x : Id}
    (hup : UpSpec E rank (rank x) up) (hs : UpShort E rank (rank x) up up') {X : Id → Prop}
    (hX : ∀ y, rank y ≤ rank x → ¬ X y) {v : View} (hv : VInv E rank X v) (dir : Dir) (hroot : x ≠ E.root)
    (hd : E.disp x = true) : CutShort (Ajar E rank) (E.settle up x dir v) (E.settleR ask up' x dir v) := by
  have hX' : ∀ y, rank y < rank x → ¬ X y := fun y hy => hX y (by omega)
  unfold VEnv.settle VEnv.settleR
  dsimp only
  -- the entry exists
  obtain ⟨hv1, hx1⟩ : VInv E rank X (if (!v.has x) = true then ({ v with nodes := v.nodes.set x {} } : View) else v) ∧
      (if (!v.has x) = true then ({ v with nodes := v.nodes.set x {} } : View) else v).has x = true := by
    cases hx : v.has x with
    | true => exact ⟨by simpa using hv, by simpa using hx⟩
    | false => obtain ⟨a1, -, a3, -⟩ := hv.insert hd hx; exact ⟨by simpa using a1, by simpa using a3⟩
  generalize (if (!v.has x) = true then ({ v with nodes := v.nodes.set x {} } : View) else v) = v1 at hv1 hx1 ⊢
  cases hp1 : E.newParsR ask v1 x with
  | error e => exact .here ⟨X, hv1⟩
  | ok first =>
  have := newParsR_ok hask hp1
  subst this
  dsimp only
  have hpr : ∀ p ∈ (E.par x).filter fun p => decide (p ∉ E.newPars v1 x ∧ p ∉ v1.pars x), rank p < rank x :=
    fun p hp => hE.parRank x p (List.mem_filter.1 hp).1
  generalize (E.par x).filter (fun p => decide (p ∉ E.newPars v1 x ∧ p ∉ v1.pars x)) = absent at hpr ⊢
  refine CutShort.andThen ?_ ?_
  · split
    · exact ups_short hup hs hX' absent hpr v1 hv1
    · exact .same _
  intro v2 e2
  obtain ⟨hv2, hx2⟩ : VInv E rank X v2 ∧ v2.has x = true := by
    split at e2
    · obtain ⟨w, b1, b2, -, b4⟩ := ups_ok hup hX' absent hpr v1 hv1
      rw [b1] at e2; cases e2
      exact ⟨b2, (b4 x (le_refl _)).2.1.trans hx1⟩
    · cases e2; exact ⟨hv1, hx1⟩
  obtain ⟨n, hn⟩ := View.get_of_has hx2
  rw [hn]
  dsimp only
  cases hp2 : E.newParsR ask v2 x with
  | error e => exact .here ⟨X, hv2⟩
  | ok new =>
  have := newParsR_ok hask hp2
  subst this
  dsimp only
  have hcur : n.parents = v2.pars x := (View.pars_of_get hn).symm
  -- the parents are set
  have hnp : ∀ p ∈ npOf E v2.has x, v2.has p = true ∧ rank p < rank x := by
    intro p hp
    refine ⟨?_, hE.npOf_rank hroot hp⟩
    rcases mem_npOf hp with rfl | h
    · exact hv2.rootIn
    · exact h.2.2.1
  have hfil : (E.newPars v2 x).filter v2.has = npOf E v2.has x := by
    rw [newPars_eq, List.filter_eq_self]
    exact fun p hp => (hnp p hp).1
  set v3 := v2.upd x fun n => { n with parents := (E.newPars v2 x).filter v2.has } with hv3
  have p3 : ∀ y, v3.pars y = if y = x then npOf E v2.has x else v2.pars y := by
    intro y
    have := View.pars_updPars v2 x (fun _ => (E.newPars v2 x).filter v2.has) hx2 y
    rw [hn] at this
    rw [← hfil]
    exact this
  have k3 : ∀ y, v3.kids y = v2.kids y := View.kids_updPars v2 x (fun _ => (E.newPars v2 x).filter v2.has)
  have c3 : ∀ y, v3.has y = v2.has y := fun y => View.has_upd _ _ _ _
  have hv3 : VInv E rank (fun y => X y ∨ y = x) v3 := by
    refine ⟨by rw [hv3, View.keys_upd]; exact hv2.keys, by rw [c3]; exact hv2.rootIn,
      by rw [p3, if_neg hroot.symm]; exact hv2.rootPars, fun y => by rw [c3]; exact hv2.sub y, ?_,
      fun p c => by rw [k3, c3]; exact hv2.kid p c, ?_, fun y => by rw [k3]; exact hv2.ndK y, ?_, ?_⟩
    · intro y p hp
      rw [c3]
      rw [p3] at hp
      by_cases hy : y = x
      · rw [if_pos hy] at hp; subst hy; exact hnp p hp
      · rw [if_neg hy] at hp; exact hv2.par y p hp
    · intro y
      rw [p3]
      split
      · exact hE.npOf_nodup _ _
      · exact hv2.ndP y
    · intro y hy p
      rw [p3, k3, if_neg (fun e => hy (Or.inr e))]
      exact hv2.mirror y (fun e => hy (Or.inl e)) p
    · refine (RowsSet.sameKids (v' := v3) (hv2.rows : RowsSet v3.out _ _) k3).congr fun l => ?_
      show RowE (fun p c => c ∈ v2.kids p) E.root l ↔ RowE (fun p c => c ∈ v3.kids p) E.root l
      rw [show v3.kids = v2.kids from funext k3]
  have hX3 : ∀ y, rank y < rank x → ¬ (X y ∨ y = x) := by
    rintro y hy (h | rfl)
    · exact hX' y hy h
    · omega
  -- the directions
  generalize hdir : (if dir = Dir.down ∧ E.root ∈ E.diff (E.newPars v2 x) n.parents then Dir.both else dir) = dir'
  have hL := hE.diff n.parents (E.newPars v2 x)
  have hA := hE.diff (E.newPars v2 x) n.parents
  have hS := hE.diff (E.newPars v2 x) (E.diff (E.newPars v2 x) n.parents)
  generalize hLe : E.diff n.parents (E.newPars v2 x) = L at hL ⊢
  generalize hAe : E.diff (E.newPars v2 x) n.parents = A at hA hS hdir ⊢
  generalize hSe : E.diff (E.newPars v2 x) A = S at hS ⊢
  obtain ⟨hLn, hLm⟩ := hL
  obtain ⟨hAn, hAm⟩ := hA
  obtain ⟨hSn, hSm⟩ := hS
  rw [newPars_eq] at hLm hAm hSm
  have hxk2 : ∀ p, p ∈ n.parents ↔ x ∈ v2.kids p := by
    intro p; rw [hcur]; exact hv2.mirror x (hX x (le_refl _)) p
  -- leaving
  set P4 : List Id → View → Prop := fun l w => l.Nodup ∧ (∀ p ∈ l, p ∈ L) ∧ VInv E rank (fun y => X y ∨ y = x) w ∧
      Grow E v3 w ∧ w.pars x = npOf E v2.has x ∧ w.has x = true ∧ ∀ p, x ∈ w.kids p ↔ (p ∈ n.parents ∧ p ∉ L) ∨ p ∈ l with hP4
  have h4 : ∀ a l w, P4 (a :: l) w → ∃ w', E.leave up dir'.goesUp x a w = .ok w' ∧ P4 l w' := by
    rintro p l w ⟨i1, i2, i3, i4, i6, i7, i8⟩
    obtain ⟨w', j1, j2, j3, j4, j5, j6, j7⟩ := leave_ok hE hup hX3 (Or.inr rfl) i3 dir'.goesUp
      ((i8 p).2 (Or.inr (by simp)))
    rw [List.nodup_cons] at i1
    refine ⟨w', j1, i1.2, fun q hq => i2 q (by simp [hq]), j2, i4.trans j3, j5.trans i6, j6.trans i7, ?_⟩
    intro q
    rw [j7, i8]
    have hpL : p ∈ L := i2 p (by simp)
    by_cases hq : q = p
    · subst hq; simp [hpL, i1.1]
    · simp [hq]
  have h4' : ∀ a l w, P4 (a :: l) w → CutShort (Ajar E rank) (E.leave up dir'.goesUp x a w) (E.leave up' dir'.goesUp x a w) := by
    rintro p l w ⟨i1, i2, i3, i4, i6, i7, i8⟩
    exact leave_short hE hs hX3 (Or.inr rfl) i3 _ ((i8 p).2 (Or.inr (by simp)))
  have start4 : P4 L v3 := ⟨hLn, fun _ h => h, hv3, Grow.refl _ _, by rw [p3, if_pos rfl], by rw [c3]; exact hx2,
      fun p => by
        rw [k3, ← hxk2]
        constructor
        · intro h
          by_cases hpL : p ∈ L
          · exact Or.inr hpL
          · exact Or.inl ⟨h, hpL⟩
        · rintro (h | h)
          · exact h.1
          · exact ((hLm p).1 h).1⟩
  refine CutShort.andThen (CutShort.forEach P4 h4 h4' L v3 start4) ?_
  intro v4 e4
  obtain ⟨w4, f4, -, -, hv4, hg4, hp4, hh4, hk4⟩ := forEach_ok P4 h4 L v3 start4
  rw [f4] at e4
  cases e4
  -- joining
  set P5 : List Id → View → Prop := fun l w => l.Nodup ∧ (∀ p ∈ l, p ∈ A) ∧ VInv E rank (fun y => X y ∨ y = x) w ∧
      Grow E v4 w ∧ w.pars x = npOf E v2.has x ∧ w.has x = true ∧
      ∀ p, x ∈ w.kids p ↔ (p ∈ n.parents ∧ p ∉ L) ∨ (p ∈ A ∧ p ∉ l) with hP5
  have h5 : ∀ a l w, P5 (a :: l) w → (∃ w', E.join up dir'.goesUp x a w = .ok w' ∧ P5 l w') ∧
      CutShort (Ajar E rank) (E.join up dir'.goesUp x a w) (E.join up' dir'.goesUp x a w) := by
    rintro p l w ⟨i1, i2, i3, i4, i6, i7, i8⟩
    have hpA : p ∈ A := i2 p (by simp)
    have hpnew := ((hAm p).1 hpA)
    rw [List.nodup_cons] at i1
    have hpin : w.has p = true := by
      refine i4.has p (hg4.has p ?_)
      rw [c3]; exact (hnp p hpnew.1).1
    have hpk : x ∉ w.kids p := by rw [i8]; simp [hpnew.2]
    obtain ⟨w', j1, j2, j3, j4, j5, j6, j7⟩ := join_ok hE hup hX3 (Or.inr rfl) i3 dir'.goesUp (p := p)
      hpin i7 (hnp p hpnew.1).2 hpk
    refine ⟨⟨w', j1, i1.2, fun q hq => i2 q (by simp [hq]), j2, i4.trans j3, j5.trans i6, j6.trans i7, ?_⟩,
      join_short hE hs hX3 (Or.inr rfl) i3 _ hpin i7 (hnp p hpnew.1).2 hpk⟩
    intro q
    rw [j7, i8]
    by_cases hq : q = p
    · subst hq; simp [hpA, i1.1]
    · simp [hq]
  have start5 : P5 A v4 := ⟨hAn, fun _ h => h, hv4, Grow.refl _ _, hp4, hh4, fun p => by rw [hk4]; simp⟩
  refine CutShort.andThen (CutShort.forEach P5 (fun a l w h => (h5 a l w h).1) (fun a l w h => (h5 a l w h).2) A v4 start5) ?_
  intro v5 e5
  obtain ⟨w5, f5, -, -, hv5, hg5, hp5, hh5, hk5⟩ := forEach_ok P5 (fun a l w h => (h5 a l w h).1) A v4 start5
  rw [f5] at e5
  cases e5
  have hmir : ∀ p, p ∈ npOf E v2.has x ↔ x ∈ v5.kids p := by
    intro p
    rw [hk5]
    have e1 := hLm p
    have e2 := hAm p
    rw [e1, e2]
    simp only [List.not_mem_nil, not_false_eq_true, and_true]
    tauto
  have hv5' : VInv E rank X v5 := by
    refine { hv5 with mirror := fun y hy p => ?_ }
    by_cases hyx : y = x
    · subst hyx; rw [hp5]; exact hmir p
    · exact hv5.mirror y (by rintro (h | h); exact hy h; exact hyx h) p
  -- staying
  refine CutShort.andThen ?_ fun v6 _ => .same _
  split
  · exact ups_short hup hs hX' S (fun p hp => (hnp p ((hSm p).1 hp).1).2) v5 hv5'
  · exact .same _

theorem update_up_short (hE : EOK E rank M) (hask : Truthful E ask) : ∀ (f : Nat) (x : Id) (v : View) (X : Id → Prop), rank x < f →
    VInv E rank X v → (∀ y, rank y ≤ rank x → ¬ X y) →
    CutShort (Ajar E rank) (E.update f x .up v) (E.updateR ask f x .up v) := by
  intro f
  induction f with
  | zero => intro x v X hf; omega
  | succ f ih =>
    intro x v X hf hv hX
    have hup : UpSpec E rank (rank x) (fun p v => E.update f p .up v) := hE.upSpec (by omega)
    have hs : UpShort E rank (rank x) (fun p v => E.update f p .up v) (fun p v => E.updateR ask f p .up v) :=
      fun p w Y hp hw hY => ih p w Y (by omega) hw hY
    unfold VEnv.update VEnv.updateR
    by_cases hr : x = E.root
    · rw [if_pos hr, if_pos hr]; exact .same _
    rw [if_neg hr, if_neg hr]
    cases ha : ask v x with
    | error e => exact .here ⟨X, hv⟩
    | ok wanted =>
      rw [hask v x wanted ha]
      dsimp only
      cases hd : E.disp x with
      | true =>
        rw [if_neg (by simp), if_pos rfl, if_neg (by simp), if_pos rfl]
        refine CutShort.andThen (settle_short hE hask hup hs hX hv .up hr hd) fun w hw => ?_
        obtain ⟨v', a1, a2, a3, a4, a5, a6⟩ := settle_ok hE hup hX hv .up hr hd
        rw [a1] at hw; cases hw
        have c1 : ¬ w.has x = false := by simp [a5]
        have c2 : ¬ Dir.up.goesDown = true := by simp [Dir.goesDown]
        rw [if_neg c1, if_neg c2, if_neg c1]
        cases hk : E.newKidsR ask w x with
        | error e => exact .here ⟨X, a2⟩
        | ok new => dsimp only; rw [if_neg c2]; exact .same _
      | false =>
        have hx : v.has x = false := by
          by_contra h
          have := hv.sub x (by simpa using h) hr
          rw [hd] at this; cases this
        have c : v.has x = false ∧ false = false := ⟨hx, rfl⟩
        rw [if_pos c, if_pos c]
        cases E.has x
        · exact .same _
        · exact ups_short hup hs (fun y hy => hX y (by omega)) (E.par x) (hE.parRank x) v hv

theorem update_down_short (hE : EOK E rank M) (hask : Truthful E ask) : ∀ (f : Nat) (x : Id) (dir : Dir) (v : View),
    2 * M + 2 ≤ f + rank x → dir.goesDown = true → VInv E rank (fun _ => False) v →
    CutShort (Ajar E rank) (E.update f x dir v) (E.updateR ask f x dir v) := by
  intro f
  induction f with
  | zero =>
    intro x dir v hf
    have := hE.bound x
    omega
  | succ f ih =>
    intro x dir v hf hdir hv
    have hxM := hE.bound x
    have hup : UpSpec E rank (rank x) (fun p v => E.update f p .up v) := hE.upSpec (by omega)
    have hs : UpShort E rank (rank x) (fun p v => E.update f p .up v) (fun p v => E.updateR ask f p .up v) :=
      fun p w Y hp hw hY => update_up_short hE hask f p w Y (by omega) hw hY
    unfold VEnv.update VEnv.updateR
    by_cases hr : x = E.root
    · rw [if_pos hr, if_pos hr]; exact .same _
    rw [if_neg hr, if_neg hr]
    cases ha : ask v x with
    | error e => exact .here ⟨_, hv⟩
    | ok wanted =>
      rw [hask v x wanted ha]
      dsimp only
      cases hd : E.disp x with
      | true =>
        rw [if_neg (by simp), if_pos rfl, if_neg (by simp), if_pos rfl]
        refine CutShort.andThen (settle_short hE hask hup hs (fun _ _ h => h) hv dir hr hd) fun w hw => ?_
        obtain ⟨v1, a1, a2, a3, a4, a5, a6⟩ := settle_ok hE hup (fun _ _ h => h) hv dir hr hd
        rw [a1] at hw; cases hw
        have c1 : ¬ w.has x = false := by simp [a5]
        rw [if_neg c1, if_pos hdir, if_neg c1]
        cases hk : E.newKidsR ask w x with
        | error e => exact .here ⟨_, a2⟩
        | ok new =>
          have := newKidsR_ok hask hk
          subst this
          dsimp only
          rw [if_pos hdir]
          have hNK : ∀ c ∈ E.newKids x, x ∈ E.par c := fun c hc => ((mem_newKids hE).1 hc).2.1
          generalize E.newKids x = NK at *
          refine CutShort.forEach (fun l w => (∀ c ∈ l, c ∈ NK) ∧ VInv E rank (fun _ => False) w) ?_ ?_ NK w ⟨fun _ h => h, a2⟩
          · rintro c l w ⟨i1, i2⟩
            by_cases hkw : c ∈ w.kids x
            · rw [if_neg (by simpa using hkw)]
              exact ⟨w, rfl, fun q hq => i1 q (by simp [hq]), i2⟩
            · rw [if_pos hkw]
              obtain ⟨w', j1, j2, -⟩ := update_down_ok hE f c .down w
                (by have := hE.parRank c x (hNK c (i1 c (by simp))); omega) rfl i2
              exact ⟨w', j1, fun q hq => i1 q (by simp [hq]), j2⟩
          · rintro c l w ⟨i1, i2⟩
            by_cases hkw : c ∈ w.kids x
            · rw [if_neg (by simpa using hkw), if_neg (by simpa using hkw)]; exact .same _
            · rw [if_pos hkw, if_pos hkw]
              exact ih c .down w (by have := hE.parRank c x (hNK c (i1 c (by simp))); omega) rfl i2
      | false =>
        have hx : v.has x = false := by
          by_contra h
          have := hv.sub x (by simpa using h) hr
          rw [hd] at this; cases this
        have c : v.has x = false ∧ false = false := ⟨hx, rfl⟩
        rw [if_pos c, if_pos c]
        cases E.has x
        · exact .same _
        · exact ups_short hup hs (fun y hy h => h) (E.par x) (hE.parRank x) v hv

end
end Larch
