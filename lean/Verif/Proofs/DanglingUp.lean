import Verif.Proofs.Dangling
import Verif.Proofs.ViewHistory
import Verif.Proofs.Chain

/-!
# Updates of a view that shows everything
-/

namespace Larch

open Spec Graph

variable {E : VEnv}

/-- What an upward update of `y` goes on to. -/
def upsOf (E : VEnv) (y : Id) : List Id :=
  if E.disp y = true then (if E.flat = true then [] else (E.par y).filter fun p => E.disp p) else E.par y

theorem upsOf_par {y p : Id} (h : p ∈ upsOf E y) : p ∈ E.par y := by
  unfold upsOf at h
  split at h
  · split at h
    · cases h
    · exact (List.mem_filter.1 h).1
  · exact h

/-- The view shows exactly the displayed nodes. -/
structure Shown (E : VEnv) (v : View) : Prop where
  rootIn : v.has E.root = true
  all : ∀ y, E.disp y = true → v.has y = true
  sub : ∀ y, v.has y = true → y ≠ E.root → E.disp y = true

/-- From `v` to `v'` nothing that was in place was misplaced. -/
structure Keep (E : VEnv) (v v' : View) : Prop where
  has : v'.has = v.has
  set : ∀ y, SettledAt E v y → SettledAt E v' y
  par : ∀ y p, p ∈ v'.pars y → p ∈ v.pars y ∨ p ∈ npAll E y

theorem Keep.refl (v : View) : Keep E v v := ⟨rfl, fun _ h => h, fun _ _ h => Or.inl h⟩
theorem Keep.trans {a b c : View} (h : Keep E a b) (h' : Keep E b c) : Keep E a c :=
  ⟨h'.has.trans h.has, fun y hy => h'.set y (h.set y hy), fun y p hp => (h'.par y p hp).elim (h.par y p) Or.inr⟩
theorem Shown.keep {v v' : View} (h : Shown E v) (k : Keep E v v') : Shown E v' :=
  ⟨by rw [k.has]; exact h.rootIn, by rw [k.has]; exact h.all, by rw [k.has]; exact h.sub⟩
theorem Keep.of {v v' : View} (h : v'.has = v.has) (p : v'.pars = v.pars) : Keep E v v' :=
  ⟨h, fun y hy q => by rw [p]; exact hy q, fun y q hq => Or.inl (by rw [← p]; exact hq)⟩

theorem Shown.np {v : View} (h : Shown E v) (x : Id) : npOf E v.has x = npAll E x := npOf_all x fun p _ hd => h.all p hd

theorem Shown.fil {v : View} (h : Shown E v) (x : Id) : (E.newPars v x).filter v.has = npAll E x := by
  rw [newPars_eq, h.np, List.filter_eq_self]
  intro p hp
  rcases mem_npOf hp with rfl | hp
  · exact h.rootIn
  · exact h.all p hp.2.2.2

theorem mem_npAll_up {x p : Id} (hd : E.disp x = true) (h : p ∈ npAll E x) : p = E.root ∨ p ∈ upsOf E x := by
  rcases mem_npOf h with h | ⟨h1, h2, -, h3⟩
  · exact Or.inl h
  · refine Or.inr ?_
    unfold upsOf
    rw [if_pos hd, if_neg (by simp [h1])]
    exact List.mem_filter.2 ⟨h2, h3⟩

theorem EB.up_npAll (hE : EB E) {x p : Id} (hd : E.disp x = true) (h : p ∈ upsOf E x) : p ∈ npAll E x := by
  unfold upsOf at h
  rw [if_pos hd] at h
  split at h
  · cases h
  · rename_i hf
    obtain ⟨h1, h2⟩ := List.mem_filter.1 h
    exact mem_npOf_of (by simpa using hf) (hE.dispHas x hd) h1 rfl h2

/-- What happens at a node that is shown. -/
theorem settle_eq {up : Id → View → Res View} {x : Id} {dir : Dir} {v : View} (hv : Shown E v) {n : VNode} (hn : v.nodes.get? x = some n) :
    E.settle up x dir v =
      (Res.forEach (E.leave up (if dir = .down ∧ E.root ∈ E.diff (npAll E x) n.parents then Dir.both else dir).goesUp x)
        (E.diff n.parents (npAll E x)) (v.upd x fun n => { n with parents := npAll E x })).andThen fun v4 =>
      (Res.forEach (E.join up (if dir = .down ∧ E.root ∈ E.diff (npAll E x) n.parents then Dir.both else dir).goesUp x)
        (E.diff (npAll E x) n.parents) v4).andThen fun v5 =>
      (if (if dir = .down ∧ E.root ∈ E.diff (npAll E x) n.parents then Dir.both else dir).goesUp then
        Res.forEach up (E.diff (npAll E x) (E.diff (npAll E x) n.parents)) v5 else .ok v5).andThen fun v6 =>
      match v6.paths E.root x with
      | .error e => .err e v6
      | .ok ps => .ok (v6.send .modified x ps) := by
  have hx : v.has x = true := (Dict.has_iff _ _).2 ⟨n, hn⟩
  have hnp : E.newPars v x = npAll E x := by rw [newPars_eq, hv.np]
  have hfil : (npAll E x).filter v.has = npAll E x := by rw [← hnp]; rw [hv.fil x, hnp]
  unfold VEnv.settle
  dsimp only
  simp only [hx, Bool.not_true, Bool.false_eq_true, if_false, Res.andThen_ok, hn, hfil, hnp]
  rfl

theorem andThen_got {σ : Type} {r : Res σ} {k : σ → Res σ} {s : σ} (h : r.andThen k = .ok s) : ∃ s1, r = .ok s1 ∧ k s1 = .ok s := by
  cases r with
  | ok s1 => exact ⟨s1, rfl, h⟩
  | err e s1 => cases h

theorem forEach_run {α σ : Type} {body : α → σ → Res σ} {P : σ → Prop} {K : σ → σ → Prop} (refl : ∀ s, K s s)
    (trans : ∀ a b c, K a b → K b c → K a c) (pk : ∀ s s', K s s' → P s → P s') (l : List α)
    (h : ∀ a ∈ l, ∀ s s', P s → body a s = .ok s' → K s s') : ∀ s s', P s → Res.forEach body l s = .ok s' →
    K s s' ∧ ∀ a ∈ l, ∃ s1 s2, P s1 ∧ body a s1 = .ok s2 ∧ K s s1 ∧ K s2 s' := by
  induction l with
  | nil => intro s s' _ he; cases he; exact ⟨refl s, by simp⟩
  | cons a l ih =>
    intro s s' hs he
    rw [Res.forEach] at he
    cases hb : body a s with
    | err e s1 => rw [hb] at he; cases he
    | ok s1 =>
      rw [hb] at he
      have k1 := h a (by simp) s s1 hs hb
      obtain ⟨k2, k3⟩ := ih (fun b hb' => h b (by simp [hb'])) s1 s' (pk _ _ k1 hs) he
      refine ⟨trans _ _ _ k1 k2, fun c hc => ?_⟩
      rcases List.mem_cons.1 hc with rfl | hc
      · exact ⟨s, s1, hs, hb, refl s, k2⟩
      · obtain ⟨t1, t2, a1, a2, a3, a4⟩ := k3 c hc
        exact ⟨t1, t2, a1, a2, trans _ _ _ k1 a3, a4⟩

theorem forEach_hold {l : List Id} {body : Id → View → Res View}
    (h : ∀ a ∈ l, ∀ s s', Shown E s → body a s = .ok s' → Keep E s s') {s s' : View} (hs : Shown E s)
    (he : Res.forEach body l s = .ok s') :
    Keep E s s' ∧ ∀ a ∈ l, ∃ s1 s2, Shown E s1 ∧ body a s1 = .ok s2 ∧ Keep E s s1 ∧ Keep E s2 s' :=
  forEach_run (P := Shown E) (K := Keep E) Keep.refl (fun _ _ _ => Keep.trans) (fun _ _ k p => p.keep k) l h s s' hs he

theorem removeLoop_nodes (starts : List (List Id)) : ∀ (f : Nat) (v : View) (q : List (Id × List Id × Bool)) (v' : View),
    View.removeLoop starts f v q = .ok v' → v'.nodes = v.nodes
  | f, v, [], v', he => by cases f <;> (rw [View.removeLoop] at he; cases he; rfl)
  | 0, v, _ :: _, v', he => by rw [View.removeLoop] at he; cases he
  | f + 1, v, (y, rel, first) :: q, v', he => by
    rw [View.removeLoop] at he
    cases first with
    | true =>
      rw [if_pos rfl] at he
      split at he
      · cases he
      · exact removeLoop_nodes starts f v _ v' he
    | false =>
      rw [if_neg (by simp)] at he
      exact removeLoop_nodes starts f (v.send .deleted y _) _ v' he

theorem addLoop_nodes (starts : List (List Id)) : ∀ (f : Nat) (v : View) (q : List (Id × List Id)) (v' : View),
    View.addLoop starts f v q = .ok v' → v'.nodes = v.nodes
  | f, v, [], v', he => by cases f <;> (rw [View.addLoop] at he; cases he; rfl)
  | 0, v, _ :: _, v', he => by rw [View.addLoop] at he; cases he
  | f + 1, v, (y, rel) :: q, v', he => by
    rw [View.addLoop] at he
    split at he
    · cases he
    · exact addLoop_nodes starts f (v.send .added y _) _ v' he

theorem sendRemove_nodes {v v' : View} {root x p : Id} (h : v.sendRemove root x p = .ok v') : v'.nodes = v.nodes := by
  unfold View.sendRemove at h
  split at h
  · cases h
  · exact removeLoop_nodes _ _ _ _ _ h

theorem sendAdd_nodes {v v' : View} {root x p : Id} (h : v.sendAdd root x p = .ok v') : v'.nodes = v.nodes := by
  unfold View.sendAdd at h
  split at h
  · cases h
  · exact addLoop_nodes _ _ _ _ _ h

theorem dropKid_keep {v v' : View} {p x : Id} (h : v.dropKid p x = .ok v') : Keep E v v' := by
  unfold View.dropKid at h
  split at h
  · cases h
  · split at h
    · cases h
      exact Keep.of (funext fun y => View.has_upd _ _ _ _) (funext fun y => View.pars_updKids v p (fun l => l.erase x) y)
    · cases h

theorem leave_hold {up : Id → View → Res View} {g : Bool} {x p : Id} {v v' : View}
    (hup : ∀ s s', Shown E s → up p s = .ok s' → Keep E s s') (hv : Shown E v) (h : E.leave up g x p v = .ok v') :
    Keep E v v' ∧ (g = true → ∃ s1 s2, Shown E s1 ∧ up p s1 = .ok s2 ∧ Keep E v s1 ∧ Keep E s2 v') := by
  unfold VEnv.leave at h
  obtain ⟨v1, h1, h⟩ := andThen_got h
  obtain ⟨v2, h2, h⟩ := andThen_got h
  have n1 := sendRemove_nodes h1
  have k2 : Keep E v v2 := Keep.trans (Keep.of (View.has_congr n1) (View.pars_congr n1)) (dropKid_keep h2)
  cases g with
  | false => simp at h; subst h; exact ⟨k2, by simp⟩
  | true =>
    rw [if_pos rfl] at h
    have k3 := hup v2 v' (hv.keep k2) h
    exact ⟨k2.trans k3, fun _ => ⟨v2, v', hv.keep k2, h, k2, Keep.refl _⟩⟩

theorem join_hold {up : Id → View → Res View} {g : Bool} {x p : Id} {v v' : View}
    (hup : ∀ s s', Shown E s → up p s = .ok s' → Keep E s s') (hv : Shown E v) (h : E.join up g x p v = .ok v') :
    Keep E v v' ∧ (g = true → ∃ s1 s2, Shown E s1 ∧ up p s1 = .ok s2 ∧ Keep E v s1 ∧ Keep E s2 v') := by
  unfold VEnv.join at h
  split at h
  · cases h
  obtain ⟨v2, h2, h⟩ := andThen_got h
  have n2 := sendAdd_nodes h2
  have k2 : Keep E v v2 := Keep.trans
    (Keep.of (v' := v.upd p fun n => { n with children := n.children ++ [x] }) (funext fun y => View.has_upd _ _ _ _)
      (funext fun y => View.pars_updKids v p (fun l => l ++ [x]) y))
    (Keep.of (View.has_congr n2) (View.pars_congr n2))
  cases g with
  | false => simp at h; subst h; exact ⟨k2, by simp⟩
  | true =>
    rw [if_pos rfl] at h
    have k3 := hup v2 v' (hv.keep k2) h
    exact ⟨k2.trans k3, fun _ => ⟨v2, v', hv.keep k2, h, k2, Keep.refl _⟩⟩

theorem setPars_hold {v : View} {x : Id} (hx : v.has x = true) :
    Keep E v (v.upd x fun n => { n with parents := npAll E x }) ∧
      SettledAt E (v.upd x fun n => { n with parents := npAll E x }) x := by
  obtain ⟨n, hn⟩ := View.get_of_has hx
  have hp : ∀ y, (v.upd x fun n => { n with parents := npAll E x }).pars y = if y = x then npAll E x else v.pars y := by
    intro y
    have := View.pars_updPars v x (fun _ => npAll E x) hx y
    rw [hn] at this
    exact this
  refine ⟨⟨funext fun y => View.has_upd _ _ _ _, fun y hy p => ?_, fun y p hm => ?_⟩, fun p => by rw [hp, if_pos rfl]⟩
  · rw [hp]
    split
    · rename_i h; rw [h]
    · exact hy p
  · rw [hp] at hm
    split at hm
    · rename_i h; rw [h]; exact Or.inr hm
    · exact Or.inl hm

theorem send_keep {v : View} (ev : SigEv) (x : Id) (ps : List (List Id)) : Keep E v (v.send ev x ps) := Keep.of rfl rfl

/-- Settling a node that is shown misplaces nobody, puts the node in its place, and visits its parents if it goes up. -/
theorem settle_hold (hd : SetDiff E.diff) {up : Id → View → Res View} {x : Id} {dir : Dir} {v v' : View}
    (hup : ∀ p s s', Shown E s → up p s = .ok s' → Keep E s s') (hv : Shown E v) (hx : v.has x = true)
    (h : E.settle up x dir v = .ok v') :
    Keep E v v' ∧ SettledAt E v' x ∧ (dir.goesUp = true → ∀ p ∈ npAll E x, ∃ s1 s2, Shown E s1 ∧ up p s1 = .ok s2 ∧ Keep E s2 v') := by
  obtain ⟨n, hn⟩ := View.get_of_has hx
  rw [settle_eq hv hn] at h
  generalize hdir : (if dir = Dir.down ∧ E.root ∈ E.diff (npAll E x) n.parents then Dir.both else dir) = dir' at h
  have hdir' : dir.goesUp = true → dir'.goesUp = true := by
    intro hg
    rw [← hdir]
    split
    · rfl
    · exact hg
  obtain ⟨v4, h4, h⟩ := andThen_got h
  obtain ⟨v5, h5, h⟩ := andThen_got h
  obtain ⟨v6, h6, h⟩ := andThen_got h
  obtain ⟨k3, s3⟩ := setPars_hold (E := E) hx
  obtain ⟨k4, -⟩ := forEach_hold (fun p _ s s' hs he => (leave_hold (hup p) hs he).1) (hv.keep k3) h4
  have hv4 := (hv.keep k3).keep k4
  obtain ⟨k5, j5⟩ := forEach_hold (fun p _ s s' hs he => (join_hold (hup p) hs he).1) hv4 h5
  have hv5 := hv4.keep k5
  have k6 : Keep E v5 v6 ∧ (dir'.goesUp = true → ∀ a ∈ E.diff (npAll E x) (E.diff (npAll E x) n.parents), ∃ s1 s2, Shown E s1 ∧
      up a s1 = .ok s2 ∧ Keep E s2 v6) := by
    cases hg : dir'.goesUp with
    | false => rw [hg] at h6; simp at h6; subst h6; exact ⟨Keep.refl _, by simp⟩
    | true =>
      rw [hg, if_pos rfl] at h6
      obtain ⟨a1, a2⟩ := forEach_hold (fun p _ s s' hs he => hup p s s' hs he) hv5 h6
      refine ⟨a1, fun _ a ha => ?_⟩
      obtain ⟨s1, s2, b1, b2, -, b4⟩ := a2 a ha
      exact ⟨s1, s2, b1, b2, b4⟩
  have k7 : Keep E v6 v' := by
    split at h
    · cases h
    · cases h; exact send_keep _ _ _
  refine ⟨k3.trans (k4.trans (k5.trans (k6.1.trans k7))), (k4.trans (k5.trans (k6.1.trans k7))).set x s3, fun hg p hp => ?_⟩
  have hg' := hdir' hg
  by_cases ha : p ∈ E.diff (npAll E x) n.parents
  · obtain ⟨s1, s2, b1, b2, -, b4⟩ := j5 p ha
    obtain ⟨t1, t2, c1, c2, -, c4⟩ := (join_hold (hup p) b1 b2).2 hg'
    exact ⟨t1, t2, c1, c2, c4.trans (b4.trans (k6.1.trans k7))⟩
  · obtain ⟨s1, s2, b1, b2, b3⟩ := k6.2 hg' p (((hd _ _).2 p).2 ⟨hp, ha⟩)
    exact ⟨s1, s2, b1, b2, b3.trans k7⟩

theorem EB.root_up (hE : EB E) {y : Id} (h : ReachEq (upsOf E) E.root y) : y = E.root := by
  rcases reachEq_cases h with h | ⟨z, hz, -⟩
  · exact h
  · have := (hE.parHas _ _ (upsOf_par hz)).2
    rw [hE.rootHas] at this; cases this

theorem EB.root_hidden (hE : EB E) : E.disp E.root = false := by
  by_contra h
  have := hE.dispHas _ (by simpa using h)
  rw [hE.rootHas] at this; cases this

/-- An update of a view that shows everything misplaces nobody; if it goes up, everything above is in its place
afterwards. -/
theorem update_hold (hE : EB E) : ∀ (f : Nat) (x : Id) (dir : Dir) (v v' : View), Shown E v → E.update f x dir v = .ok v' →
    Keep E v v' ∧ (dir.goesUp = true → ∀ y, ReachEq (upsOf E) x y → E.disp y = true → SettledAt E v' y) := by
  intro f
  induction f with
  | zero => intro x dir v v' _ h; cases h
  | succ f ih =>
    intro x dir v v' hv h
    unfold VEnv.update at h
    by_cases hr : x = E.root
    · rw [if_pos hr] at h
      cases h
      refine ⟨Keep.refl _, fun _ y hy hd => ?_⟩
      subst hr
      rw [hE.root_up hy, hE.root_hidden] at hd; cases hd
    rw [if_neg hr] at h
    cases hd : E.disp x with
    | true =>
      have hx := hv.all x hd
      rw [if_neg (by simp [hd]), if_pos hd] at h
      obtain ⟨v1, h1, h⟩ := andThen_got h
      obtain ⟨k1, s1, u1⟩ := settle_hold hE.diff (up := fun p v => E.update f p .up v) (fun p s s' hs he => (ih p .up s s' hs he).1) hv hx h1
      have hv1 := hv.keep k1
      rw [if_neg (by rw [hv1.all x hd]; simp)] at h
      have k2 : Keep E v1 v' := by
        split at h
        · refine (forEach_hold (E := E) (fun c _ s s' hs he => ?_) hv1 h).1
          split at he
          · exact (ih c .down s s' hs he).1
          · cases he; exact Keep.refl _
        · cases h; exact Keep.refl _
      refine ⟨k1.trans k2, fun hg y hy hdy => ?_⟩
      rcases reachEq_cases hy with rfl | ⟨z, hz, hzy⟩
      · exact k2.set _ s1
      · obtain ⟨t1, t2, c1, c2, c3⟩ := u1 hg z (hE.up_npAll hd hz)
        exact k2.set _ (c3.set _ ((ih z .up t1 t2 c1 c2).2 rfl y hzy hdy))
    | false =>
      have hx : v.has x = false := by
        by_contra hc
        have := hv.sub x (by simpa using hc) hr
        rw [hd] at this; cases this
      rw [if_pos ⟨hx, hd⟩] at h
      by_cases hh : E.has x = true
      · rw [if_pos hh] at h
        obtain ⟨a1, a2⟩ := forEach_hold (E := E) (fun p _ s s' hs he => (ih p .up s s' hs he).1) hv h
        refine ⟨a1, fun _ y hy hdy => ?_⟩
        rcases reachEq_cases hy with rfl | ⟨z, hz, hzy⟩
        · rw [hd] at hdy; cases hdy
        · obtain ⟨t1, t2, c1, c2, -, c4⟩ := a2 z (upsOf_par hz)
          exact c4.set _ ((ih z .up t1 t2 c1 c2).2 rfl y hzy hdy)
      · rw [if_neg hh] at h
        cases h
        refine ⟨Keep.refl _, fun _ y hy hdy => ?_⟩
        rcases reachEq_cases hy with rfl | ⟨z, hz, -⟩
        · rw [hd] at hdy; cases hdy
        · exact absurd (hE.parHas _ _ (upsOf_par hz)).2 hh

/-! ### The same update of a view in which a deleted node is mentioned -/

/-- `w` is `u` without the mentions of `x`, it shows everything, and the nodes `A` are in their places. -/
structure Twin (E : VEnv) (x : Id) (A : Id → Prop) (u w : View) : Prop where
  sans : Sans x u w
  shown : Shown E w
  set : ∀ y, A y → E.disp y = true → SettledAt E w y

variable {x : Id} {A : Id → Prop}

theorem Twin.next {u w u' w' : View} (h : Twin E x A u w) (hs : Sans x u' w') (hk : Keep E w w') : Twin E x A u' w' :=
  ⟨hs, h.shown.keep hk, fun y hy hd => hk.set y (h.set y hy hd)⟩

/-- The nodes outside `A`. -/
def Aside (E : VEnv) (A : Id → Prop) (z : Id) : Prop := ¬ A z ∧ z ≠ E.root

/-- Where the update of `u` stands, compared with its start `u0`. -/
structure AlongUp (E : VEnv) (x : Id) (A : Id → Prop) (u0 u w : View) : Prop where
  twin : Twin E x A u w
  free : Sans.Free x u0 (Aside E A) → Sans.Free x u (Aside E A)
  count : ∀ q, (u.kids q).count x = (u0.kids q).count x

theorem AlongUp.refl {u w : View} (h : Twin E x A u w) : AlongUp E x A u u w := ⟨h, id, fun _ => rfl⟩
theorem AlongUp.trans {u0 u u1 w w1 : View} (h : AlongUp E x A u0 u w) (h' : AlongUp E x A u u1 w1) : AlongUp E x A u0 u1 w1 :=
  ⟨h'.twin, fun hf => h'.free (h.free hf), fun q => (h'.count q).trans (h.count q)⟩

theorem forEach_along {l : List Id} {body body' : Id → View → Res View} {u0 : View}
    (h : ∀ a ∈ l, ∀ u w w', AlongUp E x A u0 u w → body' a w = .ok w' → ∃ u', body a u = .ok u' ∧ AlongUp E x A u0 u' w') :
    ∀ (u w w' : View), AlongUp E x A u0 u w → Res.forEach body' l w = .ok w' →
      ∃ u', Res.forEach body l u = .ok u' ∧ AlongUp E x A u0 u' w' := by
  induction l with
  | nil => intro u w w' hr he; cases he; exact ⟨u, rfl, hr⟩
  | cons a l ih =>
    intro u w w' hr he
    rw [Res.forEach] at he
    cases hb : body' a w with
    | err e s1 => rw [hb] at he; cases he
    | ok w1 =>
      rw [hb] at he
      obtain ⟨u1, a1, a2⟩ := h a (by simp) u w w1 hr hb
      obtain ⟨u', b1, b2⟩ := ih (fun c hc => h c (by simp [hc])) u1 w1 w' a2 he
      exact ⟨u', by rw [Res.forEach, a1]; exact b1, b2⟩

theorem Free.of_sub {u u' : View} {S : Id → Prop} (h : Sans.Free x u S) (hs : ∀ q, ∀ a ∈ u'.kids q, a ∈ u.kids q) : Sans.Free x u' S :=
  ⟨fun z hz hm => h.not z hz (hs z x hm), fun z hz c hc => h.down z hz c (hs z c hc)⟩

theorem leave_along {up : Id → View → Res View} {g : Bool} {y p : Id} {u0 u w w' : View}
    (hr : AlongUp E x A u0 u w) (hf : Sans.Free x u0 (Aside E A)) (hy : Aside E A y) (hyx : y ≠ x)
    (hup : ∀ u1 w1 w1', AlongUp E x A u0 u1 w1 → up p w1 = .ok w1' → ∃ u1', up p u1 = .ok u1' ∧ AlongUp E x A u0 u1' w1')
    (h : E.leave up g y p w = .ok w') : ∃ u', E.leave up g y p u = .ok u' ∧ AlongUp E x A u0 u' w' := by
  unfold VEnv.leave at h
  obtain ⟨w1, h1, h⟩ := andThen_got h
  obtain ⟨w2, h2, h⟩ := andThen_got h
  have n1 := sendRemove_nodes h1
  obtain ⟨u1, a1, a2, a3⟩ := hr.twin.sans.sendRemove (hr.free hf) hy h1
  obtain ⟨u2, b1, b2, b3, b4⟩ := a2.dropKid hyx h2
  have hk : u1.kids = u.kids := View.kids_congr a3
  have r2 : AlongUp E x A u0 u2 w2 := by
    refine ⟨hr.twin.next b2 (Keep.trans (Keep.of (View.has_congr n1) (View.pars_congr n1)) (dropKid_keep h2)),
      fun _ => Free.of_sub (hr.free hf) (by rw [← hk]; exact b4), fun q => ?_⟩
    rw [b3, hk]; exact hr.count q
  unfold VEnv.leave
  rw [a1, Res.andThen_ok, b1, Res.andThen_ok]
  cases g with
  | false => simp at h; subst h; exact ⟨u2, rfl, r2⟩
  | true => rw [if_pos rfl] at h ⊢; exact hup u2 w2 w' r2 h

theorem join_along {up : Id → View → Res View} {g : Bool} {y p : Id} {u0 u w w' : View}
    (hr : AlongUp E x A u0 u w) (hf : Sans.Free x u0 (Aside E A)) (hy : Aside E A y) (hyx : y ≠ x)
    (hup : ∀ u1 w1 w1', AlongUp E x A u0 u1 w1 → up p w1 = .ok w1' → ∃ u1', up p u1 = .ok u1' ∧ AlongUp E x A u0 u1' w1')
    (h : E.join up g y p w = .ok w') : ∃ u', E.join up g y p u = .ok u' ∧ AlongUp E x A u0 u' w' := by
  unfold VEnv.join at h
  split at h
  · cases h
  rename_i hp
  obtain ⟨w2, h2, h⟩ := andThen_got h
  have n2 := sendAdd_nodes h2
  have hpu : u.has p = true := by rw [← hr.twin.sans.has]; simpa using hp
  obtain ⟨c1, c2⟩ := hr.twin.sans.addKid (c := y) hyx hpu
  have f1 : Sans.Free x (u.upd p fun n => { n with children := n.children ++ [y] }) (Aside E A) := by
    have hk := View.kids_updKids u p (fun l => l ++ [y]) hpu
    refine ⟨fun z hz hm => ?_, fun z hz c hc => ?_⟩
    · rw [hk] at hm
      split at hm
      · rename_i e; subst e
        rcases List.mem_append.1 hm with hm | hm
        · exact (hr.free hf).not z hz hm
        · exact hyx (List.mem_singleton.1 hm).symm
      · exact (hr.free hf).not z hz hm
    · rw [hk] at hc
      split at hc
      · rename_i e; subst e
        rcases List.mem_append.1 hc with hc | hc
        · exact (hr.free hf).down z hz c hc
        · rw [List.mem_singleton.1 hc]; exact hy
      · exact (hr.free hf).down z hz c hc
  obtain ⟨u2, a1, a2, a3⟩ := c1.sendAdd f1 hy h2
  have hk : u2.kids = _ := View.kids_congr a3
  have r2 : AlongUp E x A u0 u2 w2 := by
    refine ⟨hr.twin.next a2 (Keep.trans
      (Keep.of (v' := w.upd p fun n => { n with children := n.children ++ [y] }) (funext fun y => View.has_upd _ _ _ _)
        (funext fun z => View.pars_updKids w p (fun l => l ++ [y]) z)) (Keep.of (View.has_congr n2) (View.pars_congr n2))),
      fun _ => Free.of_sub f1 (by rw [hk]; exact fun q a h => h), fun q => ?_⟩
    rw [hk, c2]; exact hr.count q
  unfold VEnv.join
  rw [if_neg (by simp [hpu]), a1, Res.andThen_ok]
  cases g with
  | false => simp at h; subst h; exact ⟨u2, rfl, r2⟩
  | true => rw [if_pos rfl] at h ⊢; exact hup u2 w2 w' r2 h

theorem diff_nil' (hd : SetDiff E.diff) {a b : List Id} (h : ∀ p ∈ a, p ∈ b) : E.diff a b = [] := by
  rw [List.eq_nil_iff_forall_not_mem]
  intro p hp
  obtain ⟨h1, h2⟩ := ((hd a b).2 p).1 hp
  exact h2 (h p h1)

/-- An upward update does the same in `u` and in `w`, if it stays within `A`, or if all mentions of `x` are in `A`. -/
theorem update_along (hE : EB E) (hA : ∀ y, A y → ∀ p ∈ upsOf E y, A p) : ∀ (f : Nat) (p : Id) (u w w' : View), Twin E x A u w →
    ((A p ∨ p = E.root) ∨ Sans.Free x u (Aside E A)) → E.update f p .up w = .ok w' →
    ∃ u', E.update f p .up u = .ok u' ∧ AlongUp E x A u u' w' := by
  intro f
  induction f with
  | zero => intro p u w w' _ _ h; cases h
  | succ f ih =>
    intro y u w w' ht hc h
    have hup : ∀ p, ((A p ∨ p = E.root) ∨ Sans.Free x u (Aside E A)) → ∀ u1 w1 w1', AlongUp E x A u u1 w1 →
        E.update f p .up w1 = .ok w1' → ∃ u1', E.update f p .up u1 = .ok u1' ∧ AlongUp E x A u u1' w1' := by
      intro p hp u1 w1 w1' hr he
      obtain ⟨u1', a1, a2⟩ := ih p u1 w1 w1' hr.twin (hp.imp id hr.free) he
      exact ⟨u1', a1, hr.trans a2⟩
    unfold VEnv.update at h ⊢
    by_cases hr : y = E.root
    · rw [if_pos hr] at h ⊢
      cases h
      exact ⟨u, rfl, AlongUp.refl ht⟩
    rw [if_neg hr] at h ⊢
    rw [ht.sans.has] at h
    cases hd : E.disp y with
    | true =>
      have hyw := ht.shown.all y hd
      have hyu : u.has y = true := by rw [← ht.sans.has]; exact hyw
      have hyx := ht.sans.ne hyu
      have hushown : Shown E u := ⟨by rw [← ht.sans.has]; exact ht.shown.rootIn, fun z hz => by rw [← ht.sans.has]; exact ht.shown.all z hz,
        fun z hz hn => ht.shown.sub z (by rw [ht.sans.has]; exact hz) hn⟩
      rw [if_neg (by simp [hd]), if_pos hd] at h
      rw [if_neg (by simp), if_pos rfl]
      obtain ⟨w1, h1, h⟩ := andThen_got h
      split at h
      · cases h
      rw [if_neg (by simp [Dir.goesDown])] at h
      cases h
      suffices hs : ∃ u', E.settle (fun p v => E.update f p .up v) y .up u = .ok u' ∧ AlongUp E x A u u' w' by
        obtain ⟨u', a1, a2⟩ := hs
        refine ⟨u', ?_, a2⟩
        rw [a1, Res.andThen_ok, if_neg (by rw [← a2.twin.sans.has, a2.twin.shown.all y hd]; simp), if_neg (by simp [Dir.goesDown])]
      obtain ⟨n, hn⟩ := View.get_of_has hyu
      have hnw : w.nodes.get? y = some (n.sans x) := by rw [ht.sans.get, hn]; rfl
      rw [settle_eq ht.shown hnw] at h1
      rw [settle_eq hushown hn]
      have hnp : (n.sans x).parents = n.parents := rfl
      rw [hnp] at h1
      simp only [reduceCtorEq, false_and, if_false] at h1 ⊢
      obtain ⟨w4, h4, h1⟩ := andThen_got h1
      obtain ⟨w5, h5, h1⟩ := andThen_got h1
      obtain ⟨w6, h6, h1⟩ := andThen_got h1
      have r3 : AlongUp E x A u (u.upd y fun n => { n with parents := npAll E y }) (w.upd y fun n => { n with parents := npAll E y }) := by
        have hk : (u.upd y fun n => { n with parents := npAll E y }).kids = u.kids := funext (View.kids_updPars u y (fun _ => npAll E y))
        exact ⟨ht.next (ht.sans.setPars y _) (setPars_hold hyw).1, fun hf => Free.of_sub hf (by rw [hk]; exact fun _ _ h => h),
          fun q => by rw [hk]⟩
      have hnext : ∀ p ∈ npAll E y, (A p ∨ p = E.root) ∨ Sans.Free x u (Aside E A) := by
        intro p hp
        rcases hc with (hc | hc) | hc
        · rcases mem_npAll_up hd hp with h | h
          · exact Or.inl (Or.inr h)
          · exact Or.inl (Or.inl (hA y hc p h))
        · exact absurd hc hr
        · exact Or.inr hc
      -- leaving and joining
      have hmove : ∃ u5, (∃ u4, Res.forEach (E.leave (fun p v => E.update f p .up v) Dir.up.goesUp y) (E.diff n.parents (npAll E y))
            (u.upd y fun n => { n with parents := npAll E y }) = .ok u4 ∧
          Res.forEach (E.join (fun p v => E.update f p .up v) Dir.up.goesUp y) (E.diff (npAll E y) n.parents) u4 = .ok u5) ∧
          AlongUp E x A u u5 w5 := by
        by_cases hAy : A y
        · have hset := ht.set y hAy hd
          have hps : ∀ p, p ∈ n.parents ↔ p ∈ npAll E y := by
            intro p
            rw [← hset p, View.pars_of_get hnw]; rfl
          rw [diff_nil' hE.diff fun p hp => (hps p).1 hp] at h4 ⊢
          rw [diff_nil' hE.diff fun p hp => (hps p).2 hp] at h5 ⊢
          cases h4; cases h5
          exact ⟨_, ⟨_, rfl, rfl⟩, r3⟩
        · have hf : Sans.Free x u (Aside E A) := (hc.resolve_left (by
            rintro (h | h)
            · exact hAy h
            · exact hr h))
          obtain ⟨u4, a1, a2⟩ := forEach_along (fun p _ u1 w1 w1' r he =>
            leave_along (up := fun p v => E.update f p .up v) r hf ⟨hAy, hr⟩ hyx (hup p (Or.inr hf)) he) _ _ _ r3 h4
          obtain ⟨u5, b1, b2⟩ := forEach_along (fun p _ u1 w1 w1' r he =>
            join_along (up := fun p v => E.update f p .up v) r hf ⟨hAy, hr⟩ hyx (hup p (Or.inr hf)) he) _ _ _ a2 h5
          exact ⟨u5, ⟨u4, a1, b1⟩, b2⟩
      obtain ⟨u5, ⟨u4, a1, b1⟩, r5⟩ := hmove
      rw [a1, Res.andThen_ok, b1, Res.andThen_ok]
      rw [if_pos (show Dir.up.goesUp = true from rfl)] at h6 ⊢
      obtain ⟨u6, c1, c2⟩ := forEach_along (fun p hp u1 w1 w1' r he => hup p (hnext p (((hE.diff _ _).2 p).1 hp).1) u1 w1 w1' r he) _ _ _ r5 h6
      rw [c1, Res.andThen_ok]
      rw [c2.twin.sans.paths] at h1
      cases hps : u6.paths E.root y with
      | error e => rw [hps] at h1; cases h1
      | ok ps =>
        rw [hps] at h1
        cases h1
        exact ⟨_, rfl, c2.twin.next (c2.twin.sans.send _ _ _) (send_keep _ _ _), fun hf => (c2.free hf).send _ _ _, c2.count⟩
    | false =>
      have hyu : u.has y = false := by
        by_contra hc
        have := ht.shown.sub y (by rw [ht.sans.has]; simpa using hc) hr
        rw [hd] at this; cases this
      rw [if_pos ⟨hyu, hd⟩] at h
      rw [if_pos ⟨hyu, rfl⟩]
      by_cases hh : E.has y = true
      · rw [if_pos hh] at h ⊢
        refine forEach_along (fun p hp u1 w1 w1' r he => hup p ?_ u1 w1 w1' r he) _ _ _ (AlongUp.refl ht) h
        rcases hc with (hc | hc) | hc
        · refine Or.inl (Or.inl (hA y hc p ?_))
          unfold upsOf; rw [if_neg (by simp [hd])]; exact hp
        · exact absurd hc hr
        · exact Or.inr hc
      · rw [if_neg hh] at h ⊢
        cases h
        exact ⟨u, rfl, AlongUp.refl ht⟩

end Larch
