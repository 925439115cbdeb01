import Verif.Proofs.ViewFill

/-! # A node disappears from a view -/

namespace Larch

open Spec Graph

variable {E : VEnv} {rank : Id → Nat} {M : Nat}

/-- The parent/child pairs according to the parents lists. -/
abbrev View.pedge (v : View) : Id → Id → Prop := fun p c => p ∈ v.pars c

/-- What holds of a view at every moment: the parents lists are what the observers know. -/
structure Base (E : VEnv) (rank : Id → Nat) (v : View) : Prop where
  keys : v.nodes.keys.Nodup
  rootIn : v.has E.root = true
  rootPars : v.pars E.root = []
  par : ∀ y p, p ∈ v.pars y → v.has p = true ∧ rank p < rank y
  kid : ∀ p c, c ∈ v.kids p → rank p < rank c
  ndP : ∀ y, (v.pars y).Nodup
  ndK : ∀ y, (v.kids y).Nodup
  up : ∀ y p, p ∈ v.pars y → y ∈ v.kids p
  rows : RowsSet v.out (RowE v.pedge E.root) (v.under E.root)

/-- The two views show the same. -/
structure PSame (v v' : View) : Prop where
  has : v'.has = v.has
  kids : v'.kids = v.kids
  pars : ∀ y p, p ∈ v'.pars y ↔ p ∈ v.pars y

theorem PSame.refl (v : View) : PSame v v := ⟨rfl, rfl, fun _ _ => Iff.rfl⟩
theorem PSame.trans {a b c : View} (h : PSame a b) (h' : PSame b c) : PSame a c :=
  ⟨h'.has.trans h.has, h'.kids.trans h.kids, fun y p => (h'.pars y p).trans (h.pars y p)⟩

theorem Base.pathsOK {v : View} (h : Base E rank v) (k : Nat) : PathsOK E.root rank v v.pedge k :=
  ⟨h.par, h.ndP, fun _ _ _ => Iff.rfl, fun y _ p hp => h.up y p hp, fun p y hy => (h.par y p hy).2⟩

theorem rowE_of_path {e : Id → Id → Prop} {root x : Id} (hr : x ≠ root) {a : List Id} (h : PathTo e root a x) :
    RowE e root a ∧ a.getLast? = some x := by
  obtain ⟨h1, h2⟩ := h
  cases a with
  | nil => simp at h2; exact absurd h2.symm hr
  | cons b l => exact ⟨⟨by simp, h1⟩, by simpa using h2⟩

theorem Base.of_out {v v' : View} (h : Base E rank v) (hn : v'.nodes = v.nodes) (hr : RowsSet v'.out (RowE v'.pedge E.root) (v'.under E.root)) :
    Base E rank v' := by
  have e1 := View.has_congr hn
  have e2 := View.pars_congr hn
  have e3 := View.kids_congr hn
  exact ⟨hn ▸ h.keys, e1 ▸ h.rootIn, e2 ▸ h.rootPars, by rw [e1, e2]; exact h.par, by rw [e3]; exact h.kid, e2 ▸ h.ndP,
    e3 ▸ h.ndK, by rw [e2, e3]; exact h.up, hr⟩

/-- The signal at `filteredtree.py:221-223`. -/
theorem Base.emit {v : View} (h : Base E rank v) {x : Id} (hx : v.has x = true) (hr : x ≠ E.root) :
    ∃ ps, v.paths E.root x = .ok ps ∧ Base E rank (v.send .modified x ps) ∧ PSame v (v.send .modified x ps) := by
  obtain ⟨ps, q1, q2, q3⟩ := paths_spec (h.pathsOK (rank x)) (le_refl _) hx
  refine ⟨ps, q1, h.of_out (View.send_nodes _ _ _ _) ?_, ⟨rfl, rfl, fun _ _ => Iff.rfl⟩⟩
  exact h.rows.modifiedMany ps (fun a ha => (rowE_of_path hr ((q3 a).1 ha)).2) (fun a ha => (rowE_of_path hr ((q3 a).1 ha)).1)

theorem Base.setPars {v : View} (h : Base E rank v) {x : Id} (hx : v.has x = true) {L : List Id} (hL : L.Nodup)
    (hm : ∀ p, p ∈ L ↔ p ∈ v.pars x) :
    Base E rank (v.upd x fun n => { n with parents := L }) ∧ PSame v (v.upd x fun n => { n with parents := L }) := by
  obtain ⟨n, hn⟩ := View.get_of_has hx
  set v' := v.upd x fun n => { n with parents := L } with hv'
  have hp : ∀ y, v'.pars y = if y = x then L else v.pars y := by
    intro y
    have := View.pars_updPars v x (fun _ => L) hx y
    rw [hn] at this
    exact this
  have hps : ∀ y p, p ∈ v'.pars y ↔ p ∈ v.pars y := by
    intro y p
    rw [hp]
    by_cases hy : y = x
    · rw [if_pos hy, hy]; exact hm p
    · rw [if_neg hy]
  have hk : v'.kids = v.kids := funext (View.kids_updPars v x (fun _ => L))
  have hh : v'.has = v.has := funext fun y => View.has_upd _ _ _ _
  refine ⟨⟨by rw [hv', View.keys_upd]; exact h.keys, by rw [hh]; exact h.rootIn, ?_, ?_, by rw [hk]; exact h.kid, ?_,
    by rw [hk]; exact h.ndK, ?_, ?_⟩, hh, hk, hps⟩
  · rw [List.eq_nil_iff_forall_not_mem]
    intro p hp'
    rw [hps, h.rootPars] at hp'; cases hp'
  · intro y p hp'
    rw [hh]; exact h.par y p ((hps y p).1 hp')
  · intro y
    rw [hp]
    split
    · exact hL
    · exact h.ndP y
  · intro y p hp'
    rw [hk]; exact h.up y p ((hps y p).1 hp')
  · refine (RowsSet.sameKids (v' := v') (h.rows : RowsSet v'.out _ _) fun y => congrFun hk y).congr fun l => ?_
    unfold View.pedge
    rw [show (fun p c => p ∈ v'.pars c) = (fun p c => p ∈ v.pars c) from by
      funext p c; exact propext (hps c p)]

theorem diff_nil (hE : EOK E rank M) {a b : List Id} (h : ∀ p ∈ a, p ∈ b) : E.diff a b = [] := by
  rw [List.eq_nil_iff_forall_not_mem]
  intro p hp
  obtain ⟨h1, h2⟩ := ((hE.diff a b).2 p).1 hp
  exact h2 (h p h1)

/-- A node that is where it belongs stays there. -/
theorem settle_quiet (hE : EOK E rank M) {up : Id → View → Res View} {x : Id} {dir : Dir} {v : View} (h : Base E rank v)
    (hx : v.has x = true) (hr : x ≠ E.root) (hm : ∀ p, p ∈ v.pars x ↔ p ∈ npOf E v.has x)
    (hup : dir.goesUp = true → ∀ p ∈ npOf E v.has x, ∀ w, Base E rank w → PSame v w →
      ∃ w', up p w = .ok w' ∧ Base E rank w' ∧ PSame v w') :
    ∃ v', E.settle up x dir v = .ok v' ∧ Base E rank v' ∧ PSame v v' := by
  obtain ⟨n, hn⟩ := View.get_of_has hx
  have hcur : n.parents = v.pars x := (View.pars_of_get hn).symm
  have hfil : (E.newPars v x).filter v.has = npOf E v.has x := by
    rw [newPars_eq, List.filter_eq_self]
    exact fun p hp => (h.par x p ((hm p).2 hp)).1
  obtain ⟨hb3, hs3⟩ := h.setPars hx (hE.npOf_nodup v.has x) (fun p => (hm p).symm)
  have hL : E.diff n.parents (E.newPars v x) = [] := diff_nil hE (fun p hp => by rw [newPars_eq, ← hm, ← hcur]; exact hp)
  have hA : E.diff (E.newPars v x) n.parents = [] := diff_nil hE (fun p hp => by rw [newPars_eq, ← hm, ← hcur] at hp; exact hp)
  have hS := hE.diff (E.newPars v x) []
  obtain ⟨v6, h6, hb6, hs6⟩ : ∃ v6, (if dir.goesUp = true then Res.forEach up (E.diff (E.newPars v x) [])
        (v.upd x fun n => { n with parents := npOf E v.has x }) else
        .ok (v.upd x fun n => { n with parents := npOf E v.has x })) = .ok v6 ∧ Base E rank v6 ∧ PSame v v6 := by
    cases hd : dir.goesUp with
    | false => exact ⟨_, by rw [if_neg (by simp)], hb3, hs3⟩
    | true =>
      rw [if_pos rfl]
      obtain ⟨w, a1, -, a2, a3⟩ := forEach_ok (body := up)
        (fun l w => (∀ p ∈ l, p ∈ npOf E v.has x) ∧ Base E rank w ∧ PSame v w)
        (by
          rintro p l w ⟨i1, i2, i3⟩
          obtain ⟨w', j1, j2, j3⟩ := hup hd p (i1 p (by simp)) w i2 i3
          exact ⟨w', j1, fun q hq => i1 q (by simp [hq]), j2, j3⟩)
        (E.diff (E.newPars v x) []) _ ⟨fun p hp => ((hS.2 p).1 hp).1, hb3, hs3⟩
      exact ⟨w, a1, a2, a3⟩
  obtain ⟨ps, q1, q2, q3⟩ := hb6.emit (x := x) (by rw [hs6.has]; exact hx) hr
  refine ⟨v6.send .modified x ps, ?_, q2, hs6.trans q3⟩
  unfold VEnv.settle
  dsimp only
  simp only [hx, Bool.not_true, Bool.false_eq_true, if_false, Res.andThen_ok, hn, hL, hA, List.not_mem_nil, and_false,
    Res.forEach, hfil]
  rw [h6, Res.andThen_ok, q1]

/-- Everything of rank up to `k` is shown where it belongs. -/
structure CalmTo (E : VEnv) (rank : Id → Nat) (k : Nat) (v : View) : Prop where
  all : ∀ y, rank y ≤ k → E.disp y = true → v.has y = true ∧ SettledAt E v y
  sub : ∀ y, rank y ≤ k → v.has y = true → y ≠ E.root → E.disp y = true

theorem CalmTo.mono {k k' : Nat} {v : View} (h : CalmTo E rank k v) (hk : k' ≤ k) : CalmTo E rank k' v :=
  ⟨fun y hy => h.all y (by omega), fun y hy => h.sub y (by omega)⟩

theorem CalmTo.same {k : Nat} {v w : View} (h : CalmTo E rank k v) (hs : PSame v w) : CalmTo E rank k w :=
  ⟨fun y hy hd => ⟨by rw [hs.has]; exact (h.all y hy hd).1, fun p => (hs.pars y p).trans ((h.all y hy hd).2 p)⟩,
    fun y hy hh => h.sub y hy (by rw [← hs.has]; exact hh)⟩

theorem CalmTo.np (hE : EOK E rank M) {k : Nat} {v : View} (h : CalmTo E rank k v) {x : Id} (hx : rank x ≤ k + 1) :
    npOf E v.has x = npAll E x :=
  npOf_all x fun p hp hd => (h.all p (by have := hE.parRank x p hp; omega) hd).1

/-- Updating upwards where everything is in order shows the same. -/
theorem quiet_up (hE : EOK E rank M) : ∀ (f : Nat) (p : Id) (v : View), rank p < f → Base E rank v → CalmTo E rank (rank p) v →
    ∃ v', E.update f p .up v = .ok v' ∧ Base E rank v' ∧ PSame v v' := by
  intro f
  induction f with
  | zero => intro p v hf; omega
  | succ f ih =>
    intro x v hf hv hc
    unfold VEnv.update
    by_cases hr : x = E.root
    · rw [if_pos hr]; exact ⟨v, rfl, hv, PSame.refl v⟩
    rw [if_neg hr]
    have hups : ∀ p, rank p < rank x → ∀ w, Base E rank w → PSame v w →
        ∃ w', E.update f p .up w = .ok w' ∧ Base E rank w' ∧ PSame v w' := by
      intro p hp w hw hs
      obtain ⟨w', a1, a2, a3⟩ := ih p w (by omega) hw ((hc.same hs).mono (by omega))
      exact ⟨w', a1, a2, hs.trans a3⟩
    cases hd : E.disp x with
    | true =>
      rw [if_neg (by simp), if_pos rfl]
      obtain ⟨hx, hset⟩ := hc.all x (le_refl _) hd
      obtain ⟨v', a1, a2, a3⟩ := settle_quiet hE (up := fun p v => E.update f p .up v) (dir := .up) hv hx hr
        (fun p => by rw [hc.np hE (by omega)]; exact hset p)
        (fun _ p hp w hw hs => hups p (hE.npOf_rank hr hp) w hw hs)
      rw [a1, Res.andThen_ok, if_neg (by rw [a3.has]; simp [hx]), if_neg (by simp [Dir.goesDown])]
      exact ⟨v', rfl, a2, a3⟩
    | false =>
      have hx : v.has x = false := by
        by_contra h
        have := hc.sub x (le_refl _) (by simpa using h) hr
        rw [hd] at this; cases this
      rw [if_pos ⟨hx, rfl⟩]
      cases hh : E.has x with
      | false => exact ⟨v, by simp, hv, PSame.refl v⟩
      | true =>
        rw [if_pos rfl]
        obtain ⟨w, a1, -, a2, a3⟩ := forEach_ok (body := fun p v => E.update f p .up v)
          (fun l w => (∀ p ∈ l, p ∈ E.par x) ∧ Base E rank w ∧ PSame v w)
          (by
            rintro p l w ⟨i1, i2, i3⟩
            obtain ⟨w', j1, j2, j3⟩ := hups p (hE.parRank x p (i1 p (by simp))) w i2 i3
            exact ⟨w', j1, fun q hq => i1 q (by simp [hq]), j2, j3⟩)
          (E.par x) v ⟨fun _ h => h, hv, PSame.refl v⟩
        exact ⟨w, a1, a2, a3⟩

/-! ### A node without parents goes to the virtual root -/

theorem settle_root (hE : EOK E rank M) {up : Id → View → Res View} {c : Id} {v : View} (h : Base E rank v)
    (hkh : ∀ p c, c ∈ v.kids p → v.has c = true)
    (hc : v.has c = true) (hr : c ≠ E.root) (hcur : v.pars c = []) (hnew : npOf E v.has c = [E.root])
    (hnk : c ∉ v.kids E.root) (hup : ∀ w, up E.root w = .ok w)
    (hmir : ∀ a b, rank c ≤ rank a → (b ∈ v.kids a ↔ a ∈ v.pars b)) :
    ∃ v', E.settle up c .down v = .ok v' ∧ Base E rank v' ∧ v'.has = v.has ∧
      (∀ y, v'.kids y = if y = E.root then v.kids E.root ++ [c] else v.kids y) ∧
      ∀ y, v'.pars y = if y = c then [E.root] else v.pars y := by
  obtain ⟨n, hn⟩ := View.get_of_has hc
  have hcur' : n.parents = [] := (View.pars_of_get hn).symm.trans hcur
  have hrk : rank E.root < rank c := by rw [hE.rootRank]; exact hE.posRank c hr
  have hfil : (E.newPars v c).filter v.has = [E.root] := by
    rw [newPars_eq, hnew]; simp [h.rootIn]
  set v3 := v.upd c fun n => { n with parents := [E.root] } with hv3
  have p3 : ∀ y, v3.pars y = if y = c then [E.root] else v.pars y := by
    intro y
    have := View.pars_updPars v c (fun _ => [E.root]) hc y
    rw [hn] at this
    exact this
  have k3 : ∀ y, v3.kids y = v.kids y := View.kids_updPars v c (fun _ => [E.root])
  have c3 : ∀ y, v3.has y = v.has y := fun y => View.has_upd _ _ _ _
  have hroot3 : v3.has E.root = true := by rw [c3]; exact h.rootIn
  set v4 := v3.upd E.root fun n => { n with children := n.children ++ [c] } with hv4
  have k4 : ∀ y, v4.kids y = if y = E.root then v.kids E.root ++ [c] else v.kids y := by
    intro y
    have := View.kids_updKids v3 E.root (fun l => l ++ [c]) hroot3 y
    rw [k3, k3] at this
    exact this
  have p4 : ∀ y, v4.pars y = if y = c then [E.root] else v.pars y := by
    intro y; rw [← p3]; exact View.pars_updKids v3 E.root (fun l => l ++ [c]) y
  have c4 : ∀ y, v4.has y = v.has y := fun y => (View.has_upd _ _ _ _).trans (c3 y)
  have hkid4 : ∀ q b, b ∈ v4.kids q → v.has b = true ∧ rank q < rank b := by
    intro q b hb
    rw [k4] at hb
    by_cases hq : q = E.root
    · rw [if_pos hq] at hb
      rcases List.mem_append.1 hb with hb | hb
      · subst hq; exact ⟨hkh _ _ hb, h.kid _ _ hb⟩
      · simp at hb; subst hb; subst hq; exact ⟨hc, hrk⟩
    · rw [if_neg hq] at hb; exact ⟨hkh _ _ hb, h.kid _ _ hb⟩
  have hnd4 : ∀ y, (v4.kids y).Nodup := by
    intro y
    rw [k4]
    split
    · rw [List.nodup_append]
      refine ⟨h.ndK _, by simp, ?_⟩
      intro a ha b hb hab
      simp at hb; subst hb; subst hab; exact hnk ha
    · exact h.ndK y
  have hpar4 : ∀ y p, p ∈ v4.pars y → v.has p = true ∧ rank p < rank y := by
    intro y p hp
    rw [p4] at hp
    by_cases hy : y = c
    · rw [if_pos hy] at hp
      simp at hp; subst hp; subst hy; exact ⟨h.rootIn, hrk⟩
    · rw [if_neg hy] at hp; exact h.par y p hp
  have hndp4 : ∀ y, (v4.pars y).Nodup := by
    intro y; rw [p4]; split
    · simp
    · exact h.ndP y
  have hee : ∀ a b, v4.pedge a b ↔ v.pedge a b ∨ (a = E.root ∧ b = c) := by
    intro a b
    show a ∈ v4.pars b ↔ a ∈ v.pars b ∨ _
    rw [p4]
    by_cases hb : b = c
    · rw [if_pos hb, hb, hcur]; simp
    · rw [if_neg hb]; simp [hb]
  obtain ⟨v5, a1, a2, a3⟩ := sendAdd_spec (root := E.root) (rank := rank) (v := v4)
    ⟨⟨M, hE.bound⟩, fun q b hb => (hkid4 q b hb).2, hnd4⟩ (e := v.pedge) (e' := v4.pedge) (p := E.root) (x := c)
    (fun q b hb => by rw [c4]; exact (hkid4 q b hb).1) (by rw [c4]; exact h.rootIn) (by rw [c4]; exact hc) hrk
    ⟨fun y p hp => by rw [c4]; exact hpar4 y p hp, hndp4,
      fun y hy p => by
        rw [p4, if_neg (by rintro rfl; omega)],
      fun y hy p hp => by
        rw [p4, if_neg (by rintro rfl; omega)] at hp
        have := h.up y p hp
        rw [k4]
        split
        · rename_i hq; subst hq; simp [this]
        · exact this,
      fun p y hp => (h.par y p hp).2⟩
    hee (by show E.root ∉ v.pars c; rw [hcur]; simp)
    (by
      intro ext
      have key : ∀ (l : List Id) (z : Id), rank c ≤ rank z →
          (List.IsChain (fun p c => c ∈ v4.kids p) (z :: l) ↔ List.IsChain v4.pedge (z :: l)) := by
        intro l
        induction l with
        | nil => intro z _; simp
        | cons b l ih =>
          intro z hz
          have hzr : z ≠ E.root := by rintro rfl; omega
          rw [List.isChain_cons_cons, List.isChain_cons_cons, k4, if_neg hzr]
          have hzb : b ∈ v.kids z ↔ v4.pedge z b := by
            show _ ↔ z ∈ v4.pars b
            rw [p4, hmir z b hz]
            by_cases hbc : b = c
            · subst hbc
              rw [if_pos rfl, hcur]
              simp [hzr]
            · rw [if_neg hbc]
          constructor
          · rintro ⟨m1, m2⟩
            exact ⟨hzb.1 m1, (ih b (by have := h.kid z b m1; omega)).1 m2⟩
          · rintro ⟨m1, m2⟩
            have := hzb.2 m1
            exact ⟨this, (ih b (by have := h.kid z b this; omega)).2 m2⟩
      exact key ext c (le_refl _))
    (fun a _ => by
      have := hnd4 E.root
      rw [k4, if_pos rfl] at this ⊢
      exact last_before_none this)
    (RowsSet.moreKids (v := v) h.rows (fun hp => hnk (h.up c E.root hp)) k4)
  have c5 : v5.has = v.has := (View.has_congr a2).trans (funext c4)
  have p5 : ∀ y, v5.pars y = if y = c then [E.root] else v.pars y := by
    intro y; rw [View.pars_congr a2]; exact p4 y
  have k5 : ∀ y, v5.kids y = if y = E.root then v.kids E.root ++ [c] else v.kids y := by
    intro y; rw [View.kids_congr a2]; exact k4 y
  have hb4 : Base E rank { v4 with out := v5.out } := by
    refine ⟨?_, ?_, ?_, ?_, fun q b hb => (hkid4 q b hb).2, hndp4, hnd4, ?_, View.under_congr (w := ({ v4 with out := v5.out } : View)) a2 E.root ▸ a3⟩
    · show v4.nodes.keys.Nodup
      rw [hv4, View.keys_upd, hv3, View.keys_upd]; exact h.keys
    · exact (c4 _).trans h.rootIn
    · show v4.pars E.root = []
      rw [p4, if_neg hr.symm]; exact h.rootPars
    · intro y p hp
      exact ⟨(c4 p).trans (hpar4 y p hp).1, (hpar4 y p hp).2⟩
    · intro y p hp
      show y ∈ v4.kids p
      rw [k4]
      change p ∈ v4.pars y at hp
      rw [p4] at hp
      by_cases hy : y = c
      · rw [if_pos hy] at hp
        simp at hp; subst hp; subst hy; simp
      · rw [if_neg hy] at hp
        have := h.up y p hp
        split
        · rename_i hq; subst hq; simp [this]
        · exact this
  have hb5 : Base E rank v5 := hb4.of_out a2 (by
    show RowsSet v5.out (RowE (fun p c => p ∈ v5.pars c) E.root) _
    rw [View.pars_congr a2]; exact a3)
  obtain ⟨ps, q1, q2, q3⟩ := hb5.emit (x := c) (by rw [c5]; exact hc) hr
  refine ⟨v5.send .modified c ps, ?_, q2, c5, k5, p5⟩
  have hA : ∀ p, p ∈ E.diff [E.root] [] ↔ p = E.root := by
    intro p; rw [(hE.diff _ _).2]; simp
  have hA' : E.diff [E.root] [] = [E.root] := by
    have hnd := (hE.diff [E.root] []).1
    rcases hl : E.diff [E.root] [] with _ | ⟨a, l⟩
    · have := (hA E.root).2 rfl
      rw [hl] at this; cases this
    · rw [hl] at hA hnd
      have ha := (hA a).1 (by simp)
      rw [List.nodup_cons] at hnd
      have hl0 : l = [] := by
        rw [List.eq_nil_iff_forall_not_mem]
        intro q hq
        have := (hA q).1 (by simp [hq])
        rw [this, ← ha] at hq; exact hnd.1 hq
      rw [ha, hl0]
  have hL : E.diff [] [E.root] = [] := diff_nil hE (by simp)
  have hS : E.diff [E.root] [E.root] = [] := diff_nil hE (by simp)
  unfold VEnv.settle
  dsimp only
  have hnew' : E.newPars v c = [E.root] := hnew
  simp only [hc, Bool.not_true, Bool.false_eq_true, if_false, Res.andThen_ok, hn]
  rw [hfil, hcur', hnew', hL, hA', Res.forEach, Res.andThen_ok]
  simp only [List.mem_singleton, and_self, if_true, Dir.goesUp, hS, Res.forEach]
  have hj : E.join up true c E.root v3 = .ok v5 := by
    unfold VEnv.join
    rw [if_neg (by simp [hroot3]), a1, Res.andThen_ok, if_pos rfl, hup]
  rw [hj]
  simp only [Res.forEach, Res.andThen_ok, if_true]
  rw [q1]

/-! ### The children of the vanishing node -/

/-- The displayed tree parents. -/
abbrev candAll (E : VEnv) (y : Id) : List Id := npCand E (fun _ => true) y

theorem mem_npAll {y p : Id} : p ∈ npAll E y ↔ p ∈ candAll E y ∨ (p = E.root ∧ candAll E y = []) := by
  unfold npAll npOf
  by_cases h : npCand E (fun _ => true) y = []
  · rw [if_pos h]; simp [candAll, h]
  · rw [if_neg h]; simp [candAll, h]

/-- The node `x` is to disappear from a view that is in order otherwise, except that the nodes in `N`, all of them deeper than
`x` and below no other node of the tree, have no place yet. -/
structure Hiding (E : VEnv) (rank : Id → Nat) (N : Id → Prop) (x : Id) (v : View) : Prop where
  base : Base E rank v
  kidHas : ∀ p c, c ∈ v.kids p → v.has c = true
  mirror : ∀ y p, p ∈ v.pars y ↔ y ∈ v.kids p
  hx : v.has x = true
  ne : x ≠ E.root
  hd : E.disp x = false
  sub : ∀ y, v.has y = true → y ≠ E.root → y ≠ x → E.disp y = true
  all : ∀ y, E.disp y = true → v.has y = true
  settled : ∀ y, E.disp y = true → ¬ N y → x ∉ v.pars y → SettledAt E v y
  almost : ∀ y, x ∈ v.pars y → ∀ p, p ∈ v.pars y ↔ p = x ∨ p ∈ candAll E y
  below : ∀ y, N y → rank x < rank y ∧ ∀ p ∈ E.par y, p = x

/-- The same, but there may be other nodes that are to disappear, as long as they are not below `x` in the view. -/
structure Going (E : VEnv) (rank : Id → Nat) (N : Id → Prop) (x : Id) (v : View) : Prop where
  base : Base E rank v
  kidHas : ∀ p c, c ∈ v.kids p → v.has c = true
  mirror : ∀ y p, p ∈ v.pars y ↔ y ∈ v.kids p
  hx : v.has x = true
  ne : x ≠ E.root
  hd : E.disp x = false
  sub : ∀ y ∈ v.kids x, E.disp y = true
  all : ∀ y, E.disp y = true → v.has y = true
  settled : ∀ y, E.disp y = true → ¬ N y → x ∉ v.pars y → SettledAt E v y
  almost : ∀ y, x ∈ v.pars y → ∀ p, p ∈ v.pars y ↔ p = x ∨ p ∈ candAll E y
  below : ∀ y, N y → rank x < rank y ∧ ∀ p ∈ E.par y, p = x

theorem Hiding.going {N : Id → Prop} {x : Id} {v : View} (H : Hiding E rank N x v) : Going E rank N x v :=
  ⟨H.base, H.kidHas, H.mirror, H.hx, H.ne, H.hd, fun y hy => H.sub y (H.kidHas x y hy) (by
      rintro rfl
      have := (H.mirror _ x).2 hy
      rw [H.base.rootPars] at this; cases this)
    (by rintro rfl; exact absurd (H.base.kid y y hy) (lt_irrefl _)), H.all, H.settled, H.almost, H.below⟩

/-- The children `l` of `x` are still to be taken away from it. -/
structure Leaving (E : VEnv) (rank : Id → Nat) (N : Id → Prop) (x : Id) (v0 : View) (l : List Id) (w : View) : Prop where
  base : Base E rank w
  has : w.has = v0.has
  kidHas : ∀ p c, c ∈ w.kids p → w.has c = true
  mirror : ∀ y p, p ∈ w.pars y ↔ y ∈ w.kids p ∧ ¬ (p = x ∧ y ∉ l)
  kidsX : ∀ y, y ∈ w.kids x ↔ y ∈ v0.kids x
  low : ∀ y, rank y ≤ rank x → ∀ p, p ∈ w.pars y ↔ p ∈ v0.pars y
  done : ∀ y, E.disp y = true → ¬ N y → y ∉ l → SettledAt E w y
  todo : ∀ y ∈ l, ∀ p, p ∈ w.pars y ↔ p = x ∨ p ∈ candAll E y
  nd : l.Nodup
  sub : ∀ y ∈ l, y ∈ v0.kids x

theorem forEach_skip {α σ : Type} {body : α → σ → Res σ} {l : List α} {s : σ} (h : ∀ a ∈ l, body a s = .ok s) :
    Res.forEach body l s = .ok s := by
  induction l with
  | nil => rfl
  | cons a l ih => rw [Res.forEach, h a (by simp)]; exact ih (fun b hb => h b (by simp [hb]))

theorem not_mem_candAll_hidden {x y : Id} (hd : E.disp x = false) : x ∉ candAll E y := by
  intro h
  have := (mem_npCand.1 h).2.2.2
  rw [hd] at this; cases this

theorem abandon_ok (hE : EOK E rank M) {N : Id → Prop} {v0 : View} {x : Id} (H : Going E rank N x v0) {f : Nat} (hf : 0 < f) {c : Id} {l : List Id}
    {w : View} (h : Leaving E rank N x v0 (c :: l) w) :
    ∃ w', E.abandon (fun c v => E.update (f + 1) c .down v) x c w = .ok w' ∧ Leaving E rank N x v0 l w' := by
  have hnd := h.nd
  rw [List.nodup_cons] at hnd
  have hck : c ∈ w.kids x := (h.kidsX c).2 (h.sub c (by simp))
  have hcin := h.kidHas x c hck
  have hrk := h.base.kid x c hck
  have hxc : x ∈ w.pars c := (h.todo c (by simp) x).2 (Or.inl rfl)
  have hcr : c ≠ E.root := by rintro rfl; rw [h.base.rootPars] at hxc; cases hxc
  have hcx : c ≠ x := by rintro rfl; omega
  have hcd : E.disp c = true := H.sub c (h.sub c (by simp))
  have hxin : w.has x = true := by rw [h.has]; exact H.hx
  -- the rows of `c` below `x` are removed
  obtain ⟨w1, a1, a2, a3⟩ := sendRemove_spec (root := E.root) (rank := rank) (v := w)
    ⟨⟨M, hE.bound⟩, h.base.kid, h.base.ndK⟩ (e := fun a b => w.pedge a b ∧ ¬ (a = x ∧ b = c)) (e' := w.pedge)
    h.kidHas hxin hcin hrk (h.base.pathsOK _)
    (by
      intro a b
      by_cases hab : a = x ∧ b = c
      · obtain ⟨rfl, rfl⟩ := hab; simp [hxc]
      · simp [hab])
    (by simp)
    (by
      intro ext
      have key : ∀ (l' : List Id) (z : Id), rank x < rank z →
          (List.IsChain (fun p c => c ∈ w.kids p) (z :: l') ↔ List.IsChain w.pedge (z :: l')) := by
        intro l'
        induction l' with
        | nil => intro z _; simp
        | cons b l' ih =>
          intro z hz
          have hzx : z ≠ x := by rintro rfl; omega
          rw [List.isChain_cons_cons, List.isChain_cons_cons]
          have hzb : b ∈ w.kids z ↔ w.pedge z b := by
            show _ ↔ z ∈ w.pars b
            rw [h.mirror b z]; simp [hzx]
          constructor
          · rintro ⟨m1, m2⟩
            exact ⟨hzb.1 m1, (ih b (by have := h.base.kid z b m1; omega)).1 m2⟩
          · rintro ⟨m1, m2⟩
            have := hzb.2 m1
            exact ⟨this, (ih b (by have := h.base.kid z b this; omega)).2 m2⟩
      exact key ext c hrk)
    h.base.rows
  have e1 : w1.has = w.has := View.has_congr a2
  have e2 : w1.pars = w.pars := View.pars_congr a2
  have e3 : w1.kids = w.kids := View.kids_congr a2
  have hcin1 : w1.has c = true := by rw [e1]; exact hcin
  obtain ⟨n, hn⟩ := View.get_of_has hcin1
  have hnp : n.parents = w.pars c := by rw [← e2]; exact (View.pars_of_get hn).symm
  -- `x` is dropped from the parents of `c`
  set w2 := w1.upd c fun n => { n with parents := n.parents.erase x } with hw2
  have hdrop : w1.dropPar c x = .ok w2 := by
    unfold View.dropPar
    rw [hn]
    dsimp only
    rw [if_pos (by rw [hnp]; exact hxc)]
  have p2 : ∀ y, w2.pars y = if y = c then (w.pars c).erase x else w.pars y := by
    intro y
    have := View.pars_updPars w1 c (fun n => n.parents.erase x) hcin1 y
    rw [hn, e2] at this
    rw [← hnp]
    exact this
  have k2 : ∀ y, w2.kids y = w.kids y := fun y => (View.kids_updPars w1 c (fun n => n.parents.erase x) y).trans (by rw [e3])
  have c2 : w2.has = w.has := by funext y; rw [hw2, View.has_upd, e1]
  have hm2 : ∀ y p, p ∈ w2.pars y ↔ p ∈ w.pars y ∧ ¬ (p = x ∧ y = c) := by
    intro y p
    rw [p2]
    by_cases hy : y = c
    · subst hy
      rw [if_pos rfl, (h.base.ndP y).mem_erase_iff]; tauto
    · rw [if_neg hy]; simp [hy]
  have hb2 : Base E rank w2 := by
    refine ⟨?_, ?_, ?_, ?_, ?_, ?_, ?_, ?_, ?_⟩
    · rw [hw2, View.keys_upd, a2]; exact h.base.keys
    · rw [c2]; exact h.base.rootIn
    · rw [p2, if_neg hcr.symm]; exact h.base.rootPars
    · intro y p hp
      rw [c2]; exact h.base.par y p ((hm2 y p).1 hp).1
    · intro p b hb; rw [k2] at hb; exact h.base.kid p b hb
    · intro y; rw [p2]; split
      · exact (h.base.ndP c).erase x
      · exact h.base.ndP y
    · intro y; rw [k2]; exact h.base.ndK y
    · intro y p hp; rw [k2]; exact h.base.up y p ((hm2 y p).1 hp).1
    · refine (RowsSet.sameKids (v' := w2) (a3 : RowsSet w2.out _ _) k2).congr fun l => ?_
      unfold View.pedge
      rw [show (fun p c => p ∈ w2.pars c) = (fun a b => a ∈ w.pars b ∧ ¬(a = x ∧ b = c)) from by
        funext a b; exact propext (hm2 b a)]
  have hc2 : ∀ p, p ∈ w2.pars c ↔ p ∈ candAll E c := by
    intro p
    rw [hm2, h.todo c (by simp)]
    constructor
    · rintro ⟨m1 | m1, m2⟩
      · exact absurd ⟨m1, rfl⟩ m2
      · exact m1
    · intro m
      refine ⟨Or.inr m, ?_⟩
      rintro ⟨rfl, -⟩
      exact not_mem_candAll_hidden H.hd m
  have hnp2 : npOf E w2.has c = npAll E c :=
    npOf_all c fun p _ hd => by rw [c2, h.has]; exact H.all p hd
  have hcin2 : w2.has c = true := by rw [c2]; exact hcin
  -- `c` settles
  obtain ⟨w3, s1, s2, s3, s4, s5⟩ : ∃ w3, E.settle (fun p v => E.update f p .up v) c .down w2 = .ok w3 ∧ Base E rank w3 ∧
      w3.has = w2.has ∧ (∀ y p, y ∈ w3.kids p ↔ y ∈ w2.kids p ∨ (p = E.root ∧ y = c ∧ candAll E c = [])) ∧
      (∀ y p, p ∈ w3.pars y ↔ p ∈ w2.pars y ∨ (p = E.root ∧ y = c ∧ candAll E c = [])) := by
    by_cases hcand : candAll E c = []
    · have hcur : w2.pars c = [] := by
        rw [List.eq_nil_iff_forall_not_mem]
        intro p hp
        rw [hc2, hcand] at hp; cases hp
      obtain ⟨w3, b1, b2, b3, b4, b5⟩ := settle_root hE (up := fun p v => E.update f p .up v) hb2
        (fun p b hb => by rw [k2] at hb; rw [c2]; exact h.kidHas p b hb) hcin2 hcr hcur
        (by
          rw [hnp2]; unfold npAll npOf
          rw [if_pos hcand])
        (by
          rw [k2]
          intro hk
          have := (h.mirror c E.root).2 ⟨hk, fun ⟨e, _⟩ => H.ne e.symm⟩
          have h' := (hm2 c E.root).2 ⟨this, fun ⟨e, _⟩ => H.ne e.symm⟩
          rw [hcur] at h'; cases h')
        (by
          intro w
          obtain ⟨f', rfl⟩ : ∃ f', f = f' + 1 := ⟨f - 1, by omega⟩
          rw [VEnv.update, if_pos rfl])
        (by
          intro a b hab
          have hax : a ≠ x := by rintro rfl; omega
          rw [k2, hm2, h.mirror]
          simp [hax])
      refine ⟨w3, b1, b2, b3, ?_, ?_⟩
      · intro y p
        rw [b4]
        by_cases hp : p = E.root
        · subst hp; simp [hcand]
        · simp [hp]
      · intro y p
        rw [b5]
        by_cases hy : y = c
        · subst hy; simp [hcand, hcur]
        · simp [hy]
    · obtain ⟨w3, b1, b2, b3⟩ := settle_quiet hE (up := fun p v => E.update f p .up v) (dir := .down) hb2 hcin2 hcr
        (fun p => by rw [hnp2, mem_npAll, hc2]; simp [hcand])
        (fun hh => by cases hh)
      refine ⟨w3, b1, b2, b3.has, fun y p => ?_, fun y p => ?_⟩
      · rw [b3.kids]; simp [hcand]
      · rw [b3.pars]; simp [hcand]
  have hset : ∀ y, E.disp y = true → ¬ N y → y ∉ l → SettledAt E w3 y := by
    intro y hy hyN hyl p
    rw [s5]
    by_cases hyc : y = c
    · subst hyc
      rw [hc2, mem_npAll]; simp
    · have hwy := h.done y hy hyN (by simp [hyc, hyl]) p
      rw [hm2]; simp [hyc, hwy]
  have hroot0 : x ∉ w.pars E.root := by rw [h.base.rootPars]; simp
  refine ⟨w3, ?_, ⟨s2, by rw [s3, c2, h.has], ?_, ?_, ?_, ?_, hset, ?_, hnd.2, fun y hy => h.sub y (by simp [hy])⟩⟩
  · unfold VEnv.abandon
    rw [a1, Res.andThen_ok, hdrop, Res.andThen_ok]
    show E.update (f + 1) c .down w2 = _
    unfold VEnv.update
    rw [if_neg hcr, if_neg (by simp [hcd]), if_pos hcd, s1, Res.andThen_ok, if_neg (by rw [s3]; simp [hcin2]),
      if_pos (by rfl)]
    apply forEach_skip
    intro b hb
    obtain ⟨m1, m2, m3⟩ := (mem_newKids hE).1 hb
    rw [if_neg]
    push Not
    rw [s4, k2]
    refine Or.inl ?_
    have hbc : c ∈ candAll E b := mem_npCand.2 ⟨⟨m1, (hE.parHas b c m2).2⟩, m2, rfl, hcd⟩
    have : c ∈ w.pars b := by
      by_cases hbl : b ∈ c :: l
      · exact (h.todo b hbl c).2 (Or.inr hbc)
      · exact (h.done b m3 (fun hb => hcx ((H.below b hb).2 c m2)) hbl c).2 (mem_npAll.2 (Or.inl hbc))
    exact h.base.up b c this
  · intro p b hb
    rw [s3, c2]
    rcases (s4 b p).1 hb with hb | ⟨-, rfl, -⟩
    · rw [k2] at hb; exact h.kidHas p b hb
    · exact hcin
  · intro y p
    rw [s5, s4, hm2, k2, h.mirror]
    by_cases hpx : p = x
    · subst hpx
      simp only [H.ne, false_and, or_false, true_and, List.mem_cons, not_or]
      by_cases hyc : y = c
      · subst hyc; simp [hnd.1]
      · simp [hyc]
    · simp [hpx]
  · intro y; rw [s4, k2, ← h.kidsX]; simp [H.ne]
  · intro y hy p
    have hyc : y ≠ c := by rintro rfl; omega
    rw [s5, hm2]
    simp only [hyc, and_false, not_false_iff, and_true, false_and, or_false]
    exact h.low y hy p
  · intro y hy p
    have hyc : y ≠ c := by rintro rfl; exact hnd.1 hy
    rw [s5, hm2]
    simp only [hyc, and_false, not_false_iff, and_true, false_and, or_false]
    exact h.todo y (by simp [hy]) p

/-! ### The view afterwards -/

/-- A view that is in order, except for the places of the nodes in `N`. -/
structure Calm (E : VEnv) (rank : Id → Nat) (N : Id → Prop) (v : View) : Prop where
  base : Base E rank v
  kidHas : ∀ p c, c ∈ v.kids p → v.has c = true
  mirror : ∀ y p, p ∈ v.pars y ↔ y ∈ v.kids p
  sub : ∀ y, v.has y = true → y ≠ E.root → E.disp y = true
  all : ∀ y, E.disp y = true → v.has y = true
  settled : ∀ y, E.disp y = true → ¬ N y → SettledAt E v y

theorem Calm.same {N : Id → Prop} {v w : View} (h : Calm E rank N v) (hb : Base E rank w) (hs : PSame v w) : Calm E rank N w :=
  ⟨hb, fun p c hc => by rw [hs.kids] at hc; rw [hs.has]; exact h.kidHas p c hc,
    fun y p => by rw [hs.pars, hs.kids]; exact h.mirror y p, fun y hy => by rw [hs.has] at hy; exact h.sub y hy,
    fun y hy => by rw [hs.has]; exact h.all y hy, fun y hy hN p => (hs.pars y p).trans (h.settled y hy hN p)⟩

theorem Calm.vinv {N : Id → Prop} {v : View} (h : Calm E rank N v) : VInv E rank (fun _ => False) v :=
  ⟨h.base.keys, h.base.rootIn, h.base.rootPars, h.sub, h.base.par, fun p c hc => ⟨h.kidHas p c hc, h.base.kid p c hc⟩,
    h.base.ndP, h.base.ndK, fun y _ p => h.mirror y p, h.base.rows.congr fun l => by
      unfold View.pedge View.edge
      rw [show (fun p c => p ∈ v.pars c) = (fun p c => c ∈ v.kids p) from by funext p c; exact propext (h.mirror c p)]⟩

theorem VInv.base {v : View} (h : VInv E rank (fun _ => False) v) : Base E rank v :=
  ⟨h.keys, h.rootIn, h.rootPars, h.par, fun p c hc => (h.kid p c hc).2, h.ndP, h.ndK,
    fun y p hp => (h.mirror y (fun h => h) p).1 hp, h.rows.congr fun l => by
      unfold View.pedge View.edge
      rw [show (fun p c => p ∈ v.pars c) = (fun p c => c ∈ v.kids p) from by
        funext p c; exact propext (h.mirror c (fun h => h) p)]⟩

theorem chain_low {e e' : Id → Id → Prop} (hr' : ∀ p y, e p y → rank p < rank y) {x root : Id}
    (h : ∀ y, rank y ≤ rank x → ∀ p, e p y → e' p y) {l : List Id} (hl : PathTo e root l x) : PathTo e' root l x := by
  refine ⟨?_, hl.2⟩
  have hlow := chain_rank_last hr' hl.1 hl.2
  have key : ∀ (l : List Id) (a : Id), (∀ b ∈ l, rank b ≤ rank x) → List.IsChain e (a :: l) → List.IsChain e' (a :: l) := by
    intro l
    induction l with
    | nil => intro a _ _; simp
    | cons b l ih =>
      intro a hb hc
      rw [List.isChain_cons_cons] at hc ⊢
      exact ⟨h b (hb b (by simp)) a hc.1, ih b (fun c hc' => hb c (by simp [hc'])) hc.2⟩
  exact key l root (fun b hb => hlow b (by simp [hb])) hl.1

theorem chain_avoid {e : Id → Id → Prop} {x : Id} (l : List Id) (a : Id) (hx : x ∉ l) :
    List.IsChain e (a :: l) → List.IsChain (fun p y => e p y ∧ y ≠ x) (a :: l) := by
  induction l generalizing a with
  | nil => intro _; simp
  | cons b l ih =>
    intro hc
    rw [List.isChain_cons_cons] at hc ⊢
    exact ⟨⟨hc.1, fun e => hx (by simp [e])⟩, ih b (fun h => hx (by simp [h])) hc.2⟩

/-- In a chain nothing follows an element without children. -/
theorem chain_leaf {e : Id → Id → Prop} {x : Id} (hx : ∀ y, ¬ e x y) {a : Id} {s t : List Id}
    (h : List.IsChain e (a :: (s ++ t))) (hl : (a :: s).getLast? = some x) : t = [] := by
  cases t with
  | nil => rfl
  | cons b t =>
    rw [← List.cons_append, List.isChain_append] at h
    exact absurd (h.2.2 x hl b (by simp)) (hx b)

/-- The first half of the disappearance: the children are sent away, the node is deleted. -/
theorem vanish_head (hE : EOK E rank M) {N : Id → Prop} {v0 : View} {x : Id} (H : Going E rank N x v0) {g : Nat} (hg : 0 < g) :
    ∃ ps w n w2, v0.paths E.root x = .ok ps ∧
      Res.forEach (E.abandon (fun c v => E.update (g + 1) c .down v) x) (v0.kids x).reverse v0 = .ok w ∧
      w.nodes.get? x = some n ∧ w2 = ({ w with nodes := w.nodes.del x } : View).send .deleted x ps ∧
      Leaving E rank N x v0 [] w ∧ n.parents = w.pars x ∧ Base E rank w2 ∧ (∀ y, w2.has y = true ↔ w.has y = true ∧ y ≠ x) ∧
      (∀ y, w2.pars y = if y = x then [] else w.pars y) ∧ (∀ y, w2.kids y = if y = x then [] else w.kids y) ∧
      ∀ p, x ∈ w2.kids p ↔ p ∈ n.parents := by
  obtain ⟨ps, q1, q2, q3⟩ := paths_spec (H.base.pathsOK (rank x)) (le_refl _) H.hx
  -- the children
  obtain ⟨w, b1, b2⟩ := forEach_ok (body := E.abandon (fun c v => E.update (g + 1) c .down v) x)
    (fun l w => Leaving E rank N x v0 l w)
    (fun c l w h => abandon_ok hE H hg h) (v0.kids x).reverse v0
    ⟨H.base, rfl, H.kidHas, fun y p => by
        rw [H.mirror]
        constructor
        · intro hy
          refine ⟨hy, ?_⟩
          rintro ⟨rfl, hn⟩
          exact hn (by simpa using hy)
        · exact fun hy => hy.1,
      fun _ => Iff.rfl, fun _ _ _ => Iff.rfl,
      fun y hy hyN hyl => H.settled y hy hyN (fun hp => hyl (by simpa using (H.mirror y x).1 hp)),
      fun y hy p => H.almost y ((H.mirror y x).2 (by simpa using hy)) p, List.nodup_reverse.2 (H.base.ndK x), by simp⟩
  have hxin : w.has x = true := by rw [b2.has]; exact H.hx
  obtain ⟨n, hn⟩ := View.get_of_has hxin
  have hnp : n.parents = w.pars x := (View.pars_of_get hn).symm
  have hleaf : ∀ y, x ∉ w.pars y := by
    intro y hy
    exact ((b2.mirror y x).1 hy).2 ⟨rfl, by simp⟩
  have hps : ∀ l, l ∈ ps ↔ PathTo w.pedge E.root l x := by
    intro l
    rw [q3]
    exact ⟨chain_low (fun p y hp => (H.base.par y p hp).2) (fun y hy p hp => (b2.low y hy p).2 hp),
      chain_low (fun p y hp => (b2.base.par y p hp).2) (fun y hy p hp => (b2.low y hy p).1 hp)⟩
  -- the node goes
  set w2 := ({ w with nodes := w.nodes.del x } : View).send .deleted x ps with hw2
  have g2 : ∀ y, w2.nodes.get? y = if y = x then none else w.nodes.get? y := fun y => Dict.get?_del _ _ _
  have c2 : ∀ y, w2.has y = true ↔ w.has y = true ∧ y ≠ x := by
    intro y
    unfold View.has Dict.has
    rw [g2]
    by_cases h : y = x <;> simp [h]
  have p2 : ∀ y, w2.pars y = if y = x then [] else w.pars y := by
    intro y
    unfold View.pars
    rw [g2]
    by_cases h : y = x <;> simp [h]
  have k2 : ∀ y, w2.kids y = if y = x then [] else w.kids y := by
    intro y
    unfold View.kids
    rw [g2]
    by_cases h : y = x <;> simp [h]
  have hr2 : RowsSet w2.out (RowE w2.pedge E.root) (w2.under E.root) := by
    have hd := b2.base.rows.deletedMany (x := x) ps (fun a ha => (rowE_of_path H.ne ((hps a).1 ha)).2) q2
      (fun a ha => (rowE_of_path H.ne ((hps a).1 ha)).1)
      (by
        rintro a ha r ⟨-, hr⟩ ⟨t, rfl⟩
        rw [chain_leaf hleaf hr ((hps a).1 ha).2]; simp)
    refine (RowsSet.fewerKids (v' := w2) (hd : RowsSet w2.out _ _) fun y => by rw [k2]; split <;> simp).congr fun l => ?_
    have he : w2.pedge = fun p y => w.pedge p y ∧ y ≠ x := by
      funext p y
      apply propext
      show p ∈ w2.pars y ↔ _
      rw [p2]
      by_cases h : y = x <;> simp [h]
    rw [he]
    constructor
    · rintro ⟨⟨h1, h2⟩, h3⟩
      refine ⟨h1, chain_avoid l E.root ?_ h2⟩
      intro hxl
      apply h3
      obtain ⟨s, t, rfl⟩ := List.append_of_mem hxl
      have h2' : List.IsChain w.pedge (E.root :: ((s ++ [x]) ++ t)) := by simpa using h2
      have ht := chain_leaf hleaf h2' (getLast_snoc _ _ _)
      subst ht
      exact (hps _).2 ⟨h2, getLast_snoc _ _ _⟩
    · rintro ⟨h1, h2⟩
      refine ⟨⟨h1, h2.imp (fun {a b} hab => hab.1)⟩, ?_⟩
      intro hl
      have hlast := ((hps l).1 hl).2
      rcases List.eq_nil_or_concat l with rfl | ⟨l', z, rfl⟩
      · exact h1 rfl
      · rw [List.concat_eq_append] at h2 hlast
        rw [getLast_snoc] at hlast
        obtain ⟨p, -, -, hp⟩ := chain_snoc.1 h2
        exact hp.2 (by simpa using hlast)
  have hb2 : Base E rank w2 := by
    refine ⟨?_, ?_, ?_, ?_, ?_, ?_, ?_, ?_, hr2⟩
    · show (w.nodes.del x).keys.Nodup
      rw [Dict.keys_del]
      exact b2.base.keys.filter _
    · exact (c2 _).2 ⟨b2.base.rootIn, H.ne.symm⟩
    · rw [p2, if_neg H.ne.symm]; exact b2.base.rootPars
    · intro y p hp
      rw [p2] at hp
      by_cases h : y = x
      · rw [if_pos h] at hp; cases hp
      · rw [if_neg h] at hp
        refine ⟨(c2 p).2 ⟨(b2.base.par y p hp).1, ?_⟩, (b2.base.par y p hp).2⟩
        rintro rfl; exact hleaf y hp
    · intro p c hc
      rw [k2] at hc
      split at hc
      · cases hc
      · exact b2.base.kid p c hc
    · intro y; rw [p2]; split
      · simp
      · exact b2.base.ndP y
    · intro y; rw [k2]; split
      · simp
      · exact b2.base.ndK y
    · intro y p hp
      rw [p2] at hp
      by_cases h : y = x
      · rw [if_pos h] at hp; cases hp
      · rw [if_neg h] at hp
        rw [k2, if_neg (by rintro rfl; exact hleaf y hp)]
        exact b2.base.up y p hp
  have hxk2 : ∀ p, x ∈ w2.kids p ↔ p ∈ n.parents := by
    intro p
    rw [k2, hnp, b2.mirror]
    by_cases h : p = x
    · subst h; simp
    · simp [h]
  exact ⟨ps, w, n, w2, q1, b1, hn, hw2, b2, hnp, hb2, c2, p2, k2, hxk2⟩

theorem vanish_ok (hE : EOK E rank M) {N : Id → Prop} {v0 : View} {x : Id} (H : Hiding E rank N x v0) {f : Nat} (hf : M + 1 ≤ f) (hf1 : 1 < f) :
    ∃ v', E.vanish (fun p v => E.update f p .up v) (fun c v => E.update f c .down v) x v0 = .ok v' ∧ Calm E rank N v' := by
  obtain ⟨g, rfl⟩ : ∃ g, f = g + 1 := ⟨f - 1, by omega⟩
  obtain ⟨ps, w, n, w2, q1, b1, hn, hw2, b2, hnp, hb2, c2, p2, k2, hxk2⟩ := vanish_head hE H.going (g := g) (by omega)
  -- its parents
  obtain ⟨w3, d1, -, d2, d3, d4, d5, d6, d7, d8, -, d9, -⟩ := forEach_ok
    (body := fun p v => (View.dropKid v p x).andThen (fun v => E.update (g + 1) p .up v))
    (fun l u => l.Nodup ∧ Base E rank u ∧ (∀ y, u.has y = true ↔ w.has y = true ∧ y ≠ x) ∧
      (∀ p c, c ∈ u.kids p → c ≠ x → u.has c = true) ∧ (∀ y, y ≠ x → ∀ p, p ∈ u.pars y ↔ y ∈ u.kids p) ∧
      (∀ p, x ∈ u.kids p ↔ p ∈ l) ∧ (∀ p, p ∉ u.pars x) ∧
      (∀ y, E.disp y = true → ¬ N y → SettledAt E u y) ∧ (∀ p ∈ l, rank p < rank x) ∧ (∀ y, u.has y = true → y ≠ E.root → E.disp y = true) ∧
      (∀ y, E.disp y = true → u.has y = true))
    (by
      rintro p l u ⟨i1, i2, i3, i4, i5, i6, i7, i8, i11, i9, i10⟩
      rw [List.nodup_cons] at i1
      have hxp : x ∈ u.kids p := (i6 p).2 (by simp)
      have hpin := View.has_of_kid hxp
      obtain ⟨m, hm⟩ := View.get_of_has hpin
      have hk : m.children = u.kids p := (View.kids_of_get hm).symm
      set u1 := u.upd p fun n => { n with children := n.children.erase x } with hu1
      have hdrop : u.dropKid p x = .ok u1 := by
        unfold View.dropKid; rw [hm]; dsimp only; rw [if_pos (by rw [hk]; exact hxp)]
      have k1 : ∀ y, u1.kids y = if y = p then (u.kids p).erase x else u.kids y :=
        View.kids_updKids u p (fun l => l.erase x) hpin
      have hm1 : ∀ c q, c ∈ u1.kids q ↔ c ∈ u.kids q ∧ ¬ (q = p ∧ c = x) := by
        intro c q
        rw [k1]
        by_cases hq : q = p
        · subst hq; rw [if_pos rfl, (i2.ndK q).mem_erase_iff]; tauto
        · rw [if_neg hq]; simp [hq]
      have p1 : u1.pars = u.pars := funext (View.pars_updKids u p (fun l => l.erase x))
      have c1 : u1.has = u.has := funext fun y => View.has_upd _ _ _ _
      have hb1 : Base E rank u1 := by
        refine ⟨by rw [hu1, View.keys_upd]; exact i2.keys, by rw [c1]; exact i2.rootIn, by rw [p1]; exact i2.rootPars,
          by rw [c1, p1]; exact i2.par, fun q c hc => i2.kid q c ((hm1 c q).1 hc).1, by rw [p1]; exact i2.ndP, ?_, ?_, ?_⟩
        · intro y; rw [k1]; split
          · exact (i2.ndK p).erase x
          · exact i2.ndK y
        · intro y q hq
          rw [p1] at hq
          refine (hm1 y q).2 ⟨i2.up y q hq, ?_⟩
          rintro ⟨rfl, rfl⟩; exact i7 _ hq
        · show RowsSet u.out (RowE (fun p c => p ∈ u1.pars c) E.root) _
          rw [p1]
          refine RowsSet.fewerKids (v' := u1) i2.rows fun y => ?_
          rw [k1]; split
          · rename_i h; rw [h]; exact List.erase_sublist
          · exact List.Sublist.refl _
      obtain ⟨u2, j1, j2, j3⟩ := quiet_up hE (g + 1) p u1 (by have := hE.bound p; omega) hb1
        ⟨fun y hy hd => ⟨by rw [c1]; exact i10 y hd, fun q => by
            rw [p1]
            exact i8 y hd (fun hN => by have := (H.below y hN).1; have := i11 p (by simp); omega) q⟩,
          fun y _ hh => by rw [c1] at hh; exact i9 y hh⟩
      refine ⟨u2, by rw [hdrop, Res.andThen_ok]; exact j1, i1.2, j2, ?_, ?_, ?_, ?_, ?_, ?_, fun q hq => i11 q (by simp [hq]), ?_, ?_⟩
      · intro y; rw [j3.has, c1]; exact i3 y
      · intro q c hc hcx
        rw [j3.kids] at hc
        rw [j3.has, c1]
        exact i4 q c ((hm1 c q).1 hc).1 hcx
      · intro y hy q
        rw [j3.pars, j3.kids, p1, hm1, i5 y hy]; simp [hy]
      · intro q
        rw [j3.kids, hm1, i6]
        by_cases hq : q = p
        · subst hq; simp [i1.1]
        · simp [hq]
      · intro q; rw [j3.pars, p1]; exact i7 q
      · intro y hd hN q; rw [j3.pars, p1]; exact i8 y hd hN q
      · intro y hh; rw [j3.has, c1] at hh; exact i9 y hh
      · intro y hd; rw [j3.has, c1]; exact i10 y hd)
    n.parents w2
    ⟨by rw [hnp]; exact b2.base.ndP x, hb2, c2,
      fun p c hc hcx => by
        rw [k2] at hc
        split at hc
        · cases hc
        · exact (c2 c).2 ⟨b2.kidHas p c hc, hcx⟩,
      fun y hy p => by
        rw [p2, if_neg hy, k2, b2.mirror]
        by_cases h : p = x <;> simp [h],
      hxk2, fun p => by rw [p2]; simp,
      fun y hd hN p => by
        have hyx : y ≠ x := by rintro rfl; rw [H.hd] at hd; cases hd
        rw [p2, if_neg hyx]; exact b2.done y hd hN (by simp) p,
      fun p hp => (b2.base.par x p (by rw [← hnp]; exact hp)).2,
      fun y hh hr => by
        obtain ⟨h1, h2⟩ := (c2 y).1 hh
        exact H.sub y (by rw [← b2.has]; exact h1) hr h2,
      fun y hd => (c2 y).2 ⟨by rw [b2.has]; exact H.all y hd, by rintro rfl; rw [H.hd] at hd; cases hd⟩⟩
  have hcalm : Calm E rank N w3 := by
    refine ⟨d2, ?_, ?_, d9, ?_, d8⟩
    · intro p c hc
      refine d4 p c hc ?_
      rintro rfl
      have := (d6 p).1 hc
      cases this
    · intro y p
      by_cases hy : y = x
      · subst hy
        rw [d6]
        constructor
        · intro h; exact absurd h (d7 p)
        · intro h; cases h
      · exact d5 y hy p
    · intro y hd
      refine (d3 y).2 ⟨by rw [b2.has]; exact H.all y hd, by rintro rfl; rw [H.hd] at hd; cases hd⟩
  have hpre : ∀ r : Res View, (if E.has x = true then
        Res.forEach (fun p v => if v.has p = false then E.update (g + 1) p .up v else .ok v) (E.par x) w3 else .ok w3) = r →
      E.vanish (fun p v => E.update (g + 1) p .up v) (fun c v => E.update (g + 1) c .down v) x v0 = r := by
    intro r hr
    unfold VEnv.vanish
    rw [q1]
    dsimp only
    rw [b1, Res.andThen_ok, hn]
    dsimp only
    rw [← hw2, d1, Res.andThen_ok]
    exact hr
  cases hh : E.has x with
  | false => exact ⟨w3, hpre _ (by rw [if_neg (by simp [hh])]), hcalm⟩
  | true =>
    obtain ⟨w4, e1, -, e2⟩ := forEach_ok (body := fun p v => if View.has v p = false then E.update (g + 1) p .up v else Res.ok v)
      (fun l u => (∀ p ∈ l, p ∈ E.par x) ∧ Calm E rank N u)
      (by
        rintro p l u ⟨hl, hu⟩
        have hpr := hE.parRank x p (hl p (by simp))
        by_cases hp : u.has p = false
        · obtain ⟨u2, j1, j2, j3⟩ := quiet_up hE (g + 1) p u (by have := hE.bound p; omega) hu.base
            ⟨fun y hy hd => ⟨hu.all y hd, hu.settled y hd fun hN => by have := (H.below y hN).1; omega⟩, fun y _ hh => hu.sub y hh⟩
          exact ⟨u2, by rw [if_pos hp]; exact j1, fun q hq => hl q (by simp [hq]), hu.same j2 j3⟩
        · exact ⟨u, by rw [if_neg hp], fun q hq => hl q (by simp [hq]), hu⟩)
      (E.par x) w3 ⟨fun _ h => h, hcalm⟩
    exact ⟨w4, hpre _ (by rw [if_pos hh]; exact e1), e2⟩

end Larch
