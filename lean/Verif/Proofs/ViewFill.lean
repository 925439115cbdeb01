import Verif.Proofs.ViewUpdate

/-! # Filling an empty view -/

namespace Larch

open Spec Graph

variable {E : VEnv} {rank : Id → Nat} {M : Nat}

/-- Every displayed node among `S` is shown below the parents it should have. -/
structure Placed (E : VEnv) (S : Id → Prop) (v : View) : Prop where
  has : ∀ y, S y → E.disp y = true → v.has y = true
  snap : ∀ y, S y → E.disp y = true → ∃ W, v.pars y = npOf E W y
  kids : ∀ y, S y → E.disp y = true → ∀ c ∈ E.newKids y, y ∈ v.pars c

theorem Placed.after (hE : EOK E rank M) {S : Id → Prop} {v v' : View} (h : Placed E S v) (hg : Grow E v v') : Placed E S v' := by
  refine ⟨fun y a b => hg.has y (h.has y a b), fun y a b => ?_, fun y a b c hc => ?_⟩
  · rcases hg.snap y with e | ⟨W, -, -, w⟩
    · rw [e]; exact h.snap y a b
    · exact ⟨W, w⟩
  · obtain ⟨h1, h2, h3⟩ := (mem_newKids hE).1 hc
    exact hg.par_stays hE (h.kids y a b c hc) h1 (h.has y a b) b h2

/-- What the loop of `refilter` needs. -/
structure FillOK (E : VEnv) (W : Id → Nat) : Prop where
  chiHas : ∀ x, ∀ c ∈ E.chi x, E.has c = true
  topHas : ∀ x ∈ E.top, E.has x = true
  walks : ∀ x, W x = 1 + ((E.chi x).map W).sum
  reach : ∀ x, E.has x = true → ∃ t ∈ E.top, ReachEq E.chi t x

theorem fillLoop_ok (hE : EOK E rank M) {W : Id → Nat} (hF : FillOK E W) {depth : Nat} (hd : 2 * M + 2 ≤ depth) :
    ∀ (f : Nat) (q : List Id) (v : View), (q.map W).sum ≤ f → (∀ x ∈ q, E.has x = true) → VInv E rank (fun _ => False) v →
      ∃ v', E.fillLoop depth f v q = .ok v' ∧ VInv E rank (fun _ => False) v' ∧ Grow E v v' ∧
        Placed E (fun y => ∃ x ∈ q, ReachEq E.chi x y) v' := by
  intro f
  induction f with
  | zero =>
    intro q v hf hq hv
    cases q with
    | nil => exact ⟨v, rfl, hv, Grow.refl _ _, ⟨by simp, by simp, by simp⟩⟩
    | cons x q =>
      rw [List.map_cons, List.sum_cons, hF.walks] at hf
      omega
  | succ f ih =>
    intro q v hf hq hv
    cases q with
    | nil => exact ⟨v, rfl, hv, Grow.refl _ _, ⟨by simp, by simp, by simp⟩⟩
    | cons x q =>
      rw [List.map_cons, List.sum_cons, hF.walks] at hf
      have hx := hq x (by simp)
      obtain ⟨v1, a1, a2, a3, a4⟩ := update_down_ok hE depth x .both v (by omega) rfl hv
      obtain ⟨v2, b1, b2, b3, b4⟩ := ih (q ++ E.chi x) v1
        (by rw [List.map_append, List.sum_append]; omega)
        (by
          intro y hy
          rcases List.mem_append.1 hy with h | h
          · exact hq y (by simp [h])
          · exact hF.chiHas x y h) a2
      have hxp : Placed E (fun y => y = x) v1 := by
        have hr : x ≠ E.root := by rintro rfl; rw [hE.rootHas] at hx; cases hx
        refine ⟨?_, ?_, ?_⟩
        · rintro y rfl hy; exact (a4 hr hy).1
        · rintro y rfl hy
          obtain ⟨-, ⟨W, -, -, w⟩, -⟩ := a4 hr hy
          exact ⟨W, w⟩
        · rintro y rfl hy c hc; exact ((a4 hr hy).2.2 c hc).2
      have hxp' := hxp.after hE b3
      have hsplit : ∀ y, (∃ z ∈ x :: q, ReachEq E.chi z y) → y = x ∨ ∃ z ∈ q ++ E.chi x, ReachEq E.chi z y := by
        rintro y ⟨z, hz, hzy⟩
        rcases List.mem_cons.1 hz with rfl | hz
        · rcases hzy with rfl | hzy
          · exact Or.inl rfl
          · obtain ⟨w, hw, hwy⟩ := (reach_iff _ _ _).1 hzy
            exact Or.inr ⟨w, by simp [hw], hwy⟩
        · exact Or.inr ⟨z, by simp [hz], hzy⟩
      refine ⟨v2, ?_, b2, a3.trans b3, ⟨?_, ?_, ?_⟩⟩
      · rw [VEnv.fillLoop, a1, Res.andThen_ok, if_neg (by simp [hx])]
        exact b1
      · intro y hy hdy
        rcases hsplit y hy with h | h
        · exact hxp'.has y h hdy
        · exact b4.has y h hdy
      · intro y hy hdy
        rcases hsplit y hy with h | h
        · exact hxp'.snap y h hdy
        · exact b4.snap y h hdy
      · intro y hy hdy
        rcases hsplit y hy with h | h
        · exact hxp'.kids y h hdy
        · exact b4.kids y h hdy

/-- A view in which everything displayed is placed is as it should be. -/
theorem Placed.settled (hE : EOK E rank M) {v : View} (h : Placed E (fun y => E.has y = true) v) {y : Id}
    (hy : E.disp y = true) : SettledAt E v y := by
  intro p
  have hh := hE.dispHas y hy
  obtain ⟨W, hW⟩ := h.snap y hh hy
  by_cases hft : E.flat = true
  · rw [hW, npAll, npOf_flat hft, npOf_flat hft]
  have hfl : E.flat = false := by simpa using hft
  have hall : ∀ q ∈ E.par y, E.disp q = true → W q = true := by
    intro q hq hdq
    have := h.kids q (hE.dispHas q hdq) hdq y ((mem_newKids hE).2 ⟨hfl, hq, hy⟩)
    rw [hW] at this
    rcases mem_npOf this with h | h
    · exact absurd h (hE.par_ne_root hq)
    · exact h.2.2.1
  rw [hW, npOf_all y hall]

/-! ### Emptying the view -/

/-- A view that fits together by itself, whatever the tree and the filters are. -/
structure Whole (root : Id) (rank : Id → Nat) (M : Nat) (v : View) : Prop where
  bound : ∀ x, rank x ≤ M
  rootRank : rank root = 0
  posRank : ∀ x, x ≠ root → 0 < rank x
  keys : v.nodes.keys.Nodup
  rootIn : v.has root = true
  rootPars : v.pars root = []
  par : ∀ y p, p ∈ v.pars y → v.has p = true ∧ rank p < rank y
  kid : ∀ p c, c ∈ v.kids p → v.has c = true ∧ rank p < rank c
  ndP : ∀ y, (v.pars y).Nodup
  ndK : ∀ y, (v.kids y).Nodup
  mirror : ∀ y p, p ∈ v.pars y ↔ y ∈ v.kids p
  rows : RowsSet v.out (RowE v.edge root) (fun _ => [])

theorem VInv.whole (hE : EOK E rank M) {v : View} (h : VInv E rank (fun _ => False) v) : Whole E.root rank M v :=
  ⟨hE.bound, hE.rootRank, hE.posRank, h.keys, h.rootIn, h.rootPars, h.par, h.kid, h.ndP, h.ndK,
    fun y p => h.mirror y (fun h => h) p, h.rows.plain⟩

theorem Whole.sendOK {root : Id} {rank : Id → Nat} {M : Nat} {v : View} (h : Whole root rank M v) : SendOK root rank v :=
  ⟨⟨M, h.bound⟩, fun p c hc => (h.kid p c hc).2, h.ndK⟩

theorem Whole.pathsOK {root : Id} {rank : Id → Nat} {M : Nat} {v : View} (h : Whole root rank M v) (k : Nat) :
    PathsOK root rank v v.edge k :=
  ⟨h.par, h.ndP, fun y _ p => h.mirror y p, fun y _ p hp => (h.mirror y p).1 hp, fun p y hy => (h.kid p y hy).2⟩

/-- As much of `Whole` as emptying a view takes: the parents of nodes need not agree with the children lists. -/
structure Husk (root : Id) (rank : Id → Nat) (M : Nat) (v : View) : Prop where
  bound : ∀ x, rank x ≤ M
  rootRank : rank root = 0
  posRank : ∀ x, x ≠ root → 0 < rank x
  rootIn : v.has root = true
  rootPars : v.pars root = []
  par : ∀ y p, p ∈ v.pars y → v.has p = true ∧ rank p < rank y
  kid : ∀ p c, c ∈ v.kids p → v.has c = true ∧ rank p < rank c
  ndP : ∀ y, (v.pars y).Nodup
  ndK : ∀ y, (v.kids y).Nodup
  rows : RowsSet v.out (RowE v.edge root) (fun _ => [])

theorem Whole.husk {root : Id} {rank : Id → Nat} {M : Nat} {v : View} (h : Whole root rank M v) : Husk root rank M v :=
  ⟨h.bound, h.rootRank, h.posRank, h.rootIn, h.rootPars, h.par, h.kid, h.ndP, h.ndK, h.rows⟩

theorem VInv.husk (hE : EOK E rank M) {X : Id → Prop} {v : View} (h : VInv E rank X v) : Husk E.root rank M v :=
  ⟨hE.bound, hE.rootRank, hE.posRank, h.rootIn, h.rootPars, h.par, h.kid, h.ndP, h.ndK, h.rows.plain⟩

theorem clear_ok {root : Id} {rank : Id → Nat} {M : Nat} {v : View} (h : Husk root rank M v) :
    ∃ v', Res.forEach (fun x v => v.sendRemove root x root) (v.kids root).reverse v = .ok v' ∧ v'.nodes = v.nodes ∧
      RowsSet v'.out (fun _ => False) (fun _ => []) := by
  have hnoroot : ∀ p, root ∉ v.kids p := by
    intro p hp
    have := (h.kid p root hp).2
    rw [h.rootRank] at this; omega
  obtain ⟨v', a1, -, -, a2, a3⟩ := forEach_ok (body := fun (x : Id) (v : View) => v.sendRemove root x root)
    (fun l w => l.Nodup ∧ (∀ c ∈ l, c ∈ v.kids root) ∧ w.nodes = v.nodes ∧
      RowsSet w.out (RowE (fun a b => b ∈ v.kids a ∧ (a = root → b ∈ l)) root) (fun _ => []))
    (by
      rintro c l w ⟨i1, i2, i3, i4⟩
      rw [List.nodup_cons] at i1
      have hk : w.kids = v.kids := View.kids_congr i3
      have hp : w.pars = v.pars := View.pars_congr i3
      have hh : w.has = v.has := View.has_congr i3
      have hc := i2 c (by simp)
      have hcr := (h.kid root c hc).2
      obtain ⟨w', j1, j2, j3⟩ := sendRemove_spec (root := root) (rank := rank) (v := w)
        ⟨⟨M, h.bound⟩, fun p c hc => by rw [hk] at hc; exact (h.kid p c hc).2, fun y => by rw [hk]; exact h.ndK y⟩
        (e := fun a b => b ∈ v.kids a ∧ (a = root → b ∈ l))
        (e' := fun a b => b ∈ v.kids a ∧ (a = root → b ∈ c :: l)) (p := root) (x := c)
        (fun p c hc => by rw [hk] at hc; rw [hh]; exact (h.kid p c hc).1) (by rw [hh]; exact h.rootIn)
        (by rw [hh]; exact (h.kid root c hc).1) hcr
        ⟨fun y p hpy => by rw [hp] at hpy; rw [hh]; exact h.par y p hpy, fun y => by rw [hp]; exact h.ndP y,
          by
            intro y hy p
            have hyr : y = root := by
              by_contra hne
              have := h.posRank y hne
              rw [h.rootRank] at hy; omega
            subst hyr
            rw [hp, h.rootPars]
            constructor
            · intro h; cases h
            · rintro ⟨h1, -⟩; exact absurd h1 (hnoroot p),
          by
            intro y hy p hpy
            have hyr : y = root := by
              by_contra hne
              have := h.posRank y hne
              rw [h.rootRank] at hy; omega
            subst hyr
            rw [hp, h.rootPars] at hpy; exact absurd hpy (by simp),
          fun p y hy => (h.kid p y hy.1).2⟩
        (by
          intro a b
          by_cases hab : a = root ∧ b = c
          · obtain ⟨rfl, rfl⟩ := hab; simp [hc]
          · by_cases ha : a = root
            · subst ha
              have hb : b ≠ c := fun e => hab ⟨rfl, e⟩
              simp [hb]
            · simp [ha])
        (by simp [i1.1])
        (by
          intro ext
          unfold Below
          rw [hk]
          have key : ∀ (z : Id) (l' : List Id), z ≠ root →
              (List.IsChain (fun a b => b ∈ v.kids a) (z :: l') ↔
                List.IsChain (fun a b => b ∈ v.kids a ∧ (a = root → b ∈ c :: l)) (z :: l')) := by
            intro z l'
            induction l' generalizing z with
            | nil => simp
            | cons b l' ih =>
              intro hz
              rw [List.isChain_cons_cons, List.isChain_cons_cons]
              constructor
              · rintro ⟨m1, m2⟩
                have hb : b ≠ root := by rintro rfl; exact hnoroot z m1
                exact ⟨⟨m1, fun e => absurd e hz⟩, (ih b hb).1 m2⟩
              · rintro ⟨m1, m2⟩
                have hb : b ≠ root := by rintro rfl; exact hnoroot z m1.1
                exact ⟨m1.1, (ih b hb).2 m2⟩
          exact key c ext (by rintro rfl; exact hnoroot _ hc))
        i4
      exact ⟨w', j1, i1.2, fun q hq => i2 q (by simp [hq]), j2.trans i3, j3⟩)
    (v.kids root).reverse v ⟨List.nodup_reverse.2 (h.ndK root), by simp, rfl, by
      refine h.rows.congr fun l => ?_
      unfold View.edge
      rw [show (fun p c => c ∈ v.kids p) = (fun a b => b ∈ v.kids a ∧ (a = root → b ∈ (v.kids root).reverse)) from by
        funext a b
        apply propext
        constructor
        · intro hb; exact ⟨hb, by rintro rfl; simpa using hb⟩
        · exact fun hb => hb.1]⟩
  refine ⟨v', a1, a2, a3.congr fun l => ?_⟩
  constructor
  · rintro ⟨h1, h2⟩
    cases l with
    | nil => exact absurd rfl h1
    | cons b l =>
      rw [List.isChain_cons_cons] at h2
      exact absurd (h2.1.2 rfl) (by simp)
  · intro h; exact h.elim

/-- A view that holds the virtual root only. -/
theorem rootOnly_inv (hE : EOK E rank M) {v : View} (hn : v.nodes = View.rootOnly E.root) (hr : RowsSet v.out (fun _ => False) (fun _ => [])) :
    VInv E rank (fun _ => False) v := by
  have hg : ∀ y, v.nodes.get? y = if y = E.root then some {} else none := by
    intro y; rw [hn, View.rootOnly, Dict.get?_set]; rfl
  have hk : ∀ y, v.kids y = [] := by
    intro y; unfold View.kids; rw [hg]; split <;> rfl
  have hp : ∀ y, v.pars y = [] := by
    intro y; unfold View.pars; rw [hg]; split <;> rfl
  have hh : ∀ y, v.has y = true ↔ y = E.root := by
    intro y; unfold View.has Dict.has; rw [hg]; by_cases h : y = E.root <;> simp [h]
  refine ⟨?_, (hh _).2 rfl, hp _, fun y hy hne => absurd ((hh y).1 hy) hne, ?_, ?_, ?_, ?_, ?_, (hr.nothing (fun _ h => h) _).congr fun l => ?_⟩
  · rw [hn, View.rootOnly, Dict.keys_set]; simp [Dict.keys, Dict.empty, Dict.has, Dict.get?, Dict.lookup]
  · intro y p h; rw [hp] at h; cases h
  · intro p c h; rw [hk] at h; cases h
  · intro y; rw [hp]; simp
  · intro y; rw [hk]; simp
  · intro y _ p; rw [hp, hk]; simp
  constructor
  · intro h; exact h.elim
  · rintro ⟨h1, h2⟩
    cases l with
    | nil => exact absurd rfl h1
    | cons b l =>
      rw [List.isChain_cons_cons] at h2
      have := h2.1
      unfold View.edge at this
      rw [hk] at this; cases this

/-- `refilter` succeeds, whatever was shown before and whatever the filters are, and shows everything where it belongs. -/
theorem refilter_ok (hE : EOK E rank M) {W : Id → Nat} (hF : FillOK E W) {depth rounds : Nat} (hd : 2 * M + 2 ≤ depth)
    (hr : (E.top.map W).sum ≤ rounds) {rank' : Id → Nat} {M' : Nat} {v : View} (hv : Husk E.root rank' M' v) :
    ∃ v', E.refilter depth rounds v = .ok v' ∧ VInv E rank (fun _ => False) v' ∧
      (∀ y, E.disp y = true → v'.has y = true) ∧ ∀ y, E.disp y = true → SettledAt E v' y := by
  obtain ⟨v1, a1, a2, a3⟩ := clear_ok hv
  obtain ⟨v2, b1, b2, b3, b4⟩ := fillLoop_ok hE hF hd rounds E.top { v1 with nodes := View.rootOnly E.root } hr hF.topHas
    (rootOnly_inv hE rfl a3)
  have hpl : Placed E (fun y => E.has y = true) v2 :=
    ⟨fun y h => b4.has y (hF.reach y h), fun y h => b4.snap y (hF.reach y h), fun y h => b4.kids y (hF.reach y h)⟩
  refine ⟨v2, ?_, b2, fun y hy => hpl.has y (hE.dispHas y hy) hy, fun y hy => hpl.settled hE hy⟩
  unfold VEnv.refilter
  rw [a1, Res.andThen_ok]
  exact b1

end Larch
