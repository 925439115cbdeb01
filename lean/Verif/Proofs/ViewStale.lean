import Verif.Proofs.ViewVanish

/-!
# A view that is out of date
-/

namespace Larch

open Spec Graph

/-- The nodes and relations a view may still show: those of the tree, and those the tree just lost. -/
structure Roof where
  par : Id → List Id
  has : Id → Bool

/-- Nothing was lost. -/
def VEnv.roof (E : VEnv) : Roof := ⟨E.par, E.has⟩

/-- An orderly tree, with what it just lost. -/
structure GOK (E : VEnv) (G : Roof) (rank : Id → Nat) (M : Nat) : Prop extends EOK E rank M where
  gSup : ∀ x p, p ∈ E.par x → p ∈ G.par x
  gHas : ∀ x, E.has x = true → G.has x = true
  gRank : ∀ x p, p ∈ G.par x → rank p < rank x
  gNe : ∀ x p, p ∈ G.par x → p ≠ E.root ∧ x ≠ E.root

variable {E : VEnv} {G : Roof} {rank : Id → Nat} {M : Nat}

theorem EOK.roof (hE : EOK E rank M) : GOK E E.roof rank M where
  toEOK := hE
  gSup := fun _ _ h => h
  gHas := fun _ h => h
  gRank := hE.parRank
  gNe := by
    intro x p h
    have := hE.parHas x p h
    constructor <;> rintro rfl <;> simp [hE.rootHas] at this

/-- The parent/child pairs both lists agree on. -/
abbrev View.both (v : View) : Id → Id → Prop := fun p c => p ∈ v.pars c ∧ c ∈ v.kids p

/-- A node `y` may be displayed below. -/
def MayBe (E : VEnv) (G : Roof) (p y : Id) : Prop := p = E.root ∨ (E.flat = false ∧ p ∈ G.par y)

theorem MayBe.lt (hE : GOK E G rank M) {p y : Id} (h : MayBe E G p y) (hy : y ≠ E.root) : rank p < rank y := by
  rcases h with rfl | ⟨-, h⟩
  · rw [hE.rootRank]; exact hE.posRank y hy
  · exact hE.gRank _ _ h

/-- A view of a forest, or a flat one, that knows the filters' answers for the nodes outside `P` only. The nodes `X` are in transit:
no displayed node has them as children. The nodes `Y` are about to go: their lists of children are out of date. -/
structure Stale (E : VEnv) (G : Roof) (P X Y : Id → Prop) (v : View) : Prop where
  keys : v.nodes.keys.Nodup
  rootIn : v.has E.root = true
  rootPars : v.pars E.root = []
  out : ∀ z, X z → z ≠ E.root
  gone : ∀ z, Y z → z ≠ E.root ∧ E.disp z = false
  real : ∀ y, v.has y = true → y ≠ E.root → G.has y = true
  par : ∀ y p, p ∈ v.pars y → v.has p = true ∧ MayBe E G p y
  one : ∀ y p, p ∈ v.pars y → v.pars y = [p]
  kid : ∀ p c, c ∈ v.kids p → c ≠ E.root ∧ MayBe E G p c
  ndK : ∀ p, (v.kids p).Nodup
  up : ∀ y, ¬ X y → ∀ p ∈ v.pars y, y ∈ v.kids p
  dn : ∀ p, ¬ Y p → ∀ c ∈ v.kids p, v.has c = true ∧ p ∈ v.pars c
  det : ∀ z, X z → ∀ p, ¬ Y p → z ∉ v.kids p
  aim : ∀ z, X z → ∀ p ∈ v.pars z, p = E.root ∨ E.disp p = true
  full : ∀ y, v.has y = true → y ≠ E.root → ¬ X y → v.pars y ≠ []
  shown : ∀ y, ¬ P y → y ≠ E.root → v.has y = E.disp y
  stuck : E.flat = false → ∀ y, ¬ X y → v.has y = true → E.disp y = true → ∀ p ∈ E.par y, ¬ P p → E.disp p = true → p ∈ v.pars y
  rows : RowsSet v.out (RowE v.both E.root) (v.under E.root)

/-- The displayed ancestors of `x` are all in place. -/
def Clear (v : View) (x : Id) : Prop := ∀ z, ReachEq v.pars x z → ∀ p ∈ v.pars z, z ∈ v.kids p

/-- Nobody in `Y` is at or below `x` in the tree. -/
def NoneBelow (G : Roof) (Y : Id → Prop) (x : Id) : Prop := ∀ z, Y z → ¬ ReachEq G.par z x

theorem chain_on {e e' : Id → Id → Prop} (D : Id → Prop) (h : ∀ p, D p → ∀ c, (e p c ↔ e' p c) ∧ (e p c → D c)) :
    ∀ (l : List Id) (x : Id), D x → (List.IsChain e (x :: l) ↔ List.IsChain e' (x :: l)) := by
  intro l
  induction l with
  | nil => intro x _; simp
  | cons c l ih =>
    intro x hx
    rw [List.isChain_cons_cons, List.isChain_cons_cons]
    obtain ⟨h1, h2⟩ := h x hx c
    constructor
    · rintro ⟨a, b⟩; exact ⟨h1.1 a, (ih c (h2 a)).1 b⟩
    · rintro ⟨a, b⟩; exact ⟨h1.2 a, (ih c (h2 (h1.2 a))).2 b⟩

namespace Stale

variable {P X X' Y : Id → Prop} {v : View} {x : Id}

theorem ne_root (h : Stale E G P X Y v) {y p : Id} (hp : p ∈ v.pars y) : y ≠ E.root := by
  rintro rfl; rw [h.rootPars] at hp; cases hp

theorem prank (hE : GOK E G rank M) (h : Stale E G P X Y v) {y p : Id} (hp : p ∈ v.pars y) : rank p < rank y :=
  (h.par y p hp).2.lt hE (h.ne_root hp)

theorem krank (hE : GOK E G rank M) (h : Stale E G P X Y v) {p c : Id} (hc : c ∈ v.kids p) : rank p < rank c :=
  (h.kid p c hc).2.lt hE (h.kid p c hc).1

theorem nd (h : Stale E G P X Y v) (y : Id) : (v.pars y).Nodup := by
  cases he : v.pars y with
  | nil => simp
  | cons p l =>
    have := h.one y p (by rw [he]; simp)
    rw [he] at this; rw [this]; simp

theorem sendOK (hE : GOK E G rank M) (h : Stale E G P X Y v) : SendOK E.root rank v :=
  ⟨⟨M, hE.bound⟩, fun _ _ hc => h.krank hE hc, h.ndK⟩

theorem reach_rank (hE : GOK E G rank M) (h : Stale E G P X Y v) {x z : Id} (hr : ReachEq v.pars x z) : rank z ≤ rank x := by
  rcases hr with rfl | hr
  · exact le_refl _
  · refine le_of_lt ?_
    induction hr with
    | single h1 => exact h.prank hE h1
    | tail _ h1 ih => exact lt_trans (h.prank hE h1) ih

theorem kids_rank (hE : GOK E G rank M) (h : Stale E G P X Y v) {x z : Id} (hr : ReachEq v.kids x z) : rank x ≤ rank z := by
  rcases hr with rfl | hr
  · exact le_refl _
  · refine le_of_lt ?_
    induction hr with
    | single h1 => exact h.krank hE h1
    | tail _ h1 ih => exact lt_trans ih (h.krank hE h1)

theorem clear (hE : GOK E G rank M) (h : Stale E G P X Y v) {x : Id} (hX : ∀ z, X z → rank x < rank z) : Clear v x := by
  intro z hz p hp
  refine h.up z (fun hx => ?_) p hp
  have := hX z hx
  have := h.reach_rank hE hz
  omega

theorem pathsOn (hE : GOK E G rank M) (h : Stale E G P X Y v) {x : Id} (hc : Clear v x) :
    PathsOn rank v v.both (fun z => ReachEq v.pars x z) :=
  ⟨fun _ _ hp => ⟨(h.par _ _ hp).1, h.prank hE hp⟩, h.nd, fun _ hy _ hp => hy.trans (Or.inr (Reach.single hp)),
    fun y hy p => ⟨fun hp => ⟨hp, hc y hy p hp⟩, fun hp => hp.1⟩, hc, fun _ _ hp => h.prank hE hp.1⟩

/-- What is displayed below a node is below it in the tree. -/
theorem under (h : Stale E G P X Y v) {x z : Id} (hx : x ≠ E.root) (hr : ReachEq v.kids x z) :
    z ≠ E.root ∧ ReachEq G.par z x := by
  rcases hr with rfl | hr
  · exact ⟨hx, Or.inl rfl⟩
  · induction hr with
    | single h1 =>
      obtain ⟨a, b⟩ := h.kid _ _ h1
      exact ⟨a, Or.inr (Reach.single (b.resolve_left hx).2)⟩
    | tail _ h1 ih =>
      obtain ⟨a, b⟩ := h.kid _ _ h1
      exact ⟨a, (ReachEq.refl _ _).trans (ReachEq.head (b.resolve_left ih.1).2 ih.2)⟩

theorem below (h : Stale E G P X Y v) {x : Id} (hx : x ≠ E.root) (hY : NoneBelow G Y x) (ext : List Id) :
    Below v x ext ↔ List.IsChain v.both (x :: ext) := by
  refine chain_on (fun z => ReachEq v.kids x z) (fun p hp c => ⟨⟨fun hc => ⟨(h.dn p ?_ c hc).2, hc⟩, fun hc => hc.2⟩, fun hc => ?_⟩) ext x (Or.inl rfl)
  · exact hp.trans (Or.inr (Reach.single hc))
  · intro hy; exact hY p hy (h.under hx hp).2

theorem kidsIn (h : Stale E G P X Y v) {x : Id} (hx : x ≠ E.root) (hY : NoneBelow G Y x) (p : Id) (hp : ReachEq v.kids x p) (c : Id)
    (hc : c ∈ v.kids p) : v.has c = true ∧ ReachEq v.kids x c :=
  ⟨(h.dn p (fun hy => hY p hy (h.under hx hp).2) c hc).1, hp.trans (Or.inr (Reach.single hc))⟩

/-- Only signals were sent. -/
theorem of_out {v' : View} (h : Stale E G P X Y v) (hn : v'.nodes = v.nodes) (hr : RowsSet v'.out (RowE v.both E.root) (v.under E.root)) :
    Stale E G P X Y v' := by
  have e1 := View.has_congr hn
  have e2 := View.pars_congr hn
  have e3 := View.kids_congr hn
  exact ⟨hn ▸ h.keys, e1 ▸ h.rootIn, e2 ▸ h.rootPars, h.out, h.gone, e1 ▸ h.real, by rw [e1, e2]; exact h.par, e2 ▸ h.one,
    e3 ▸ h.kid, e3 ▸ h.ndK, by rw [e2, e3]; exact h.up, by rw [e1, e2, e3]; exact h.dn, e3 ▸ h.det, e2 ▸ h.aim,
    by rw [e1, e2]; exact h.full, e1 ▸ h.shown, by rw [e1, e2]; exact h.stuck, by unfold View.both; rw [e2, e3, View.under_congr hn]; exact hr⟩

theorem modified (hE : GOK E G rank M) (h : Stale E G P X Y v) {x : Id} (hx : x ≠ E.root) (hh : v.has x = true) (hc : Clear v x) :
    ∃ ps, v.paths E.root x = .ok ps ∧ Stale E G P X Y (v.send .modified x ps) := by
  obtain ⟨ps, a1, a2, a3⟩ := paths_on (h.pathsOn hE hc) (ReachEq.refl _ x) hh (root := E.root)
  refine ⟨ps, a1, h.of_out rfl ?_⟩
  exact h.rows.modifiedMany ps (fun a ha => (rowE_of_path hx ((a3 a).1 ha)).2) (fun a ha => (rowE_of_path hx ((a3 a).1 ha)).1)

theorem insert (hE : GOK E G rank M) (h : Stale E G P X Y v) {x : Id} (hx : x ≠ E.root) (hh : v.has x = false) (hd : E.disp x = true) :
    Stale E G P (fun z => X z ∨ z = x) Y { v with nodes := v.nodes.set x {} } ∧
      (∀ y, View.has { v with nodes := v.nodes.set x {} } y = true ↔ v.has y = true ∨ y = x) ∧
      View.pars { v with nodes := v.nodes.set x {} } = v.pars ∧ View.kids { v with nodes := v.nodes.set x {} } = v.kids := by
  set v1 : View := { v with nodes := v.nodes.set x {} } with hv1
  have g1 : ∀ y, v1.nodes.get? y = if y = x then some {} else v.nodes.get? y := fun y => Dict.get?_set _ _ _ _
  have c1 : ∀ y, v1.has y = true ↔ v.has y = true ∨ y = x := by
    intro y
    unfold View.has Dict.has
    rw [g1]
    by_cases e : y = x <;> simp [e]
  have p1 : v1.pars = v.pars := by
    funext y
    unfold View.pars
    rw [g1]
    by_cases e : y = x
    · subst e
      have := View.pars_of_not_has hh
      unfold View.pars at this
      rw [if_pos rfl, this]; rfl
    · rw [if_neg e]
  have k1 : v1.kids = v.kids := by
    funext y
    unfold View.kids
    rw [g1]
    by_cases e : y = x
    · subst e
      have := View.kids_of_not_has hh
      unfold View.kids at this
      rw [if_pos rfl, this]; rfl
    · rw [if_neg e]
  refine ⟨⟨?_, ?_, p1 ▸ h.rootPars, ?_, h.gone, ?_, ?_, p1 ▸ h.one, k1 ▸ h.kid, k1 ▸ h.ndK, ?_, ?_, ?_, ?_, ?_, ?_, ?_, ?_⟩, c1, p1, k1⟩
  · show (Dict.keys (Dict.set _ _ _)).Nodup
    rw [Dict.keys_set]
    split
    · exact h.keys
    · rename_i hn
      rw [List.nodup_append]
      refine ⟨h.keys, by simp, ?_⟩
      rintro a ha b hb rfl
      simp at hb; subst hb
      exact hn ((Dict.mem_keys _ _).1 ha)
  · exact (c1 _).2 (Or.inl h.rootIn)
  · rintro z (hz | rfl)
    · exact h.out z hz
    · exact hx
  · intro y hy hn
    rcases (c1 y).1 hy with e | rfl
    · exact h.real y e hn
    · exact hE.gHas _ (hE.dispHas _ hd)
  · intro y p hp
    rw [p1] at hp
    exact ⟨(c1 p).2 (Or.inl (h.par y p hp).1), (h.par y p hp).2⟩
  · intro y hy p hp
    rw [p1] at hp; rw [k1]
    exact h.up y (fun hX => hy (Or.inl hX)) p hp
  · intro p hp c hc
    rw [k1] at hc; rw [p1]
    exact ⟨(c1 c).2 (Or.inl (h.dn p hp c hc).1), (h.dn p hp c hc).2⟩
  · rintro z (hz | rfl) p hp hc
    · rw [k1] at hc; exact h.det z hz p hp hc
    · rw [k1] at hc
      have := (h.dn p hp _ hc).1
      rw [hh] at this; cases this
  · rintro z (hz | rfl) p hp
    · rw [p1] at hp; exact h.aim z hz p hp
    · rw [p1, View.pars_of_not_has hh] at hp; cases hp
  · intro y hy hn hX
    rw [p1]
    rcases (c1 y).1 hy with e | e
    · exact h.full y e hn (fun hX' => hX (Or.inl hX'))
    · exact absurd (Or.inr e) hX
  · intro y hP hn
    by_cases e : y = x
    · subst e; rw [hd]; exact (c1 y).2 (Or.inr rfl)
    · rw [← h.shown y hP hn, Bool.eq_iff_iff, c1]; simp [e]
  · intro hf y hX hy hdy p hp hPp hdp
    rw [p1]
    rcases (c1 y).1 hy with e | e
    · exact h.stuck hf y (fun hX' => hX (Or.inl hX')) e hdy p hp hPp hdp
    · exact absurd (Or.inr e) hX
  · show RowsSet v.out (RowE (fun p c => p ∈ v1.pars c ∧ c ∈ v1.kids p) E.root) _
    rw [p1, k1]; exact RowsSet.sameKids (v' := v1) h.rows fun y => congrFun k1 y

theorem detach (hE : GOK E G rank M) (h : Stale E G P X Y v) {x p q : Id} (hx : v.pars x = [p]) (hX : ¬ X x) (hY : NoneBelow G Y x)
    (hc : Clear v p) (hYp : ¬ Y p) (hq : v.has q = true) (hm : MayBe E G q x) (hd : q = E.root ∨ E.disp q = true) (hqp : q ≠ p) :
    ∃ v4 v5, (v.upd x fun n => { n with parents := [q] }).sendRemove E.root x p = .ok v4 ∧ v4.dropKid p x = .ok v5 ∧
      Stale E G P (fun z => X z ∨ z = x) Y v5 ∧ v5.has = v.has ∧ (∀ y, v5.pars y = if y = x then [q] else v.pars y) ∧
      (∀ c b, c ∈ v5.kids b ↔ c ∈ v.kids b ∧ ¬ (b = p ∧ c = x)) := by
  have hpx : p ∈ v.pars x := by rw [hx]; simp
  have hxr := h.ne_root hpx
  have hxin := View.has_of_par hpx
  have hxk := h.up x hX p hpx
  have hYq : ¬ Y q := by
    intro hy
    rcases hd with rfl | hd
    · exact (h.gone _ hy).1 rfl
    · rw [(h.gone _ hy).2] at hd; cases hd
  set v3 := v.upd x fun n => { n with parents := [q] } with hv3
  have c3 : v3.has = v.has := funext fun y => View.has_upd _ _ _ _
  have k3 : v3.kids = v.kids := funext (View.kids_updPars v x (fun _ => [q]))
  have p3 : ∀ y, v3.pars y = if y = x then [q] else v.pars y := by
    intro y
    rw [hv3, View.pars_updPars v x (fun _ => [q]) hxin]
    obtain ⟨n, hn⟩ := View.get_of_has hxin
    rw [hn]; rfl
  have hrq : rank q < rank x := hm.lt hE hxr
  have hrp := h.prank hE hpx
  have hne : ∀ z, ReachEq v.pars p z → z ≠ x := by
    rintro z hz rfl
    have := h.reach_rank hE hz
    omega
  have hpo : PathsOn rank v3 v.both (fun z => ReachEq v.pars p z) := by
    have := h.pathsOn hE hc
    refine ⟨?_, ?_, ?_, ?_, ?_, this.rank⟩
    · intro y a ha
      rw [p3] at ha
      rw [c3]
      split at ha
      · rename_i e; subst e
        simp at ha; subst ha
        exact ⟨hq, hrq⟩
      · exact this.par y a ha
    · intro y; rw [p3]; split
      · simp
      · exact h.nd y
    · intro y hy a ha
      rw [p3, if_neg (hne y hy)] at ha
      exact this.up y hy a ha
    · intro y hy a
      rw [p3, if_neg (hne y hy)]
      exact this.edge y hy a
    · intro y hy a ha
      rw [p3, if_neg (hne y hy)] at ha
      rw [k3]; exact this.kid y hy a ha
  obtain ⟨v4, a1, a2, a3⟩ := sendRemove_on (root := E.root) (rank := rank) (v := v3)
    ⟨⟨M, hE.bound⟩, fun a c hc => h.krank hE (by rw [k3] at hc; exact hc), by rw [k3]; exact h.ndK⟩
    (e := fun a b => v.both a b ∧ ¬ (a = p ∧ b = x)) (e' := v.both) (p := p) (x := x)
    (G := fun z => ReachEq v.pars p z) (D := fun z => ReachEq v.kids x z) (Or.inl rfl)
    (by rw [k3, c3]; exact h.kidsIn hxr hY) (by rw [c3]; exact (h.par x p hpx).1) (by rw [c3]; exact hxin) hrp hpo (Or.inl rfl)
    (by
      intro a b
      constructor
      · intro hab
        by_cases e : a = p ∧ b = x
        · exact Or.inr e
        · exact Or.inl ⟨hab, e⟩
      · rintro (hab | ⟨rfl, rfl⟩)
        · exact hab.1
        · exact ⟨hpx, hxk⟩)
    (fun hab => hab.2 ⟨rfl, rfl⟩)
    (by
      intro ext
      unfold Below
      rw [k3]
      exact h.below hxr hY ext) h.rows
  have c4 : v4.has = v.has := (View.has_congr a2).trans c3
  have k4 : v4.kids = v.kids := (View.kids_congr a2).trans k3
  have p4 : ∀ y, v4.pars y = if y = x then [q] else v.pars y := fun y => by rw [View.pars_congr a2]; exact p3 y
  have hpin : v4.has p = true := by rw [c4]; exact (h.par x p hpx).1
  obtain ⟨n, hn⟩ := View.get_of_has hpin
  have hnk : n.children = v.kids p := by rw [← k4]; exact (View.kids_of_get hn).symm
  set v5 := v4.upd p fun n => { n with children := n.children.erase x } with hv5
  have hdrop : v4.dropKid p x = .ok v5 := by
    unfold View.dropKid; rw [hn]; dsimp only; rw [if_pos (by rw [hnk]; exact hxk)]
  have c5 : v5.has = v.has := (funext fun y => View.has_upd _ _ _ _).trans c4
  have p5 : ∀ y, v5.pars y = if y = x then [q] else v.pars y := fun y => by
    rw [hv5, View.pars_updKids v4 p (fun l => l.erase x)]; exact p4 y
  have k5 : ∀ y, v5.kids y = if y = p then (v.kids p).erase x else v.kids y := fun y => by
    rw [hv5, View.kids_updKids v4 p (fun l => l.erase x) hpin, k4]
  have m5 : ∀ c b, c ∈ v5.kids b ↔ c ∈ v.kids b ∧ ¬ (b = p ∧ c = x) := by
    intro c b
    rw [k5]
    by_cases e : b = p
    · subst e; rw [if_pos rfl, (h.ndK b).mem_erase_iff]; tauto
    · rw [if_neg e]; simp [e]
  have hdet : ∀ b, ¬ Y b → x ∉ v5.kids b := by
    intro b hb hxb
    obtain ⟨h1, h2⟩ := (m5 x b).1 hxb
    have := (h.dn b hb x h1).2
    rw [hx] at this
    exact h2 ⟨by simpa using this, rfl⟩
  refine ⟨v4, v5, a1, hdrop, ⟨?_, c5 ▸ h.rootIn, ?_, ?_, h.gone, c5 ▸ h.real, ?_, ?_, ?_, ?_, ?_, ?_, ?_, ?_, ?_, c5 ▸ h.shown, ?_, ?_⟩, c5, p5, m5⟩
  · rw [hv5, View.keys_upd]
    have : v4.nodes.keys = v.nodes.keys := by rw [a2, hv3, View.keys_upd]
    rw [this]; exact h.keys
  · rw [p5, if_neg (Ne.symm hxr)]; exact h.rootPars
  · rintro z (hz | rfl)
    · exact h.out z hz
    · exact hxr
  · intro y a ha
    rw [p5] at ha; rw [c5]
    split at ha
    · rename_i e; subst e
      simp at ha; subst ha
      exact ⟨hq, hm⟩
    · exact h.par y a ha
  · intro y a ha
    rw [p5] at ha ⊢
    split at ha
    · rename_i e; rw [if_pos e]; simp at ha; rw [ha]
    · rename_i e; rw [if_neg e]; exact h.one y a ha
  · intro a c hc; exact h.kid a c ((m5 c a).1 hc).1
  · intro y; rw [k5]; split
    · exact (h.ndK p).erase x
    · exact h.ndK y
  · intro y hy a ha
    have hyx : y ≠ x := fun e => hy (Or.inr e)
    rw [p5, if_neg hyx] at ha
    exact (m5 y a).2 ⟨h.up y (fun hz => hy (Or.inl hz)) a ha, fun e => hyx e.2⟩
  · intro a ha c hc
    have hcx : c ≠ x := by rintro rfl; exact hdet a ha hc
    rw [c5, p5, if_neg hcx]
    exact h.dn a ha c ((m5 c a).1 hc).1
  · rintro z (hz | rfl) a ha hc
    · exact h.det z hz a ha ((m5 z a).1 hc).1
    · exact hdet a ha hc
  · rintro z hz a ha
    rw [p5] at ha
    split at ha
    · simp at ha; subst ha; exact hd
    · rename_i e; exact h.aim z (hz.resolve_right e) a ha
  · intro y hy hn' hX'
    have hyx : y ≠ x := fun e => hX' (Or.inr e)
    rw [p5, if_neg hyx]
    rw [c5] at hy
    exact h.full y hy hn' (fun hz => hX' (Or.inl hz))
  · intro hf y hX' hy hdy a ha hPa hda
    have hyx : y ≠ x := fun e => hX' (Or.inr e)
    rw [p5, if_neg hyx]
    rw [c5] at hy
    exact h.stuck hf y (fun hz => hX' (Or.inl hz)) hy hdy a ha hPa hda
  · refine (RowsSet.fewerKids (v' := v5) (a3 : RowsSet v5.out _ _) fun y => ?_).congr fun l => ?_
    · rw [k5]; split
      · rename_i e; rw [e]; exact List.erase_sublist
      · exact List.Sublist.refl _
    have : (fun a b => v.both a b ∧ ¬ (a = p ∧ b = x)) = v5.both := by
      funext a b
      apply propext
      show (a ∈ v.pars b ∧ b ∈ v.kids a) ∧ ¬ (a = p ∧ b = x) ↔ a ∈ v5.pars b ∧ b ∈ v5.kids a
      rw [p5, m5]
      by_cases e : b = x
      · subst e
        rw [if_pos rfl, hx]
        constructor
        · rintro ⟨⟨h1, -⟩, h3⟩; exact absurd ⟨by simpa using h1, rfl⟩ h3
        · rintro ⟨h1, h2, h3⟩
          simp at h1; subst h1
          exact absurd ((m5 b a).2 ⟨h2, h3⟩) (hdet a hYq)
      · rw [if_neg e]; tauto
    rw [this]

theorem attach (hE : GOK E G rank M) (h : Stale E G P (fun z => X z ∨ z = x) Y v) {q : Id} (hx : v.pars x = [q]) (hX : ¬ X x)
    (hY : NoneBelow G Y x) (hc : Clear v q)
    (hst : E.flat = false → E.disp x = true → ∀ p ∈ E.par x, ¬ P p → E.disp p = true → p = q) :
    ∃ v2, (v.upd q fun n => { n with children := n.children ++ [x] }).sendAdd E.root x q = .ok v2 ∧
      Stale E G P X Y v2 ∧ v2.has = v.has ∧ v2.pars = v.pars ∧ (∀ c b, c ∈ v2.kids b ↔ c ∈ v.kids b ∨ (b = q ∧ c = x)) := by
  have hqx : q ∈ v.pars x := by rw [hx]; simp
  have hxr := h.ne_root hqx
  have hxin := View.has_of_par hqx
  have hqin := (h.par x q hqx).1
  have hYq : ¬ Y q := by
    intro hy
    rcases h.aim x (Or.inr rfl) q hqx with rfl | hd
    · exact (h.gone _ hy).1 rfl
    · rw [(h.gone _ hy).2] at hd; cases hd
  have hxk : x ∉ v.kids q := h.det x (Or.inr rfl) q hYq
  have hrq := h.prank hE hqx
  set v1 := v.upd q fun n => { n with children := n.children ++ [x] } with hv1
  have c1 : v1.has = v.has := funext fun y => View.has_upd _ _ _ _
  have p1 : v1.pars = v.pars := funext (View.pars_updKids v q (fun l => l ++ [x]))
  have k1 : ∀ y, v1.kids y = if y = q then v.kids q ++ [x] else v.kids y := View.kids_updKids v q (fun l => l ++ [x]) hqin
  have m1 : ∀ c b, c ∈ v1.kids b ↔ c ∈ v.kids b ∨ (b = q ∧ c = x) := by
    intro c b
    rw [k1]
    by_cases e : b = q
    · subst e; simp
    · rw [if_neg e]; simp [e]
  have hkd : ∀ z, ReachEq v.kids x z → z ≠ q := by
    rintro z hz rfl
    have h1 : rank x ≤ rank z := h.kids_rank hE hz
    omega
  have hpo : PathsOn rank v1 v.both (fun z => ReachEq v.pars q z) := by
    have := h.pathsOn hE hc
    exact ⟨by rw [c1, p1]; exact this.par, p1 ▸ this.ndP, by rw [p1]; exact this.up, by rw [p1]; exact this.edge,
      fun y hy a ha => (m1 y a).2 (Or.inl (this.kid y hy a (by rw [p1] at ha; exact ha))), this.rank⟩
  have hn1 : ∀ p, (v1.kids p).Nodup := by
    intro y; rw [k1]; split
    · rw [List.nodup_append]
      refine ⟨h.ndK q, by simp, ?_⟩
      rintro a ha b hb rfl
      simp at hb; subst hb; exact hxk ha
    · exact h.ndK y
  obtain ⟨v2, a1, a2, a3⟩ := sendAdd_on (root := E.root) (rank := rank) (v := v1)
    ⟨⟨M, hE.bound⟩, fun a c hc => (by
      rcases (m1 c a).1 hc with e | ⟨rfl, rfl⟩
      · exact h.krank hE e
      · exact hrq), hn1⟩
    (e := v.both) (e' := fun a b => v.both a b ∨ (a = q ∧ b = x)) (p := q) (x := x)
    (G := fun z => ReachEq v.pars q z) (D := fun z => ReachEq v.kids x z) (Or.inl rfl)
    (by
      intro z hz c hc
      rw [k1, if_neg (hkd z hz)] at hc
      rw [c1]
      exact h.kidsIn hxr hY z hz c hc) (by rw [c1]; exact hqin) (by rw [c1]; exact hxin) hrq hpo (Or.inl rfl)
    (fun _ _ => Iff.rfl) (fun hab => hxk hab.2)
    (by
      intro ext
      have e1 : Below v1 x ext ↔ Below v x ext := by
        refine chain_on (fun z => ReachEq v.kids x z) (fun z hz c => ?_) ext x (Or.inl rfl)
        rw [k1, if_neg (hkd z hz)]
        exact ⟨Iff.rfl, fun hc => hz.trans (Or.inr (Reach.single hc))⟩
      rw [e1, h.below hxr hY ext]
      refine chain_on (fun z => ReachEq v.kids x z) (fun z hz c => ⟨⟨Or.inl, ?_⟩, fun hc => hz.trans (Or.inr (Reach.single hc.2))⟩) ext x (Or.inl rfl)
      rintro (hh | ⟨e, -⟩)
      · exact hh
      · exact absurd e (hkd z hz))
    (fun a _ => by
      have := hn1 q
      rw [k1, if_pos rfl] at this ⊢
      exact last_before_none this)
    (RowsSet.moreKids (v := v) h.rows (fun hab => hxk hab.2) k1)
  have c2 : v2.has = v.has := (View.has_congr a2).trans c1
  have p2 : v2.pars = v.pars := (View.pars_congr a2).trans p1
  have m2 : ∀ c b, c ∈ v2.kids b ↔ c ∈ v.kids b ∨ (b = q ∧ c = x) := fun c b => by rw [View.kids_congr a2]; exact m1 c b
  refine ⟨v2, a1, ⟨?_, c2 ▸ h.rootIn, p2 ▸ h.rootPars, fun z hz => h.out z (Or.inl hz), h.gone, c2 ▸ h.real, ?_, p2 ▸ h.one, ?_, ?_, ?_, ?_, ?_, ?_, ?_, c2 ▸ h.shown, ?_, ?_⟩, c2, p2, m2⟩
  · rw [a2, hv1, View.keys_upd]; exact h.keys
  · rw [c2, p2]; exact h.par
  · intro a c hc
    rcases (m2 c a).1 hc with e | ⟨rfl, rfl⟩
    · exact h.kid a c e
    · exact ⟨hxr, (h.par _ _ hqx).2⟩
  · rw [View.kids_congr a2]; exact hn1
  · intro y hy a ha
    rw [p2] at ha
    rw [m2]
    by_cases e : y = x
    · subst e
      rw [hx] at ha
      exact Or.inr ⟨by simpa using ha, rfl⟩
    · exact Or.inl (h.up y (by rintro (hz | hz); exacts [hy hz, e hz]) a ha)
  · intro a ha c hc
    rw [c2, p2]
    rcases (m2 c a).1 hc with e | ⟨rfl, rfl⟩
    · exact h.dn a ha c e
    · exact ⟨hxin, hqx⟩
  · intro z hz a ha hc
    rcases (m2 z a).1 hc with e | ⟨rfl, rfl⟩
    · exact h.det z (Or.inl hz) a ha e
    · exact hX hz
  · intro z hz; rw [p2]; exact h.aim z (Or.inl hz)
  · intro y hy hn' hX'
    rw [c2] at hy; rw [p2]
    by_cases e : y = x
    · subst e; rw [hx]; simp
    · exact h.full y hy hn' (by rintro (hz | hz); exacts [hX' hz, e hz])
  · intro hf y hX' hy hdy a ha hPa hda
    rw [c2] at hy; rw [p2]
    by_cases e : y = x
    · subst e; rw [hst hf hdy a ha hPa hda]; exact hqx
    · exact h.stuck hf y (by rintro (hz | hz); exacts [hX' hz, e hz]) hy hdy a ha hPa hda
  · refine a3.congr fun l => ?_
    have : (fun a b => v.both a b ∨ (a = q ∧ b = x)) = v2.both := by
      funext a b
      apply propext
      show (a ∈ v.pars b ∧ b ∈ v.kids a) ∨ (a = q ∧ b = x) ↔ a ∈ v2.pars b ∧ b ∈ v2.kids a
      rw [p2, m2]
      constructor
      · rintro (⟨h1, h2⟩ | ⟨rfl, rfl⟩)
        · exact ⟨h1, Or.inl h2⟩
        · exact ⟨hqx, Or.inr ⟨rfl, rfl⟩⟩
      · rintro ⟨h1, h2 | h2⟩
        · exact Or.inl ⟨h1, h2⟩
        · exact Or.inr h2
    rw [this]

/-- A child is taken from a node that is about to go. -/
theorem orphan (hE : GOK E G rank M) (h : Stale E G P X Y v) {x c : Id} (hxY : Y x) (hck : c ∈ v.kids x) (hcp : x ∈ v.pars c) (hX : ¬ X c)
    (hc : Clear v x) (hY : NoneBelow G Y c) :
    ∃ v1 v2, v.sendRemove E.root c x = .ok v1 ∧ v1.dropPar c x = .ok v2 ∧
      Stale E G P (fun z => X z ∨ z = c) Y v2 ∧ v2.has = v.has ∧ (∀ y, v2.pars y = if y = c then [] else v.pars y) ∧ v2.kids = v.kids := by
  have hcr := h.ne_root hcp
  have hcin := View.has_of_par hcp
  have hr := h.prank hE hcp
  obtain ⟨v1, a1, a2, a3⟩ := sendRemove_on (root := E.root) (rank := rank) (v := v) (h.sendOK hE)
    (e := fun a b => v.both a b ∧ ¬ (a = x ∧ b = c)) (e' := v.both) (p := x) (x := c)
    (G := fun z => ReachEq v.pars x z) (D := fun z => ReachEq v.kids c z) (Or.inl rfl)
    (h.kidsIn hcr hY) (h.par c x hcp).1 hcin hr (h.pathsOn hE hc) (Or.inl rfl)
    (by
      intro a b
      constructor
      · intro hab
        by_cases e : a = x ∧ b = c
        · exact Or.inr e
        · exact Or.inl ⟨hab, e⟩
      · rintro (hab | ⟨rfl, rfl⟩)
        · exact hab.1
        · exact ⟨hcp, hck⟩)
    (fun hab => hab.2 ⟨rfl, rfl⟩) (h.below hcr hY) h.rows
  have hcin1 : v1.has c = true := by rw [View.has_congr a2]; exact hcin
  obtain ⟨n, hn⟩ := View.get_of_has hcin1
  have hnp : n.parents = [x] := by
    rw [← h.one c x hcp, ← View.pars_congr a2]; exact (View.pars_of_get hn).symm
  set v2 := v1.upd c fun n => { n with parents := n.parents.erase x } with hv2
  have hdrop : v1.dropPar c x = .ok v2 := by
    unfold View.dropPar; rw [hn]; dsimp only; rw [if_pos (by rw [hnp]; simp)]
  have c2 : v2.has = v.has := (funext fun y => View.has_upd _ _ _ _).trans (View.has_congr a2)
  have k2 : v2.kids = v.kids := (funext (View.kids_updPars v1 c (fun n => n.parents.erase x))).trans (View.kids_congr a2)
  have p2 : ∀ y, v2.pars y = if y = c then [] else v.pars y := by
    intro y
    rw [hv2, View.pars_updPars v1 c (fun n => n.parents.erase x) hcin1, hn]
    by_cases e : y = c
    · rw [if_pos e, if_pos e]; simp [hnp]
    · rw [if_neg e, if_neg e, View.pars_congr a2]
  have hdet : ∀ b, ¬ Y b → c ∉ v.kids b := by
    intro b hb hcb
    have := (h.dn b hb c hcb).2
    rw [h.one c x hcp] at this
    simp at this; subst this
    exact hb hxY
  refine ⟨v1, v2, a1, hdrop, ⟨?_, c2 ▸ h.rootIn, ?_, ?_, h.gone, c2 ▸ h.real, ?_, ?_, k2 ▸ h.kid, k2 ▸ h.ndK, ?_, ?_, ?_, ?_, ?_, c2 ▸ h.shown, ?_, ?_⟩, c2, p2, k2⟩
  · rw [hv2, View.keys_upd, a2]; exact h.keys
  · rw [p2, if_neg (Ne.symm hcr)]; exact h.rootPars
  · rintro z (hz | rfl)
    · exact h.out z hz
    · exact hcr
  · intro y a ha
    rw [p2] at ha; rw [c2]
    split at ha
    · cases ha
    · exact h.par y a ha
  · intro y a ha
    rw [p2] at ha ⊢
    split at ha
    · cases ha
    · rename_i e; rw [if_neg e]; exact h.one y a ha
  · intro y hy a ha
    rw [p2, if_neg (fun e => hy (Or.inr e))] at ha
    rw [k2]; exact h.up y (fun hz => hy (Or.inl hz)) a ha
  · intro a ha b hb
    rw [k2] at hb
    rw [c2, p2, if_neg (by rintro rfl; exact hdet a ha hb)]
    exact h.dn a ha b hb
  · rintro z (hz | rfl) a ha hb
    · rw [k2] at hb; exact h.det z hz a ha hb
    · rw [k2] at hb; exact hdet a ha hb
  · intro z hz a ha
    rw [p2] at ha
    split at ha
    · cases ha
    · rename_i e; exact h.aim z (hz.resolve_right e) a ha
  · intro y hy hn' hX'
    rw [c2] at hy
    rw [p2, if_neg (fun e => hX' (Or.inr e))]
    exact h.full y hy hn' (fun hz => hX' (Or.inl hz))
  · intro hf y hX' hy hdy a ha hPa hda
    rw [c2] at hy
    rw [p2, if_neg (fun e => hX' (Or.inr e))]
    exact h.stuck hf y (fun hz => hX' (Or.inl hz)) hy hdy a ha hPa hda
  · refine (RowsSet.sameKids (v' := v2) (a3 : RowsSet v2.out _ _) fun y => congrFun k2 y).congr fun l => ?_
    have : (fun a b => v.both a b ∧ ¬ (a = x ∧ b = c)) = v2.both := by
      funext a b
      apply propext
      show (a ∈ v.pars b ∧ b ∈ v.kids a) ∧ ¬ (a = x ∧ b = c) ↔ a ∈ v2.pars b ∧ b ∈ v2.kids a
      rw [p2, k2]
      by_cases e : b = c
      · subst e
        rw [if_pos rfl, h.one _ _ hcp]; simp; tauto
      · rw [if_neg e]; tauto
    rw [this]

/-- A node that nobody has as a parent is deleted. -/
theorem delete (h : Stale E G P X (fun z => Y z ∨ z = x) v) (hn : ∀ y, x ∉ v.pars y)
    {ps : List (List Id)} (hnd : ps.Nodup) (hps : ∀ l, l ∈ ps ↔ PathTo v.both E.root l x) :
    ∃ w, w = ({ v with nodes := v.nodes.del x } : View).send .deleted x ps ∧
      (∀ y, w.has y = true ↔ v.has y = true ∧ y ≠ x) ∧ (∀ y, w.pars y = if y = x then [] else v.pars y) ∧
      (∀ y, w.kids y = if y = x then [] else v.kids y) ∧ w.nodes.keys.Nodup ∧
      RowsSet w.out (RowE (fun p y => v.both p y ∧ y ≠ x) E.root) (w.under E.root) := by
  have hxr : x ≠ E.root := (h.gone x (Or.inr rfl)).1
  refine ⟨_, rfl, ?_⟩
  set w := ({ v with nodes := v.nodes.del x } : View).send .deleted x ps with hw
  have g2 : ∀ y, w.nodes.get? y = if y = x then none else v.nodes.get? y := fun y => Dict.get?_del _ _ _
  have k2 : ∀ y, w.kids y = if y = x then [] else v.kids y := by
    intro y
    unfold View.kids
    rw [g2]
    by_cases h : y = x <;> simp [h]
  refine ⟨?_, ?_, k2, ?_, ?_⟩
  · intro y
    unfold View.has Dict.has
    rw [g2]
    by_cases h : y = x <;> simp [h]
  · intro y
    unfold View.pars
    rw [g2]
    by_cases h : y = x <;> simp [h]
  · show (v.nodes.del x).keys.Nodup
    rw [Dict.keys_del]
    exact h.keys.filter _
  · have hleaf : ∀ y, ¬ v.both x y := fun y hy => hn y hy.1
    have hd := h.rows.deletedMany (x := x) ps (fun a ha => (rowE_of_path hxr ((hps a).1 ha)).2) hnd
      (fun a ha => (rowE_of_path hxr ((hps a).1 ha)).1)
      (by
        rintro a ha r ⟨-, hr⟩ ⟨t, rfl⟩
        rw [chain_leaf hleaf hr ((hps a).1 ha).2]; simp)
    refine (RowsSet.fewerKids (v' := w) (hd : RowsSet w.out _ _) fun y => by rw [k2]; split <;> simp).congr fun l => ?_
    constructor
    · rintro ⟨⟨h1, h2⟩, h3⟩
      refine ⟨h1, chain_avoid l E.root ?_ h2⟩
      intro hxl
      apply h3
      obtain ⟨s, t, rfl⟩ := List.append_of_mem hxl
      have h2' : List.IsChain v.both (E.root :: ((s ++ [x]) ++ t)) := by simpa using h2
      have ht := chain_leaf hleaf h2' (getLast_snoc _ _ _)
      subst ht
      exact (hps _).2 ⟨h2, getLast_snoc _ _ _⟩
    · rintro ⟨h1, h2⟩
      refine ⟨⟨h1, h2.imp (fun {a b} hab => hab.1)⟩, ?_⟩
      intro hl
      have hlast := ((hps l).1 hl).2
      rcases List.eq_nil_or_concat l with rfl | ⟨l', z, rfl⟩
      · exact h1 rfl
      · rw [List.concat_eq_append] at h2 hlast
        rw [getLast_snoc] at hlast
        obtain ⟨p, -, -, hp⟩ := chain_snoc.1 h2
        exact hp.2 (by simpa using hlast)

/-- The view after the node was taken out of all lists. -/
theorem deleted {w : View} (h : Stale E G P X' (fun z => Y z ∨ z = x) v) (hX' : ∀ z, X' z → X z ∨ z = x) (hX'' : ∀ z, X z → X' z ∧ z ≠ x) (hY : ¬ Y x) (hn : ∀ y, x ∉ v.pars y)
    (hh : ∀ y, w.has y = true ↔ v.has y = true ∧ y ≠ x) (hp : ∀ y, w.pars y = if y = x then [] else v.pars y)
    (hk : ∀ c b, c ∈ w.kids b → c ∈ v.kids b ∧ b ≠ x) (hk' : ∀ c b, c ∈ v.kids b → b ≠ x → c ≠ x → c ∈ w.kids b)
    (hkx : ∀ b, ¬ Y b → x ∉ w.kids b) (hkn : ∀ b, (w.kids b).Nodup) (hkeys : w.nodes.keys.Nodup)
    (hr : RowsSet w.out (RowE (fun p y => v.both p y ∧ y ≠ x) E.root) (w.under E.root)) : Stale E G P X Y w := by
  obtain ⟨hxr, hxd⟩ := h.gone x (Or.inr rfl)
  have hYne : ∀ b, ¬ Y b → b ≠ x → ¬ (Y b ∨ b = x) := by
    rintro b h1 h2 (h3 | h3)
    · exact h1 h3
    · exact h2 h3
  have hhf : ∀ y, w.has y = true → v.has y = true := fun y hy => ((hh y).1 hy).1
  refine ⟨hkeys, (hh _).2 ⟨h.rootIn, Ne.symm hxr⟩, ?_, fun z hz => h.out z (hX'' z hz).1, fun z hz => h.gone z (Or.inl hz), fun y hy => h.real y (hhf y hy),
    ?_, ?_, fun p c hc => h.kid p c (hk c p hc).1, hkn, ?_, ?_, ?_, ?_, ?_, ?_, ?_, ?_⟩
  · rw [hp, if_neg (Ne.symm hxr)]; exact h.rootPars
  · intro y p hpy
    rw [hp] at hpy
    split at hpy
    · cases hpy
    · refine ⟨(hh p).2 ⟨(h.par y p hpy).1, ?_⟩, (h.par y p hpy).2⟩
      rintro rfl; exact hn y hpy
  · intro y p hpy
    rw [hp] at hpy ⊢
    split at hpy
    · cases hpy
    · rename_i e; rw [if_neg e]; exact h.one y p hpy
  · intro y hy p hpy
    rw [hp] at hpy
    split at hpy
    · cases hpy
    · rename_i e
      refine hk' y p (h.up y (fun hz => ?_) p hpy) (by rintro rfl; exact hn y hpy) e
      exact (hX' y hz).elim hy e
  · intro p hYp c hc
    obtain ⟨h1, h2⟩ := hk c p hc
    have hcx : c ≠ x := by rintro rfl; exact hkx p hYp hc
    have := h.dn p (hYne p hYp h2) c h1
    exact ⟨(hh c).2 ⟨this.1, hcx⟩, by rw [hp, if_neg hcx]; exact this.2⟩
  · intro z hz p hYp hc
    obtain ⟨h1, h2⟩ := hk z p hc
    exact h.det z (hX'' z hz).1 p (hYne p hYp h2) h1
  · intro z hz p hpz
    rw [hp] at hpz
    split at hpz
    · cases hpz
    · exact h.aim z (hX'' z hz).1 p hpz
  · intro y hy hr' hX
    obtain ⟨h1, h2⟩ := (hh y).1 hy
    rw [hp, if_neg h2]
    exact h.full y h1 hr' (fun hz => (hX' y hz).elim hX h2)
  · intro y hP hr'
    by_cases e : y = x
    · subst e
      rw [hxd]
      by_contra hc
      exact ((hh y).1 (by simpa using hc)).2 rfl
    · rw [← h.shown y hP hr', Bool.eq_iff_iff, hh]; simp [e]
  · intro hf y hX hy hdy p hpy hPp hdp
    obtain ⟨h1, h2⟩ := (hh y).1 hy
    rw [hp, if_neg h2]
    exact h.stuck hf y (fun hz => (hX' y hz).elim hX h2) h1 hdy p hpy hPp hdp
  · refine hr.congr fun l => ?_
    have : (fun p y => v.both p y ∧ y ≠ x) = w.both := by
      funext p y
      apply propext
      show (p ∈ v.pars y ∧ y ∈ v.kids p) ∧ y ≠ x ↔ p ∈ w.pars y ∧ y ∈ w.kids p
      rw [hp]
      constructor
      · rintro ⟨⟨h1, h2⟩, h3⟩
        rw [if_neg h3]
        exact ⟨h1, hk' y p h2 (by rintro rfl; exact hn y h1) h3⟩
      · rintro ⟨h1, h2⟩
        split at h1
        · cases h1
        · rename_i e; exact ⟨⟨h1, (hk y p h2).1⟩, e⟩
    rw [this]

end Stale

end Larch
