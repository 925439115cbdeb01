import Verif.Proofs.ViewStale

/-!
# The downward pass over a view that is out of date
-/

namespace Larch

open Spec Graph

variable {E : VEnv} {G : Roof} {rank : Id → Nat} {M : Nat}

/-! ### Running the shared part -/

theorem diff_single (hE : GOK E G rank M) {q : Id} {b : List Id} (h : q ∉ b) : E.diff [q] b = [q] := by
  obtain ⟨hnd, hm⟩ := hE.diff [q] b
  have hA : ∀ p, p ∈ E.diff [q] b ↔ p = q := by
    intro p; rw [hm]
    constructor
    · rintro ⟨h1, -⟩; simpa using h1
    · rintro rfl; exact ⟨by simp, h⟩
  rcases hl : E.diff [q] b with _ | ⟨a, l⟩
  · have := (hA q).2 rfl
    rw [hl] at this; cases this
  · rw [hl] at hA hnd
    have ha := (hA a).1 (by simp)
    rw [List.nodup_cons] at hnd
    have hl0 : l = [] := by
      rw [List.eq_nil_iff_forall_not_mem]
      intro p hp
      have := (hA p).1 (by simp [hp])
      rw [this, ← ha] at hp; exact hnd.1 hp
    rw [ha, hl0]

theorem forEach_one {α σ : Type} {body : α → σ → Res σ} {a : α} {s s' : σ} (h : body a s = .ok s') : Res.forEach body [a] s = .ok s' := by
  rw [Res.forEach, h]; rfl

theorem settle_old {up : Id → View → Res View} {x q : Id} {dir : Dir} {v v4 v5 v6 : View} {n : VNode} {ps : List (List Id)}
    (hx : v.has x = true) (hn : v.nodes.get? x = some n) (hq : E.newPars v x = [q]) (hqh : v.has q = true)
    {dir' : Dir} (hd : (if dir = .down ∧ E.root ∈ E.diff [q] n.parents then .both else dir) = dir')
    (h4 : Res.forEach (E.leave up dir'.goesUp x) (E.diff n.parents [q]) (v.upd x fun n => { n with parents := [q] }) = .ok v4)
    (h5 : Res.forEach (E.join up dir'.goesUp x) (E.diff [q] n.parents) v4 = .ok v5)
    (h6 : (if dir'.goesUp = true then Res.forEach up (E.diff [q] (E.diff [q] n.parents)) v5 else .ok v5) = .ok v6)
    (h7 : v6.paths E.root x = .ok ps) : E.settle up x dir v = .ok (v6.send .modified x ps) := by
  unfold VEnv.settle
  dsimp only
  have hfil : [q].filter v.has = [q] := by simp [hqh]
  simp only [hx, Bool.not_true, Bool.false_eq_true, if_false, Res.andThen_ok, hn]
  rw [hq, hfil, hd, h4, Res.andThen_ok, h5, Res.andThen_ok, h6, Res.andThen_ok, h7]

theorem settle_new {up : Id → View → Res View} {x q : Id} {dir : Dir} {v v2 v4 v5 v6 : View} {n : VNode}
    (hx : v.has x = false)
    (h2 : Res.forEach up ((E.par x).filter fun p => decide (p ∉ E.newPars { v with nodes := v.nodes.set x {} } x ∧
      p ∉ View.pars { v with nodes := v.nodes.set x {} } x)) { v with nodes := v.nodes.set x {} } = .ok v2)
    (hn : v2.nodes.get? x = some n) (hq : E.newPars v2 x = [q]) (hqh : v2.has q = true)
    {dir' : Dir} (hd : (if dir = .down ∧ E.root ∈ E.diff [q] n.parents then .both else dir) = dir')
    (h4 : Res.forEach (E.leave up dir'.goesUp x) (E.diff n.parents [q]) (v2.upd x fun n => { n with parents := [q] }) = .ok v4)
    (h5 : Res.forEach (E.join up dir'.goesUp x) (E.diff [q] n.parents) v4 = .ok v5)
    (h6 : (if dir'.goesUp = true then Res.forEach up (E.diff [q] (E.diff [q] n.parents)) v5 else .ok v5) = .ok v6) :
    E.settle up x dir v = .ok v6 := by
  unfold VEnv.settle
  dsimp only
  have hfil : [q].filter v2.has = [q] := by simp [hqh]
  simp only [hx, Bool.not_false, if_true]
  rw [h2, Res.andThen_ok, hn]
  dsimp only
  rw [hq, hfil, hd, h4, Res.andThen_ok, h5, Res.andThen_ok, h6, Res.andThen_ok]

theorem update_root {f : Nat} {dir : Dir} {v : View} : E.update (f + 1) E.root dir v = .ok v := by
  unfold VEnv.update; rw [if_pos rfl]

/-! ### More elementary steps -/

namespace Stale

variable {P P' X X' Y Y' : Id → Prop} {v w : View} {x : Id}

theorem congrX (h : Stale E G P X Y v) (hX : ∀ z, X z ↔ X' z) : Stale E G P X' Y v := by
  have : X = X' := funext fun z => propext (hX z)
  rw [← this]; exact h

theorem moreY (h : Stale E G P X Y v) (hr : x ≠ E.root) (hd : E.disp x = false) : Stale E G P X (fun z => Y z ∨ z = x) v :=
  { h with
    gone := by
      rintro z (hz | rfl)
      · exact h.gone z hz
      · exact ⟨hr, hd⟩
    dn := fun p hp => h.dn p fun hy => hp (Or.inl hy)
    det := fun z hz p hp => h.det z hz p fun hy => hp (Or.inl hy) }

/-- The lists are the same. -/
theorem same (h : Stale E G P X Y v) (hk : w.nodes.keys.Nodup) (e1 : w.has = v.has) (e2 : w.pars = v.pars) (e3 : w.kids = v.kids)
    (e4 : w.out = v.out) : Stale E G P X Y w :=
  ⟨hk, e1 ▸ h.rootIn, e2 ▸ h.rootPars, h.out, h.gone, e1 ▸ h.real, by rw [e1, e2]; exact h.par, e2 ▸ h.one,
    e3 ▸ h.kid, e3 ▸ h.ndK, by rw [e2, e3]; exact h.up, by rw [e1, e2, e3]; exact h.dn, e3 ▸ h.det, e2 ▸ h.aim,
    by rw [e1, e2]; exact h.full, e1 ▸ h.shown, by rw [e1, e2]; exact h.stuck,
    by unfold View.both; rw [e2, e3, e4]; exact RowsSet.sameKids (v' := w) h.rows fun y => congrFun e3 y⟩

/-- A detached node without parents gets one. -/
theorem point (h : Stale E G P X Y v) (hX : X x) (hx : v.has x = true) (hp : v.pars x = []) {q : Id} (hq : v.has q = true)
    (hm : MayBe E G q x) (hd : q = E.root ∨ E.disp q = true) :
    Stale E G P X Y (v.upd x fun n => { n with parents := [q] }) ∧
      (v.upd x fun n => { n with parents := [q] }).has = v.has ∧
      (∀ y, (v.upd x fun n => { n with parents := [q] }).pars y = if y = x then [q] else v.pars y) ∧
      (v.upd x fun n => { n with parents := [q] }).kids = v.kids := by
  set v3 := v.upd x fun n => { n with parents := [q] } with hv3
  have hxr := h.out x hX
  have c3 : v3.has = v.has := funext fun y => View.has_upd _ _ _ _
  have k3 : v3.kids = v.kids := funext (View.kids_updPars v x (fun _ => [q]))
  have p3 : ∀ y, v3.pars y = if y = x then [q] else v.pars y := by
    intro y
    rw [hv3, View.pars_updPars v x (fun _ => [q]) hx]
    obtain ⟨n, hn⟩ := View.get_of_has hx
    rw [hn]; rfl
  have hYq : ¬ Y q := by
    intro hy
    rcases hd with rfl | hd
    · exact (h.gone _ hy).1 rfl
    · rw [(h.gone _ hy).2] at hd; cases hd
  refine ⟨⟨?_, c3 ▸ h.rootIn, ?_, h.out, h.gone, c3 ▸ h.real, ?_, ?_, k3 ▸ h.kid, k3 ▸ h.ndK, ?_, ?_, k3 ▸ h.det, ?_, ?_, c3 ▸ h.shown, ?_, ?_⟩, c3, p3, k3⟩
  · rw [hv3, View.keys_upd]; exact h.keys
  · rw [p3, if_neg (Ne.symm hxr)]; exact h.rootPars
  · intro y a ha
    rw [p3] at ha; rw [c3]
    split at ha
    · rename_i e; subst e
      simp at ha; subst ha
      exact ⟨hq, hm⟩
    · exact h.par y a ha
  · intro y a ha
    rw [p3] at ha ⊢
    split at ha
    · rename_i e; rw [if_pos e]; simp at ha; rw [ha]
    · rename_i e; rw [if_neg e]; exact h.one y a ha
  · intro y hy a ha
    rw [p3, if_neg (by rintro rfl; exact hy hX)] at ha
    rw [k3]; exact h.up y hy a ha
  · intro a ha c hc
    rw [k3] at hc
    rw [c3, p3, if_neg (by rintro rfl; exact h.det c hX a ha hc)]
    exact h.dn a ha c hc
  · intro z hz a ha
    rw [p3] at ha
    split at ha
    · simp at ha; subst ha; exact hd
    · exact h.aim z hz a ha
  · intro y hy hr hX'
    rw [c3] at hy
    rw [p3, if_neg (by rintro rfl; exact hX' hX)]
    exact h.full y hy hr hX'
  · intro hf y hX' hy hdy a ha hPa hda
    rw [c3] at hy
    rw [p3, if_neg (by rintro rfl; exact hX' hX)]
    exact h.stuck hf y hX' hy hdy a ha hPa hda
  · refine (RowsSet.sameKids (v' := v3) (h.rows : RowsSet v3.out _ _) fun y => congrFun k3 y).congr fun l => ?_
    have : v.both = v3.both := by
      funext a b
      apply propext
      show (a ∈ v.pars b ∧ b ∈ v.kids a) ↔ a ∈ v3.pars b ∧ b ∈ v3.kids a
      rw [p3, k3]
      by_cases e : b = x
      · subst e
        rw [if_pos rfl, hp]
        simp
        rintro rfl; exact h.det b hX a hYq
      · rw [if_neg e]
    rw [this]

end Stale

/-! ### Nodes that are left alone -/

/-- Only nodes in `D` were touched, nobody got a new parent in `Y`, no displayed node disappeared and no other node appeared. -/
structure Still (E : VEnv) (Y D : Id → Prop) (v w : View) : Prop where
  has : ∀ y, ¬ D y → w.has y = v.has y
  pars : ∀ y, ¬ D y → w.pars y = v.pars y
  kids : ∀ p c, ¬ D p → ¬ D c → (c ∈ w.kids p ↔ c ∈ v.kids p)
  old : ∀ y p, Y p → p ∈ w.pars y → p ∈ v.pars y
  stay : ∀ y, v.has y = true → E.disp y = true → w.has y = true
  none : ∀ y, w.has y = true → E.disp y = false → v.has y = true

namespace Still

variable {Y Y' D D' : Id → Prop} {u v w : View}

theorem refl : Still E Y D v v := ⟨fun _ _ => rfl, fun _ _ => rfl, fun _ _ _ _ => Iff.rfl, fun _ _ _ h => h, fun _ h _ => h, fun _ h _ => h⟩

theorem trans (h : Still E Y D u v) (h' : Still E Y D v w) : Still E Y D u w :=
  ⟨fun y hy => (h'.has y hy).trans (h.has y hy), fun y hy => (h'.pars y hy).trans (h.pars y hy),
    fun p c hp hc => (h'.kids p c hp hc).trans (h.kids p c hp hc), fun y p hp hh => h.old y p hp (h'.old y p hp hh),
    fun y hy hd => h'.stay y (h.stay y hy hd) hd, fun y hy hd => h.none y (h'.none y hy hd) hd⟩

theorem mono (h : Still E Y D v w) (hY : ∀ y, Y' y → Y y) (hD : ∀ y, D y → D' y) : Still E Y' D' v w :=
  ⟨fun y hy => h.has y fun hd => hy (hD y hd), fun y hy => h.pars y fun hd => hy (hD y hd),
    fun p c hp hc => h.kids p c (fun hd => hp (hD p hd)) (fun hd => hc (hD c hd)), fun y p hp => h.old y p (hY p hp), h.stay, h.none⟩

theorem clear {x : Id} (h : Still E Y D v w) (hr : ∀ z, ReachEq v.pars x z → ¬ D z) (hc : Clear v x) : Clear w x := by
  have key : ∀ z, ReachEq w.pars x z → ReachEq v.pars x z := by
    intro z hz
    rcases hz with rfl | hz
    · exact Or.inl rfl
    · induction hz with
      | single h1 =>
        rw [h.pars x (hr x (Or.inl rfl))] at h1
        exact Or.inr (Reach.single h1)
      | tail _ h1 ih =>
        rw [h.pars _ (hr _ ih)] at h1
        exact ih.trans (Or.inr (Reach.single h1))
  intro z hz p hp
  have hz' := key z hz
  rw [h.pars z (hr z hz')] at hp
  exact (h.kids p z (hr p (hz'.trans (Or.inr (Reach.single hp)))) (hr z hz')).2 (hc z hz' p hp)

theorem of_nodes (h : w.nodes = v.nodes) : Still E Y D v w := by
  have e1 := View.has_congr h
  have e2 := View.pars_congr h
  have e3 := View.kids_congr h
  exact ⟨fun _ _ => by rw [e1], fun _ _ => by rw [e2], fun _ _ _ _ => by rw [e3], fun _ _ _ h => by rw [← e2]; exact h,
    fun _ h _ => by rw [e1]; exact h, fun _ h _ => by rw [← e1]; exact h⟩

end Still

theorem GOK.reach_rank (hE : GOK E G rank M) {x z : Id} (h : ReachEq G.par x z) : rank z ≤ rank x := by
  rcases h with rfl | h
  · exact le_refl _
  · refine le_of_lt ?_
    induction h with
    | single h1 => exact hE.gRank _ _ h1
    | tail _ h1 ih => exact lt_trans (hE.gRank _ _ h1) ih

/-- At most one parent, unless the view is flat. -/
def OneParent (E : VEnv) (G : Roof) : Prop := E.flat = false → ∀ x p q, p ∈ G.par x → q ∈ G.par x → p = q

theorem OneParent.par_eq (hE : GOK E G rank M) (ho : OneParent E G) (hf : E.flat = false) {x p : Id} (h : p ∈ E.par x) : E.par x = [p] := by
  have hnd := hE.parNd x
  rcases hl : E.par x with _ | ⟨a, l⟩
  · rw [hl] at h; cases h
  · have ha : a = p := ho hf x a p (hE.gSup _ _ (by rw [hl]; simp)) (hE.gSup _ _ h)
    rw [hl, List.nodup_cons] at hnd
    have : l = [] := by
      rw [List.eq_nil_iff_forall_not_mem]
      intro q hq
      have := ho hf x q a (hE.gSup _ _ (by rw [hl]; simp [hq])) (hE.gSup _ _ (by rw [hl]; simp))
      rw [this] at hq; exact hnd.1 hq
    rw [ha, this]

theorem OneParent.par_cases (hE : GOK E G rank M) (ho : OneParent E G) (hf : E.flat = false) {x p : Id} (h : p ∈ G.par x) :
    E.par x = [] ∨ E.par x = [p] := by
  rcases hl : E.par x with _ | ⟨a, l⟩
  · exact Or.inl rfl
  · have ha : a ∈ E.par x := by rw [hl]; simp
    right
    rw [← hl, ho.par_eq hE hf ha, ho hf x a p (hE.gSup _ _ ha) h]

theorem reach_up {x p z : Id} (hp : ∀ q ∈ G.par x, q = p) (h : ReachEq G.par x z) : z = x ∨ ReachEq G.par p z := by
  rcases h with rfl | h
  · exact Or.inl rfl
  · obtain ⟨y, h1, h2⟩ := Relation.TransGen.head'_iff.1 h
    have := hp _ h1
    subst this
    right
    rcases Relation.reflTransGen_iff_eq_or_transGen.1 h2 with e | e
    · exact Or.inl e.symm
    · exact Or.inr e

theorem newPars_single (hE : GOK E G rank M) {v : View} (hf : E.flat = false) {x p : Id} (hp : E.par x = [p]) :
    E.newPars v x = if v.has p = true ∧ E.disp p = true then [p] else [E.root] := by
  have hh : E.has x = true := (hE.parHas x p (by rw [hp]; simp)).2
  have hc : E.flat = false ∧ E.has x = true := ⟨hf, hh⟩
  simp only [VEnv.newPars, hc, and_self, if_true, hp]
  by_cases h : v.has p = true ∧ E.disp p = true
  · simp [h]
  · rw [if_neg h]
    have : (v.has p && E.disp p) = false := by
      rw [Bool.eq_false_iff]; intro hc; exact h (by simpa using hc)
    simp [this]

theorem newPars_root {v : View} {x : Id} (hp : ∀ p ∈ E.par x, E.disp p = false) : E.newPars v x = [E.root] := by
  have : ((E.par x).filter fun p => v.has p && E.disp p) = [] := by
    rw [List.filter_eq_nil_iff]
    intro p h
    simp [hp p h]
  unfold VEnv.newPars
  simp only [this]
  split <;> simp

/-! ### Going down -/

/-- The node has lost its parent, which is about to go, or it belongs below a node it is not below. -/
def DownPre (E : VEnv) (G : Roof) (X : Id → Prop) (c : Id) (v : View) : Prop :=
  (X c ∧ v.has c = true ∧ v.pars c = [] ∧ ∃ x, x ∈ G.par c ∧ E.disp x = false ∧ v.has x = true) ∨
  (¬ X c ∧ E.disp c = true ∧ ∃ x, E.par c = [x] ∧ E.disp x = true ∧ v.has x = true ∧ c ∉ v.kids x ∧ Clear v x)

/-- What the downward pass achieves with this much depth. -/
def DownAt (E : VEnv) (G : Roof) (rank : Id → Nat) (M f : Nat) : Prop :=
  ∀ (c : Id) (P X Y : Id → Prop) (v : View), M + 2 ≤ f + rank c → Stale E G P X Y v → E.flat = false → c ≠ E.root →
    NoneBelow G Y c → (∀ z, X z → ReachEq G.par z c → z = c) → DownPre E G X c v →
    ∃ v', E.update f c .down v = .ok v' ∧ Stale E G P (fun z => X z ∧ z ≠ c) Y v' ∧ Still E Y (fun y => ReachEq G.par y c) v v' ∧
      (E.disp c = true → v'.has c = true) ∧ (E.disp c = false → v'.has c = false) ∧
      (∀ x ∈ E.par c, E.disp x = true → x ∈ v'.pars c)

theorem Stale.pars_low (hE : GOK E G rank M) {P X Y : Id → Prop} {v : View} (h : Stale E G P X Y v) {x k : Id} (hr : rank x < rank k) (z : Id)
    (hz : ReachEq v.pars x z) : ¬ ReachEq G.par z k := by
  intro hk
  have := hE.reach_rank hk
  have := h.reach_rank hE hz
  omega

theorem kidsLoop (hE : GOK E G rank M) (ho : OneParent E G) {f : Nat} (ih : DownAt E G rank M f) {c : Id} {P X Y : Id → Prop} {v : View}
    (hM : M + 1 ≤ f + rank c) (h : Stale E G P X Y v) (hr : c ≠ E.root) (hd : E.disp c = true)
    (hin : v.has c = true) (hc : Clear v c) (hX : ∀ z, X z → ¬ ReachEq G.par z c) (hY : NoneBelow G Y c) :
    ∃ v', Res.forEach (fun k v => if k ∉ v.kids c then E.update f k .down v else .ok v) (E.newKids c) v = .ok v' ∧
      Stale E G P X Y v' ∧ Still E Y (fun y => ReachEq G.par y c ∧ y ≠ c) v v' ∧ ∀ k ∈ E.newKids c, c ∈ v'.pars k := by
  have hYc : ¬ Y c := fun hy => hY c hy (Or.inl rfl)
  have hNK : ∀ k ∈ E.newKids c, E.flat = false ∧ c ∈ E.par k ∧ E.disp k = true := fun k hk => (mem_newKids hE.toEOK).1 hk
  generalize E.newKids c = NK at *
  obtain ⟨v', b1, -, b2, b3, b4⟩ := forEach_ok
    (body := fun (k : Id) (v : View) => if k ∉ v.kids c then E.update f k .down v else Res.ok v)
    (fun l w => (∀ k ∈ l, k ∈ NK) ∧ Stale E G P X Y w ∧ Still E Y (fun y => ReachEq G.par y c ∧ y ≠ c) v w ∧ ∀ k ∈ NK, k ∉ l → c ∈ w.pars k)
    (by
      rintro k l w ⟨i1, i2, i3, i4⟩
      have hkN := i1 k (by simp)
      obtain ⟨hf, hkp, hkd⟩ := hNK k hkN
      have hkc := ho.par_eq hE hf hkp
      have hkE := hkp
      replace hkp := hE.gSup _ _ hkp
      have hrk := hE.gRank _ _ hkp
      by_cases hk : k ∉ w.kids c
      · have hXk : ¬ X k := fun hx => hX k hx (Or.inr (Reach.single hkp))
        have hlow : ∀ z, ReachEq v.pars c z → ¬ (ReachEq G.par z c ∧ z ≠ c) := by
          rintro z hz ⟨h1, h2⟩
          have e1 := h.reach_rank hE hz
          rcases h1 with rfl | h1
          · exact h2 rfl
          · obtain ⟨y, g1, g2⟩ := Relation.TransGen.tail'_iff.1 h1
            have e2 := hE.gRank _ _ g2
            have e3 : rank y ≤ rank z := by
              rcases Relation.reflTransGen_iff_eq_or_transGen.1 g1 with e | e
              · rw [e]
              · exact hE.reach_rank (Or.inr e)
            omega
        obtain ⟨w', j1, j2, j3, -, -, j6⟩ := ih k P X Y w (by omega) i2 hf (hE.gNe _ _ hkp).2
          (fun z hz hk => hY z hz (hk.trans (Or.inr (Reach.single hkp))))
          (fun z hz hk => absurd (hk.trans (Or.inr (Reach.single hkp))) (hX z hz))
          (Or.inr ⟨hXk, hkd, c, hkc, hd, by rw [i3.has c (by simp)]; exact hin, hk, i3.clear hlow hc⟩)
        refine ⟨w', by rw [if_pos hk]; exact j1, fun q hq => i1 q (by simp [hq]), j2.congrX fun z => ⟨fun hz => hz.1, fun hz => ⟨hz, ?_⟩⟩,
          i3.trans (j3.mono (fun _ hy => hy) fun y hy => ⟨hy.trans (Or.inr (Reach.single hkp)), ?_⟩), ?_⟩
        · rintro rfl; exact hXk hz
        · rintro rfl
          have := hE.reach_rank hy
          omega
        · intro q hq hql
          by_cases hqk : q = k
          · subst hqk; exact j6 c hkE hd
          · have hqc : ∀ p ∈ G.par q, p = c := fun p hp => ho hf q p c hp (hE.gSup _ _ (hNK q hq).2.1)
            rw [j3.pars q]
            · exact i4 q hq (by simp [hqk, hql])
            · intro hrq
              rcases reach_up hqc hrq with e | e
              · exact hqk e.symm
              · have := hE.reach_rank e
                omega
      · refine ⟨w, by rw [if_neg hk], fun q hq => i1 q (by simp [hq]), i2, i3, ?_⟩
        intro q hq hql
        by_cases hqk : q = k
        · subst hqk; exact (i2.dn c hYc q (by simpa using hk)).2
        · exact i4 q hq (by simp [hqk, hql]))
    NK v ⟨fun _ hk => hk, h, Still.refl, fun k hk hn => absurd hk hn⟩
  exact ⟨v', b1, b2, b3, fun k hk => b4 k hk (by simp)⟩

/-- A node that goes loses its children. -/
theorem abandonAll (hE : GOK E G rank M) (ho : OneParent E G) {f : Nat} (ih : DownAt E G rank M f) {x : Id} {P X Y : Id → Prop} {v : View}
    (hM : M + 1 ≤ f + rank x) (h : Stale E G P X Y v) (hr : x ≠ E.root) (hd : E.disp x = false) (hin : v.has x = true)
    (hc : Clear v x) (hX : ∀ z, X z → ∀ a ∈ v.kids x, ¬ ReachEq G.par z a) (hY : NoneBelow G Y x) :
    ∃ w, Res.forEach (E.abandon (fun c v => E.update f c .down v) x) (v.kids x).reverse v = .ok w ∧
      Stale E G P X (fun z => Y z ∨ z = x) w ∧ Still E Y (fun y => ∃ a ∈ v.kids x, ReachEq G.par y a) v w ∧
      Still E Y (fun y => ReachEq G.par y x ∧ y ≠ x) v w ∧ ∀ y, x ∉ w.pars y := by
  have hYx : ¬ Y x := fun hy => hY x hy (Or.inl rfl)
  have hkid : ∀ a ∈ v.kids x, E.flat = false ∧ x ∈ G.par a := by
    intro a ha
    obtain ⟨hf, hp⟩ := (h.kid x a ha).2.resolve_left hr
    exact ⟨hf, hp⟩
  have hlow : ∀ z, ReachEq v.pars x z → ¬ (ReachEq G.par z x ∧ z ≠ x) := by
    rintro z hz ⟨h1, h2⟩
    have e1 := h.reach_rank hE hz
    rcases h1 with rfl | h1
    · exact h2 rfl
    · obtain ⟨y, g1, g2⟩ := Relation.TransGen.tail'_iff.1 h1
      have e2 := hE.gRank _ _ g2
      have e3 : rank y ≤ rank z := by
        rcases Relation.reflTransGen_iff_eq_or_transGen.1 g1 with e | e
        · rw [e]
        · exact hE.reach_rank (Or.inr e)
      omega
  have hsub : ∀ y, (∃ a ∈ v.kids x, ReachEq G.par y a) → ReachEq G.par y x ∧ y ≠ x := by
    rintro y ⟨a, ha, hk⟩
    have hpa := (hkid a ha).2
    refine ⟨hk.trans (Or.inr (Reach.single hpa)), ?_⟩
    rintro rfl
    have := hE.reach_rank hk
    have := hE.gRank _ _ hpa
    omega
  have hlow' : ∀ z, ReachEq v.pars x z → ¬ ∃ a ∈ v.kids x, ReachEq G.par z a := fun z hz hk => hlow z hz (hsub z hk)
  obtain ⟨w, b1, -, -, b2, b3, -, b4⟩ := forEach_ok (body := E.abandon (fun c v => E.update f c .down v) x)
    (fun l w => l.Nodup ∧ (∀ a ∈ l, a ∈ v.kids x) ∧ Stale E G P X (fun z => Y z ∨ z = x) w ∧
      Still E Y (fun y => ∃ a ∈ v.kids x, ReachEq G.par y a) v w ∧ (∀ a ∈ l, a ∈ w.kids x ∧ x ∈ w.pars a) ∧ ∀ y, x ∈ w.pars y → y ∈ l)
    (by
      rintro c l w ⟨i1, i2, i3, i4, i5, i6⟩
      rw [List.nodup_cons] at i1
      have hcv := i2 c (by simp)
      obtain ⟨hf, hcp⟩ := hkid c hcv
      have hpc := hcp
      have hrc := hE.gRank _ _ hpc
      have hXc : ¬ X c := fun hx => hX c hx c hcv (Or.inl rfl)
      have hYc : NoneBelow G (fun z => Y z ∨ z = x) c := by
        rintro z (hz | rfl) hk
        · exact hY z hz (hk.trans (Or.inr (Reach.single hpc)))
        · have := hE.reach_rank hk
          omega
      obtain ⟨w1, w2, j1, j2, j3, j4, j5, j6⟩ := i3.orphan hE (Or.inr rfl) (i5 c (by simp)).1 (i5 c (by simp)).2 hXc (i4.clear hlow' hc) hYc
      obtain ⟨w3, k1, k2, k3, -, -, -⟩ := ih c P _ _ w2 (by omega) j3 hf (hE.gNe _ _ hpc).2 hYc
        (by
          rintro z (hz | rfl) hk
          · exact absurd hk (hX z hz c hcv)
          · rfl)
        (Or.inl ⟨Or.inr rfl, by rw [j4]; exact View.has_of_par (i5 c (by simp)).2, by rw [j5, if_pos rfl], x, hcp, hd,
          by rw [j4, i4.has x (fun hk => (hsub x hk).2 rfl)]; exact hin⟩)
      have hnot : ∀ a ∈ l, ¬ ReachEq G.par a c := by
        intro a ha hk
        have hap : ∀ q ∈ G.par a, q = x := fun q hq => ho hf a q x hq (hkid a (i2 a (by simp [ha]))).2
        rcases reach_up hap hk with e | e
        · subst e; exact i1.1 ha
        · have := hE.reach_rank e
          omega
      have hxc : ¬ ReachEq G.par x c := by
        intro hk
        have := hE.reach_rank hk
        omega
      have hstep : Still E Y (fun y => ∃ a ∈ v.kids x, ReachEq G.par y a) w w2 := by
        have hDc : ∃ a ∈ v.kids x, ReachEq G.par c a := ⟨c, hcv, Or.inl rfl⟩
        refine ⟨fun y _ => by rw [j4], fun y hy => ?_, fun p q _ _ => by rw [j6], ?_, fun y hy _ => by rw [j4]; exact hy, fun y hy _ => by rw [← j4]; exact hy⟩
        · rw [j5, if_neg (by rintro rfl; exact hy hDc)]
        · intro y p _ hp
          rw [j5] at hp
          split at hp
          · cases hp
          · exact hp
      refine ⟨w3, ?_, i1.2, fun a ha => i2 a (by simp [ha]), k2.congrX fun z => ⟨?_, fun hz => ⟨Or.inl hz, ?_⟩⟩,
        (i4.trans hstep).trans (k3.mono (fun _ => Or.inl) fun y hy => ⟨c, hcv, hy⟩), ?_, ?_⟩
      · unfold VEnv.abandon
        rw [j1, Res.andThen_ok, j2, Res.andThen_ok]
        exact k1
      · rintro ⟨hz | hz, hn⟩
        · exact hz
        · exact absurd hz hn
      · rintro rfl; exact hXc hz
      · intro a ha
        have hac : a ≠ c := by rintro rfl; exact i1.1 ha
        obtain ⟨g1, g2⟩ := i5 a (by simp [ha])
        constructor
        · rw [k3.kids x a hxc (hnot a ha), j6]; exact g1
        · rw [k3.pars a (hnot a ha), j5, if_neg hac]; exact g2
      · intro y hy
        have g1 := k3.old y x (Or.inr rfl) hy
        rw [j5] at g1
        split at g1
        · cases g1
        · rename_i e
          exact (List.mem_cons.1 (i6 y g1)).resolve_left e)
    (v.kids x).reverse v
    ⟨List.nodup_reverse.2 (h.ndK x), fun a ha => List.mem_reverse.1 ha, h.moreY hr hd, Still.refl,
      fun a ha => ⟨List.mem_reverse.1 ha, (h.dn x hYx a (List.mem_reverse.1 ha)).2⟩, fun y hy => List.mem_reverse.2 (h.up y (by
        intro hx
        rcases h.aim y hx x hy with e | e
        · exact hr e
        · rw [hd] at e; cases e) x hy)⟩
  refine ⟨w, b1, b2, b3, b3.mono (fun _ hy => hy) hsub, fun y hy => ?_⟩
  have := b4 y hy
  cases this

theorem downAt (hE : GOK E G rank M) (ho : OneParent E G) : ∀ f, DownAt E G rank M f := by
  intro f
  induction f with
  | zero =>
    intro c P X Y v hM
    have := hE.bound c
    omega
  | succ f ih =>
    intro c P X Y v hM h hf hr hY hX hpre
    have hcM := hE.bound c
    unfold VEnv.update
    rw [if_neg hr]
    have hupr : ∀ w : View, (fun p v => E.update f p .up v) E.root w = .ok w := by
      intro w
      obtain ⟨g, rfl⟩ : ∃ g, f = g + 1 := ⟨f - 1, by omega⟩
      exact update_root
    have hYc : ¬ Y c := fun hy => hY c hy (Or.inl rfl)
    have hrootClear : ∀ {X' : Id → Prop} {w : View}, Stale E G P X' Y w → Clear w E.root := by
      intro X' w hw z hz p hp
      exfalso
      rcases hz with rfl | hz
      · rw [hw.rootPars] at hp; cases hp
      · obtain ⟨y, g1, g2⟩ := Relation.TransGen.head'_iff.1 hz
        rw [hw.rootPars] at g1; cases g1
    have hrootY : ¬ Y E.root := fun hy => (h.gone _ hy).1 rfl
    have hrootNot : ¬ ReachEq G.par E.root c := by
      rintro (e | hz)
      · exact hr e.symm
      · obtain ⟨y, g1, g2⟩ := Relation.TransGen.head'_iff.1 hz
        exact (hE.gNe _ _ g1).2 rfl
    -- what remains to be done once the node is in place
    have hrest : ∀ w : View, Stale E G P (fun z => X z ∧ z ≠ c) Y w → Still E Y (fun y => ReachEq G.par y c) v w → w.has c = true →
        Clear w c → E.disp c = true → (∀ x ∈ E.par c, E.disp x = true → x ∈ w.pars c) →
        ∃ v', (if w.has c = false then Res.err Err.keyError w
          else if Dir.down.goesDown = true then
            Res.forEach (fun c_1 v => if c_1 ∉ v.kids c then E.update f c_1 .down v else .ok v) (E.newKids c) w
          else .ok w) = .ok v' ∧ Stale E G P (fun z => X z ∧ z ≠ c) Y v' ∧ Still E Y (fun y => ReachEq G.par y c) v v' ∧
          (E.disp c = true → v'.has c = true) ∧ (E.disp c = false → v'.has c = false) ∧
          (∀ x ∈ E.par c, E.disp x = true → x ∈ v'.pars c) := by
      intro w hw hs hwin hwc hd hwp
      rw [if_neg (by simp [hwin]), if_pos (show Dir.down.goesDown = true from rfl)]
      obtain ⟨v', a1, a2, a3, -⟩ := kidsLoop hE ho ih (c := c) (by omega) hw hr hd hwin hwc
        (by rintro z ⟨hz, hne⟩ hk; exact hne (hX z hz hk)) hY
      refine ⟨v', a1, a2, hs.trans (a3.mono (fun _ h => h) fun y hy => hy.1), fun _ => ?_, fun hd' => ?_, ?_⟩
      · rw [a3.has c (by simp)]; exact hwin
      · rw [hd] at hd'; cases hd'
      · rw [a3.pars c (by simp)]; exact hwp
    rcases hpre with ⟨hXc, hin, hp0, x, hcp, hxd, hxin⟩ | ⟨hXc, hd, x, hcp, hxd, hxin, hxk, hxc⟩
    · rw [if_neg (by simp [hin])]
      have hcE : ∀ p ∈ E.par c, E.disp p = false := by
        intro p hp
        rw [ho hf c p x (hE.gSup _ _ hp) hcp]; exact hxd
      have hXX : ∀ z, X z ↔ (X z ∧ z ≠ c) ∨ z = c := by
        intro z
        by_cases e : z = c
        · subst e; simp [hXc]
        · simp [e]
      by_cases hd : E.disp c = true
      · rw [if_pos hd]
        -- to the root
        have hq : E.newPars v c = [E.root] := newPars_root hcE
        obtain ⟨s1, s2, s3, s4⟩ := h.point hXc hin hp0 h.rootIn (Or.inl rfl) (Or.inl rfl)
        set v3 := v.upd c fun n => { n with parents := [E.root] } with hv3
        obtain ⟨v5, t1, t2, t3, t4, t5⟩ := (s1.congrX hXX).attach hE (by rw [s3, if_pos rfl]) (by simp) hY (hrootClear s1)
          (by
            intro _ _ p hp _ hpd
            rw [hcE p hp] at hpd; cases hpd)
        have hpars5 : v5.pars c = [E.root] := by rw [t4, s3, if_pos rfl]
        have hhas5 : v5.has c = true := by rw [t3, s2]; exact hin
        have hclear5 : Clear v5 c := by
          intro z hz p hp
          refine t2.up z ?_ p hp
          rintro ⟨hzX, hzc⟩
          rcases hz with rfl | hz
          · exact hzc rfl
          · obtain ⟨y, g1, g2⟩ := Relation.TransGen.head'_iff.1 hz
            rw [hpars5] at g1
            simp at g1; subst g1
            rcases Relation.reflTransGen_iff_eq_or_transGen.1 g2 with e | e
            · subst e; exact h.out _ hzX rfl
            · obtain ⟨y, g1, g2⟩ := Relation.TransGen.head'_iff.1 e
              rw [t2.rootPars] at g1; cases g1
        obtain ⟨ps, q1, q2⟩ := t2.modified hE hr hhas5 hclear5
        obtain ⟨n, hn⟩ := View.get_of_has hin
        have hnp : n.parents = [] := by rw [← View.pars_of_get hn]; exact hp0
        have hset : E.settle (fun p v => E.update f p .up v) c .down v = .ok (v5.send .modified c ps) := by
          refine settle_old (dir' := .both) hin hn hq h.rootIn ?_ (v4 := v3) (v5 := v5) ?_ ?_ ?_ q1
          · rw [hnp, diff_single hE (by simp)]; simp
          · rw [hnp, diff_nil hE.toEOK (by simp)]; rfl
          · rw [hnp, diff_single hE (by simp)]
            have : E.join (fun p v => E.update f p .up v) true c E.root v3 = .ok v5 := by
              unfold VEnv.join
              rw [if_neg (by rw [s2]; simp [h.rootIn]), t1, Res.andThen_ok, if_pos rfl, hupr]
            exact forEach_one this
          · have g1 : E.diff [E.root] [] = [E.root] := diff_single hE (by simp)
            have g2 : E.diff [E.root] [E.root] = [] := diff_nil hE.toEOK (by simp)
            rw [hnp, g1, g2]; rfl
        rw [hset, Res.andThen_ok]
        refine hrest _ q2 ?_ (by rw [View.has_congr (View.send_nodes _ _ _ _)]; exact hhas5) ?_ hd ?_
        · refine Still.trans (v := v5) ⟨?_, ?_, ?_, ?_, ?_, ?_⟩ (Still.of_nodes (View.send_nodes _ _ _ _))
          · intro y _; rw [t3, s2]
          · intro y hy; rw [t4, s3, if_neg (by rintro rfl; exact hy (Or.inl rfl))]
          · intro p m _ hm; rw [t5, s4]
            constructor
            · rintro (e | ⟨-, rfl⟩)
              · exact e
              · exact absurd (Or.inl rfl) hm
            · exact Or.inl
          · intro y p hp hy
            rw [t4, s3] at hy
            split at hy
            · simp at hy; subst hy; exact absurd hp hrootY
            · exact hy
          · intro y hy _; rw [t3, s2]; exact hy
          · intro y hy _; rw [t3, s2] at hy; exact hy
        · intro z hz p hp
          rw [View.pars_congr (View.send_nodes _ _ _ _)] at hz hp
          rw [View.kids_congr (View.send_nodes _ _ _ _)]
          exact hclear5 z hz p hp
        · intro p hp hpd
          rw [hcE p hp] at hpd; cases hpd
      · rw [if_neg hd]
        rw [Bool.not_eq_true] at hd
        -- the child has to go too
        have hcl : Clear v c := by
          intro z hz p hp
          exfalso
          rcases hz with rfl | hz
          · rw [hp0] at hp; cases hp
          · obtain ⟨y, g1, g2⟩ := Relation.TransGen.head'_iff.1 hz
            rw [hp0] at g1; cases g1
        obtain ⟨w, b1, b2, -, b3, b4⟩ := abandonAll hE ho ih (x := c) (by omega) h hr hd hin hcl
          (by
            intro z hz a ha hk
            obtain ⟨hn, hm⟩ := h.kid c a ha
            have hpa := (hm.resolve_left hr).2
            have := hX z hz (hk.trans (Or.inr (Reach.single hpa)))
            subst this
            have e1 := hE.reach_rank hk
            have e2 := hE.gRank _ _ hpa
            omega) hY
        have hwin : w.has c = true := by rw [b3.has c (by simp)]; exact hin
        have hwp : w.pars c = [] := by rw [b3.pars c (by simp)]; exact hp0
        obtain ⟨w2, e0, e1, e2, e3, e4, e5⟩ := b2.delete b4 (ps := []) (by simp)
          (by
            intro l
            constructor
            · intro hl; cases hl
            · rintro ⟨h1, h2⟩
              rcases List.eq_nil_or_concat l with rfl | ⟨l', z, rfl⟩
              · simp at h2; exact absurd h2.symm hr
              · rw [List.concat_eq_append] at h1 h2
                rw [getLast_snoc] at h2
                obtain ⟨p, -, -, hp⟩ := chain_snoc.1 h1
                have hz : z = c := by simpa using h2
                subst hz
                have := hp.1
                rw [hwp] at this; cases this)
        have hfin : Stale E G P (fun z => X z ∧ z ≠ c) Y w2 := by
          refine b2.deleted (fun z hz => ?_) (fun z hz => hz) hYc b4 e1 e2 (fun k b hk => ?_) (fun k b hk hb _ => ?_) (fun b hb hk => ?_) (fun b => ?_) e4 e5
          · exact (hXX z).1 hz
          · rw [e3] at hk
            split at hk
            · cases hk
            · exact ⟨hk, by assumption⟩
          · rw [e3, if_neg hb]; exact hk
          · rw [e3] at hk
            split at hk
            · cases hk
            · rename_i e
              refine b2.det c hXc b ?_ hk
              rintro (e' | e')
              · exact hb e'
              · exact e e'
          · rw [e3]; split
            · simp
            · exact b2.ndK b
        obtain ⟨n, hn⟩ := View.get_of_has hwin
        have hnp : n.parents = [] := by rw [← View.pars_of_get hn]; exact hwp
        have hps : v.paths E.root c = .ok [] := by
          unfold View.paths View.pathsFuel
          rw [if_neg (by simp [hr, hin]), hp0]; rfl
        have hhasc : w2.has c = false := by
          rw [Bool.eq_false_iff]; intro hc; exact ((e1 c).1 hc).2 rfl
        have hxc : ¬ ReachEq G.par x c := by
          intro hk
          have g1 := hE.reach_rank hk
          have g2 := hE.gRank c x hcp
          omega
        have hxin2 : w2.has x = true := by
          refine (e1 x).2 ⟨?_, ?_⟩
          · rw [b3.has x (fun hk => hxc hk.1)]; exact hxin
          · rintro rfl; exact hxc (Or.inl rfl)
        refine ⟨w2, ?_, hfin, ?_, (by simp [hd]), fun _ => hhasc, ?_⟩
        · unfold VEnv.vanish
          rw [hps]
          dsimp only
          rw [b1, Res.andThen_ok, hn]
          dsimp only
          rw [← e0, hnp, Res.forEach, Res.andThen_ok]
          rcases ho.par_cases hE hf hcp with e | e <;> rw [e]
          · simp only [Res.forEach]; split <;> rfl
          · simp only [Res.forEach, hxin2, Bool.true_eq_false, if_false]
            split <;> rfl
        · refine Still.trans (v := w) (b3.mono (fun _ h => h) fun y hy => hy.1) ⟨?_, ?_, ?_, ?_, ?_, ?_⟩
          · intro y hy
            have hyc : y ≠ c := by rintro rfl; exact hy (Or.inl rfl)
            rw [Bool.eq_iff_iff, e1]; simp [hyc]
          · intro y hy; rw [e2, if_neg (by rintro rfl; exact hy (Or.inl rfl))]
          · intro p m hp _; rw [e3, if_neg (by rintro rfl; exact hp (Or.inl rfl))]
          · intro y p _ hp
            rw [e2] at hp
            split at hp
            · cases hp
            · exact hp
          · intro y hy hyd; exact (e1 y).2 ⟨hy, by rintro rfl; rw [hd] at hyd; cases hyd⟩
          · intro y hy _; exact ((e1 y).1 hy).1
        · intro p hp hpd
          rw [hcE p hp] at hpd; cases hpd
    · rw [if_neg (by simp [hd]), if_pos hd]
      have hpc : x ∈ G.par c := hE.gSup _ _ (by rw [hcp]; simp)
      have hrx := hE.gRank _ _ hpc
      have hXX : ∀ z, X z ↔ X z ∧ z ≠ c := by
        intro z
        refine ⟨fun hz => ⟨hz, ?_⟩, fun hz => hz.1⟩
        rintro rfl; exact hXc hz
      have hxr := (hE.gNe _ _ hpc).1
      have hxnot : ∀ z, ReachEq v.pars x z → ¬ ReachEq G.par z c := h.pars_low hE hrx
      have hq : ∀ w : View, w.has x = true → E.newPars w c = [x] := by
        intro w hw; rw [newPars_single hE hf hcp, if_pos ⟨hw, hxd⟩]
      have hYx : ¬ Y x := by
        intro hy
        rw [(h.gone x hy).2] at hxd; cases hxd
      have hst : E.flat = false → E.disp c = true → ∀ p ∈ E.par c, ¬ P p → E.disp p = true → p = x := by
        intro _ _ p hp _ _
        rw [hcp] at hp; simpa using hp
      -- once it was attached
      have hjoin : ∀ v4 : View, Stale E G P (fun z => X z ∨ z = c) Y v4 → v4.pars c = [x] → Clear v4 x → 
          Still E Y (fun y => ReachEq G.par y c) v v4 → (∀ z, ReachEq v4.pars x z → ¬ ReachEq G.par z c) →
          ∃ v5, E.join (fun p v => E.update f p .up v) false c x v4 = .ok v5 ∧ Stale E G P (fun z => X z ∧ z ≠ c) Y v5 ∧
            Still E Y (fun y => ReachEq G.par y c) v v5 ∧ v5.has c = true ∧ Clear v5 c ∧ v5.pars c = [x] := by
        intro v4 hs hp hcl hst4 hlow
        obtain ⟨v5, t1, t2, t3, t4, t5⟩ := hs.attach hE hp hXc hY hcl hst
        have hx4 : v4.has x = true := (hs.par c x (by rw [hp]; simp)).1
        have hin5 : v5.has c = true := by
          rw [t3]; exact View.has_of_par (p := x) (by rw [hp]; simp)
        have hs45 : Still E Y (fun y => ReachEq G.par y c) v4 v5 := by
          refine ⟨fun y _ => by rw [t3], fun y _ => by rw [t4], ?_, fun y p _ hp => by rw [← t4]; exact hp,
            fun y hy _ => by rw [t3]; exact hy, fun y hy _ => by rw [← t3]; exact hy⟩
          intro p m _ hm
          rw [t5]
          constructor
          · rintro (e | ⟨-, rfl⟩)
            · exact e
            · exact absurd (Or.inl rfl) hm
          · exact Or.inl
        refine ⟨v5, ?_, t2.congrX hXX, hst4.trans hs45, hin5, ?_, by rw [t4]; exact hp⟩
        · unfold VEnv.join
          rw [if_neg (by simp [hx4]), t1, Res.andThen_ok, if_neg (by simp)]
        · have hc5 := hs45.clear hlow hcl
          intro z hz p hpz
          rcases hz with rfl | hz
          · exact t2.up _ hXc p hpz
          · obtain ⟨y, g1, g2⟩ := Relation.TransGen.head'_iff.1 hz
            rw [t4, hp] at g1
            simp at g1; subst g1
            refine hc5 z ?_ p hpz
            rcases Relation.reflTransGen_iff_eq_or_transGen.1 g2 with e | e
            · exact Or.inl e.symm
            · exact Or.inr e
      have hend : ∀ x' ∈ E.par c, ∀ w : View, w.pars c = [x] → x' ∈ w.pars c := by
        intro x' hx' w hw
        rw [hcp] at hx'; rw [hw]; exact hx'
      cases hin : v.has c with
      | false =>
        obtain ⟨s1, s2, s3, s4⟩ := h.insert hE hr hin hd
        set v1 : View := { v with nodes := v.nodes.set c {} } with hv1
        have hin1 : v1.has c = true := (s2 c).2 (Or.inr rfl)
        have hx1 : v1.has x = true := (s2 x).2 (Or.inl hxin)
        have hp1 : v1.pars c = [] := by rw [s3]; exact View.pars_of_not_has hin
        obtain ⟨r1, r2, r3, r4⟩ := s1.point (x := c) (Or.inr rfl) hin1 hp1 hx1 (Or.inr ⟨hf, hpc⟩) (Or.inr hxd)
        set v3 := v1.upd c fun n => { n with parents := [x] } with hv3
        have hst3 : Still E Y (fun y => ReachEq G.par y c) v v3 := by
          have hne : ∀ {y}, ¬ ReachEq G.par y c → y ≠ c := by rintro y hy rfl; exact hy (Or.inl rfl)
          refine ⟨fun y hy => ?_, fun y hy => ?_, fun p m _ _ => ?_, fun y p hp hpy => ?_, fun y hy _ => ?_, fun y hy hyd => ?_⟩
          · rw [r2, Bool.eq_iff_iff, s2]; simp [hne hy]
          · rw [r3, if_neg (hne hy), s3]
          · rw [r4, s4]
          · rw [r3] at hpy
            split at hpy
            · simp at hpy; subst hpy; exact absurd hp hYx
            · rw [← s3]; exact hpy
          · rw [r2]; exact (s2 y).2 (Or.inl hy)
          · rw [r2] at hy
            rcases (s2 y).1 hy with e | rfl
            · exact e
            · rw [hd] at hyd; cases hyd
        obtain ⟨v5, t1, t2, t3, t4, t5, t6⟩ := hjoin v3 r1 (by rw [r3, if_pos rfl]) (hst3.clear hxnot hxc) hst3
          (r1.pars_low hE hrx)
        obtain ⟨n, hn⟩ := View.get_of_has hin1
        have hnp : n.parents = [] := by rw [← View.pars_of_get hn]; exact hp1
        have hset : E.settle (fun p v => E.update f p .up v) c .down v = .ok v5 := by
          refine settle_new (dir' := .down) (v2 := v1) hin ?_ hn (hq v1 hx1) hx1 ?_ (v4 := v3) (v5 := v5) ?_ ?_ ?_
          · have : ((E.par c).filter fun p => decide (p ∉ E.newPars v1 c ∧ p ∉ v1.pars c)) = [] := by
              rw [hq v1 hx1, hcp]; simp
            rw [this]; rfl
          · rw [hnp, diff_single hE (by simp)]; simp [Ne.symm hxr]
          · rw [hnp, diff_nil hE.toEOK (by simp)]; rfl
          · rw [hnp, diff_single hE (by simp)]
            exact forEach_one t1
          · simp [Dir.goesUp]
        rw [hset, Res.andThen_ok]
        have hr' := hrest v5 t2 t3 t4 t5 hd (fun x' hx' _ => hend x' hx' v5 t6)
        rw [hd] at hr' ⊢
        exact hr'
      | true =>
        have hpar : v.pars c = [E.root] := by
          rcases hl : v.pars c with _ | ⟨a, l⟩
          · exact absurd hl (h.full c hin hr hXc)
          · have ha : a ∈ v.pars c := by rw [hl]; simp
            rw [← hl, h.one c a ha]
            rcases (h.par c a ha).2 with e | e
            · rw [e]
            · exfalso
              have := e.2
              have := ho hf c a x this hpc
              subst this
              exact hxk (h.up c hXc a ha)
        obtain ⟨v4, v5, s1, s2, s3, s4, s5, s6⟩ := h.detach hE hpar hXc hY (hrootClear h) hrootY hxin (Or.inr ⟨hf, hpc⟩) (Or.inr hxd) hxr
        have hst5 : Still E Y (fun y => ReachEq G.par y c) v v5 := by
          refine ⟨fun y hy => by rw [s4], fun y hy => ?_, fun p m _ hm => ?_, fun y p hp hpy => ?_, fun y hy _ => by rw [s4]; exact hy,
            fun y hy hyd => by rw [← s4]; exact hy⟩
          · rw [s5, if_neg (by rintro rfl; exact hy (Or.inl rfl))]
          · rw [s6]
            constructor
            · exact fun e => e.1
            · refine fun e => ⟨e, ?_⟩
              rintro ⟨-, rfl⟩; exact hm (Or.inl rfl)
          · rw [s5] at hpy
            split at hpy
            · simp at hpy; subst hpy; exact absurd hp hYx
            · exact hpy
        obtain ⟨v6, t1, t2, t3, t4, t5, t6⟩ := hjoin v5 s3 (by rw [s5, if_pos rfl]) (hst5.clear hxnot hxc) hst5
          (s3.pars_low hE hrx)
        obtain ⟨ps, q1, q2⟩ := t2.modified hE hr t4 t5
        obtain ⟨n, hn⟩ := View.get_of_has hin
        have hnp : n.parents = [E.root] := by rw [← View.pars_of_get hn]; exact hpar
        have hset : E.settle (fun p v => E.update f p .up v) c .down v = .ok (v6.send .modified c ps) := by
          refine settle_old (dir' := .down) hin hn (hq v hxin) hxin ?_ (v4 := v5) (v5 := v6) ?_ ?_ ?_ q1
          · rw [hnp, diff_single hE (by simp [hxr])]; simp [Ne.symm hxr]
          · rw [hnp, diff_single hE (by simp [Ne.symm hxr])]
            have : E.leave (fun p v => E.update f p .up v) false c E.root (v.upd c fun n => { n with parents := [x] }) = .ok v5 := by
              unfold VEnv.leave
              rw [s1, Res.andThen_ok, s2, Res.andThen_ok, if_neg (by simp)]
            exact forEach_one this
          · rw [hnp, diff_single hE (by simp [hxr])]
            exact forEach_one t1
          · simp [Dir.goesUp]
        rw [hset, Res.andThen_ok]
        have hn' : (v6.send .modified c ps).nodes = v6.nodes := View.send_nodes _ _ _ _
        have hr' := hrest _ q2 (t3.trans (Still.of_nodes hn')) (by rw [View.has_congr hn']; exact t4)
          (by
            intro z hz p hp
            rw [View.pars_congr hn'] at hz hp
            rw [View.kids_congr hn']
            exact t5 z hz p hp) hd (fun x' hx' _ => hend x' hx' _ (by rw [View.pars_congr hn']; exact t6))
        rw [hd] at hr' ⊢
        exact hr'

end Larch
