import Verif.Proofs.Late
import Verif.Proofs.NestedView
import Verif.Props.Waiting
import Verif.Spec.ForestWait

/-!
# A view of a forest that waits for its refresh
-/

namespace Larch

open Graph Spec

variable {V : Type} {diff : List Id → List Id → List Id} {E : VEnv} {v : View}

/-- The view holds together, whatever the filters say. -/
abbrev LooseIn (E : VEnv) (G : Roof) (v : View) : Prop := Stale E G (fun _ => True) (fun _ => False) (fun _ => False) v

/-- It shows only relations of the tree. -/
abbrev Loose (E : VEnv) (v : View) : Prop := LooseIn E E.roof v

/-- Only the relations of displayed nodes matter, and nothing that the filters say. -/
theorem LooseIn.move {E' : VEnv} {G G' : Roof} (h : LooseIn E G v) (hr : E'.root = E.root) (hf : E'.flat = E.flat)
    (hh : ∀ y, v.has y = true → G.has y = true → G'.has y = true) (hp : ∀ y, v.has y = true → ∀ p ∈ G.par y, p ∈ G'.par y) : LooseIn E' G' v := by
  have hm : ∀ {p y}, v.has y = true → MayBe E G p y → MayBe E' G' p y := by
    rintro p y hy (e | ⟨e1, e2⟩)
    · exact Or.inl (e.trans hr.symm)
    · exact Or.inr ⟨hf.trans e1, hp y hy p e2⟩
  exact ⟨h.keys, by rw [hr]; exact h.rootIn, by rw [hr]; exact h.rootPars, fun _ h => h.elim, fun _ h => h.elim,
    fun y hy hn => hh y hy (h.real y hy (by rw [← hr]; exact hn)), fun y p hpy => ⟨(h.par y p hpy).1, hm (View.has_of_par hpy) (h.par y p hpy).2⟩, h.one,
    fun p c hc => ⟨by rw [hr]; exact (h.kid p c hc).1, hm (h.dn p (fun h => h) c hc).1 (h.kid p c hc).2⟩, h.ndK, h.up, h.dn, fun _ h => h.elim, fun _ h => h.elim,
    fun y hy hn => h.full y hy (by rw [← hr]; exact hn), fun _ h => absurd trivial h, fun _ _ _ _ _ _ _ h => absurd trivial h,
    by rw [hr]; exact h.rows⟩

/-- The tree has grown. -/
theorem Loose.grow {E' : VEnv} (h : Loose E v) (hr : E'.root = E.root) (hf : E'.flat = E.flat) (hh : ∀ y, E.has y = true → E'.has y = true)
    (hp : ∀ y, ∀ p ∈ E.par y, p ∈ E'.par y) : Loose E' v :=
  LooseIn.move h hr hf (fun y _ => hh y) (fun y _ => hp y)

theorem Fit.loose (hE : EB E) (ho : OneParent E E.roof) (h : Fit E (fun _ => False) v) : Loose E v :=
  (h.stale hE ho (l := []) rfl rfl rfl rfl (fun y hy => hE.dispHas y hy) fun _ _ => rfl).moreP fun _ _ => trivial

theorem Loose.slack (hE : EB E) (h : Loose E v) {r : Id → Nat} (hr : ∀ x, ∀ p ∈ E.par x, r p < r x) :
    Slack E.lenient (fun _ => False) (fun _ => False) v := by
  obtain ⟨r', hr'⟩ := h.orders hE hr
  have hmir : ∀ y p, p ∈ v.pars y ↔ y ∈ v.kids p := fun y p => ⟨fun hp => h.up y (fun h => h) p hp, fun hk => (h.dn p (fun h => h) y hk).2⟩
  refine ⟨⟨r', hr', h.keys, h.rootIn, h.rootPars, fun y hy hn => rfl,
    fun y p hp => ⟨(h.par y p hp).1, hr'.2 y p hp⟩, fun p c hc => ⟨(h.dn p (fun h => h) c hc).1, hr'.2 c p ((hmir c p).2 hc)⟩, h.nd, h.ndK,
    fun y _ p => hmir y p, ?_⟩, fun y _ => ?_, fun _ h => h.elim⟩
  · refine h.rows.congr fun l => ?_
    have : v.both = v.edge := by
      funext p c
      apply propext
      show p ∈ v.pars c ∧ c ∈ v.kids p ↔ c ∈ v.kids p
      exact ⟨fun hc => hc.2, fun hc => ⟨(hmir c p).2 hc, hc⟩⟩
    rw [this]; rfl
  · by_cases hy : E.root ∈ v.pars y
    · exact .inl (h.one y _ hy)
    · exact .inr fun p hp => ((h.par y p hp).2.resolve_left fun e => hy (e ▸ hp)).2

variable {b : Bank (Id → V)} {d : Id → V} {s0 : St} {ft0 : FT}

theorem forest_oneParent {t : Tree} (h : Forest t) :
    OneParent (FT.env diff b t d ft0) (FT.env diff b t d ft0).roof :=
  fun _ x p q hp hq => h x p q hp hq

theorem forest_raw {t : Tree} (hw : WF t) : Forest t ↔ ∀ x, ∀ p ∈ t.rawParents x, ∀ q ∈ t.rawParents x, p = q := by
  constructor
  · intro h x p hp q hq
    exact h x p q (by show p ∈ t.getParents x; rw [hw.getParents_eq]; exact hp) (by show q ∈ t.getParents x; rw [hw.getParents_eq]; exact hq)
  · intro h x p q hp hq
    exact h x p (by rw [← hw.getParents_eq]; exact hp) q (by rw [← hw.getParents_eq]; exact hq)

/-- What the view may show: the forest, and what the nodes in `X` just lost. -/
structure Covers (G : Roof) (t : Tree) (root : Id) (X : Id → Prop) : Prop where
  sup : ∀ y, ∀ p ∈ t.rawParents y, p ∈ G.par y
  has : ∀ y, t.has y = true → G.has y = true
  ne : ∀ y p, p ∈ G.par y → p ≠ root ∧ y ≠ root
  one : ∀ y p q, p ∈ G.par y → q ∈ G.par y → p = q
  ord : ∃ r : Id → Nat, ∀ y, ∀ p ∈ G.par y, r p < r y
  tight : ∀ y, ¬ X y → (∀ p ∈ G.par y, p ∈ t.rawParents y) ∧ (G.has y = true → t.has y = true)

theorem Covers.forest {G : Roof} {t : Tree} {root : Id} {X : Id → Prop} (h : Covers G t root X) (hw : WF t) : Forest t :=
  (forest_raw hw).2 fun x p hp q hq => h.one x p q (h.sup x p hp) (h.sup x q hq)

/-- The forest itself. -/
theorem covers_self {t : Tree} (hw : WF t) (ho : Forest t) {root : Id} (hr : t.has root = false) :
    Covers ⟨t.rawParents, t.has⟩ t root (fun _ => False) := by
  refine ⟨fun _ _ h => h, fun _ h => h, fun y p hp => ?_, fun y p q hp hq => (forest_raw hw).1 ho y p hp q hq, ?_, fun _ _ => ⟨fun _ h => h, fun h => h⟩⟩
  · constructor
    · rintro rfl; have := hw.has_parent hp; rw [hr] at this; cases this
    · rintro rfl; have := Tree.has_of_mem_rawParents hp; rw [hr] at this; cases this
  · obtain ⟨r, -, hr⟩ := exists_height t.rawParents t.nodes.keys t.rawParents_keys hw.acyclic
    exact ⟨r, hr⟩

/-- The relations of displayed nodes, and those of the tree. -/
def Roof.at (G : Roof) (t : Tree) (W : Id → Bool) : Roof :=
  ⟨fun y => if W y = true then G.par y else t.rawParents y, fun y => if W y = true then G.has y else t.has y⟩

theorem Covers.at {G : Roof} {t : Tree} {root : Id} {X : Id → Prop} (h : Covers G t root X) (W : Id → Bool) :
    Covers (G.at t W) t root (fun y => X y ∧ W y = true) := by
  have sub : ∀ y p, p ∈ (G.at t W).par y → p ∈ G.par y := by
    intro y p hp
    unfold Roof.at at hp
    dsimp only at hp
    split at hp
    · exact hp
    · exact h.sup y p hp
  refine ⟨fun y p hp => ?_, fun y hy => ?_, fun y p hp => h.ne y p (sub y p hp), fun y p q hp hq => h.one y p q (sub y p hp) (sub y q hq), ?_, fun y hy => ?_⟩
  · unfold Roof.at; dsimp only; split
    · exact h.sup y p hp
    · exact hp
  · unfold Roof.at; dsimp only; split
    · exact h.has y hy
    · exact hy
  · obtain ⟨r, hr⟩ := h.ord
    exact ⟨r, fun y p hp => hr y p (sub y p hp)⟩
  · unfold Roof.at; dsimp only
    by_cases hw : W y = true
    · simp only [hw, if_true]
      exact h.tight y fun hx => hy ⟨hx, hw⟩
    · simp only [hw]
      exact ⟨fun _ h => h, fun h => h⟩

/-- The view hears of `x`, which may just have left the tree. -/
theorem LooseIn.heard (hdiff : SetDiff diff) {t : Tree} (hw : WF t) (hroot : t.has ft0.root = false) {G : Roof} {X : Id → Prop}
    (hG : Covers G t ft0.root X) {v : View} (h : LooseIn (FT.env diff b t d ft0) G v) {x : Id} (hx : x ≠ ft0.root) :
    ∃ v' G', (FT.env diff b t d ft0).update (2 * (t.nodes.keys.length + v.nodes.entries.length) + 8) x .both v = .ok v' ∧
      Covers G' t ft0.root (fun y => X y ∧ y ≠ x) ∧ LooseIn (FT.env diff b t d ft0) G' v' ∧
      v'.has x = (FT.env diff b t d ft0).disp x := by
  have hE := env_ok hdiff b hw d ft0 hroot
  have hpar : (FT.env diff b t d ft0).par = t.rawParents := env_par hw
  have hG1 := hG.at v.has
  have hG2 := hG.at fun y => v.has y && decide (y ≠ x)
  have h1 : LooseIn (FT.env diff b t d ft0) (G.at t v.has) v := by
    refine h.move rfl rfl (fun y hy hg => ?_) (fun y hy p hp => ?_)
    · unfold Roof.at; dsimp only; rw [if_pos hy]; exact hg
    · unfold Roof.at; dsimp only; rw [if_pos hy]; exact hp
  obtain ⟨r, hr⟩ := hG1.ord
  obtain ⟨rank, e1, -, e3⟩ := hE.rankG h.rootPars (fun y => (G.at t v.has).par y ++ v.pars y)
    (acyclic_of_height _ (fun y => if y = ft0.root then 0 else r y + 1) (by
      intro y p hp
      rcases List.mem_append.1 hp with hp | hp
      · obtain ⟨g1, g2⟩ := hG1.ne y p hp
        have := hr y p hp
        rw [if_neg g1, if_neg g2]; omega
      · have hy : y ≠ ft0.root := h.ne_root hp
        rw [if_neg hy]
        rcases (h1.par y p hp).2 with e | ⟨-, e⟩
        · rw [if_pos (show p = ft0.root from e)]; omega
        · have := hr y p e
          rw [if_neg (hG1.ne y p e).1]; omega))
    (by intro y p hp; rw [hpar] at hp; exact List.mem_append_left _ (hG1.sup y p hp)) (fun y p hp => List.mem_append_right _ hp)
    (t.nodes.keys ++ v.nodes.keys) (by
      intro y hy
      by_cases hv : v.has y = true
      · exact List.mem_append_right _ ((Dict.mem_keys _ _).2 hv)
      · have hvp : v.pars y = [] := View.pars_of_not_has (by simpa using hv)
        rw [hvp, List.append_nil] at hy
        unfold Roof.at at hy; dsimp only at hy
        rw [if_neg hv] at hy
        exact List.mem_append_left _ (t.rawParents_keys y hy))
  rw [List.length_append, Dict.keys_length v.nodes] at e1
  have gok : ∀ {G' : Roof} {X' : Id → Prop}, Covers G' t ft0.root X' → (∀ y p, p ∈ G'.par y → p ∈ (G.at t v.has).par y) →
      GOK (FT.env diff b t d ft0) G' rank (t.nodes.keys.length + v.nodes.entries.length + 1) := fun hG' hs =>
    { e1 with
      gSup := by rw [hpar]; exact fun y p hp => hG'.sup y p hp
      gHas := hG'.has
      gRank := fun y p hp => e3 y p (hG'.ne y p hp).2 (hG'.ne y p hp).1 (List.mem_append_left _ (hs y p hp))
      gNe := hG'.ne }
  have hsub : ∀ y p, p ∈ (G.at t fun y => v.has y && decide (y ≠ x)).par y → p ∈ (G.at t v.has).par y := by
    intro y p hp
    unfold Roof.at at hp; dsimp only at hp
    split at hp
    · rename_i e
      rw [Bool.and_eq_true] at e
      unfold Roof.at; dsimp only; rw [if_pos e.1]; exact hp
    · exact hG1.sup y p hp
  have hb := e1.bound x
  have hkeep : (G.at t v.has).Keeps (G.at t fun y => v.has y && decide (y ≠ x)) x := by
    intro y hy
    have e : (v.has y && decide (y ≠ x)) = v.has y := by simp [hy]
    constructor
    · intro p hp
      unfold Roof.at at hp ⊢; dsimp only at hp ⊢
      simp only [e]; exact hp
    · intro hp
      unfold Roof.at at hp ⊢; dsimp only at hp ⊢
      simp only [e]; exact hp
  obtain ⟨v', a1, a2⟩ := update_under (gok hG1 fun _ _ h => h) (fun _ y p q => hG1.one y p q) (gok hG2 hsub) (fun _ y p q => hG2.one y p q)
    hkeep (f := 2 * (t.nodes.keys.length + v.nodes.entries.length) + 8) (by omega) hx h1
  refine ⟨v', _, a1, ?_, a2.moreP fun _ _ => trivial, a2.shown x (fun hc => hc.2 rfl) hx⟩
  exact { hG2 with tight := fun y hy => hG2.tight y fun hc => hy ⟨hc.1, by
    have := hc.2
    rw [Bool.and_eq_true, decide_eq_true_iff] at this
    exact this.2⟩ }

/-- Since `s0` the waiting view `ft0` has followed the notifications; it may still show what the nodes in `X` lost. -/
structure Trails (diff : List Id → List Id → List Id) (b : Bank (Id → V)) (d : Id → V) (s0 : St) (ft0 : FT) (X : Id → Prop) (s : St) : Prop where
  rootFree : s.t.has ft0.root = false
  seen : ∃ v l G, s.log = s0.log ++ l ∧ Res.forEach (FT.react diff b d) l ft0 = .ok { ft0 with view := v } ∧
    Covers G s.t ft0.root X ∧ LooseIn (FT.env diff b s.t d ft0) G v

variable {X : Id → Prop}

theorem Trails.mono {s : St} (h : Trails diff b d s0 ft0 X s) {Y : Id → Prop} (hy : ∀ y, X y → Y y) : Trails diff b d s0 ft0 Y s := by
  obtain ⟨v, l, G, h1, h2, h3, h4⟩ := h.seen
  exact ⟨h.rootFree, v, l, G, h1, h2, { h3 with tight := fun y hn => h3.tight y fun hx => hn (hy y hx) }, h4⟩

theorem Trails.forest {s : St} (h : Trails diff b d s0 ft0 X s) (hw : WF s.t) : Forest s.t := by
  obtain ⟨v, l, G, h1, h2, h3, h4⟩ := h.seen
  exact h3.forest hw

theorem Trails.note (hdiff : SetDiff diff) {s : St} (h : Trails diff b d s0 ft0 X s) (hw : WF s.t) (ev : Ev) {x : Id}
    (hx : x ≠ ft0.root) : Trails diff b d s0 ft0 (fun y => X y ∧ y ≠ x) (s.emit ev x) := by
  obtain ⟨v, l, G, h1, h2, h3, h4⟩ := h.seen
  obtain ⟨v', G', a1, a2, a3, -⟩ := h4.heard hdiff hw h.rootFree h3 hx
  refine ⟨h.rootFree, v', l ++ [⟨s.t, ev, x⟩], G', ?_, ?_, a2, a3⟩
  · show s.log ++ [_] = _
    rw [h1, List.append_assoc]
  · rw [forEach_snoc h2]
    exact react_eq (n := ⟨s.t, ev, x⟩) (ft := { ft0 with view := v }) a1

theorem Trails.ne {s : St} (h : Trails diff b d s0 ft0 X s) {x : Id} (hx : s.t.has x = true) : x ≠ ft0.root := by
  rintro rfl; rw [h.rootFree] at hx; cases hx

/-- The nodes in `Y` lose something. -/
theorem Trails.shrink {s s' : St} (h : Trails diff b d s0 ft0 X s) {Y : Id → Prop} (hl : s'.log = s.log) (hXY : ∀ y, X y → Y y)
    (hh : ∀ y, s'.t.has y = true → s.t.has y = true) (hp : ∀ y, ∀ p ∈ s'.t.rawParents y, p ∈ s.t.rawParents y)
    (hY : ∀ y, ¬ Y y → (∀ p ∈ s.t.rawParents y, p ∈ s'.t.rawParents y) ∧ (s.t.has y = true → s'.t.has y = true)) :
    Trails diff b d s0 ft0 Y s' := by
  obtain ⟨v, l, G, h1, h2, h3, h4⟩ := h.seen
  refine ⟨?_, v, l, G, hl.trans h1, h2, ⟨fun y p hy => h3.sup y p (hp y p hy), fun y hy => h3.has y (hh y hy), h3.ne, h3.one, h3.ord, fun y hy => ?_⟩,
    h4.move rfl rfl (fun _ _ h => h) (fun _ _ _ h => h)⟩
  · rw [Bool.eq_false_iff]; intro hc
    have := hh _ hc
    rw [h.rootFree] at this; cases this
  · obtain ⟨g1, g2⟩ := h3.tight y fun hx => hy (hXY y hx)
    exact ⟨fun p h => (hY y hy).1 p (g1 p h), fun h => (hY y hy).2 (g2 h)⟩

theorem Trails.same {s s' : St} (h : Trails diff b d s0 ft0 X s) (hl : s'.log = s.log) (hh : ∀ y, s'.t.has y = s.t.has y)
    (hp : s'.t.rawParents = s.t.rawParents) : Trails diff b d s0 ft0 X s' :=
  h.shrink hl (fun _ h => h) (fun y h => by rw [← hh]; exact h) (fun y p h => by rw [← hp]; exact h)
    fun y _ => ⟨fun p h => by rw [hp]; exact h, fun h => by rw [hh]; exact h⟩

/-- Relations to `c` disappear. -/
theorem Trails.cut {s s' : St} (h : Trails diff b d s0 ft0 X s) (hl : s'.log = s.log) (hh : ∀ y, s'.t.has y = s.t.has y) {c : Id}
    (hp : ∀ y, y ≠ c → s'.t.rawParents y = s.t.rawParents y) (hc : (s'.t.rawParents c).Sublist (s.t.rawParents c)) :
    Trails diff b d s0 ft0 (fun y => X y ∨ y = c) s' := by
  refine h.shrink hl (fun _ h => Or.inl h) (fun y h => by rw [← hh]; exact h) (fun y p hy => ?_)
    fun y hy => ⟨fun p h => by rw [hp y fun e => hy (Or.inr e)]; exact h, fun h => by rw [hh]; exact h⟩
  by_cases e : y = c
  · subst e; exact hc.subset hy
  · rw [hp y e] at hy; exact hy

/-- The tree grows. -/
theorem Trails.grow {s s' : St} (h : Trails diff b d s0 ft0 (fun _ => False) s) (hw' : WF s'.t) (ho : Forest s'.t) (hl : s'.log = s.log)
    (hroot : s'.t.has ft0.root = false) (hh : ∀ y, s.t.has y = true → s'.t.has y = true)
    (hp : ∀ y, ∀ p ∈ s.t.rawParents y, p ∈ s'.t.rawParents y) : Trails diff b d s0 ft0 (fun _ => False) s' := by
  obtain ⟨v, l, G, h1, h2, h3, h4⟩ := h.seen
  exact ⟨hroot, v, l, _, hl.trans h1, h2, covers_self hw' ho hroot, h4.move rfl rfl (fun y _ h => hh y ((h3.tight y fun h => h).2 h))
    (fun y _ p h => hp y p ((h3.tight y fun h => h).1 p h))⟩

/-- The waiting view follows new relations. -/
theorem trails_links (hdiff : SetDiff diff) :
    KeepsGood (fun _ _ => True) (fun _ _ => False) (fun s => Good s.t ∧ (Forest s.t → Trails diff b d s0 ft0 (fun _ => False) s)) where
  same := fun {s s'} h hl hh hp hg => ⟨hg, fun ho =>
    (h.2 ((forest_raw h.1.wf).2 (hp ▸ (forest_raw hg.wf).1 ho))).same hl hh hp⟩
  link := fun {s p c t'} h hg hc hn hg' _ => by
    obtain ⟨hp, hcc, ef⟩ := Tree.create_eq_some hc
    refine ⟨hg', fun ho => ?_⟩
    have ho' : Forest t' := ho
    have hsup : ∀ y, ∀ q ∈ s.t.rawParents y, q ∈ t'.rawParents y := by
      intro y q hq
      rw [ef.parents]
      split
      · rename_i e; subst e; rw [mem_appendNew]; exact Or.inl hq
      · exact hq
    have h0 := h.2 ((forest_raw hg.wf).2 fun x a ha b hb => (forest_raw hg'.wf).1 ho' x a (hsup x a ha) b (hsup x b hb))
    have h1 : Trails diff b d s0 ft0 (fun _ => False) ⟨t', s.log⟩ :=
      h0.grow (s' := ⟨t', s.log⟩) hg'.wf ho' rfl (by show t'.has _ = _; rw [ef.has]; exact h0.rootFree)
        (fun y hy => by show t'.has y = true; rw [ef.has]; exact hy) hsup
    have h2 := h1.note hdiff hg'.wf .modified (x := p) (h0.ne hp)
    exact (h2.note hdiff hg'.wf .modified (x := c) (h0.ne hcc)).mono fun y hy => hy.1.1
  cut := fun {s p c t'} _ _ _ _ _ _ _ h => h.elim
  modified := fun {s} h hg {x} hx => ⟨hg, fun ho => ((h.2 ho).note hdiff hg.wf .modified ((h.2 ho).ne hx)).mono fun _ h => h.1⟩

/-- The waiting view follows relations that go. -/
theorem trails_cuts (hdiff : SetDiff diff) :
    KeepsGood (fun _ _ => False) (fun _ _ => True) (fun s => Good s.t ∧ Trails diff b d s0 ft0 (fun _ => False) s) where
  same := fun {s s'} h hl hh hp hg => ⟨hg, h.2.same hl hh hp⟩
  link := fun {s p c t'} _ _ _ _ _ h => h.elim
  cut := fun {s p c t'} h hg hp hcc hne ef hg' _ => by
    refine ⟨hg', ?_⟩
    have h1 : Trails diff b d s0 ft0 (fun y => False ∨ y = c) ⟨t', s.log⟩ := by
      refine h.2.cut (s' := ⟨t', s.log⟩) rfl ef.has (c := c) (fun y hy => by show t'.rawParents y = _; rw [ef.parents, if_neg hy]) ?_
      show (t'.rawParents c).Sublist _
      rw [ef.parents, if_pos rfl]; exact List.erase_sublist
    have h2 := h1.note hdiff hg'.wf .modified (x := p) (h.2.ne hp)
    have h3 := h2.note hdiff hg'.wf .modified (x := c) (h.2.ne hcc)
    exact h3.mono fun y hy => hy.2 (hy.1.1.resolve_left fun h => h)
  modified := fun {s} h hg {x} hx => ⟨hg, (h.2.note hdiff hg.wf .modified (h.2.ne hx)).mono fun _ h => h.1⟩

/-- A node arrives. -/
theorem Trails.added (hdiff : SetDiff diff) {s : St} (h : Trails diff b d s0 ft0 (fun _ => False) s) (hw : WF s.t)
    {t' : Tree} (hw' : WF t') (ho : Forest t') {x : Id} (ha : Arrived s.t t' x) (hx : s.t.has x = false) (hxr : x ≠ ft0.root) :
    Trails diff b d s0 ft0 (fun _ => False) ((⟨t', s.log⟩ : St).emit .added x) := by
  have hxp : ∀ y, x ∉ s.t.rawParents y := by
    intro y hy
    have := hw.has_parent hy
    rw [hx] at this; cases this
  have hpx : s.t.rawParents x = [] := by
    by_contra hc
    obtain ⟨q, hq⟩ := List.exists_mem_of_ne_nil _ hc
    have := Tree.has_of_mem_rawParents hq
    rw [hx] at this; cases this
  have hsup : ∀ y, ∀ p ∈ s.t.rawParents y, p ∈ t'.rawParents y := by
    intro y p hp
    exact (ha.parents y p (by rintro rfl; rw [hpx] at hp; cases hp) (by rintro rfl; exact hxp y hp)).2 hp
  have h1 : Trails diff b d s0 ft0 (fun _ => False) ⟨t', s.log⟩ := h.grow (s' := ⟨t', s.log⟩) hw' ho rfl
    (by show t'.has _ = _; rw [ha.has, h.rootFree]; simp [Ne.symm hxr]) (fun y hy => by show t'.has y = true; rw [ha.has, hy]; simp) hsup
  exact (h1.note hdiff hw' .added hxr).mono fun _ h => h.1

/-! ### Removing a node -/

theorem Trails.deleted (hdiff : SetDiff diff) {s : St} {x : Id} (h : Trails diff b d s0 ft0 (fun y => X y ∨ y = x) s)
    (hw : WF s.t) (hx : s.t.has x = true) (hno : ∀ c, x ∉ s.t.rawParents c) :
    Trails diff b d s0 ft0 X ((⟨dropNode s.t x, s.log⟩ : St).emit .deleted x) := by
  have h1 : Trails diff b d s0 ft0 (fun y => X y ∨ y = x) ⟨dropNode s.t x, s.log⟩ := by
    refine h.shrink (s' := ⟨dropNode s.t x, s.log⟩) rfl (fun _ h => h) (fun y hy => ?_) (fun y p hp => ?_) fun y hy => ?_
    · change (dropNode s.t x).has y = true at hy
      rw [dropNode_has] at hy; simp at hy; exact hy.2
    · change p ∈ (dropNode s.t x).rawParents y at hp
      rw [dropNode_rawParents] at hp
      split at hp
      · cases hp
      · exact hp
    · have hyx : y ≠ x := fun e => hy (Or.inr e)
      refine ⟨fun p hp => ?_, fun hh => ?_⟩
      · show p ∈ (dropNode s.t x).rawParents y
        rw [dropNode_rawParents, if_neg hyx]; exact hp
      · show (dropNode s.t x).has y = true
        rw [dropNode_has]; simp [hyx, hh]
  exact (h1.note hdiff (hw.dropNode fun c _ => hno c) .deleted (h.ne hx)).mono fun y hy => hy.1.resolve_right hy.2

theorem trails_parentsLoop (hdiff : SetDiff diff) {x : Id} (f : Nat) : ∀ (i : Nat) (s s' : St), WF s.t →
    Trails diff b d s0 ft0 (fun y => X y ∨ y = x) s → removeParentsLoop f i s x = .ok s' → Trails diff b d s0 ft0 (fun y => X y ∨ y = x) s' := by
  induction f with
  | zero => intro i s s' _ h hs; cases hs; exact h
  | succ f ih =>
    intro i s s' hw h hs
    unfold removeParentsLoop at hs
    cases hp : (s.t.rawParents x)[i]? with
    | none => rw [hp] at hs; cases hs; exact h
    | some p =>
      rw [hp] at hs
      have hm : p ∈ s.t.rawParents x := List.mem_of_getElem? hp
      obtain ⟨t', ht', e⟩ := Tree.destroy_spec (hw.has_parent hm) (Tree.has_of_mem_rawParents hm)
      dsimp only at hs
      rw [ht'] at hs
      have hw' := hw.destroy ht'
      have c1 := h.cut (s' := ⟨t', s.log⟩) rfl e.has (c := x)
        (fun y hy => by show t'.rawParents y = _; rw [e.parents, if_neg hy]) (by show (t'.rawParents x).Sublist _; rw [e.parents, if_pos rfl]; exact List.erase_sublist)
      have c2 := c1.note hdiff hw' .modified (x := p) (h.ne (hw.has_parent hm))
      exact ih (i + 1) _ s' hw' (c2.mono fun y hy => hy.1.elim id Or.inr) hs

theorem trails_orphans (hdiff : SetDiff diff) (x : Id) : ∀ (l : List Id) (s s' : St), WF s.t → s.t.has x = true →
    l.Nodup → (∀ c ∈ l, x ∈ s.t.rawParents c) → Trails diff b d s0 ft0 X s →
    Res.forEach (fun c s => if false = true then removeNode 0 s c true else orphanChild x c s) l s = .ok s' →
    Trails diff b d s0 ft0 X s' := by
  intro l
  induction l with
  | nil => intro s s' _ _ _ _ h he; cases he; exact h
  | cons c l ih =>
    intro s s' h hx hnd hl hwa he
    have hxc := hl c (by simp)
    have hc := Tree.has_of_mem_rawParents hxc
    obtain ⟨t', ht', e⟩ := Tree.destroy_spec hx hc
    have hw := h.destroy ht'
    rw [List.nodup_cons] at hnd
    have c1 := hwa.cut (s' := ⟨t', s.log⟩) rfl e.has (c := c)
      (fun y hy => by show t'.rawParents y = _; rw [e.parents, if_neg hy]) (by show (t'.rawParents c).Sublist _; rw [e.parents, if_pos rfl]; exact List.erase_sublist)
    have c2 := (c1.note hdiff hw .modified (x := c) (hwa.ne hc)).mono
      (Y := X) (fun y hy => hy.1.resolve_right hy.2)
    generalize hs1 : (if t'.rawParents c = [] then
        (({ s with t := t' } : St).emit .modified c).mapTree (fun t => t.updRoot (fun l => l ++ [c]))
        else ({ s with t := t' } : St).emit .modified c) = s1
    have ho : orphanChild x c s = .ok s1 := by
      unfold orphanChild; rw [ht']; dsimp only; rw [← hs1]; rfl
    have hs1t : s1.t = if t'.rawParents c = [] then t'.updRoot (fun l => l ++ [c]) else t' := by
      rw [← hs1]; split <;> rfl
    have hs1l : s1.log = (({ s with t := t' } : St).emit .modified c).log := by
      rw [← hs1]; split <;> rfl
    have hn1 : s1.t.nodes = t'.nodes := by rw [hs1t]; split <;> rfl
    have hp1 : ∀ y, s1.t.rawParents y = t'.rawParents y := by
      intro y; unfold Tree.rawParents Tree.node?; rw [hn1]
    have hh1 : ∀ y, s1.t.has y = t'.has y := by
      intro y; unfold Tree.has; rw [hn1]
    have hw1 : WF s1.t := by
      rw [hs1t]; split
      · exact hw.updRoot _
      · exact hw
    unfold Res.forEach at he
    rw [if_neg (by simp), ho] at he
    refine ih s1 s' hw1 (by rw [hh1, e.has]; exact hx) hnd.2 ?_ (c2.same hs1l hh1 (funext hp1)) he
    intro y hy
    rw [hp1, e.parents, if_neg (by rintro rfl; exact hnd.1 hy)]
    exact hl y (by simp [hy])

theorem trails_removeOrphan (hdiff : SetDiff diff) {s : St} (h : Good s.t) {x : Id} (hx : s.t.has x = true)
    (hch : ∀ c ∈ s.t.rawChildren x, s.t.has c = true) (f : Nat)
    (hwa : Trails diff b d s0 ft0 X s) :
    Trails diff b d s0 ft0 X (removeNode (f + 1) s x false).state := by
  have hxn : x ≠ .none := by rintro rfl; have := (h.wf.ids _ hx).1; cases this
  unfold removeNode
  rw [if_neg (by simp [hx, hxn])]
  dsimp only
  generalize hs1 : (s.mapTree fun t => { t with pending := dropPendingOf t.pending x }) = s1
  have ht1 : s1.t = { s.t with pending := dropPendingOf s.t.pending x } := by rw [← hs1]; rfl
  have hw1 : WF s1.t := by rw [ht1]; exact h.wf.pending _
  have wa1 : Trails diff b d s0 ft0 X s1 :=
    hwa.same (by rw [← hs1]; rfl) (fun y => by rw [ht1]; rfl) (by rw [ht1]; rfl)
  obtain ⟨s2, e2, ef2⟩ := removeParentsLoop_effect (s1.t.rawParents x).length 0 s1 x hw1
  have wa2 := trails_parentsLoop hdiff _ 0 s1 s2 hw1 (wa1.mono fun _ => Or.inl) e2
  rw [e2, Res.andThen_ok]
  have has2 : ∀ y, s2.t.has y = s.t.has y := by intro y; rw [ef2.same.has, ht1]; rfl
  have selfp : x ∉ s.t.rawParents x := fun hm => h.wf.acyclic x (Reach.single hm)
  have selfc : x ∉ s.t.rawChildren x := fun hm => selfp (h.wf.down x x hm hx)
  have ch2 : s2.t.rawChildren x = s.t.rawChildren x := by
    rw [ef2.others x (by rw [ht1]; exact selfp), ht1]; rfl
  have par2 : ∀ y, y ≠ x → s2.t.rawParents y = s.t.rawParents y := by
    intro y hy; rw [ef2.parents y hy, ht1]; rfl
  have hcx : ∀ c ∈ s.t.rawChildren x, c ≠ x := by rintro c hc rfl; exact selfc hc
  have hl : ∀ c ∈ s2.t.rawChildren x, x ∈ s2.t.rawParents c := by
    intro c hc
    rw [ch2] at hc
    rw [par2 c (hcx c hc)]
    exact h.wf.down x c hc (hch c hc)
  obtain ⟨s3, e3, ef3⟩ := orphanLoop x (s2.t.rawChildren x) s2 ef2.wf (by rw [has2]; exact hx) (ef2.wf.ndC x) hl
  have wa3 := trails_orphans hdiff x (s2.t.rawChildren x) s2 s3 ef2.wf (by rw [has2]; exact hx) (ef2.wf.ndC x) hl wa2 e3
  rw [orphanLoop_body, e3, Res.andThen_ok]
  have has3 : ∀ y, s3.t.has y = s.t.has y := by intro y; rw [ef3.same.has, has2]
  rw [if_pos (by rw [has3]; exact hx)]
  refine Trails.deleted hdiff wa3 ef3.wf (by rw [has3]; exact hx) ?_
  intro c hc
  have hc1 := ef3.wf.up x c hc
  rw [ef3.childrenX] at hc1
  exact hc1.2 hc1.1

theorem trails_removeRec (hdiff : SetDiff diff) (ht : Id → Nat) (f : Nat) : ∀ (X : Id → Prop) (s : St) (x : Id), WF s.t →
    (∀ y c, c ∈ s.t.rawChildren y → ht c < ht y) → ht x < f → s.t.has x = true →
    Trails diff b d s0 ft0 X s → Trails diff b d s0 ft0 X (removeNode f s x true).state := by
  induction f with
  | zero => intro _ s x _ _ h; omega
  | succ f ih =>
    intro X s x h hh hf hx hwa
    have hxn : x ≠ .none := by rintro rfl; have := (h.ids _ hx).1; cases this
    unfold removeNode
    rw [if_neg (by simp [hx, hxn])]
    dsimp only
    generalize hs1 : (s.mapTree fun t => { t with pending := dropPendingOf t.pending x }) = s1
    have ht1 : s1.t = { s.t with pending := dropPendingOf s.t.pending x } := by rw [← hs1]; rfl
    have hw1 : WF s1.t := by rw [ht1]; exact h.pending _
    have wa1 : Trails diff b d s0 ft0 X s1 :=
      hwa.same (by rw [← hs1]; rfl) (fun y => by rw [ht1]; rfl) (by rw [ht1]; rfl)
    obtain ⟨s2, e2, ef2⟩ := removeParentsLoop_effect (s1.t.rawParents x).length 0 s1 x hw1
    have wa2 : Trails diff b d s0 ft0 (fun y => X y ∨ y = x) s2 :=
      trails_parentsLoop hdiff _ 0 s1 s2 hw1 (wa1.mono fun _ => Or.inl) e2
    rw [e2, Res.andThen_ok]
    have sub2 : ∀ y c, c ∈ s2.t.rawChildren y → c ∈ s.t.rawChildren y := by
      intro y c hc
      have := (ef2.childrenSub y).subset hc
      rw [ht1] at this; exact this
    have loop : ∀ (l : List Id) (s2 : St), WF s2.t → (∀ y c, c ∈ s2.t.rawChildren y → ht c < ht y) →
        (∀ c ∈ l, ht c < f) →
        Trails diff b d s0 ft0 (fun y => X y ∨ y = x) s2 →
        ∃ s3, Res.forEach (fun c s => if true = true then removeNode f s c true else orphanChild x c s) l s2 = .ok s3 ∧
          Trails diff b d s0 ft0 (fun y => X y ∨ y = x) s3 ∧ RemEffect s2.t s3.t ∧ (∀ c ∈ l, s3.t.has c = false) ∧
          ∀ y, s2.t.has y = true → s3.t.has y = false → ∃ c ∈ l, ReachEq s2.t.rawChildren c y := by
      intro l
      induction l with
      | nil =>
        intro s2 hw _ _ hwa
        refine ⟨s2, rfl, hwa, RemEffect.refl hw, by simp, ?_⟩
        intro y h1 h2; rw [h1] at h2; cases h2
      | cons c l ihl =>
        intro s2 hw hd hl hwa
        obtain ⟨s3, e3, ef3, g3, r3, -⟩ := removeNode_rec ht f s2 c hw hd (hl c (by simp))
        have wa3 : Trails diff b d s0 ft0 (fun y => X y ∨ y = x) s3 := by
          by_cases hc : s2.t.has c = true
          · have := ih (fun y => X y ∨ y = x) s2 c hw hd (hl c (by simp)) hc hwa
            rw [e3] at this
            exact this
          · have : s3 = s2 := by
              obtain ⟨k, rfl⟩ : ∃ k, f = k + 1 := ⟨f - 1, by have := hl c (by simp); omega⟩
              unfold removeNode at e3; rw [if_pos (by simp [hc])] at e3; cases e3; rfl
            rw [this]; exact hwa
        obtain ⟨s4, e4, wa4, ef4, g4, r4⟩ := ihl s3 ef3.wf
          (fun y d hd' => hd y d ((ef3.children y).subset hd')) (fun d hd' => hl d (by simp [hd']))
          wa3
        refine ⟨s4, ?_, wa4, ef3.trans ef4, ?_, ?_⟩
        · unfold Res.forEach; rw [if_pos rfl, e3]; exact e4
        · intro d hd'
          rcases List.mem_cons.1 hd' with rfl | hd'
          · by_contra hc; have := ef4.hasSub d (by simpa using hc); rw [g3] at this; cases this
          · exact g4 d hd'
        · intro y h1 h2
          by_cases h3 : s3.t.has y = true
          · obtain ⟨d, hd', hr⟩ := r4 y h3 h2
            exact ⟨d, by simp [hd'], ef3.reach hr⟩
          · exact ⟨c, by simp, r3 y h1 (by simpa using h3)⟩
    obtain ⟨s3, e3, wa3, ef3, g3, r3⟩ := loop (s2.t.rawChildren x) s2 ef2.wf
      (fun y c hc => hh y c (sub2 y c hc))
      (fun c hc => by have := hh x c (sub2 x c hc); omega)
      wa2
    rw [e3, Res.andThen_ok]
    have hx3 : s3.t.has x = true := by
      by_contra hc
      obtain ⟨c, hc1, hr⟩ := r3 x (by rw [ef2.same.has, ht1]; exact hx) (by simpa using hc)
      have hac : ∀ z w, ReachEq s2.t.rawChildren z w → ht w ≤ ht z := by
        rintro z w (rfl | hr)
        · exact le_refl _
        · induction hr with
          | single hm => exact le_of_lt (hh _ _ (sub2 _ _ hm))
          | tail _ hm ih => exact le_trans (le_of_lt (hh _ _ (sub2 _ _ hm))) ih
      have h1 := hac c x hr
      have h2 := hh x c (sub2 x c hc1)
      omega
    rw [if_pos hx3]
    refine Trails.deleted hdiff wa3 ef3.wf hx3 ?_
    intro c hc
    have hch := Tree.has_of_mem_rawParents hc
    have := (ef3.children x).subset (ef3.wf.up x c hc)
    rw [g3 c this] at hch; cases hch

theorem trails_removeRecursive (hdiff : SetDiff diff) {s : St} (h : WF s.t) {x : Id} (hx : s.t.has x = true)
    (hwa : Trails diff b d s0 ft0 X s) : Trails diff b d s0 ft0 X (removeNode (removeFuel s.t) s x true).state := by
  obtain ⟨ht, hle, hlt⟩ := exists_height s.t.rawChildren s.t.nodes.keys s.t.rawChildren_keys h.acyclicC
  exact trails_removeRec hdiff ht (removeFuel s.t) X s x h hlt (by
    have := hle x; rw [Dict.keys_length] at this; unfold removeFuel; omega) hx hwa

/-! ### The application -/

/-- A node gets another parent: first it loses the old one. -/
theorem trails_setParent (hdiff : SetDiff diff) {s : St} (h : Good s.t) (x p : Id) (hwa : Trails diff b d s0 ft0 (fun _ => False) s)
    (ho : Forest (nodeSetParent s x p).state.t) : Trails diff b d s0 ft0 (fun _ => False) (nodeSetParent s x p).state := by
  have K := trails_cuts (b := b) (d := d) (s0 := s0) (ft0 := ft0) hdiff
  unfold nodeSetParent at ho ⊢
  split
  · exact hwa
  · rename_i nd hnd
    rw [hnd] at ho
    dsimp only at ho
    split
    · rename_i hcond
      rw [if_pos hcond] at ho
      split
      · rename_i hpn
        obtain ⟨s', e, hg'⟩ := forEach_break_good (s.t.getParents x) (fun q => (q, x)) s h
        have h1 := forEach_break_keepsGood K (s.t.getParents x) (fun q => (q, x)) s (fun _ _ => trivial) h ⟨h, hwa⟩
        dsimp only at e h1
        rw [e] at h1 ⊢
        exact h1.2.same rfl (fun _ => rfl) rfl
      · rename_i hpn
        rw [hpn] at ho
        dsimp only at ho
        split
        · rename_i hce
          rw [if_pos hce] at ho
          have h2 := setParentLoop_keepsGood K nd.parents.length 0 s x p false (fun _ _ => trivial) h ⟨h, hwa⟩
          split
          · rename_i heq; rw [heq] at h2; exact h2.2
          · rename_i heq; rw [heq] at h2 ho
            dsimp only at ho
            split
            · rename_i hfl
              rw [if_pos hfl] at ho
              exact (nodeAddParent_keepsGood (trails_links (b := b) (d := d) (s0 := s0) (ft0 := ft0) hdiff) h2.1 x p trivial
                ⟨h2.1, fun _ => h2.2⟩).2 ho
            · exact h2.2
        · exact hwa
    · exact hwa

theorem edit_trails (hdiff : SetDiff diff) {a : FApp V} (hg : Good a.s.t) (ht : NoDangling a.s.t) (hr : a.s.t.has a.ft.root = false)
    (h : Loose (FT.env diff a.bank a.s.t a.data a.ft) a.ft.view) (hfo : Forest a.s.t) (op : Op) (hf : EditFair a op)
    (ho : Forest (step a.s op).state.t) : Trails diff a.bank a.data a.s a.ft (fun _ => False) (step a.s op).state := by
  have w0 : Trails diff a.bank a.data a.s a.ft (fun _ => False) a.s :=
    ⟨hr, a.ft.view, [], _, by simp, rfl, covers_self hg.wf hfo hr, LooseIn.move h rfl rfl (fun _ _ h => h) (fun y _ p hp => by
      change p ∈ (FT.env diff a.bank a.s.t a.data a.ft).par y at hp
      rw [env_par hg.wf] at hp; exact hp)⟩
  obtain ⟨hcf, hadd, -⟩ := hf
  have hs := (hcf.tidy hg ht).safe hg ht
  have links := fun (h1 : op.isLocal = true) (h2 : ∀ p c, ¬ op.cuts p c) =>
    (step_keepsGood (trails_links hdiff) hg op h1 hs (fun _ _ _ => trivial) (fun p c hc => h2 p c hc) ⟨hg, fun _ => w0⟩).2 ho
  have cuts := fun (h1 : op.isLocal = true) (h2 : ∀ p c, ¬ op.links p c) =>
    (step_keepsGood (trails_cuts hdiff) hg op h1 hs (fun p c hc => h2 p c hc) (fun _ _ _ => trivial) ⟨hg, w0⟩).2
  cases op with
  | addNode nd p =>
    change Forest (addNode a.s nd p).state.t at ho
    show Trails _ _ _ _ _ _ (addNode a.s nd p).state
    by_cases hx : a.s.t.has nd.id = true
    · rw [addNode_existing hx]; exact w0
    · have hg' := step_good hg (.addNode nd p) hs
      change Good (addNode a.s nd p).state.t at hg'
      obtain ⟨hm, hc⟩ := hs
      obtain ⟨-, -, -, hok⟩ := hc.resolve_left hx
      cases hr' : addNode a.s nd p with
      | err e s' => rw [hr'] at hok; cases hok
      | ok s' =>
        obtain ⟨t', rfl, har⟩ := addNode_arrived hg hm (by simpa using hx) hr'
        rw [hr'] at hg' ho
        exact w0.added hdiff hg.wf hg'.wf ho har (by simpa using hx) (hadd nd p rfl)
  | delNode x r =>
    by_cases hx : a.s.t.has x = true
    · cases r with
      | true =>
        show Trails _ _ _ _ _ _ (removeNode (removeFuel a.s.t) a.s x true).state
        exact trails_removeRecursive hdiff hg.wf hx w0
      | false =>
        show Trails _ _ _ _ _ _ (removeNode (a.s.t.nodes.entries.length + 1) a.s x false).state
        exact trails_removeOrphan hdiff hg hx (fun c hc => ht x c hc) _ w0
    · have : (step a.s (.delNode x r)).state = a.s := by
        show (removeNode (a.s.t.nodes.entries.length + 1) a.s x r).state = a.s
        unfold removeNode; rw [if_pos (by simp [hx])]; rfl
      rw [this]; exact w0
  | moveNode x p =>
    change Forest (moveNode a.s x p).state.t at ho
    show Trails _ _ _ _ _ _ (moveNode a.s x p).state
    unfold moveNode at ho ⊢
    split
    · rename_i hc
      rw [if_pos hc] at ho
      exact trails_setParent hdiff hg x p w0 ho
    · exact w0
  | setParent x p => exact trails_setParent hdiff hg x p w0 ho
  | refreshNode x => exact links rfl (fun _ _ h => h)
  | addParent x p => exact links rfl (fun _ _ h => h)
  | addChild x p => exact links rfl (fun _ _ h => h)
  | newRelationship x p => exact links rfl (fun _ _ h => h)
  | removeParent x p => exact cuts rfl (fun _ _ h => h)
  | breakRelationship x p => exact cuts rfl (fun _ _ h => h)
  | setParentsEnabled x p => exact cuts rfl (fun _ _ h => h)
  | setChildrenEnabled x p => exact cuts rfl (fun _ _ h => h)

/-- The view holds together, and it is right if it is fresh. -/
structure FState (diff : List Id → List Id → List Id) (fresh : Bool) (a : FApp V) : Prop where
  good : Good a.s.t
  tidy : NoDangling a.s.t
  bank : BankInv a.bank
  rootFree : a.s.t.has a.ft.root = false
  forest : Forest a.s.t
  loose : Loose (FT.env diff a.bank a.s.t a.data a.ft) a.ft.view
  right : fresh = true → VState diff a

theorem VState.fstate (hdiff : SetDiff diff) {a : FApp V} (h : VState diff a) (ho : Forest a.s.t) (fresh : Bool) : FState diff fresh a :=
  ⟨h.good, h.tidy, h.bank, h.rootFree, ho, h.fit.loose (env_ok hdiff a.bank h.good.wf a.data a.ft h.rootFree) (forest_oneParent ho),
    fun _ => h⟩

theorem FState.wstate (hdiff : SetDiff diff) {fresh : Bool} {a : FApp V} (h : FState diff fresh a) : WState diff fresh a := by
  obtain ⟨r, -, hr⟩ := exists_height a.s.t.rawParents a.s.t.nodes.keys a.s.t.rawParents_keys h.good.wf.acyclic
  exact ⟨h.good, h.tidy, h.bank, h.rootFree, h.loose.slack (env_ok hdiff a.bank h.good.wf a.data a.ft h.rootFree)
    (r := r) (by rw [env_par h.good.wf]; exact hr), h.right⟩

/-- The same tree and the same view. -/
theorem FState.still {fresh fr : Bool} {a a' : FApp V} (h : FState diff fresh a) (hs : a'.s = a.s) (hb : BankInv a'.bank)
    (hr : a'.ft.root = a.ft.root) (hf : a'.ft.flat = a.ft.flat) (hv : a'.ft.view = a.ft.view) (hfr : fr = true → VState diff a') :
    FState diff fr a' :=
  ⟨by rw [hs]; exact h.good, by rw [hs]; exact h.tidy, hb, by rw [hs, hr]; exact h.rootFree, by rw [hs]; exact h.forest,
    (by
      rw [hv]
      exact h.loose.grow (E' := FT.env diff a'.bank a'.s.t a'.data a'.ft) hr hf
        (fun y hy => by show a'.s.t.has y = true; rw [hs]; exact hy) (fun y p hp => by show p ∈ a'.s.t.getParents y; rw [hs]; exact hp)), hfr⟩

end Larch
