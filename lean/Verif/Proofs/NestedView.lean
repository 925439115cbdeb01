import Verif.Spec.NestedView
import Verif.Proofs.Nested
import Verif.Proofs.ViewApp
import Verif.Proofs.Announce

/-!
# Views and observers that edit the tree
-/

namespace Larch

open Spec Graph

/-! ### A view whose parents are ancestors -/

/-- The parents in the view are ancestors in the tree, or the root. -/
def Anc (E : VEnv) (v : View) : Prop := ∀ y, ∀ p ∈ v.pars y, p = E.root ∨ Reach E.par y p

theorem EB.par_root {E : VEnv} (hE : EB E) : E.par E.root = [] := by
  refine List.eq_nil_iff_forall_not_mem.2 fun p hp => ?_
  have := (hE.parHas _ _ hp).2
  rw [hE.rootHas] at this; cases this

theorem EB.root_par {E : VEnv} (hE : EB E) (x : Id) : E.root ∉ E.par x := by
  intro hp
  have := (hE.parHas _ _ hp).1
  rw [hE.rootHas] at this; cases this

/-- A bounded order that respects some more relations. -/
theorem EB.rankG {E : VEnv} (hE : EB E) {v : View} (hr : v.pars E.root = []) (G : Id → List Id) (hac : Acyclic G) (hp : ∀ x, ∀ p ∈ E.par x, p ∈ G x)
    (hv : ∀ x, ∀ p ∈ v.pars x, p ∈ G x) (K : List Id) (hK : ∀ x, G x ≠ [] → x ∈ K) :
    ∃ rank, EOK E rank (K.length + 1) ∧ (∀ y, ∀ p ∈ v.pars y, rank p < rank y) ∧ ∀ y p, y ≠ E.root → p ≠ E.root → p ∈ G y → rank p < rank y := by
  obtain ⟨ht, h1, h2⟩ := exists_height G K hK hac
  refine ⟨fun x => if x = E.root then 0 else ht x + 1, ?_, ?_, ?_⟩
  · refine ⟨hE.rootHas, hE.dispHas, hE.parHas, hE.parNd, ?_, hE.chi, by simp, ?_, ?_, hE.diff⟩
    · intro x p hpx
      have hx : x ≠ E.root := by rintro rfl; rw [hE.par_root] at hpx; cases hpx
      have hpn : p ≠ E.root := by rintro rfl; exact hE.root_par x hpx
      rw [if_neg hx, if_neg hpn]
      have := h2 x p (hp x p hpx)
      omega
    · intro x hx; rw [if_neg hx]; omega
    · intro x
      have := h1 x
      split <;> omega
  · intro y p hpy
    have hy : y ≠ E.root := by rintro rfl; rw [hr] at hpy; cases hpy
    dsimp only
    rw [if_neg hy]
    split
    · omega
    · have := h2 y p (hv y p hpy)
      omega
  · intro y p hy hpn hpy
    dsimp only
    rw [if_neg hy, if_neg hpn]
    have := h2 y p hpy
    omega

theorem reach_both {E : VEnv} (hE : EB E) {v : View} (hr : v.pars E.root = []) (ha : Anc E v) {a b : Id}
    (h : Reach (fun z => E.par z ++ v.pars z) a b) : b = E.root ∨ Reach E.par a b := by
  have step : ∀ {x y : Id}, y ∈ E.par x ++ v.pars x → y = E.root ∨ Reach E.par x y := by
    intro x y hy
    rcases List.mem_append.1 hy with hy | hy
    · exact .inr (Reach.single hy)
    · exact ha x y hy
  induction h with
  | single h => exact step h
  | tail _ h ih =>
    rename_i b c _
    rcases ih with rfl | ih
    · have h : c ∈ E.par E.root ++ v.pars E.root := h
      rw [hE.par_root, hr] at h; cases h
    · rcases step h with h | h
      · exact .inl h
      · exact .inr (ih.trans h)

theorem reach_extra {H : Id → List Id} {p y a b : Id} (h : Reach (fun z => H z ++ if z = p then [y] else []) a b) :
    Reach H a b ∨ ReachEq H a p ∧ ReachEq H y b := by
  have step : ∀ {x z : Id}, z ∈ H x ++ (if x = p then [y] else []) → z ∈ H x ∨ x = p ∧ z = y := by
    intro x z hz
    rcases List.mem_append.1 hz with hz | hz
    · exact .inl hz
    · split at hz
      · exact .inr ⟨by assumption, List.mem_singleton.1 hz⟩
      · cases hz
  induction h with
  | single h =>
    rcases step h with h | ⟨rfl, rfl⟩
    · exact .inl (Reach.single h)
    · exact .inr ⟨.inl rfl, .inl rfl⟩
  | tail _ h ih =>
    rcases step h with h | ⟨rfl, rfl⟩
    · rcases ih with ih | ⟨ih1, ih2⟩
      · exact .inl (ih.trans (Reach.single h))
      · refine .inr ⟨ih1, ?_⟩
        rcases ih2 with rfl | ih2
        · exact .inr (Reach.single h)
        · exact .inr (ih2.trans (Reach.single h))
    · rcases ih with ih | ⟨ih1, -⟩
      · exact .inr ⟨.inr ih, .inl rfl⟩
      · exact .inr ⟨ih1, .inl rfl⟩

/-- An update keeps this. -/
theorem Anc.update {E : VEnv} (hE : EB E) (hac : Acyclic E.par) {v : View} {r : Id → Nat} (hv : VInv E r (fun _ => False) v) (ha : Anc E v)
    (K : List Id) (hK : ∀ x, E.has x = true → x ∈ K) {f : Nat} (hf : 2 * (K.length + v.nodes.entries.length) + 4 ≤ f) {x : Id} {v' : View}
    (hu : E.update f x .both v = .ok v') {r' : Id → Nat} (hv' : VInv E r' (fun _ => False) v') : Anc E v' := by
  intro y p hp
  by_contra hc
  push Not at hc
  obtain ⟨hpr, hre⟩ := hc
  have hyp : y ≠ p := by
    rintro rfl
    exact absurd (hv'.par y y hp).2 (lt_irrefl _)
  have hyr : y ≠ E.root := by rintro rfl; rw [hv'.rootPars] at hp; cases hp
  have hpK : p ∈ K := hK p (hE.dispHas p (hv'.sub p (hv'.par y p hp).1 hpr))
  obtain ⟨rank, e1, e2, e3⟩ := hE.rankG hv.rootPars (fun z => (E.par z ++ v.pars z) ++ if z = p then [y] else []) (by
    intro z hz
    rcases reach_extra hz with h | ⟨h1, h2⟩
    · rcases reach_both hE hv.rootPars ha h with rfl | h'
      · obtain ⟨q, hq, -⟩ := (reach_iff _ _ _).1 h
        rw [hE.par_root, hv.rootPars] at hq; cases hq
      · exact hac z h'
    · have h3 : ReachEq (fun z => E.par z ++ v.pars z) y p := by
        rcases h2 with rfl | h2
        · exact h1
        · rcases h1 with rfl | h1
          · exact .inr h2
          · exact .inr (h2.trans h1)
      rcases h3 with h3 | h3
      · exact hyp h3
      · rcases reach_both hE hv.rootPars ha h3 with h4 | h4
        · exact hpr h4
        · exact hre h4)
    (fun x p hp => List.mem_append_left _ (List.mem_append_left _ hp)) (fun x p hp => List.mem_append_left _ (List.mem_append_right _ hp))
    (K ++ v.nodes.keys) (by
      intro z hz
      by_cases hzp : z = p
      · subst hzp; exact List.mem_append_left _ hpK
      · rw [if_neg hzp, List.append_nil] at hz
        by_cases h : E.par z = []
        · rw [h, List.nil_append] at hz
          exact List.mem_append_right _ (v.pars_keys z hz)
        · obtain ⟨q, hq⟩ := List.exists_mem_of_ne_nil _ h
          exact List.mem_append_left _ (hK z (hE.parHas z q hq).2))
  rw [List.length_append, Dict.keys_length] at e1
  obtain ⟨v'', h1, h2, -, -⟩ := update_down_ok e1 f x .both v (by omega) rfl (hv.rerank e2)
  rw [hu] at h1
  cases h1
  have a1 := (h2.par y p hp).2
  have a2 := e3 p y hpr hyr (by simp)
  omega

theorem Fit.anc {E : VEnv} {v : View} (h : Fit E (fun _ => False) v) : Anc E v := by
  intro y p hp
  rcases h.parSub (fun _ h => h) hp with h | h
  · exact .inl h
  · exact .inr (Reach.single h)

/-- An order for a tree that has all the relations the view shows. -/
theorem Anc.orders {E : VEnv} (hE : EB E) {v : View} (hr : v.pars E.root = []) (ha : Anc E v) (hac : Acyclic E.par) (K : List Id)
    (hK : ∀ x, E.par x ≠ [] → x ∈ K) : ∃ r, Orders E v r := by
  have hac' : Acyclic (fun z => E.par z ++ v.pars z) := by
    intro z hz
    rcases reach_both hE hr ha hz with rfl | h'
    · obtain ⟨q, hq, -⟩ := (reach_iff _ _ _).1 hz
      rw [hE.par_root, hr] at hq; cases hq
    · exact hac z h'
  obtain ⟨rank, e1, e2, -⟩ := hE.rankG hr (fun z => E.par z ++ v.pars z) hac'
    (fun x p hp => List.mem_append_left _ hp) (fun x p hp => List.mem_append_right _ hp) (K ++ v.nodes.keys) (by
      intro x hx
      by_cases h : E.par x = []
      · rw [h, List.nil_append] at hx
        exact List.mem_append_right _ (v.pars_keys x hx)
      · exact List.mem_append_left _ (hK x h))
  exact ⟨rank, e1.parRank, e2⟩

/-! ### A view that is owed notifications -/

/-- Everything is right as far as the nodes outside `X` are concerned. -/
structure Owed (E : VEnv) (X : Id → Prop) (v : View) : Prop where
  inv : ∃ r, Orders E v r ∧ VInv E r (fun _ => False) v
  has : ∀ y, ¬ X y → E.disp y = true → v.has y = true
  snap : ∀ y, ¬ X y → E.disp y = true → ∃ W, ∀ p, p ∈ v.pars y ↔ p ∈ npOf E W y
  par : ∀ y, ¬ X y → E.disp y = true → E.flat = false → ∀ p ∈ E.par y, ¬ X p → E.disp p = true → p ∈ v.pars y

theorem Owed.mono {E : VEnv} {X Y : Id → Prop} {v : View} (h : Owed E X v) (hy : ∀ y, X y → Y y) : Owed E Y v :=
  ⟨h.inv, fun y hn => h.has y fun hx => hn (hy y hx), fun y hn => h.snap y fun hx => hn (hy y hx),
    fun y hn hd hf p hp hpn => h.par y (fun hx => hn (hy y hx)) hd hf p hp fun hx => hpn (hy p hx)⟩

theorem Owed.fit {E : VEnv} (hE : EB E) {X : Id → Prop} {v : View} (h : Owed E X v) (hX : ∀ y, ¬ X y) : Fit E (fun _ => False) v := by
  have h' : Arriving E [] v := ⟨h.inv, fun y _ => h.has y (hX y), fun y _ => h.snap y (hX y), fun y _ hd hf p hp _ => h.par y (hX y) hd hf p hp (hX p)⟩
  exact h'.fit hE

theorem Fit.owed {E : VEnv} (hE : EB E) {X : Id → Prop} {v : View} (h : Fit E (fun _ => False) v) : Owed E X v := by
  refine ⟨h.inv, fun y _ => h.all y, fun y _ hd => ⟨fun _ => true, fun p => ?_⟩, fun y _ hd hf p hp _ hdp => ?_⟩
  · rw [h.settled y hd (fun h => h) p, npAll]
  · rw [h.settled y hd (fun h => h) p, npAll]
    exact mem_npOf_of hf (hE.parHas y p hp).2 hp rfl hdp

theorem Owed.step {E : VEnv} {X : Id → Prop} {v : View} {x : Id} (hE : EB E) (h : Owed E X v) (K : List Id)
    (hK : ∀ x, E.par x ≠ [] → x ∈ K) {f : Nat} (hf : 2 * (K.length + v.nodes.entries.length) + 8 ≤ f) (hx : x ≠ E.root) :
    ∃ v', E.update f x .both v = .ok v' ∧ Owed E (fun y => X y ∧ y ≠ x) v' := by
  obtain ⟨r, ho, hv⟩ := h.inv
  obtain ⟨rank, e1, e2⟩ := hE.rank hv.rootPars ho K hK
  have hv' := hv.rerank e2
  obtain ⟨v', a1, a2, a3, a4⟩ := update_down_ok e1 f x .both v (by omega) rfl hv'
  have hout : ∀ y, y ≠ x → ¬ (X y ∧ y ≠ x) → ¬ X y := fun y hy hn hX => hn ⟨hX, hy⟩
  refine ⟨v', a1, ⟨rank, ⟨e1.parRank, fun y p hp => (a2.par y p hp).2⟩, a2⟩, fun y hy hd => ?_, fun y hy hd => ?_,
    fun y hy hd hfl p hp hpl hdp => ?_⟩
  · by_cases hyx : y = x
    · subst hyx; exact (a4 hx hd).1
    · exact a3.has y (h.has y (hout y hyx hy) hd)
  · by_cases hyx : y = x
    · subst hyx
      obtain ⟨-, ⟨W, -, -, w⟩, -⟩ := a4 hx hd
      exact ⟨W, fun p => by rw [w]⟩
    · rcases a3.snap y with e | ⟨W, -, -, w⟩
      · rw [e]; exact h.snap y (hout y hyx hy) hd
      · exact ⟨W, fun p => by rw [w]⟩
  · by_cases hpx : p = x
    · subst hpx
      exact ((a4 hx hdp).2.2 y ((mem_newKids e1).2 ⟨hfl, hp, hd⟩)).2
    · have hph : v.has p = true := h.has p (hout p hpx hpl) hdp
      by_cases hyx : y = x
      · subst hyx
        exact (a4 hx hd).2.1.par_in e1 hfl hph hdp hp
      · exact a3.par_stays e1 (h.par y (hout y hyx hy) hd hfl p hp (hout p hpx hpl) hdp) hfl hph hdp hp

theorem mem_npOf_congr {E E' : VEnv} {W W' : Id → Bool} {y : Id} (hr : E'.root = E.root) (hf : E'.flat = E.flat) (hh : E'.has y = E.has y)
    (hp : ∀ q, (q ∈ E'.par y ∧ W' q = true ∧ E'.disp q = true) ↔ (q ∈ E.par y ∧ W q = true ∧ E.disp q = true)) (p : Id) :
    p ∈ npOf E' W' y ↔ p ∈ npOf E W y := by
  have hc : ∀ q, q ∈ npCand E' W' y ↔ q ∈ npCand E W y := by
    intro q
    rw [mem_npCand, mem_npCand, hf, hh, hp q]
  have hn : npCand E' W' y = [] ↔ npCand E W y = [] := by
    simp only [List.eq_nil_iff_forall_not_mem, hc]
  unfold npOf
  by_cases h : npCand E W y = []
  · rw [if_pos h, if_pos (hn.2 h), hr]
  · rw [if_neg h, if_neg fun h' => h (hn.1 h')]
    exact hc p

/-! ### A view in the middle of edits -/

variable {V : Type} {diff : List Id → List Id → List Id} {b : Bank (Id → V)} {d : Id → V} {R : Id → Prop} {link : Prop} {X : Id → Prop}

/-- The view shows the tree, except that the nodes in `X` may be missing or misplaced. Its virtual root is one of `R`. If `link` holds, its
parents are ancestors. -/
structure Right (diff : List Id → List Id → List Id) (b : Bank (Id → V)) (d : Id → V) (R : Id → Prop) (link : Prop) (X : Id → Prop)
    (t : Tree) (ft : FT) : Prop where
  root : R ft.root
  rootFree : t.has ft.root = false
  flat : ft.flat = FT.anyFlat b ft.applied
  own : OwnOn b ft.applied
  owed : Owed (FT.env diff b t d ft) X ft.view
  anc : link → Anc (FT.env diff b t d ft) ft.view

theorem Right.mono {t : Tree} {ft : FT} (h : Right diff b d R link X t ft) {Y : Id → Prop} (hy : ∀ y, X y → Y y) :
    Right diff b d R link Y t ft := ⟨h.root, h.rootFree, h.flat, h.own, h.owed.mono hy, h.anc⟩

theorem Right.fit (hdiff : SetDiff diff) {t : Tree} {ft : FT} (h : Right diff b d R link X t ft) (hw : WF t) (hX : ∀ y, ¬ X y) :
    Fit (FT.env diff b t d ft) (fun _ => False) ft.view := h.owed.fit (env_ok hdiff b hw d ft h.rootFree) hX

/-- The tree changes only at the parents of nodes in `Y`. -/
theorem Right.move {t t' : Tree} {ft : FT} (h : Right diff b d R link X t ft) {Y : Id → Prop} (hw : WF t) (hw' : WF t')
    (hh : ∀ y, t'.has y = t.has y) (hXY : ∀ y, X y → Y y) (hpar : ∀ y, ¬ Y y → t'.rawParents y = t.rawParents y)
    (hord : ∃ r, Orders (FT.env diff b t' d ft) ft.view r) (hanc : link → Anc (FT.env diff b t' d ft) ft.view) :
    Right diff b d R link Y t' ft := by
  have hdisp : ∀ y, (FT.env diff b t' d ft).disp y = (FT.env diff b t d ft).disp y := fun y => accepts_own h.own (hh y) rfl
  have h3 := h.owed
  refine ⟨h.root, by rw [hh]; exact h.rootFree, h.flat, h.own, ⟨?_, ?_, ?_, ?_⟩, hanc⟩
  · obtain ⟨r, ho⟩ := hord
    obtain ⟨r0, -, hv⟩ := h3.inv
    exact ⟨r, ho, (hv.rerank ho.2).congrE rfl (fun y hy hn => by rw [hdisp]; exact hv.sub y hy hn)⟩
  · intro y hn hy; rw [hdisp] at hy; exact h3.has y (fun hx => hn (hXY y hx)) hy
  · intro y hn hy
    rw [hdisp] at hy
    obtain ⟨W, hW⟩ := h3.snap y (fun hx => hn (hXY y hx)) hy
    refine ⟨W, fun p => ?_⟩
    rw [hW]
    symm
    refine mem_npOf_congr (E := FT.env diff b t d ft) (E' := FT.env diff b t' d ft) rfl rfl (hh y) (fun q => ?_) p
    rw [hdisp, env_par hw, env_par hw', hpar y hn]
  · intro y hn hy hf p hp hpn hdp
    rw [hdisp] at hy hdp
    rw [env_par hw', hpar y hn, ← env_par hw (diff := diff) (b := b) (d := d) (ft := ft)] at hp
    exact h3.par y (fun hx => hn (hXY y hx)) hy hf p hp (fun hx => hpn (hXY p hx)) hdp

theorem Right.same {t t' : Tree} {ft : FT} (h : Right diff b d R link X t ft) (hw : WF t) (hw' : WF t')
    (hh : ∀ y, t'.has y = t.has y) (hp : t'.rawParents = t.rawParents) : Right diff b d R link X t' ft := by
  refine h.move hw hw' hh (fun _ h => h) (fun y _ => by rw [hp]) ?_ ?_
  · obtain ⟨r, ho, -⟩ := h.owed.inv
    refine ⟨r, ?_, ho.2⟩
    rw [env_par hw', hp, ← env_par hw (diff := diff) (b := b) (d := d) (ft := ft)]
    exact ho.1
  · intro hl y p hpy
    have := h.anc hl y p hpy
    rw [env_par hw] at this
    rw [env_par hw', hp]
    exact this

theorem Right.cut {t t' : Tree} {ft : FT} (h : Right diff b d R link X t ft) (hl : ¬ link) (hw : WF t) (hw' : WF t')
    {p c : Id} (ef : BreakEffect t t' p c) : Right diff b d R link (fun y => X y ∨ y = c) t' ft := by
  refine h.move hw hw' ef.has (fun _ h => .inl h) (fun y hy => ?_) ?_ fun h => absurd h hl
  · rw [ef.parents, if_neg fun e => hy (.inr e)]
  · obtain ⟨r, ho, -⟩ := h.owed.inv
    refine ⟨r, ?_, ho.2⟩
    have ho1 := ho.1
    rw [env_par hw] at ho1
    rw [env_par hw']
    intro x q hq
    rw [ef.parents] at hq
    split at hq
    · rename_i e; subst e; exact ho1 x q (List.mem_of_mem_erase hq)
    · exact ho1 x q hq

theorem Right.linked (hdiff : SetDiff diff) {t t' : Tree} {ft : FT} (h : Right diff b d R link X t ft)
    (hl : link ∨ ∀ y, ¬ X y) (hw : WF t) (hw' : WF t') {p c : Id} (hc : t.create p c = some t') :
    Right diff b d R link (fun y => X y ∨ y = c) t' ft := by
  obtain ⟨-, -, ef⟩ := Tree.create_eq_some hc
  have ha : Anc (FT.env diff b t d ft) ft.view := by
    rcases hl with hl | hl
    · exact h.anc hl
    · exact (h.fit hdiff hw hl).anc
  have ha' : Anc (FT.env diff b t' d ft) ft.view := by
    intro y q hq
    have := ha y q hq
    rw [env_par hw] at this
    rw [env_par hw']
    refine this.imp id fun hr => hr.mono fun z w hz => ?_
    rw [ef.parents]
    split
    · rename_i e; subst e; rw [mem_appendNew]; exact .inl hz
    · exact hz
  obtain ⟨r, -, hv⟩ := h.owed.inv
  refine h.move hw hw' ef.has (fun _ h => .inl h) (fun y hy => by rw [ef.parents, if_neg fun e => hy (.inr e)])
    (Anc.orders (env_ok hdiff b hw' d ft (by rw [ef.has]; exact h.rootFree)) hv.rootPars ha' (by rw [env_par hw']; exact hw'.acyclic)
      t'.nodes.keys (env_keys hw')) fun _ => ha'

/-- A notification about a node that is there. -/
theorem Right.note (hdiff : SetDiff diff) {t : Tree} {ft : FT} (h : Right diff b d R link X t ft) (hw : WF t) (ev : Ev) {x : Id}
    (hx : t.has x = true) : ∃ v, FT.react diff b d ⟨t, ev, x⟩ ft = .ok { ft with view := v } ∧
      Right diff b d R link (fun y => X y ∧ y ≠ x) t { ft with view := v } := by
  have hE := env_ok hdiff b hw d ft h.rootFree
  have hne : x ≠ ft.root := by rintro rfl; rw [h.rootFree] at hx; cases hx
  obtain ⟨v', a1, a2⟩ := h.owed.step hE t.nodes.keys (env_keys hw)
    (f := 2 * (t.nodes.keys.length + ft.view.nodes.entries.length) + 8) (by omega) (x := x) hne
  refine ⟨v', react_eq (n := ⟨t, ev, x⟩) (ft := ft) a1, h.root, h.rootFree, h.flat, h.own, a2, fun hl => ?_⟩
  obtain ⟨r, -, hv⟩ := h.owed.inv
  obtain ⟨r', -, hv'⟩ := a2.inv
  exact Anc.update hE (by rw [env_par hw]; exact hw.acyclic) hv (h.anc hl) t.nodes.keys (fun y hy => (mem_keys t y).2 hy) (by omega) a1 hv'

theorem le_sum_map (r : Id → Nat) {l : List Id} {p : Id} (h : p ∈ l) : r p ≤ (l.map r).sum := by
  induction l with
  | nil => cases h
  | cons q l ih =>
    rw [List.map_cons, List.sum_cons]
    rcases List.mem_cons.1 h with rfl | h
    · omega
    · have := ih h
      omega

/-- A node arrives. -/
theorem Right.added (hdiff : SetDiff diff) {t t' : Tree} {ft : FT} (h : Right diff b d R link X t ft) (hw : WF t) (hw' : WF t')
    {x : Id} (ha : Arrived t t' x) (hx : t.has x = false) (hxR : ¬ R x) (hl : link ∨ (∀ y, ¬ X y) ∨ ∀ y, x ∉ t'.rawParents y) :
    Right diff b d R link (fun y => X y ∨ y = x) t' ft := by
  have hxr : x ≠ ft.root := by rintro rfl; exact hxR h.root
  have hroot : t'.has ft.root = false := by
    rw [ha.has, h.rootFree]; simp [Ne.symm hxr]
  have hE := env_ok hdiff b hw' d ft hroot
  have h3 := h.owed
  obtain ⟨r0, ho0, hv⟩ := h3.inv
  have hdisp : ∀ y, y ≠ x → (FT.env diff b t' d ft).disp y = (FT.env diff b t d ft).disp y :=
    fun y hy => accepts_own h.own (by rw [ha.has]; simp [hy]) rfl
  have hvx : ft.view.has x = false := by
    by_contra hc
    have := hv.sub x (by simpa using hc) hxr
    have := accepts_has this
    rw [hx] at this; cases this
  have hxp : ∀ y, x ∉ t.rawParents y := by
    intro y hy
    have := hw.has_parent hy
    rw [hx] at this; cases this
  have hpx : t.rawParents x = [] := by
    by_contra hc
    obtain ⟨q, hq⟩ := List.exists_mem_of_ne_nil _ hc
    have := Tree.has_of_mem_rawParents hq
    rw [hx] at this; cases this
  have hsup : ∀ z w, w ∈ t.rawParents z → w ∈ t'.rawParents z := by
    intro z w hz
    have hzx : z ≠ x := by rintro rfl; rw [hpx] at hz; cases hz
    exact (ha.parents z w hzx (by rintro rfl; exact hxp z hz)).2 hz
  have hanc : Anc (FT.env diff b t d ft) ft.view → Anc (FT.env diff b t' d ft) ft.view := by
    intro ha y q hq
    have := ha y q hq
    rw [env_par hw] at this
    rw [env_par hw']
    exact this.imp id fun hr => hr.mono hsup
  have hord : ∃ r, Orders (FT.env diff b t' d ft) ft.view r := by
    by_cases hA : Anc (FT.env diff b t d ft) ft.view
    · exact Anc.orders hE hv.rootPars (hanc hA) (by rw [env_par hw']; exact hw'.acyclic) t'.nodes.keys (env_keys hw')
    · have hleaf : ∀ y, x ∉ t'.rawParents y := by
        rcases hl with hl | hl | hl
        · exact absurd (h.anc hl) hA
        · exact absurd (h.fit hdiff hw hl).anc hA
        · exact hl
      refine ⟨fun y => if y = x then 1 + ((t'.rawParents x).map r0).sum else r0 y, ?_, ?_⟩
      · rw [env_par hw']
        have ho1 := ho0.1
        rw [env_par hw] at ho1
        intro y p hp
        have hpx : p ≠ x := by rintro rfl; exact hleaf y hp
        dsimp only
        rw [if_neg hpx]
        split
        · rename_i e; subst e
          have := le_sum_map r0 hp
          omega
        · rename_i e
          exact ho1 y p ((ha.parents y p e hpx).1 hp)
      · intro y p hp
        have hyx : y ≠ x := by rintro rfl; rw [View.has_of_par hp] at hvx; cases hvx
        have hpx : p ≠ x := by rintro rfl; rw [(hv.par y p hp).1] at hvx; cases hvx
        dsimp only
        rw [if_neg hyx, if_neg hpx]
        exact ho0.2 y p hp
  obtain ⟨r, ho⟩ := hord
  refine ⟨h.root, hroot, h.flat, h.own, ⟨⟨r, ho, (hv.rerank ho.2).congrE rfl (fun y hy hn => by
      rw [hdisp y (by rintro rfl; rw [hvx] at hy; cases hy)]; exact hv.sub y hy hn)⟩, ?_, ?_, ?_⟩, fun hl => hanc (h.anc hl)⟩
  · intro y hn hy
    rw [hdisp y fun e => hn (.inr e)] at hy
    exact h3.has y (fun hX => hn (.inl hX)) hy
  · intro y hn hy
    have hyx : y ≠ x := fun e => hn (.inr e)
    rw [hdisp y hyx] at hy
    obtain ⟨W, hW⟩ := h3.snap y (fun hX => hn (.inl hX)) hy
    refine ⟨fun q => W q && decide (q ≠ x), fun p => ?_⟩
    rw [hW]
    symm
    refine mem_npOf_congr (E := FT.env diff b t d ft) (E' := FT.env diff b t' d ft) rfl rfl
      (by show t'.has y = t.has y; rw [ha.has]; simp [hyx]) (fun q => ?_) p
    rw [env_par hw, env_par hw']
    by_cases hqx : q = x
    · subst hqx
      simp [hxp y]
    · rw [hdisp q hqx, ha.parents y q hyx hqx]
      simp [hqx]
  · intro y hn hy hf p hp hpn hdp
    have hyx : y ≠ x := fun e => hn (.inr e)
    have hpx : p ≠ x := fun e => hpn (.inr e)
    rw [hdisp y hyx] at hy
    rw [hdisp p hpx] at hdp
    rw [env_par hw', ha.parents y p hyx hpx, ← env_par hw (diff := diff) (b := b) (d := d) (ft := ft)] at hp
    exact h3.par y (fun hX => hn (.inl hX)) hy hf p hp (fun hX => hpn (.inl hX)) hdp

/-- A node that has neither parents nor children is removed. -/
theorem Right.deleted (hdiff : SetDiff diff) {s : St} {ft : FT} (h : Right diff b d R link (fun _ => False) s.t ft) (hw : WF s.t)
    {x : Id} (hx : s.t.has x = true) (hno : ∀ c, x ∉ s.t.rawParents c) :
    ∃ v, FT.react diff b d ⟨dropNode s.t x, .deleted, x⟩ ft = .ok { ft with view := v } ∧
      Right diff b d R link (fun _ => False) (dropNode s.t x) { ft with view := v } := by
  have w0 : Watch diff b d s ft (fun y => y = x) s :=
    ⟨h.rootFree, fun l1 n l2 v e _ => by
      have := congrArg List.length e
      simp only [List.length_append, List.length_cons] at this
      omega, ft.view, [], by simp, rfl, (h.fit hdiff hw fun _ h => h).mono fun _ h => h.elim⟩
  obtain ⟨hr, -, v, l, e1, e2, hf⟩ := w0.deleted h.own hdiff hw hx hno
  have e1' : s.log ++ [⟨dropNode s.t x, .deleted, x⟩] = s.log ++ l := e1
  rw [List.append_cancel_left_eq] at e1'
  subst e1'
  have e3 : FT.react diff b d ⟨dropNode s.t x, .deleted, x⟩ ft = .ok { ft with view := v } := by
    unfold Res.forEach at e2
    cases hq : FT.react diff b d ⟨dropNode s.t x, .deleted, x⟩ ft with
    | ok ft' => rw [hq] at e2; exact e2
    | err e ft' => rw [hq] at e2; cases e2
  exact ⟨v, e3, h.root, hr, h.flat, h.own, hf.owed (env_ok hdiff b (hw.dropNode fun c _ => hno c) d ft hr), fun _ => hf.anc⟩

/-! ### Several views, and observers that edit -/

variable {σ : Type} {cs : List (Seat σ)} {cut : Prop} {Z : Seat σ → Id → Prop}

/-- All views show the tree, except that the nodes in `X` may be missing or misplaced, and in the view `c` also those in `Z c`. -/
def AllRight (diff : List Id → List Id → List Id) (b : Bank (Id → V)) (d : Id → V) (R : Id → Prop) (link : Prop) (cs : List (Seat σ))
    (Z : Seat σ → Id → Prop) (X : Id → Prop) (w : Now σ) : Prop :=
  Sane w.s ∧ ∀ c ∈ cs, Right diff b d R link (fun y => X y ∨ Z c y) w.s.t (c.get w.o)

/-- Nothing is missing or misplaced. -/
def NoneOwed (cs : List (Seat σ)) (Z : Seat σ → Id → Prop) (X : Id → Prop) : Prop := (∀ y, ¬ X y) ∧ ∀ c ∈ cs, ∀ y, ¬ Z c y

theorem NoneOwed.none {X : Id → Prop} (h : NoneOwed cs Z X) {c : Seat σ} (hc : c ∈ cs) (y : Id) : ¬ (X y ∨ Z c y) := by
  rintro (hy | hy)
  · exact h.1 y hy
  · exact h.2 c hc y hy

theorem grip_views (hdiff : SetDiff diff) (hcut : cut → ¬ link) (Z : Seat σ → Id → Prop) :
    Grip (AllRight diff b d R link cs Z) cut link (NoneOwed cs Z) where
  sane := fun h => h.1
  mono := fun h hy => ⟨h.1, fun c hc => (h.2 c hc).mono fun y => Or.imp_left (hy y)⟩
  same := fun h _ hh hp hs => ⟨hs, fun c hc => (h.2 c hc).same h.1.1.wf hs.1.wf hh hp⟩
  linked := fun hl h hc _ hs => ⟨hs, fun c' hc' =>
    ((h.2 c' hc').linked hdiff (hl.imp id fun hl => hl.none hc') h.1.1.wf hs.1.wf hc).mono fun y hy => by tauto⟩
  cuts := fun hc h ef hs => ⟨hs, fun c' hc' => ((h.2 c' hc').cut (hcut hc) h.1.1.wf hs.1.wf ef).mono fun y hy => by tauto⟩

theorem seats_apart (hap : SeatsApart cs) {c c' : Seat σ} (hc : c ∈ cs) (hc' : c' ∈ cs) (hne : c ≠ c') (ft : FT) (o : σ) :
    c'.get (c.put ft o) = c'.get o :=
  haveI : Std.Symm fun c c' : Seat σ => (∀ ft o, c'.get (c.put ft o) = c'.get o) ∧ ∀ ft o, c.get (c'.put ft o) = c.get o := ⟨fun _ _ h => ⟨h.2, h.1⟩⟩
  (List.Pairwise.forall (R := fun c c' : Seat σ => (∀ ft o, c'.get (c.put ft o) = c'.get o) ∧ ∀ ft o, c.get (c'.put ft o) = c.get o)
    hap hc hc' hne).1 ft o

/-- A view is told. -/
theorem Seat.run_told (c : Seat σ) (edit : Now σ → Op → Res (Now σ)) {ev : Ev} {x : Id} {w : Now σ} {v : View}
    (h : FT.react diff b d ⟨w.s.t, ev, x⟩ (c.get w.o) = .ok { c.get w.o with view := v }) :
    Now.run edit (c.watcher diff b d ev x w) w = .ok ⟨w.s, c.put { c.get w.o with view := v } w.o⟩ := by
  unfold Seat.watcher
  rw [h]; rfl

/-- What edits in callbacks have to be. -/
def Kind (cut link : Prop) (R : Id → Prop) (s : St) (op : Op) : Prop :=
  Gentle s op ∧ (op.mayCut → cut) ∧ (op.mayLink → link) ∧
    ∀ nd p, op = .addNode nd p → ¬ R nd.id ∧ (link ∨ ∀ y, nd.id ∉ (addNode s nd p).state.t.getParents y)

/-- A callback runs. -/
theorem run_right {I : (Id → Prop) → Now σ → Prop} {calm : (Id → Prop) → Prop} {ok : St → Op → Prop} (G : Grip I cut link calm)
    (hI : ∀ {X} {w : Now σ} {o}, I X w → SameViews cs w.o o → I X ⟨w.s, o⟩) {edit : Now σ → Op → Res (Now σ)} {X : Id → Prop}
    (he : ∀ w op, I X w → ok w.s op → Ends I (fun e => e = .recursion) X w (edit w op)) :
    ∀ (p : Prog σ) (w : Now σ), I X w → Modest cs ok p w → Fine I (fun e => e = .recursion) X w (Now.run edit p w)
  | .done o, w, h, hp => ⟨fun _ h => h, hI h hp⟩
  | .raise e o, w, h, hp => ⟨fun _ h => h, hp, show Sane w.s from G.sane h⟩
  | .edit o op next, w, h, hp => by
    obtain ⟨h1, h2, h3⟩ := hp
    have a := he ⟨w.s, o⟩ op (hI h h1) h2
    obtain ⟨b1, b2⟩ := h3 (edit ⟨w.s, o⟩ op) (a.sane G)
    show Fine I _ X w (Now.run edit (next (edit ⟨w.s, o⟩ op)) (edit ⟨w.s, o⟩ op).state)
    have hgr : Grows w (edit ⟨w.s, o⟩ op).state := by rcases a with a | a <;> exact a.1
    by_cases hr : ∃ w', edit ⟨w.s, o⟩ op = .err .recursion w'
    · obtain ⟨w', e⟩ := hr
      obtain ⟨o', e'⟩ := b1 w' e
      rw [e']
      exact ⟨hgr, rfl, a.sane G⟩
    · push Not at hr
      have hI' : I X (edit ⟨w.s, o⟩ op).state := by
        rcases a with a | a
        · cases e : edit ⟨w.s, o⟩ op with
          | ok w' => rw [e] at a; exact a.2
          | err e1 w' => rw [e] at a; obtain rfl : e1 = .recursion := a.2.1; exact absurd e (hr w')
        · exact a.2
      exact (run_right G hI he _ _ hI' (b2 hr)).grows hgr

theorem AllRight.sameViews {w : Now σ} {o : σ} (h : AllRight diff b d R link cs Z X w) (ho : SameViews cs w.o o) :
    AllRight diff b d R link cs Z X ⟨w.s, o⟩ := ⟨h.1, fun c hc => by
  show Right diff b d R link _ w.s.t (c.get o)
  rw [ho c hc]; exact h.2 c hc⟩

theorem AllRight.imp {w : Now σ} (h : AllRight diff b d R link cs Z X w) {Z' : Seat σ → Id → Prop} {X' : Id → Prop}
    (hz : ∀ c ∈ cs, ∀ y, X y ∨ Z c y → X' y ∨ Z' c y) : AllRight diff b d R link cs Z' X' w :=
  ⟨h.1, fun c hc => (h.2 c hc).mono (hz c hc)⟩

variable {obs : List (Member σ)} {more : Nat} {ok : St → Op → Prop}

theorem mem_seats {l : List (Member σ)} {c : Seat σ} : c ∈ seats l ↔ .view c ∈ l := by
  induction l with
  | nil => simp [seats]
  | cons m l ih => cases m <;> simp [seats, ih]

/-- The members are told, one after the other. Those that still have to be told may miss `x`. -/
theorem members_right (hdiff : SetDiff diff) (hcut : cut → ¬ link) (hap : SeatsApart cs) (hok : ∀ s op, ok s op → Kind cut link R s op)
    {tell : Ev → Id → Now σ → Res (Now σ)}
    (T : ∀ Z, Tells (AllRight diff b d R link cs Z) (fun e => e = .recursion) link (NoneOwed cs Z) (fun x => ¬ R x) tell)
    (ev : Ev) (x : Id) (l : List (Member σ)) (hm : ∀ ob, .editor ob ∈ l → ModestWatcher cs ok ob) (hl : ∀ c ∈ seats l, c ∈ cs) (w : Now σ)
    (hx : ∀ c ∈ seats l, w.s.t.has x = true) (h : AllRight diff b d R link cs (fun c y => Z c y ∨ c ∈ seats l ∧ y = x) X w) :
    Fine (AllRight diff b d R link cs Z) (fun e => e = .recursion) X w
      (Res.forEach (fun ob w => Now.run (fun w op => Now.step tell w op more) (ob ev x w) w) (l.map (·.watcher diff b d)) w) := by
  induction l generalizing w with
  | nil => exact ⟨fun _ h => h, h.imp fun c _ y hy => by simpa [seats] using hy⟩
  | cons m l ih =>
    rw [List.map_cons, Res.forEach]
    cases m with
    | view c =>
      have hc := hl c (by simp [seats])
      obtain ⟨v, e1, e2⟩ := (h.2 c hc).note hdiff h.1.1.wf ev (hx c (by simp [seats]))
      rw [show Member.watcher diff b d (.view c) = c.watcher diff b d from rfl, c.run_told _ e1]
      refine (ih (fun ob hob => hm ob (by simp [hob])) (fun c' hc' => hl c' (by simp [seats, hc']))
        ⟨w.s, c.put { c.get w.o with view := v } w.o⟩ (fun c' hc' => hx c' (by simp [seats, hc']))
        ⟨h.1, fun c' hc' => ?_⟩ : Fine _ _ X _ _).grows fun _ h => h
      by_cases hcc : c = c'
      · subst hcc
        show Right diff b d R link _ w.s.t (c.get (c.put _ w.o))
        rw [c.get_put]
        exact e2.mono fun y hy => by tauto
      · show Right diff b d R link _ w.s.t (c'.get (c.put _ w.o))
        rw [seats_apart hap hc hc' hcc]
        refine (h.2 c' hc').mono fun y hy => ?_
        simp only [seats, List.mem_cons, Ne.symm hcc, false_or] at hy
        exact hy
    | editor ob =>
      have G : Grip (AllRight diff b d R link cs fun c y => Z c y ∨ c ∈ seats l ∧ y = x) cut link (NoneOwed cs fun c y => Z c y ∨ c ∈ seats l ∧ y = x) :=
        grip_views hdiff hcut _
      have a := run_right G AllRight.sameViews (edit := fun w op => Now.step tell w op more) (X := X) (ok := ok) (fun w op hI ho => by
        obtain ⟨k1, k2, k3, k4⟩ := hok _ _ ho
        exact gentle_ends G (T _) more k1 k2 (fun h => .inl (k3 h)) (fun nd p e => ⟨(k4 nd p e).1, (k4 nd p e).2.imp id .inr⟩) hI)
        (ob ev x w) w h (hm ob (by simp) ev x w h.1)
      rw [show Member.watcher diff b d (.editor ob) = ob from rfl]
      cases e : Now.run (fun w op => Now.step tell w op more) (ob ev x w) w with
      | err e1 w' => rw [e] at a; exact ⟨a.1, a.2⟩
      | ok w' =>
        rw [e] at a
        exact (ih (fun ob hob => hm ob (by simp [hob])) hl w' (fun c hc => a.1 x (hx c hc)) a.2).grows a.1

/-- Everybody is told of a node that is there. -/
theorem told_right (hdiff : SetDiff diff) (hcut : cut → ¬ link) (hap : SeatsApart (seats obs))
    (hok : ∀ s op, ok s op → Kind cut link R s op) (hm : ∀ ob, .editor ob ∈ obs → ModestWatcher (seats obs) ok ob) {n : Nat}
    (T : ∀ Z, Tells (AllRight diff b d R link (seats obs) Z) (fun e => e = .recursion) link (NoneOwed (seats obs) Z) (fun x => ¬ R x)
      (Now.told (obs.map (·.watcher diff b d)) more n)) {ev : Ev} {x : Id} {w : Now σ} (hx : w.s.t.has x = true)
    (h : AllRight diff b d R link (seats obs) Z (fun y => X y ∨ y = x) w) :
    Fine (AllRight diff b d R link (seats obs) Z) (fun e => e = .recursion) (fun y => X y ∧ y ≠ x) w
      (Now.told (obs.map (·.watcher diff b d)) more (n + 1) ev x w) := by
  refine (members_right hdiff hcut hap hok T ev x obs hm (fun _ h => h) ⟨w.s.emit ev x, w.o⟩ (fun _ _ => hx)
    ⟨h.1, fun c hc => (h.2 c hc).mono fun y hy => ?_⟩ : Fine _ _ _ _ _).grows fun _ h => h
  by_cases hyx : y = x
  · exact .inr (.inr ⟨hc, hyx⟩)
  · tauto

theorem tells_views (hdiff : SetDiff diff) (hcut : cut → ¬ link) (hap : SeatsApart (seats obs))
    (hok : ∀ s op, ok s op → Kind cut link R s op) (hm : ∀ ob, .editor ob ∈ obs → ModestWatcher (seats obs) ok ob) (n : Nat) (Z : Seat σ → Id → Prop) :
    Tells (AllRight diff b d R link (seats obs) Z) (fun e => e = .recursion) link (NoneOwed (seats obs) Z) (fun x => ¬ R x)
      (Now.told (obs.map (·.watcher diff b d)) more n) := by
  induction n generalizing Z with
  | zero => exact ⟨fun h _ => ⟨fun _ h => h, rfl, h.1⟩, fun _ hs _ _ _ _ => ⟨fun _ h => h, rfl, hs⟩⟩
  | succ n ih =>
    have G : Grip (AllRight diff b d R link (seats obs) Z) cut link (NoneOwed (seats obs) Z) := grip_views hdiff hcut _
    constructor
    · intro X w x h hx
      exact told_right hdiff hcut hap hok hm ih hx (G.mono h fun _ => .inl)
    · intro X w x t' h hs ha hx hxR hl
      refine (told_right (w := ⟨⟨t', w.s.log⟩, w.o⟩) hdiff hcut hap hok hm ih (X := X) (by show t'.has x = true; rw [ha.has]; simp) ⟨hs, fun c hc => ?_⟩).mono G fun _ h => h.1
      exact (Right.added hdiff (h.2 c hc) h.1.1.wf hs.1.wf ha hx hxR (hl.imp id (Or.imp_left fun hl => hl.none hc))).mono fun y hy => by tauto

/-- Everybody is told that a node was removed. -/
theorem members_deleted (hdiff : SetDiff diff) (hcut : cut → ¬ link) (hap : SeatsApart cs) (hok : ∀ s op, ok s op → Kind cut link R s op)
    {tell : Ev → Id → Now σ → Res (Now σ)}
    (T : ∀ Z, Tells (AllRight diff b d R link cs Z) (fun e => e = .recursion) link (NoneOwed cs Z) (fun x => ¬ R x) tell)
    {s : St} {x : Id} (hw : WF s.t) (hx : s.t.has x = true) (hno : ∀ c, x ∉ s.t.rawParents c)
    (l : List (Member σ)) (hm : ∀ ob, .editor ob ∈ l → ModestWatcher cs ok ob) (hd : EarlyIgnoreRemovals cs l) (hl : ∀ c ∈ seats l, c ∈ cs) 
    (hnd : (seats l).Nodup) (w : Now σ) (hs : Sane w.s) (ht : w.s.t = dropNode s.t x)
    (h1 : ∀ c ∈ seats l, Right diff b d R link (fun _ => False) s.t (c.get w.o))
    (h2 : ∀ c ∈ cs, c ∉ seats l → Right diff b d R link (fun _ => False) w.s.t (c.get w.o)) :
    Fine (AllRight diff b d R link cs fun _ _ => False) (fun e => e = .recursion) (fun _ => False) ⟨w.s, w.o⟩
      (Res.forEach (fun ob w => Now.run (fun w op => Now.step tell w op more) (ob .deleted x w) w) (l.map (·.watcher diff b d)) w) := by
  induction l generalizing w with
  | nil => exact ⟨fun _ h => h, hs, fun c hc => (h2 c hc (by simp [seats])).mono fun _ h => h.elim⟩
  | cons m l ih =>
    cases m with
    | view c =>
      have hc := hl c (by simp [seats])
      rw [List.map_cons, Res.forEach]
      obtain ⟨hcl, hnd'⟩ := List.nodup_cons.1 hnd
      obtain ⟨v, e1, e2⟩ := (h1 c (by simp [seats])).deleted hdiff hw hx hno
      rw [← ht] at e1 e2
      rw [show Member.watcher diff b d (.view c) = c.watcher diff b d from rfl, c.run_told _ e1]
      refine (ih (fun ob hob => hm ob (by simp [hob])) hd (fun c' hc' => hl c' (by simp [seats, hc'])) hnd'
        ⟨w.s, c.put { c.get w.o with view := v } w.o⟩ hs ht (fun c' hc' => ?_)
        fun c' hc' hn => ?_ : Fine _ _ _ _ _).grows fun _ h => h
      · rw [seats_apart hap hc (hl c' (by simp [seats, hc'])) (by rintro rfl; exact hcl hc')]
        exact h1 c' (by simp [seats, hc'])
      · by_cases hcc : c = c'
        · subst hcc
          rw [c.get_put]
          exact e2
        · rw [seats_apart hap hc hc' hcc]
          exact h2 c' hc' (by simp [seats, hn, Ne.symm hcc])
    | editor ob =>
      rcases hd.1 with hd1 | hd1
      · rw [List.map_cons, Res.forEach]
        obtain ⟨o, e1, e2⟩ := hd1 x w
        rw [show Member.watcher diff b d (.editor ob) = ob from rfl, e1]
        refine (ih (fun ob hob => hm ob (by simp [hob])) hd.2 hl hnd ⟨w.s, o⟩ hs ht (fun c' hc' => ?_) fun c' hc' hn => ?_ : Fine _ _ _ _ _).grows fun _ h => h
        · rw [e2 c' (hl c' hc')]; exact h1 c' hc'
        · show Right diff b d R link _ w.s.t (c'.get o)
          rw [e2 c' hc']; exact h2 c' hc' hn
      · refine members_right hdiff hcut hap hok T .deleted x (.editor ob :: l) hm hl w (fun c hc => ?_) ⟨hs, fun c hc => (h2 c hc ?_).mono fun _ h => h.elim⟩
        · rw [show seats (.editor ob :: l) = [] from hd1] at hc; cases hc
        · rw [show seats (.editor ob :: l) = [] from hd1]; simp

theorem seats_nodup (hap : SeatsApart cs) (o : σ) : cs.Nodup := by
  refine hap.imp fun {c c'} h => ?_
  rintro rfl
  have h1 := h.1 { c.get o with flat := !(c.get o).flat } o
  rw [c.get_put] at h1
  have := congrArg FT.flat h1
  simp at this

theorem Fine.settle {I : (Id → Prop) → Now σ → Prop} {w : Now σ} {r : Res (Now σ)} (h : Fine I (fun e => e = .recursion) X w r) :
    (∃ w', r = .err .recursion w') ∨ I X r.state := by
  cases r with
  | ok w' => exact .inr h.2
  | err e w' => obtain ⟨rfl, -⟩ := h.2; exact .inl ⟨w', rfl⟩

theorem Ends.settle {I : (Id → Prop) → Now σ → Prop} {w : Now σ} {r : Res (Now σ)} (h : Ends I (fun e => e = .recursion) X w r) :
    (∃ w', r = .err .recursion w') ∨ I X r.state := by
  rcases h with h | h
  · exact h.settle
  · exact .inr h.2

/-- An edit of the application. -/
theorem nested_right (hdiff : SetDiff diff) (hcut : cut → ¬ link) (hap : SeatsApart (seats obs)) (hok : ∀ s op, ok s op → Kind cut link R s op)
    (hm : ∀ ob, .editor ob ∈ obs → ModestWatcher (seats obs) ok ob) {n : Nat} {w : Now σ} {op : Op} (h : AllRight diff b d R link (seats obs) (fun _ _ => False) (fun _ => False) w)
    (hg : GentleOuter w.s op) (hc : op.mayCut → cut) (hname : ∀ nd p, op = .addNode nd p → ¬ R nd.id)
    (hdel : ∀ x r, op = .delNode x r → EarlyIgnoreRemovals (seats obs) obs) :
    (∃ w', Now.nested (obs.map (·.watcher diff b d)) more n w op = .err .recursion w') ∨
      AllRight diff b d R link (seats obs) (fun _ _ => False) (fun _ => False) (Now.nested (obs.map (·.watcher diff b d)) more n w op).state := by
  have G : Grip (AllRight diff b d R link (seats obs) (fun _ _ => False)) cut link (NoneOwed (seats obs) fun _ _ => False) := grip_views hdiff hcut _
  have T := tells_views (b := b) (d := d) (more := more) hdiff hcut hap hok hm n fun _ _ => False
  by_cases hd : ∃ x r, op = .delNode x r
  · obtain ⟨x, r, rfl⟩ := hd
    obtain ⟨hp, hc⟩ := hg
    have hsn := h.1
    have hp' : w.s.t.rawParents x = [] := by rw [← hsn.1.wf.getParents_eq]; exact hp
    have hc' := Tree.getChildren_nil_raw hsn.1 hsn.2 hc
    have hpl : Tidy w.s (.delNode x r) := by
      cases r with
      | false => show (w.s.t.getParents x).length ≤ 1; rw [hp]; simp
      | true =>
        refine ⟨by rw [hp]; simp, fun y hy => ?_⟩
        exfalso
        obtain ⟨q, hq, -⟩ := (reach_iff _ _ _).1 hy
        rw [hc'] at hq; cases hq
    have hg' := step_good hsn.1 (.delNode x r) (hpl.safe hsn.1 hsn.2)
    have hn' := step_noDangling hsn.1 hsn.2 (.delNode x r) hpl
    change Good (removeNode (w.s.t.nodes.entries.length + 1) w.s x r).state.t at hg'
    change NoDangling (removeNode (w.s.t.nodes.entries.length + 1) w.s x r).state.t at hn'
    show (∃ w', Now.removeNode (Now.told (obs.map (·.watcher diff b d)) more n) more (w.s.t.nodes.entries.length + 1) w x r = _) ∨
      AllRight diff b d R link (seats obs) (fun _ _ => False) _ (Now.removeNode (Now.told (obs.map (·.watcher diff b d)) more n) more (w.s.t.nodes.entries.length + 1) w x r).state
    unfold Now.removeNode
    unfold removeNode at hg' hn'
    by_cases hcond : (!w.s.t.has x || x = .none) = true
    · rw [if_pos hcond]
      exact .inr h
    · rw [if_neg hcond]
      rw [if_neg hcond] at hg' hn'
      have e1 : ∀ (s : St) (k : Nat), s.t.rawParents x = [] → removeParentsLoop k 0 s x = .ok s := by
        intro s k hk
        cases k with
        | zero => rfl
        | succ k => unfold removeParentsLoop; rw [hk]; rfl
      have e2 : ∀ (w : Now σ) (k : Nat), w.s.t.rawParents x = [] →
          Now.removeParentsLoop (Now.told (obs.map (·.watcher diff b d)) more n) k 0 w x = .ok w := by
        intro s k hk
        cases k with
        | zero => rfl
        | succ k => unfold Now.removeParentsLoop; rw [hk]; rfl
      dsimp only at hg' hn' ⊢
      rw [e1 _ _ (show (w.s.mapTree fun t => { t with pending := dropPendingOf t.pending x }).t.rawParents x = [] from hp'), Res.andThen_ok] at hg' hn'
      rw [e2 _ _ (show (w.mapTree fun t => { t with pending := dropPendingOf t.pending x }).s.t.rawParents x = [] from hp'), Res.andThen_ok]
      rw [show ((w.s.mapTree fun t => { t with pending := dropPendingOf t.pending x }).t.rawChildren x) = [] from hc'] at hg' hn'
      rw [show ((w.mapTree fun t => { t with pending := dropPendingOf t.pending x }).s.t.rawChildren x) = [] from hc']
      unfold Res.forEach at hg' hn' ⊢
      rw [Res.andThen_ok] at hg' hn' ⊢
      have hx : w.s.t.has x = true := by
        by_contra hc; rw [Bool.not_eq_true] at hc; rw [hc] at hcond; simp at hcond
      rw [if_pos (show (w.s.mapTree fun t => { t with pending := dropPendingOf t.pending x }).t.has x = true from hx)] at hg' hn'
      rw [if_pos (show (w.mapTree fun t => { t with pending := dropPendingOf t.pending x }).s.t.has x = true from hx)]
      cases n with
      | zero => exact .inl ⟨_, rfl⟩
      | succ n =>
        have T' := tells_views (b := b) (d := d) (more := more) hdiff hcut hap hok hm n
        have hsn' : Sane (⟨dropNode { w.s.t with pending := dropPendingOf w.s.t.pending x } x, w.s.log⟩ : St) := ⟨hg', hn'⟩
        have hpd : PendOK { w.s.t with pending := dropPendingOf w.s.t.pending x } := by
          intro a b' hab
          exact hsn.1.pend a b' ((mem_dropPendingOf _ _ _).1 hab).1
        have hgp : Good { w.s.t with pending := dropPendingOf w.s.t.pending x } := hsn.1.pending _ hpd
        refine Fine.settle (members_deleted hdiff hcut hap hok T' (s := ⟨{ w.s.t with pending := dropPendingOf w.s.t.pending x }, w.s.log⟩) hgp.wf hx (fun c hcx => by
          have := (hsn.1.wf.mem_getChildren x c).2 hcx
          rw [hc] at this; cases this) obs hm (hdel x r rfl) (fun _ h => h) (seats_nodup hap w.o)
          ⟨(⟨dropNode { w.s.t with pending := dropPendingOf w.s.t.pending x } x, w.s.log⟩ : St).emit .deleted x, w.o⟩ hsn' rfl
          (fun c hc => ((h.2 c hc).mono fun _ h => h.elim id id).same hsn.1.wf hgp.wf (fun _ => rfl) rfl) fun c hc hn => absurd hc hn)
  · refine Ends.settle (gentle_ends G T more (op := op) ?_ hc (fun _ => .inr ⟨fun _ h => h, fun _ _ _ h => h⟩)
      (fun nd p e => ⟨hname nd p e, .inr (.inl ⟨fun _ h => h, fun _ _ _ h => h⟩)⟩) h)
    cases op with
    | delNode x r => exact absurd ⟨x, r, rfl⟩ hd
    | _ => exact hg

end Larch
