import Verif.Proofs.ViewApp
import Verif.Proofs.ChainOrphan

/-!
# A view that waits for its refresh follows edits

Such a view may lack nodes, and a node may be below the root although it has displayed parents. What is kept: a node of the view is
below the root alone or below some of its parents in the tree.
-/

namespace Larch

open Graph Spec

/-- The view is consistent, and the nodes outside `D` are below the root alone or below some of their parents. The nodes in `N` have
at most one parent in the view. -/
structure Slack (E : VEnv) (N D : Id → Prop) (v : View) : Prop where
  inv : ∃ r, Orders E v r ∧ VInv E r (fun _ => False) v
  near : ∀ y, ¬ D y → v.pars y = [E.root] ∨ ∀ p ∈ v.pars y, p ∈ E.par y
  few : ∀ y, N y → (v.pars y).length ≤ 1

theorem npOf_near (E : VEnv) (W : Id → Bool) (y : Id) : npOf E W y = [E.root] ∨ ∀ p ∈ npOf E W y, p ∈ E.par y := by
  unfold npOf
  split
  · exact .inl rfl
  · exact .inr fun p hp => (mem_npCand.1 hp).2.1

theorem npOf_few (E : VEnv) (W : Id → Bool) {y : Id} (h : (E.par y).length ≤ 1) : (npOf E W y).length ≤ 1 := by
  unfold npOf
  split
  · simp
  · unfold npCand
    split
    · exact le_trans (List.length_filter_le _ _) h
    · simp

variable {E : VEnv} {N D : Id → Prop} {v : View}

theorem Slack.mono (h : Slack E N D v) {D' : Id → Prop} (hd : ∀ y, D y → D' y) : Slack E N D' v :=
  ⟨h.inv, fun y hn => h.near y fun hh => hn (hd y hh), h.few⟩

theorem Slack.sub (h : Slack E N D v) {y p : Id} (hD : ¬ D y) (hp : p ∈ v.pars y) : p = E.root ∨ p ∈ E.par y := by
  rcases h.near y hD with e | e
  · rw [e] at hp; exact .inl (List.mem_singleton.1 hp)
  · exact .inr (e p hp)

theorem Fit.slack (h : Fit E (fun _ => False) v) : Slack E (fun _ => False) (fun _ => False) v := by
  refine ⟨h.inv, fun y _ => ?_, fun _ h => h.elim⟩
  obtain ⟨r, -, hv⟩ := h.inv
  by_cases hy : v.has y = true ∧ y ≠ E.root
  · have hs := h.settled y (hv.sub y hy.1 hy.2) (fun h => h)
    rcases npOf_near E (fun _ => true) y with e | e
    · left
      have hs' : ∀ p, p ∈ v.pars y ↔ p = E.root := fun p => by rw [hs p, npAll, e]; simp
      have hnd := hv.ndP y
      cases hl : v.pars y with
      | nil => have := (hs' E.root).2 rfl; rw [hl] at this; cases this
      | cons a l =>
        rw [hl] at hs' hnd
        obtain rfl := (hs' a).1 (by simp)
        cases l with
        | nil => rfl
        | cons b l =>
          have := (hs' b).1 (by simp)
          subst this
          simp at hnd
    · right
      intro p hp
      exact e p ((hs p).1 hp)
  · right
    intro p hp
    exact absurd ⟨View.has_of_par hp, by rintro rfl; rw [hv.rootPars] at hp; cases hp⟩ hy

/-- One notification about `x`. -/
theorem Slack.update (hE : EB E) (h : Slack E N D v) (K : List Id) (hK : ∀ x, E.par x ≠ [] → x ∈ K) {f : Nat}
    (hf : 2 * (K.length + v.nodes.entries.length) + 4 ≤ f) {x : Id} (hx : x ≠ E.root) (hN : ∀ y, N y → (E.par y).length ≤ 1) :
    ∃ v', E.update f x .both v = .ok v' ∧ Slack E N (fun y => D y ∧ y ≠ x) v' ∧ (∀ y, v.has y = true → v'.has y = true) ∧
      (E.disp x = true → v'.has x = true) := by
  obtain ⟨r, ho, hv⟩ := h.inv
  obtain ⟨rank, e1, e2⟩ := hE.rank hv.rootPars ho K hK
  obtain ⟨v', a1, a2, a3, a4⟩ := update_down_ok e1 f x .both v (by omega) rfl (hv.rerank e2)
  refine ⟨v', a1, ⟨⟨rank, ⟨e1.parRank, fun y p hp => (a2.par y p hp).2⟩, a2⟩, fun y hy => ?_, fun y hy => ?_⟩, a3.has,
    fun hd => (a4 hx hd).1⟩
  · by_cases hyx : y = x
    · subst hyx
      by_cases hd : E.disp y = true
      · obtain ⟨-, ⟨W, -, -, w⟩, -⟩ := a4 hx hd
        rw [w]; exact npOf_near E W y
      · right
        intro p hp
        exact absurd (a2.sub y (View.has_of_par hp) hx) hd
    · rcases a3.snap y with e | ⟨W, -, -, w⟩
      · rw [e]; exact h.near y fun hD => hy ⟨hD, hyx⟩
      · rw [w]; exact npOf_near E W y
  · rcases a3.snap y with e | ⟨W, -, -, w⟩
    · rw [e]; exact h.few y hy
    · rw [w]; exact npOf_few E W (hN y hy)

variable {V : Type} {diff : List Id → List Id → List Id} {b : Bank (Id → V)} {d : Id → V} {s0 : St} {ft0 : FT} {X : Id → Prop}

/-- Since `s0` the waiting view `ft0` has followed the notifications; the nodes in `X` may be misplaced. It shows the nodes that it
has shown or heard of, if they are wanted. -/
structure Lags (diff : List Id → List Id → List Id) (b : Bank (Id → V)) (d : Id → V) (s0 : St) (ft0 : FT) (N X : Id → Prop)
    (s : St) : Prop where
  rootFree : s.t.has ft0.root = false
  few : ∀ y, N y → (s.t.rawParents y).length ≤ 1
  seen : ∃ v l, s.log = s0.log ++ l ∧ Res.forEach (FT.react diff b d) l ft0 = .ok { ft0 with view := v } ∧
    Slack (FT.env diff b s.t d ft0) N X v ∧
    ∀ y, (ft0.view.has y = true ∨ ∃ n ∈ l, n.nid = y) → (FT.env diff b s.t d ft0).disp y = true → v.has y = true

theorem Lags.mono {s : St} (h : Lags diff b d s0 ft0 N X s) {Y : Id → Prop} (hy : ∀ y, X y → Y y) : Lags diff b d s0 ft0 N Y s := by
  obtain ⟨v, l, h1, h2, h3, hs⟩ := h.seen
  exact ⟨h.rootFree, h.few, v, l, h1, h2, h3.mono hy, hs⟩

theorem heard_snoc {y : Id} {v : View} {l : List Note} {m : Note} (h : v.has y = true ∨ ∃ n ∈ l ++ [m], n.nid = y) :
    (v.has y = true ∨ ∃ n ∈ l, n.nid = y) ∨ m.nid = y := by
  rcases h with h | ⟨n, hn, e⟩
  · exact .inl (.inl h)
  · rcases List.mem_append.1 hn with hn | hn
    · exact .inl (.inr ⟨n, hn, e⟩)
    · rw [List.mem_singleton.1 hn] at e
      exact .inr e

theorem Lags.note (hdiff : SetDiff diff) {s : St} (h : Lags diff b d s0 ft0 N X s) (hw : WF s.t) (ev : Ev) {x : Id}
    (hx : s.t.has x = true) : Lags diff b d s0 ft0 N (fun y => X y ∧ y ≠ x) (s.emit ev x) := by
  obtain ⟨v, l, h1, h2, h3, hs⟩ := h.seen
  have hE := env_ok hdiff b hw d ft0 h.rootFree
  have hne : x ≠ ft0.root := by rintro rfl; rw [h.rootFree] at hx; cases hx
  obtain ⟨v', a1, a2, a3, a4⟩ := h3.update hE s.t.nodes.keys (env_keys hw)
    (f := 2 * (s.t.nodes.keys.length + v.nodes.entries.length) + 8) (by omega) (x := x) hne (by rw [env_par hw]; exact h.few)
  refine ⟨h.rootFree, h.few, v', l ++ [⟨s.t, ev, x⟩], ?_, ?_, a2, ?_⟩
  · show s.log ++ [_] = _
    rw [h1, List.append_assoc]
  · rw [forEach_snoc h2]
    exact react_eq (n := ⟨s.t, ev, x⟩) (ft := { ft0 with view := v }) a1
  · intro y hy hd
    rcases heard_snoc hy with hy | rfl
    · exact a3 y (hs y hy hd)
    · exact a4 hd

/-- The tree changes only at the parents of nodes in `Y`. -/
theorem Lags.move (hb : OwnOn b ft0.applied) {s s' : St} (h : Lags diff b d s0 ft0 N X s) {Y : Id → Prop}
    (hw : WF s.t) (hw' : WF s'.t) (hl : s'.log = s.log) (hh : ∀ y, s'.t.has y = s.t.has y)
    (hXY : ∀ y, X y → Y y) (hpar : ∀ y, ¬ Y y → ∀ p ∈ s.t.rawParents y, p ∈ s'.t.rawParents y)
    (hfew : ∀ y, N y → (s'.t.rawParents y).length ≤ 1)
    (hord : ∀ v, Slack (FT.env diff b s.t d ft0) N X v → ∃ r, Orders (FT.env diff b s'.t d ft0) v r) :
    Lags diff b d s0 ft0 N Y s' := by
  obtain ⟨v, l, h1, h2, h3, hs⟩ := h.seen
  have hdisp : ∀ y, (FT.env diff b s'.t d ft0).disp y = (FT.env diff b s.t d ft0).disp y := fun y => accepts_own hb (hh y) rfl
  refine ⟨by rw [hh]; exact h.rootFree, hfew, v, l, hl.trans h1, h2, ⟨?_, ?_, h3.few⟩, fun y hy hd => hs y hy (by rw [← hdisp]; exact hd)⟩
  · obtain ⟨r, ho⟩ := hord v h3
    obtain ⟨r0, -, hv⟩ := h3.inv
    exact ⟨r, ho, (hv.rerank ho.2).congrE rfl (fun y hy hn => by rw [hdisp]; exact hv.sub y hy hn)⟩
  · intro y hn
    refine (h3.near y fun hx => hn (hXY y hx)).imp id fun e p hp => ?_
    have := e p hp
    rw [env_par hw] at this
    rw [env_par hw']
    exact hpar y hn p this

theorem Lags.same (hb : OwnOn b ft0.applied) {s s' : St} (h : Lags diff b d s0 ft0 N X s) (hw : WF s.t) (hw' : WF s'.t)
    (hl : s'.log = s.log) (hh : ∀ y, s'.t.has y = s.t.has y) (hp : s'.t.rawParents = s.t.rawParents) :
    Lags diff b d s0 ft0 N X s' := by
  refine h.move hb hw hw' hl hh (fun _ h => h) (fun y _ p h => by rw [hp]; exact h) (by rw [hp]; exact h.few) ?_
  intro v hf
  obtain ⟨r, ho, -⟩ := hf.inv
  refine ⟨r, ?_, ho.2⟩
  rw [env_par hw', hp, ← env_par hw (diff := diff) (b := b) (d := d) (ft := ft0)]
  exact ho.1

/-- Relations to `c` disappear. -/
theorem Lags.cut (hb : OwnOn b ft0.applied) {s s' : St} (h : Lags diff b d s0 ft0 N X s) (hw : WF s.t) (hw' : WF s'.t)
    (hl : s'.log = s.log) (hh : ∀ y, s'.t.has y = s.t.has y) {c : Id} (hp : ∀ y, y ≠ c → s'.t.rawParents y = s.t.rawParents y)
    (hc : (s'.t.rawParents c).Sublist (s.t.rawParents c)) :
    Lags diff b d s0 ft0 N (fun y => X y ∨ y = c) s' := by
  refine h.move hb hw hw' hl hh (fun _ h => Or.inl h) (fun y hy p h => by rw [hp y fun e => hy (Or.inr e)]; exact h) (fun y hy => ?_) ?_
  · by_cases e : y = c
    · subst e; exact le_trans hc.length_le (h.few y hy)
    · rw [hp y e]; exact h.few y hy
  · intro v hf
    obtain ⟨r, ho, -⟩ := hf.inv
    refine ⟨r, ?_, ho.2⟩
    have ho1 := ho.1
    rw [env_par hw] at ho1
    rw [env_par hw']
    intro x p hpx
    by_cases e : x = c
    · subst e; exact ho1 x p (hc.subset hpx)
    · rw [hp x e] at hpx; exact ho1 x p hpx

/-- Relations to `c` are added. -/
theorem Lags.link (hb : OwnOn b ft0.applied) (hdiff : SetDiff diff) {s s' : St} (h : Lags diff b d s0 ft0 (fun _ => False) (fun _ => False) s) (hw : WF s.t)
    (hw' : WF s'.t) (hl : s'.log = s.log) (hh : ∀ y, s'.t.has y = s.t.has y) {c : Id}
    (hp : ∀ y, y ≠ c → s'.t.rawParents y = s.t.rawParents y) (hc : ∀ q, q ∈ s.t.rawParents c → q ∈ s'.t.rawParents c) :
    Lags diff b d s0 ft0 (fun _ => False) (fun _ => False) s' := by
  have hsup : ∀ y, ∀ p ∈ s.t.rawParents y, p ∈ s'.t.rawParents y := by
    intro y p hpy
    by_cases e : y = c
    · subst e; exact hc p hpy
    · rw [hp y e]; exact hpy
  refine h.move hb hw hw' hl hh (fun _ h => h) (fun y _ => hsup y) (fun _ h => h.elim) ?_
  intro v hf
  obtain ⟨r, -, hv⟩ := hf.inv
  refine orders_of_super (env_ok hdiff b hw' d ft0 (by rw [hh]; exact h.rootFree)) hv.rootPars
    (by rw [env_par hw']; exact hw'.acyclic) s'.t.nodes.keys (env_keys hw') ?_
  intro y p hpy
  refine (hf.sub (fun h => h) hpy).imp id fun e => ?_
  rw [env_par hw] at e
  rw [env_par hw']
  exact hsup y p e

/-- The waiting view follows every edit of relations. -/
theorem lags_keeps (hb : OwnOn b ft0.applied) (hdiff : SetDiff diff) :
    KeepsGood (fun _ _ => True) (fun _ _ => True) (fun s => Good s.t ∧ Lags diff b d s0 ft0 (fun _ => False) (fun _ => False) s) where
  same := fun {s s'} h hl hh hp hg => ⟨hg, h.2.same hb h.1.wf hg.wf hl hh hp⟩
  link := fun {s p c t'} h hg hc hn hg' _ => by
    obtain ⟨hp, hcc, ef⟩ := Tree.create_eq_some hc
    refine ⟨hg', ?_⟩
    have h1 : Lags diff b d s0 ft0 (fun _ => False) (fun _ => False) ⟨t', s.log⟩ := by
      refine h.2.link (s' := ⟨t', s.log⟩) hb hdiff hg.wf hg'.wf rfl ef.has (c := c) (fun y hy => by show t'.rawParents y = _; rw [ef.parents, if_neg hy]) ?_
      intro q hq
      show q ∈ t'.rawParents c
      rw [ef.parents, if_pos rfl, mem_appendNew]; exact Or.inl hq
    have h2 := h1.note hdiff hg'.wf .modified (x := p) (by show t'.has p = true; rw [ef.has]; exact hp)
    have h3 := h2.note hdiff hg'.wf .modified (x := c) (by show t'.has c = true; rw [ef.has]; exact hcc)
    exact h3.mono fun y hy => hy.1.1
  cut := fun {s p c t'} h hg hp hcc hne ef hg' _ => by
    refine ⟨hg', ?_⟩
    have h1 : Lags diff b d s0 ft0 (fun _ => False) (fun y => False ∨ y = c) ⟨t', s.log⟩ := by
      refine h.2.cut (s' := ⟨t', s.log⟩) hb hg.wf hg'.wf rfl ef.has (c := c) (fun y hy => by show t'.rawParents y = _; rw [ef.parents, if_neg hy]) ?_
      show (t'.rawParents c).Sublist _
      rw [ef.parents, if_pos rfl]; exact List.erase_sublist
    have h2 := h1.note hdiff hg'.wf .modified (x := p) (by show t'.has p = true; rw [ef.has]; exact hp)
    have h3 := h2.note hdiff hg'.wf .modified (x := c) (by show t'.has c = true; rw [ef.has]; exact hcc)
    exact h3.mono fun y hy => hy.2 (hy.1.1.resolve_left fun h => h)
  modified := fun {s} h hg {x} hx => ⟨hg, (h.2.note hdiff hg.wf .modified hx).mono fun _ h => h.1⟩

/-- A node arrives. -/
theorem Lags.added (hb : OwnOn b ft0.applied) (hdiff : SetDiff diff) {s : St} (h : Lags diff b d s0 ft0 (fun _ => False) (fun _ => False) s) (hw : WF s.t)
    {t' : Tree} (hw' : WF t') {x : Id} (ha : Arrived s.t t' x) (hx : s.t.has x = false) (hxr : x ≠ ft0.root) :
    Lags diff b d s0 ft0 (fun _ => False) (fun _ => False) ((⟨t', s.log⟩ : St).emit .added x) := by
  obtain ⟨v, l, h1, h2, h3, hs⟩ := h.seen
  have hdisp : ∀ y, y ≠ x → (FT.env diff b t' d ft0).disp y = (FT.env diff b s.t d ft0).disp y :=
    fun y hy => accepts_own hb (by rw [ha.has]; simp [hy]) rfl
  have hroot : t'.has ft0.root = false := by
    rw [ha.has, h.rootFree]; simp [Ne.symm hxr]
  have hE := env_ok hdiff b hw' d ft0 hroot
  obtain ⟨r0, -, hv⟩ := h3.inv
  have hvx : v.has x = false := by
    by_contra hc
    have := hv.sub x (by simpa using hc) hxr
    have := accepts_has this
    rw [hx] at this; cases this
  have hxp : ∀ y, x ∉ s.t.rawParents y := by
    intro y hy
    have := hw.has_parent hy
    rw [hx] at this; cases this
  have hpx : s.t.rawParents x = [] := by
    by_contra hc
    obtain ⟨q, hq⟩ := List.exists_mem_of_ne_nil _ hc
    have := Tree.has_of_mem_rawParents hq
    rw [hx] at this; cases this
  have hsup : ∀ y, ∀ p ∈ s.t.rawParents y, p ∈ t'.rawParents y := by
    intro y p hp
    exact (ha.parents y p (by rintro rfl; rw [hpx] at hp; cases hp) (by rintro rfl; exact hxp y hp)).2 hp
  obtain ⟨r, ho⟩ := orders_of_super hE (v := v) hv.rootPars (by rw [env_par hw']; exact hw'.acyclic) t'.nodes.keys (env_keys hw') (by
    intro y p hpy
    refine (h3.sub (fun h => h) hpy).imp id fun e => ?_
    rw [env_par hw] at e
    rw [env_par hw']
    exact hsup y p e)
  have h4 : Slack (FT.env diff b t' d ft0) (fun _ => False) (fun _ => False) v := by
    refine ⟨⟨r, ho, (hv.rerank ho.2).congrE rfl (fun y hy hn => by
      rw [hdisp y (by rintro rfl; rw [hvx] at hy; cases hy)]; exact hv.sub y hy hn)⟩, fun y hy => ?_, h3.few⟩
    refine (h3.near y hy).imp id fun e p hp => ?_
    have := e p hp
    rw [env_par hw] at this
    rw [env_par hw']
    exact hsup y p this
  obtain ⟨v', a1, a2, a3, a4⟩ := h4.update hE t'.nodes.keys (env_keys hw')
    (f := 2 * (t'.nodes.keys.length + v.nodes.entries.length) + 8) (by omega) (x := x) hxr (fun _ h => h.elim)
  refine ⟨hroot, fun _ h => h.elim, v', l ++ [⟨t', .added, x⟩], ?_, ?_, a2.mono fun _ h => h.1, ?_⟩
  · show s.log ++ [_] = _
    rw [h1, List.append_assoc]
  · rw [forEach_snoc h2]
    exact react_eq (n := ⟨t', .added, x⟩) (ft := { ft0 with view := v }) a1
  · intro y hy hd
    by_cases hyx : y = x
    · subst hyx; exact a4 hd
    · rcases heard_snoc hy with hy | e
      · exact a3 y (hs y hy (by rw [← hdisp y hyx]; exact hd))
      · exact absurd e.symm hyx

/-- A node that has no children any more is deleted. -/
theorem Lags.deleted (hb : OwnOn b ft0.applied) (hdiff : SetDiff diff) {s : St} {x : Id} (h : Lags diff b d s0 ft0 N (fun y => y = x) s)
    (hw : WF s.t) (hx : s.t.has x = true) (hno : ∀ c, x ∉ s.t.rawParents c) (hNx : N x) :
    Lags diff b d s0 ft0 N (fun _ => False) ((⟨dropNode s.t x, s.log⟩ : St).emit .deleted x) := by
  obtain ⟨v, l, h1, h2, h3, hs⟩ := h.seen
  have hdisp : ∀ y, y ≠ x → (FT.env diff b (dropNode s.t x) d ft0).disp y = (FT.env diff b s.t d ft0).disp y :=
    fun y hy => accepts_own hb (by rw [dropNode_has]; simp [hy]) rfl
  have hw' : WF (dropNode s.t x) := hw.dropNode fun c _ => hno c
  have hxr : x ≠ ft0.root := by rintro rfl; have := h.rootFree; rw [this] at hx; cases hx
  have hroot : (dropNode s.t x).has ft0.root = false := by
    rw [dropNode_has, h.rootFree]; simp
  have hE := env_ok hdiff b hw' d ft0 hroot
  obtain ⟨r, ho, hv⟩ := h3.inv
  have hdx : (FT.env diff b (dropNode s.t x) d ft0).disp x = false := by
    by_contra hc
    have : (FT.env diff b (dropNode s.t x) d ft0).disp x = true := by simpa using hc
    have := accepts_has this
    rw [dropNode_has] at this; simp at this
  have ho' : Orders (FT.env diff b (dropNode s.t x) d ft0) v r := by
    refine ⟨?_, ho.2⟩
    have := ho.1
    rw [env_par hw] at this
    rw [env_par hw']
    intro y p hp
    rw [dropNode_rawParents] at hp
    split at hp
    · cases hp
    · exact this y p hp
  have hbelow : ∀ y, x ∉ v.pars y := by
    intro y hy
    have hyx : y ≠ x := by
      rintro rfl
      exact absurd (ho.2 y y hy) (lt_irrefl _)
    rcases h3.sub hyx hy with e | e
    · exact hxr e
    · rw [env_par hw] at e; exact hno y e
  have hnear : ∀ y, y ≠ x → v.pars y = [(FT.env diff b (dropNode s.t x) d ft0).root] ∨
      ∀ p ∈ v.pars y, p ∈ (FT.env diff b (dropNode s.t x) d ft0).par y := by
    intro y hyx
    refine (h3.near y hyx).imp id fun e p hp => ?_
    have := e p hp
    rw [env_par hw] at this
    rw [env_par hw', dropNode_rawParents, if_neg hyx]
    exact this
  have hfew : ∀ y, N y → ((dropNode s.t x).rawParents y).length ≤ 1 := by
    intro y hy
    rw [dropNode_rawParents]
    split
    · simp
    · exact h.few y hy
  have key : ∃ v', (FT.env diff b (dropNode s.t x) d ft0).update
      (2 * ((dropNode s.t x).nodes.keys.length + v.nodes.entries.length) + 8) x .both v = .ok v' ∧
      Slack (FT.env diff b (dropNode s.t x) d ft0) N (fun _ => False) v' ∧ ∀ y, y ≠ x → v.has y = true → v'.has y = true := by
    by_cases hvx : v.has x = true
    · obtain ⟨rank, e1, e2⟩ := hE.rank hv.rootPars ho' (dropNode s.t x).nodes.keys (env_keys hw')
      have hvs : VInv ((FT.env diff b (dropNode s.t x) d ft0).showing x) rank (fun _ => False) v := by
        refine (hv.rerank e2).congrE rfl fun y hy hr => ?_
        by_cases hyx : y = x
        · subst hyx; simp [VEnv.showing]
        · exact VEnv.showing_of x (by rw [hdisp y hyx]; exact hv.sub y hy hr)
      have hkx : v.kids x = [] := List.eq_nil_iff_forall_not_mem.2 fun c hc => hbelow c ((hv.mirror c (fun h => h) x).2 hc)
      have hM := e1.bound x
      obtain ⟨v', u, b1, b2, b3, -, b5, b6, -⟩ := vanish_leaf e1 hvs (fun _ _ h => h) hvx hxr hkx hbelow (h3.few x hNx)
        (by rw [env_par hw', dropNode_rawParents, if_pos rfl])
        (f := 2 * ((dropNode s.t x).nodes.keys.length + v.nodes.entries.length) + 7) (by omega)
        (fun c w => (FT.env diff b (dropNode s.t x) d ft0).update (2 * ((dropNode s.t x).nodes.keys.length + v.nodes.entries.length) + 7) c .down w)
      refine ⟨v', ?_, ⟨⟨rank, ⟨e1.parRank, fun y p hp => (b2.par y p hp).2⟩, b2⟩, fun y _ => ?_, fun y hy => ?_⟩,
        fun y hyx hy => b3.has y ((b5 y).2 ⟨hy, hyx⟩)⟩
      · rw [VEnv.update, if_neg (show ¬ x = (FT.env diff b (dropNode s.t x) d ft0).root from hxr), if_neg (by rw [hvx]; simp),
          if_neg (by rw [hdx]; simp)]
        exact b1
      · by_cases hyx : y = x
        · subst hyx
          right
          intro p hp
          have := b2.sub y (View.has_of_par hp) hxr
          rw [hdx] at this; cases this
        · rcases b3.snap y with e | ⟨W, -, -, w⟩
          · rw [e, b6 y hyx]; exact hnear y hyx
          · rw [w]; exact npOf_near _ W y
      · rcases b3.snap y with e | ⟨W, -, -, w⟩
        · rw [e]
          by_cases hyx : y = x
          · subst hyx
            have : u.pars y = [] := by
              by_contra hc
              obtain ⟨q, hq⟩ := List.exists_mem_of_ne_nil _ hc
              exact ((b5 y).1 (View.has_of_par hq)).2 rfl
            rw [this]; simp
          · rw [b6 y hyx]; exact h3.few y hy
        · rw [w]; exact npOf_few _ W (by rw [env_par hw']; exact hfew y hy)
    · refine ⟨v, ?_, ⟨⟨r, ho', hv.congrE rfl ?_⟩, fun y _ => ?_, h3.few⟩, fun _ _ h => h⟩
      · rw [VEnv.update, if_neg (show ¬ x = (FT.env diff b (dropNode s.t x) d ft0).root from hxr), if_pos ⟨by simpa using hvx, hdx⟩, if_neg]
        show ¬ (dropNode s.t x).has x = true
        rw [dropNode_has]; simp
      · intro y hy hyr
        have hyx : y ≠ x := by rintro rfl; exact hvx hy
        rw [hdisp y hyx]; exact hv.sub y hy hyr
      · by_cases hyx : y = x
        · subst hyx
          right
          intro p hp
          exact absurd (View.has_of_par hp) hvx
        · exact hnear y hyx
  obtain ⟨v', a1, a2, a3⟩ := key
  refine ⟨hroot, hfew, v', l ++ [⟨dropNode s.t x, .deleted, x⟩], ?_, ?_, a2, ?_⟩
  · show s.log ++ [_] = _
    rw [h1, List.append_assoc]
  · rw [forEach_snoc h2]
    exact react_eq (n := ⟨dropNode s.t x, .deleted, x⟩) (ft := { ft0 with view := v }) a1
  · intro y hy hd
    have hyx : y ≠ x := by rintro rfl; exact absurd (hdx.symm.trans hd) (by simp)
    rcases heard_snoc hy with hy | e
    · exact a3 y hyx (hs y hy (by rw [← hdisp y hyx]; exact hd))
    · exact absurd e.symm hyx

/-! ### Removing a node -/

/-- The loop over the parents of a removed node, with any number of parents. -/
theorem lags_parentsLoop (hb : OwnOn b ft0.applied) (hdiff : SetDiff diff) {x : Id} (f : Nat) : ∀ (i : Nat) (s s' : St), WF s.t →
    Lags diff b d s0 ft0 N (fun y => y = x) s → removeParentsLoop f i s x = .ok s' → Lags diff b d s0 ft0 N (fun y => y = x) s' := by
  induction f with
  | zero => intro i s s' _ h hs; cases hs; exact h
  | succ f ih =>
    intro i s s' hw h hs
    unfold removeParentsLoop at hs
    cases hp : (s.t.rawParents x)[i]? with
    | none => rw [hp] at hs; cases hs; exact h
    | some p =>
      rw [hp] at hs
      have hm : p ∈ s.t.rawParents x := List.mem_of_getElem? hp
      obtain ⟨t', ht', e⟩ := Tree.destroy_spec (hw.has_parent hm) (Tree.has_of_mem_rawParents hm)
      dsimp only at hs
      rw [ht'] at hs
      have hw' := hw.destroy ht'
      have c1 := h.cut (s' := ⟨t', s.log⟩) hb hw hw' rfl e.has (c := x)
        (fun y hy => by show t'.rawParents y = _; rw [e.parents, if_neg hy]) (by show (t'.rawParents x).Sublist _; rw [e.parents, if_pos rfl]; exact List.erase_sublist)
      have c2 := c1.note hdiff hw' .modified (x := p) (by show t'.has p = true; rw [e.has]; exact hw.has_parent hm)
      exact ih (i + 1) _ s' hw' (c2.mono fun y hy => hy.1.elim id id) hs

theorem lags_parents (hb : OwnOn b ft0.applied) (hdiff : SetDiff diff) {s s' : St} {x : Id} (h : Lags diff b d s0 ft0 N X s) (hw : WF s.t)
    (hX : ∀ y, X y → y ∈ s.t.rawParents x) (h1 : (s.t.rawParents x).length ≤ 1)
    (hs : removeParentsLoop (s.t.rawParents x).length 0 s x = .ok s') : Lags diff b d s0 ft0 N (fun y => y = x) s' := by
  cases hl : s.t.rawParents x with
  | nil =>
    rw [hl] at hs
    simp only [List.length_nil, removeParentsLoop] at hs
    cases hs
    exact h.mono fun y hy => by have := hX y hy; rw [hl] at this; cases this
  | cons p l =>
    have : l = [] := by
      rw [hl] at h1; simp at h1; exact h1
    subst this
    rw [hl] at hs
    simp only [List.length_singleton, removeParentsLoop, hl, List.getElem?_cons_zero] at hs
    have hm : p ∈ s.t.rawParents x := by rw [hl]; simp
    obtain ⟨t', ht', e⟩ := Tree.destroy_spec (hw.has_parent hm) (Tree.has_of_mem_rawParents hm)
    rw [ht'] at hs
    cases hs
    have hw' := hw.destroy ht'
    have c1 := h.cut (s' := ⟨t', s.log⟩) hb hw hw' rfl e.has (c := x)
      (fun y hy => by show t'.rawParents y = _; rw [e.parents, if_neg hy]) (by show (t'.rawParents x).Sublist _; rw [e.parents, if_pos rfl]; exact List.erase_sublist)
    have c2 := c1.note hdiff hw' .modified (x := p) (by show t'.has p = true; rw [e.has]; exact hw.has_parent hm)
    refine c2.mono fun y hy => ?_
    rcases hy.1 with h2 | h2
    · have := hX y h2
      rw [hl] at this
      exact absurd (List.mem_singleton.1 this) hy.2
    · exact h2

theorem lags_orphans (hb : OwnOn b ft0.applied) (hdiff : SetDiff diff) (x : Id) : ∀ (l : List Id) (s s' : St), WF s.t → s.t.has x = true →
    l.Nodup → (∀ c ∈ l, x ∈ s.t.rawParents c) → Lags diff b d s0 ft0 N (fun y => y = x) s →
    Res.forEach (fun c s => if false = true then removeNode 0 s c true else orphanChild x c s) l s = .ok s' →
    Lags diff b d s0 ft0 N (fun y => y = x) s' := by
  intro l
  induction l with
  | nil => intro s s' _ _ _ _ h he; cases he; exact h
  | cons c l ih =>
    intro s s' h hx hnd hl hwa he
    have hxc := hl c (by simp)
    have hc := Tree.has_of_mem_rawParents hxc
    obtain ⟨t', ht', e⟩ := Tree.destroy_spec hx hc
    have hw := h.destroy ht'
    rw [List.nodup_cons] at hnd
    have c1 := hwa.cut (s' := ⟨t', s.log⟩) hb h hw rfl e.has (c := c)
      (fun y hy => by show t'.rawParents y = _; rw [e.parents, if_neg hy]) (by show (t'.rawParents c).Sublist _; rw [e.parents, if_pos rfl]; exact List.erase_sublist)
    have c2 := (c1.note hdiff hw .modified (x := c) (by show t'.has c = true; rw [e.has]; exact hc)).mono
      (Y := fun y => y = x) (fun y hy => hy.1.resolve_right hy.2)
    generalize hs1 : (if t'.rawParents c = [] then
        (({ s with t := t' } : St).emit .modified c).mapTree (fun t => t.updRoot (fun l => l ++ [c]))
        else ({ s with t := t' } : St).emit .modified c) = s1
    have ho : orphanChild x c s = .ok s1 := by
      unfold orphanChild; rw [ht']; dsimp only; rw [← hs1]; rfl
    have hs1t : s1.t = if t'.rawParents c = [] then t'.updRoot (fun l => l ++ [c]) else t' := by
      rw [← hs1]; split <;> rfl
    have hs1l : s1.log = (({ s with t := t' } : St).emit .modified c).log := by
      rw [← hs1]; split <;> rfl
    have hn1 : s1.t.nodes = t'.nodes := by rw [hs1t]; split <;> rfl
    have hp1 : ∀ y, s1.t.rawParents y = t'.rawParents y := by
      intro y; unfold Tree.rawParents Tree.node?; rw [hn1]
    have hh1 : ∀ y, s1.t.has y = t'.has y := by
      intro y; unfold Tree.has; rw [hn1]
    have hw1 : WF s1.t := by
      rw [hs1t]; split
      · exact hw.updRoot _
      · exact hw
    unfold Res.forEach at he
    rw [if_neg (by simp), ho] at he
    refine ih s1 s' hw1 (by rw [hh1, e.has]; exact hx) hnd.2 ?_ (c2.same hb hw hw1 hs1l hh1 (funext hp1)) he
    intro y hy
    rw [hp1, e.parents, if_neg (by rintro rfl; exact hnd.1 hy)]
    exact hl y (by simp [hy])

theorem lags_removeOrphan (hb : OwnOn b ft0.applied) (hdiff : SetDiff diff) {s : St} (h : Good s.t) {x : Id} (hx : s.t.has x = true)
    (hch : ∀ c ∈ s.t.rawChildren x, s.t.has c = true) (hNx : N x) (f : Nat)
    (hwa : Lags diff b d s0 ft0 N (fun _ => False) s) :
    Lags diff b d s0 ft0 N (fun _ => False) (removeNode (f + 1) s x false).state := by
  have hxn : x ≠ .none := by rintro rfl; have := (h.wf.ids _ hx).1; cases this
  unfold removeNode
  rw [if_neg (by simp [hx, hxn])]
  dsimp only
  generalize hs1 : (s.mapTree fun t => { t with pending := dropPendingOf t.pending x }) = s1
  have ht1 : s1.t = { s.t with pending := dropPendingOf s.t.pending x } := by rw [← hs1]; rfl
  have hw1 : WF s1.t := by rw [ht1]; exact h.wf.pending _
  have wa1 : Lags diff b d s0 ft0 N (fun _ => False) s1 :=
    hwa.same hb h.wf hw1 (by rw [← hs1]; rfl) (fun y => by rw [ht1]; rfl) (by rw [ht1]; rfl)
  obtain ⟨s2, e2, ef2⟩ := removeParentsLoop_effect (s1.t.rawParents x).length 0 s1 x hw1
  have wa2 := lags_parentsLoop hb hdiff _ 0 s1 s2 hw1 (wa1.mono fun _ h => h.elim) e2
  rw [e2, Res.andThen_ok]
  have has2 : ∀ y, s2.t.has y = s.t.has y := by intro y; rw [ef2.same.has, ht1]; rfl
  have selfp : x ∉ s.t.rawParents x := fun hm => h.wf.acyclic x (Reach.single hm)
  have selfc : x ∉ s.t.rawChildren x := fun hm => selfp (h.wf.down x x hm hx)
  have ch2 : s2.t.rawChildren x = s.t.rawChildren x := by
    rw [ef2.others x (by rw [ht1]; exact selfp), ht1]; rfl
  have par2 : ∀ y, y ≠ x → s2.t.rawParents y = s.t.rawParents y := by
    intro y hy; rw [ef2.parents y hy, ht1]; rfl
  have hcx : ∀ c ∈ s.t.rawChildren x, c ≠ x := by rintro c hc rfl; exact selfc hc
  have hl : ∀ c ∈ s2.t.rawChildren x, x ∈ s2.t.rawParents c := by
    intro c hc
    rw [ch2] at hc
    rw [par2 c (hcx c hc)]
    exact h.wf.down x c hc (hch c hc)
  obtain ⟨s3, e3, ef3⟩ := orphanLoop x (s2.t.rawChildren x) s2 ef2.wf (by rw [has2]; exact hx) (ef2.wf.ndC x) hl
  have wa3 := lags_orphans hb hdiff x (s2.t.rawChildren x) s2 s3 ef2.wf (by rw [has2]; exact hx) (ef2.wf.ndC x) hl wa2 e3
  rw [orphanLoop_body, e3, Res.andThen_ok]
  have has3 : ∀ y, s3.t.has y = s.t.has y := by intro y; rw [ef3.same.has, has2]
  rw [if_pos (by rw [has3]; exact hx)]
  refine Lags.deleted hb hdiff wa3 ef3.wf (by rw [has3]; exact hx) ?_ hNx
  intro c hc
  have hc1 := ef3.wf.up x c hc
  rw [ef3.childrenX] at hc1
  exact hc1.2 hc1.1

theorem lags_removeRec (hb : OwnOn b ft0.applied) (hdiff : SetDiff diff) (ht : Id → Nat) (f : Nat) : ∀ (X : Id → Prop) (s : St) (x : Id), WF s.t →
    (∀ y c, c ∈ s.t.rawChildren y → ht c < ht y) → ht x < f → s.t.has x = true →
    (∀ y, ReachEq s.t.rawChildren x y → N y) →
    (∀ y, Reach s.t.rawChildren x y → (s.t.rawParents y).length ≤ 1) →
    ((∀ y, ¬ X y) ∨ ((s.t.rawParents x).length ≤ 1 ∧ ∀ y, X y → y ∈ s.t.rawParents x)) →
    Lags diff b d s0 ft0 N X s → Lags diff b d s0 ft0 N (fun _ => False) (removeNode f s x true).state := by
  induction f with
  | zero => intro _ s x _ _ h; omega
  | succ f ih =>
    intro X s x h hh hf hx hN hone hX hwa
    have hxn : x ≠ .none := by rintro rfl; have := (h.ids _ hx).1; cases this
    unfold removeNode
    rw [if_neg (by simp [hx, hxn])]
    dsimp only
    generalize hs1 : (s.mapTree fun t => { t with pending := dropPendingOf t.pending x }) = s1
    have ht1 : s1.t = { s.t with pending := dropPendingOf s.t.pending x } := by rw [← hs1]; rfl
    have hw1 : WF s1.t := by rw [ht1]; exact h.pending _
    have wa1 : Lags diff b d s0 ft0 N X s1 :=
      hwa.same hb h hw1 (by rw [← hs1]; rfl) (fun y => by rw [ht1]; rfl) (by rw [ht1]; rfl)
    obtain ⟨s2, e2, ef2⟩ := removeParentsLoop_effect (s1.t.rawParents x).length 0 s1 x hw1
    have wa2 : Lags diff b d s0 ft0 N (fun y => y = x) s2 := by
      rcases hX with hX | ⟨h1, hX⟩
      · exact lags_parentsLoop hb hdiff _ 0 s1 s2 hw1 (wa1.mono fun y h => (hX y h).elim) e2
      · exact lags_parents hb hdiff wa1 hw1 (by rw [ht1]; exact hX) (by rw [ht1]; exact h1) e2
    rw [e2, Res.andThen_ok]
    have sub2 : ∀ y c, c ∈ s2.t.rawChildren y → c ∈ s.t.rawChildren y := by
      intro y c hc
      have := (ef2.childrenSub y).subset hc
      rw [ht1] at this; exact this
    have one2 : ∀ y, Reach s2.t.rawChildren x y → (s2.t.rawParents y).length ≤ 1 := by
      intro y hy
      have h3 := hone y (hy.mono sub2)
      by_cases e : y = x
      · subst e
        have := ef2.parentsX.length_le
        rw [ht1] at this
        exact le_trans this h3
      · rw [ef2.parents y e, ht1]; exact h3
    have loop : ∀ (l : List Id) (s2 : St), WF s2.t → (∀ y c, c ∈ s2.t.rawChildren y → ht c < ht y) →
        (∀ c ∈ l, ht c < f) → (∀ c ∈ l, s2.t.has c = true → x ∈ s2.t.rawParents c) →
        (∀ c ∈ l, ∀ y, ReachEq s2.t.rawChildren c y → (s2.t.rawParents y).length ≤ 1) →
        (∀ c ∈ l, ∀ y, ReachEq s2.t.rawChildren c y → N y) →
        Lags diff b d s0 ft0 N (fun y => y = x) s2 →
        ∃ s3, Res.forEach (fun c s => if true = true then removeNode f s c true else orphanChild x c s) l s2 = .ok s3 ∧
          Lags diff b d s0 ft0 N (fun y => y = x) s3 ∧ RemEffect s2.t s3.t ∧ (∀ c ∈ l, s3.t.has c = false) ∧
          ∀ y, s2.t.has y = true → s3.t.has y = false → ∃ c ∈ l, ReachEq s2.t.rawChildren c y := by
      intro l
      induction l with
      | nil =>
        intro s2 hw _ _ _ _ _ hwa
        refine ⟨s2, rfl, hwa, RemEffect.refl hw, by simp, ?_⟩
        intro y h1 h2; rw [h1] at h2; cases h2
      | cons c l ihl =>
        intro s2 hw hd hl hlp hlo hlN hwa
        obtain ⟨s3, e3, ef3, g3, r3, -⟩ := removeNode_rec ht f s2 c hw hd (hl c (by simp))
        have wa3 : Lags diff b d s0 ft0 N (fun y => y = x) s3 := by
          by_cases hc : s2.t.has c = true
          · have := ih (fun y => y = x) s2 c hw hd (hl c (by simp)) hc (hlN c (by simp)) (fun y hy => hlo c (by simp) y (Or.inr hy))
              (Or.inr ⟨hlo c (by simp) c (Or.inl rfl), by rintro y rfl; exact hlp c (by simp) hc⟩) hwa
            rw [e3] at this
            exact this.mono fun _ h => h.elim
          · have : s3 = s2 := by
              obtain ⟨k, rfl⟩ : ∃ k, f = k + 1 := ⟨f - 1, by have := hl c (by simp); omega⟩
              unfold removeNode at e3; rw [if_pos (by simp [hc])] at e3; cases e3; rfl
            rw [this]; exact hwa
        obtain ⟨s4, e4, wa4, ef4, g4, r4⟩ := ihl s3 ef3.wf
          (fun y d hd' => hd y d ((ef3.children y).subset hd')) (fun d hd' => hl d (by simp [hd']))
          (fun d hd' hdh => by rw [ef3.parents d hdh]; exact hlp d (by simp [hd']) (ef3.hasSub d hdh))
          (fun d hd' y hy => by
            by_cases hyh : s3.t.has y = true
            · rw [ef3.parents y hyh]; exact hlo d (by simp [hd']) y (ef3.reach hy)
            · have : s3.t.rawParents y = [] := by
                by_contra hc
                obtain ⟨q, hq⟩ := List.exists_mem_of_ne_nil _ hc
                exact hyh (Tree.has_of_mem_rawParents hq)
              rw [this]; simp) (fun d hd' y hy => hlN d (by simp [hd']) y (ef3.reach hy)) wa3
        refine ⟨s4, ?_, wa4, ef3.trans ef4, ?_, ?_⟩
        · unfold Res.forEach; rw [if_pos rfl, e3]; exact e4
        · intro d hd'
          rcases List.mem_cons.1 hd' with rfl | hd'
          · by_contra hc; have := ef4.hasSub d (by simpa using hc); rw [g3] at this; cases this
          · exact g4 d hd'
        · intro y h1 h2
          by_cases h3 : s3.t.has y = true
          · obtain ⟨d, hd', hr⟩ := r4 y h3 h2
            exact ⟨d, by simp [hd'], ef3.reach hr⟩
          · exact ⟨c, by simp, r3 y h1 (by simpa using h3)⟩
    obtain ⟨s3, e3, wa3, ef3, g3, r3⟩ := loop (s2.t.rawChildren x) s2 ef2.wf
      (fun y c hc => hh y c (sub2 y c hc))
      (fun c hc => by have := hh x c (sub2 x c hc); omega)
      (fun c hc hch => ef2.wf.down x c hc hch)
      (fun c hc y hy => one2 y (hy.elim (fun e => e ▸ Reach.single hc) fun h => Reach.head hc h))
      (fun c hc y hy => hN y (Or.inr ((hy.elim (fun e => e ▸ Reach.single hc) fun h => Reach.head hc h : Reach s2.t.rawChildren x y).mono sub2))) wa2
    rw [e3, Res.andThen_ok]
    have hx3 : s3.t.has x = true := by
      by_contra hc
      obtain ⟨c, hc1, hr⟩ := r3 x (by rw [ef2.same.has, ht1]; exact hx) (by simpa using hc)
      have hac : ∀ z w, ReachEq s2.t.rawChildren z w → ht w ≤ ht z := by
        rintro z w (rfl | hr)
        · exact le_refl _
        · induction hr with
          | single hm => exact le_of_lt (hh _ _ (sub2 _ _ hm))
          | tail _ hm ih => exact le_trans (le_of_lt (hh _ _ (sub2 _ _ hm))) ih
      have h1 := hac c x hr
      have h2 := hh x c (sub2 x c hc1)
      omega
    rw [if_pos hx3]
    refine Lags.deleted hb hdiff wa3 ef3.wf hx3 ?_ (hN x (Or.inl rfl))
    intro c hc
    have hch := Tree.has_of_mem_rawParents hc
    have := (ef3.children x).subset (ef3.wf.up x c hc)
    rw [g3 c this] at hch; cases hch

theorem lags_removeRecursive (hb : OwnOn b ft0.applied) (hdiff : SetDiff diff) {s : St} (h : WF s.t) {x : Id} (hx : s.t.has x = true)
    (hN : ∀ y, ReachEq s.t.rawChildren x y → N y) (hone : ∀ y, Reach s.t.rawChildren x y → (s.t.rawParents y).length ≤ 1)
    (hwa : Lags diff b d s0 ft0 N (fun _ => False) s) :
    Lags diff b d s0 ft0 N (fun _ => False) (removeNode (removeFuel s.t) s x true).state := by
  obtain ⟨ht, hle, hlt⟩ := exists_height s.t.rawChildren s.t.nodes.keys s.t.rawChildren_keys h.acyclicC
  exact lags_removeRec hb hdiff ht (removeFuel s.t) (fun _ => False) s x h hlt (by
    have := hle x; rw [Dict.keys_length] at this; unfold removeFuel; omega) hx hN hone (Or.inl fun _ h => h) hwa

/-! ### The application -/

theorem Slack.empty {v : View} (h : Slack E N D v) : Slack E (fun _ => False) D v := ⟨h.inv, h.near, fun _ h => h.elim⟩

/-- Nodes with one parent in the tree have one in the view. -/
theorem Slack.narrow (h : Slack E (fun _ => False) (fun _ => False) v) (hN : ∀ y, N y → (E.par y).length ≤ 1) :
    Slack E N (fun _ => False) v := by
  refine ⟨h.inv, h.near, fun y hy => ?_⟩
  obtain ⟨r, -, hv⟩ := h.inv
  rcases h.near y (fun h => h) with e | e
  · rw [e]; simp
  · exact le_trans (List.Subperm.length_le ((hv.ndP y).subperm e)) (hN y hy)

theorem Lags.empty {s : St} (h : Lags diff b d s0 ft0 N X s) : Lags diff b d s0 ft0 (fun _ => False) X s := by
  obtain ⟨v, l, h1, h2, h3, hs⟩ := h.seen
  exact ⟨h.rootFree, fun _ h => h.elim, v, l, h1, h2, h3.empty, hs⟩

/-- The view of the application holds together for the applied filters. -/
structure SlackState (diff : List Id → List Id → List Id) (a : FApp V) : Prop where
  good : Good a.s.t
  tidy : NoDangling a.s.t
  rootFree : a.s.t.has a.ft.root = false
  slack : Slack (FT.env diff a.bank a.s.t a.data a.ft) (fun _ => False) (fun _ => False) a.ft.view

theorem lags_start {a : FApp V} (h : SlackState diff a) (hN : ∀ y, N y → (a.s.t.rawParents y).length ≤ 1) :
    Lags diff a.bank a.data a.s a.ft N (fun _ => False) a.s :=
  ⟨h.rootFree, hN, a.ft.view, [], by simp, rfl, h.slack.narrow (by rw [env_par h.good.wf]; exact hN), fun y hy _ =>
    hy.resolve_right fun ⟨_, hn, _⟩ => (by cases hn)⟩

/-- An edit, seen by a waiting view with filters on the nodes' own data. -/
theorem edit_lags (hdiff : SetDiff diff) {a : FApp V} (h : SlackState diff a) (own : OwnApplied a) (op : Op) (hf : EditFair a op)
    (hpl : PlainRemoval a op) : Lags diff a.bank a.data a.s a.ft (fun _ => False) (fun _ => False) (step a.s op).state := by
  have w0 := lags_start h (N := fun _ => False) (fun _ h => h.elim)
  obtain ⟨hcf, hadd, -⟩ := hf
  have hs := (hcf.tidy h.good h.tidy).safe h.good h.tidy
  by_cases hl : op.isLocal = true
  · exact (step_keepsGood (lags_keeps own hdiff) h.good op hl hs (fun _ _ _ => trivial) (fun _ _ _ => trivial) ⟨h.good, w0⟩).2
  · cases op with
    | addNode nd p =>
      show Lags _ _ _ _ _ _ _ (addNode a.s nd p).state
      by_cases hx : a.s.t.has nd.id = true
      · rw [addNode_existing hx]; exact w0
      · have hg := step_good h.good (.addNode nd p) hs
        change Good (addNode a.s nd p).state.t at hg
        obtain ⟨hm, hc⟩ := hs
        obtain ⟨-, -, -, hok⟩ := hc.resolve_left hx
        cases hr : addNode a.s nd p with
        | err e s' => rw [hr] at hok; cases hok
        | ok s' =>
          obtain ⟨t', rfl, har⟩ := addNode_arrived h.good hm (by simpa using hx) hr
          rw [hr] at hg
          exact w0.added own hdiff h.good.wf hg.wf har (by simpa using hx) (hadd nd p rfl)
    | delNode x r =>
      by_cases hx : a.s.t.has x = true
      · cases r with
        | true =>
          show Lags _ _ _ _ _ _ _ (removeNode (removeFuel a.s.t) a.s x true).state
          have h1 : ∀ y, Reach a.s.t.rawChildren x y → (a.s.t.rawParents y).length ≤ 1 := by
            intro y hy
            rw [← h.good.wf.getParents_eq]
            exact hpl x rfl y ((h.good.descendant_down h.tidy y x).2 hy)
          refine (lags_removeRecursive (N := fun y => ReachEq a.s.t.rawChildren x y) own hdiff h.good.wf hx (fun _ h => h) h1
            (lags_start h ?_)).empty
          rintro y (rfl | hy)
          · have := hcf.1; rw [h.good.wf.getParents_eq] at this; exact this
          · exact h1 y hy
        | false =>
          show Lags _ _ _ _ _ _ _ (removeNode (a.s.t.nodes.entries.length + 1) a.s x false).state
          refine (lags_removeOrphan (N := fun y => y = x) own hdiff h.good hx (fun c hc => h.tidy x c hc) rfl _ (lags_start h ?_)).empty
          rintro y rfl
          have : (a.s.t.getParents y).length ≤ 1 := hcf
          rw [h.good.wf.getParents_eq] at this; exact this
      · have : (step a.s (.delNode x r)).state = a.s := by
          show (removeNode (a.s.t.nodes.entries.length + 1) a.s x r).state = a.s
          unfold removeNode; rw [if_pos (by simp [hx])]; rfl
        rw [this]; exact w0
    | _ => exact absurd rfl hl

theorem edit_slackState (hdiff : SetDiff diff) {a : FApp V} (h : SlackState diff a) (own : OwnApplied a) (op : Op) (hf : EditFair a op)
    (hpl : PlainRemoval a op) : ∃ a', a.edit diff op = .ok a' ∧ (a'.bank = a.bank ∧ a'.data = a.data ∧ a'.ft.applied = a.ft.applied) ∧ SlackState diff a' ∧
      ∀ y, (a.ft.view.has y = true ∨ ∃ n ∈ a'.s.log.drop a.s.log.length, n.nid = y) → Wanted a' y → a'.ft.view.has y = true := by
  have ht := hf.1.tidy h.good h.tidy
  obtain ⟨hroot, -, v, l, h1, h2, h3, hs⟩ := edit_lags hdiff h own op hf hpl
  unfold FApp.edit
  dsimp only
  rw [h1, List.drop_left, h2]
  have hg := step_good h.good op (ht.safe h.good h.tidy)
  refine ⟨_, rfl, ⟨rfl, rfl, rfl⟩, ⟨hg, step_noDangling h.good h.tidy op ht, hroot, h3⟩, fun y hy hw => hs y ?_ ((accepts_iff hg.wf y).2 hw)⟩
  dsimp only at hy
  rw [h1, List.drop_left] at hy
  exact hy

end Larch
