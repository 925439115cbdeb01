import Verif.Proofs.KeepsGood
import Verif.Proofs.ViewFill
import Verif.Proofs.ViewVanish
import Verif.Proofs.ViewCount

/-!
# A view follows the edits of the tree
-/

namespace Larch

open Graph Spec

variable {E : VEnv} {V : Type}

/-! ### Views without ranks -/

/-- What a view reads makes sense. -/
structure EB (E : VEnv) : Prop where
  rootHas : E.has E.root = false
  dispHas : ∀ x, E.disp x = true → E.has x = true
  parHas : ∀ x p, p ∈ E.par x → E.has p = true ∧ E.has x = true
  parNd : ∀ x, (E.par x).Nodup
  chi : ∀ p c, E.has c = true → (c ∈ E.chi p ↔ p ∈ E.par c)
  diff : SetDiff E.diff

/-- Parents come before children, both in the tree and in the view. -/
def Orders (E : VEnv) (v : View) (r : Id → Nat) : Prop :=
  (∀ x, ∀ p ∈ E.par x, r p < r x) ∧ ∀ y, ∀ p ∈ v.pars y, r p < r y

/-- A bounded rank. -/
theorem EB.rank (hE : EB E) {v : View} (hr : v.pars E.root = []) {r : Id → Nat} (ho : Orders E v r) (K : List Id)
    (hK : ∀ x, E.par x ≠ [] → x ∈ K) :
    ∃ rank, EOK E rank (K.length + v.nodes.entries.length + 1) ∧ ∀ y, ∀ p ∈ v.pars y, rank p < rank y := by
  obtain ⟨ht, h1, h2⟩ := exists_height (fun y => E.par y ++ v.pars y) (K ++ v.nodes.keys) (by
      intro x hx
      by_cases h : E.par x = []
      · rw [h, List.nil_append] at hx
        exact List.mem_append_right _ (v.pars_keys x hx)
      · exact List.mem_append_left _ (hK x h))
    (acyclic_of_height _ r (by
      intro x y hy
      rcases List.mem_append.1 hy with hy | hy
      · exact ho.1 x y hy
      · exact ho.2 x y hy))
  have hpr : ∀ x, E.par E.root = [] ∧ (E.root ∉ E.par x) := by
    intro x
    refine ⟨List.eq_nil_iff_forall_not_mem.2 fun p hp => ?_, fun hp => ?_⟩
    · have := (hE.parHas _ _ hp).2; rw [hE.rootHas] at this; cases this
    · have := (hE.parHas _ _ hp).1; rw [hE.rootHas] at this; cases this
  refine ⟨fun x => if x = E.root then 0 else ht x + 1, ?_, ?_⟩
  · refine ⟨hE.rootHas, hE.dispHas, hE.parHas, hE.parNd, ?_, hE.chi, by simp, ?_, ?_, hE.diff⟩
    · intro x p hp
      have hx : x ≠ E.root := by rintro rfl; rw [(hpr E.root).1] at hp; cases hp
      have hpn : p ≠ E.root := by rintro rfl; exact (hpr x).2 hp
      rw [if_neg hx, if_neg hpn]
      have := h2 x p (List.mem_append_left _ hp)
      omega
    · intro x hx; rw [if_neg hx]; omega
    · intro x
      have := h1 x
      rw [List.length_append, Dict.keys_length] at this
      split <;> omega
  · intro y p hp
    have hy : y ≠ E.root := by rintro rfl; rw [hr] at hp; cases hp
    dsimp only
    rw [if_neg hy]
    split
    · omega
    · have := h2 y p (List.mem_append_right _ hp)
      omega

/-- The view shows everything it should; everything outside `D` is where it belongs. -/
structure Fit (E : VEnv) (D : Id → Prop) (v : View) : Prop where
  inv : ∃ r, Orders E v r ∧ VInv E r (fun _ => False) v
  all : ∀ y, E.disp y = true → v.has y = true
  settled : ∀ y, E.disp y = true → ¬ D y → SettledAt E v y

theorem VInv.rerank {r r' : Id → Nat} {v : View} (h : VInv E r (fun _ => False) v)
    (ho : ∀ y, ∀ p ∈ v.pars y, r' p < r' y) : VInv E r' (fun _ => False) v :=
  ⟨h.keys, h.rootIn, h.rootPars, h.sub, fun y p hp => ⟨(h.par y p hp).1, ho y p hp⟩,
    fun p c hc => ⟨(h.kid p c hc).1, ho c p ((h.mirror c (fun h => h) p).2 hc)⟩, h.ndP, h.ndK, h.mirror, h.rows⟩

theorem Fit.mono {D D' : Id → Prop} {v : View} (h : Fit E D v) (hd : ∀ y, D y → D' y) : Fit E D' v :=
  ⟨h.inv, h.all, fun y hy hn => h.settled y hy fun hh => hn (hd y hh)⟩

theorem VInv.congrE {E' : VEnv} {r : Id → Nat} {v : View} (h : VInv E r (fun _ => False) v) (hr : E'.root = E.root)
    (hd : ∀ y, v.has y = true → y ≠ E.root → E'.disp y = true) : VInv E' r (fun _ => False) v :=
  ⟨h.keys, by rw [hr]; exact h.rootIn, by rw [hr]; exact h.rootPars, fun y hy hn => hd y hy (by rw [← hr]; exact hn),
    h.par, h.kid, h.ndP, h.ndK, h.mirror, by rw [hr]; exact h.rows⟩

/-- Two environments ask for the same parents of `y`. -/
theorem npAll_congr {E' : VEnv} {y : Id} (hr : E'.root = E.root) (hf : E'.flat = E.flat) (hh : E'.has y = E.has y)
    (hp : E.flat = false → ∀ p, E'.disp p = true ∧ p ∈ E'.par y ↔ E.disp p = true ∧ p ∈ E.par y) (p : Id) :
    p ∈ npAll E' y ↔ p ∈ npAll E y := by
  have hc : ∀ q, q ∈ candAll E' y ↔ q ∈ candAll E y := by
    intro q
    rw [mem_npCand, mem_npCand, hf, hh]
    by_cases hfl : E.flat = false
    · have := hp hfl q
      tauto
    · simp [hfl]
  have hn : candAll E' y = [] ↔ candAll E y = [] := by
    rw [List.eq_nil_iff_forall_not_mem, List.eq_nil_iff_forall_not_mem]
    constructor
    · intro h q hq; exact h q ((hc q).2 hq)
    · intro h q hq; exact h q ((hc q).1 hq)
  rw [mem_npAll, mem_npAll, hc, hn, hr]

theorem parOfCand {y p : Id} (h : p ∈ candAll E y) : p ∈ E.par y := (mem_npCand.1 h).2.1

/-- A displayed node's parents in the view are parents in the tree, or the root. -/
theorem SettledAt.sub {v : View} {y p : Id} (h : SettledAt E v y) (hp : p ∈ v.pars y) : p = E.root ∨ p ∈ E.par y := by
  rcases mem_npAll.1 ((h p).1 hp) with h | h
  · exact Or.inr (parOfCand h)
  · exact Or.inl h.1

theorem Fit.parSub {D : Id → Prop} {v : View} (h : Fit E D v) (hD : ∀ y, ¬ D y) {y p : Id} (hp : p ∈ v.pars y) :
    p = E.root ∨ p ∈ E.par y := by
  obtain ⟨r, -, hv⟩ := h.inv
  have hy : v.has y = true := View.has_of_par hp
  have hn : y ≠ E.root := by rintro rfl; rw [hv.rootPars] at hp; cases hp
  exact (h.settled y (hv.sub y hy hn) (hD y)).sub hp

/-- An order for a tree that has all the relations the view shows. -/
theorem orders_of_super (hE : EB E) {v : View} (hr : v.pars E.root = []) (hac : Acyclic E.par) (K : List Id)
    (hK : ∀ x, E.par x ≠ [] → x ∈ K) (hsub : ∀ y, ∀ p ∈ v.pars y, p = E.root ∨ p ∈ E.par y) : ∃ r, Orders E v r := by
  obtain ⟨ht, -, h2⟩ := exists_height E.par K hK hac
  refine ⟨fun x => if x = E.root then 0 else ht x + 1, ?_, ?_⟩
  · intro x p hp
    have hx : x ≠ E.root := by rintro rfl; have := (hE.parHas _ _ hp).2; rw [hE.rootHas] at this; cases this
    have hpn : p ≠ E.root := by rintro rfl; have := (hE.parHas _ _ hp).1; rw [hE.rootHas] at this; cases this
    dsimp only
    rw [if_neg hx, if_neg hpn]
    have := h2 x p hp
    omega
  · intro y p hp
    have hy : y ≠ E.root := by rintro rfl; rw [hr] at hp; cases hp
    dsimp only
    rw [if_neg hy]
    split
    · omega
    · rename_i hpn
      have := h2 y p ((hsub y p hp).resolve_left hpn)
      omega

/-- One notification about `x`. -/
theorem Fit.update (hE : EB E) {D : Id → Prop} {v : View} (h : Fit E D v) (K : List Id)
    (hK : ∀ x, E.par x ≠ [] → x ∈ K) {f : Nat} (hf : 2 * (K.length + v.nodes.entries.length) + 4 ≤ f) {x : Id}
    (hx : x ≠ E.root) : ∃ v', E.update f x .both v = .ok v' ∧ Fit E (fun y => D y ∧ y ≠ x) v' := by
  obtain ⟨r, ho, hv⟩ := h.inv
  obtain ⟨rank, e1, e2⟩ := hE.rank hv.rootPars ho K hK
  obtain ⟨v', a1, a2, a3, a4⟩ := update_settles e1 (f := f) (x := x) (dir := .both) (v := v) (by omega) rfl
    (hv.rerank e2) (fun y hy _ => h.all y hy) hx D (fun y hy _ hn _ => h.settled y hy hn)
  exact ⟨v', a1, ⟨rank, ⟨e1.parRank, fun y p hp => (a2.par y p hp).2⟩, a2⟩, a3,
    fun y hy hn => a4 y hy fun hyx hd => hn ⟨hd, hyx⟩⟩

/-- A view in which everything but `x` is in order, and `x` has to go. -/
theorem Fit.hide (hE : EB E) {v : View} {r : Id → Nat} (ho : Orders E v r) (K : List Id)
    (hK : ∀ x, E.par x ≠ [] → x ∈ K) {f : Nat} (hf : 2 * (K.length + v.nodes.entries.length) + 4 ≤ f) {x : Id}
    (H : ∀ rank, (∀ y, ∀ p ∈ v.pars y, rank p < rank y) → Hiding E rank (fun _ => False) x v) :
    ∃ v', E.update f x .both v = .ok v' ∧ Fit E (fun _ => False) v' := by
  have hr : v.pars E.root = [] := (H r ho.2).base.rootPars
  obtain ⟨rank, e1, e2⟩ := hE.rank hr ho K hK
  have h := H rank e2
  obtain ⟨g, rfl⟩ : ∃ g, f = g + 1 := ⟨f - 1, by omega⟩
  obtain ⟨v', a1, a2⟩ := vanish_ok e1 h (f := g) (by omega) (by omega)
  refine ⟨v', ?_, ⟨rank, ⟨e1.parRank, fun y p hp => (a2.base.par y p hp).2⟩, a2.vinv⟩, a2.all, fun y hy hN => a2.settled y hy hN⟩
  unfold VEnv.update
  rw [if_neg h.ne, if_neg (by simp [h.hx]), if_neg (by simp [h.hd])]
  exact a1

/-- The `Hiding` of a node whose children are still below it. -/
theorem Hiding.of {v : View} {rank : Id → Nat} {x : Id} {E0 : VEnv} {r : Id → Nat}
    (hv : VInv E0 r (fun _ => False) v) (hroot : E.root = E0.root) (ho : ∀ y, ∀ p ∈ v.pars y, rank p < rank y)
    (hx : v.has x = true) (hd : E.disp x = false) (hne : x ≠ E.root)
    (hsub : ∀ y, v.has y = true → y ≠ E.root → y ≠ x → E.disp y = true)
    (hall : ∀ y, E.disp y = true → v.has y = true)
    (hset : ∀ y, E.disp y = true → x ∉ v.pars y → SettledAt E v y)
    (halm : ∀ y, x ∈ v.pars y → ∀ p, p ∈ v.pars y ↔ p = x ∨ p ∈ candAll E y) : Hiding E rank (fun _ => False) x v := by
  have hv' := hv.rerank ho
  have hb := hv'.base
  refine ⟨⟨hb.keys, by rw [hroot]; exact hb.rootIn, by rw [hroot]; exact hb.rootPars, hb.par, hb.kid, hb.ndP, hb.ndK, hb.up,
    by rw [hroot]; exact hb.rows⟩, fun p c hc => (hv'.kid p c hc).1, fun y p => hv'.mirror y (fun h => h) p, hx, hne, hd, hsub,
    hall, fun y hy _ => hset y hy, halm, fun _ h => h.elim⟩

/-! ### The environment of a `FilteredTree` -/

/-- All filters look at a node's own data only. -/
def OwnBank (b : Bank (Id → V)) : Prop := ∀ n f, b.getFilter n = some f → OwnData f.func

/-- The filters with these names look at a node's own data only. -/
def OwnOn (b : Bank (Id → V)) (ap : List FName) : Prop := ∀ n ∈ ap, ∀ f, b.getFilter n = some f → OwnData f.func

theorem OwnBank.on {b : Bank (Id → V)} (h : OwnBank b) (ap : List FName) : OwnOn b ap := fun n _ f hf => h n f hf

theorem accepts_own {b : Bank (Id → V)} {ap : List FName} (hb : OwnOn b ap) {t t' : Tree} {d d' : Id → V} {x : Id}
    (hh : t'.has x = t.has x) (hd : d' x = d x) : FT.accepts b t' d' ap x = FT.accepts b t d ap x := by
  unfold FT.accepts
  rw [hh]
  congr 1
  rw [Bool.eq_iff_iff, List.all_eq_true, List.all_eq_true]
  refine forall_congr' fun n => forall_congr' fun hm => ?_
  cases hn : b.getFilter n with
  | none => rfl
  | some f =>
    dsimp only
    rw [isDisplayed_verdict f (hb n hm f hn), isDisplayed_verdict f (hb n hm f hn), hh, verdict_data f (hb n hm f hn) d' d x hd]

theorem accepts_congr {b : Bank (Id → V)} (hb : OwnBank b) {t t' : Tree} {d d' : Id → V} (ap : List FName) {x : Id}
    (hh : t'.has x = t.has x) (hd : d' x = d x) : FT.accepts b t' d' ap x = FT.accepts b t d ap x :=
  accepts_own (hb.on ap) hh hd

variable {D : Type}

theorem accepts_has {b : Bank D} {t : Tree} {d : D} {ap : List FName} {x : Id} (h : FT.accepts b t d ap x = true) :
    t.has x = true := by
  unfold FT.accepts at h
  simp only [Bool.and_eq_true] at h
  exact h.1.2

theorem env_ok {diff : List Id → List Id → List Id} (hdiff : SetDiff diff) (b : Bank D) {t : Tree} (h : WF t) (d : D) (ft : FT)
    (hr : t.has ft.root = false) : EB (FT.env diff b t d ft) := by
  refine ⟨hr, fun x hx => accepts_has hx, ?_, ?_, ?_, hdiff⟩
  · intro x p hp
    have hp' : p ∈ t.rawParents x := by rw [← h.getParents_eq]; exact hp
    exact ⟨h.has_parent hp', Tree.has_of_mem_rawParents hp'⟩
  · intro x
    show (t.getParents x).Nodup
    rw [h.getParents_eq]; exact h.ndP x
  · intro p c _
    show c ∈ t.getChildren p ↔ p ∈ t.getParents c
    rw [h.mem_getChildren, h.getParents_eq]

theorem env_par {diff : List Id → List Id → List Id} {b : Bank D} {t : Tree} (h : WF t) {d : D} {ft : FT} :
    (FT.env diff b t d ft).par = t.rawParents := funext fun x => h.getParents_eq x

theorem env_keys {diff : List Id → List Id → List Id} {b : Bank D} {t : Tree} (h : WF t) {d : D} {ft : FT} (x : Id)
    (hx : (FT.env diff b t d ft).par x ≠ []) : x ∈ t.nodes.keys := by
  rw [env_par h] at hx; exact t.rawParents_keys x hx

theorem react_eq {diff : List Id → List Id → List Id} {b : Bank D} {d : D} {n : Note} {ft : FT} {v : View}
    (h : (FT.env diff b n.snap d ft).update (2 * (n.snap.nodes.keys.length + ft.view.nodes.entries.length) + 8) n.nid .both ft.view = .ok v) :
    FT.react diff b d n ft = .ok { ft with view := v } := by
  unfold FT.react FT.depth
  rw [Dict.keys_length] at h
  rw [h]
  rfl

/-! ### Following the notifications -/

/-- The view `v` just before it hears the notification `n`: its nodes are in the tree of that moment, except for the node of the
notification, and if that one is not in the tree, then it has no children in the view; and no cycle runs through the tree and the
view. -/
structure Moment (root : Id) (n : Note) (v : View) : Prop where
  has : ∀ y, v.has y = true → y ≠ root → y ≠ n.nid → n.snap.has y = true
  leaf : n.snap.has n.nid = false → v.kids n.nid = []
  ne : n.nid ≠ root
  wf : WF n.snap
  rootFree : n.snap.has root = false
  inv : ∃ E r, E.root = root ∧ (∀ x, ∀ p ∈ n.snap.rawParents x, r p < r x) ∧ VInv E r (fun _ => False) v

/-- So it was before every notification since `s0`. -/
def Moments (diff : List Id → List Id → List Id) (b : Bank (Id → V)) (d : Id → V) (s0 : St) (ft0 : FT) (log : List Note) : Prop :=
  ∀ l1 n l2 v, log = s0.log ++ (l1 ++ n :: l2) → Res.forEach (FT.react diff b d) l1 ft0 = .ok { ft0 with view := v } →
    Moment ft0.root n v

theorem VInv.rootKids {E : VEnv} {r : Id → Nat} {v : View} (h : VInv E r (fun _ => False) v) (p : Id) : E.root ∉ v.kids p := by
  intro hp
  have := (h.mirror _ (fun h => h) p).2 hp
  rw [h.rootPars] at this; cases this

/-- Since `s0` the view `ft0` has followed the notifications and shows the tree of `s`, except that the nodes in `X` may be
misplaced. -/
structure Watch (diff : List Id → List Id → List Id) (b : Bank (Id → V)) (d : Id → V) (s0 : St) (ft0 : FT) (X : Id → Prop)
    (s : St) : Prop where
  rootFree : s.t.has ft0.root = false
  moments : Moments diff b d s0 ft0 s.log
  seen : ∃ v l, s.log = s0.log ++ l ∧ Res.forEach (FT.react diff b d) l ft0 = .ok { ft0 with view := v } ∧
    Fit (FT.env diff b s.t d ft0) X v

variable {diff : List Id → List Id → List Id} {b : Bank (Id → V)} {d : Id → V} {s0 : St} {ft0 : FT} {X : Id → Prop}

theorem forEach_snoc {α σ : Type} {body : α → σ → Res σ} {l : List α} {a : α} {s s' : σ}
    (h : Res.forEach body l s = .ok s') : Res.forEach body (l ++ [a]) s = body a s' := by
  induction l generalizing s with
  | nil => cases h; rw [List.nil_append, Res.forEach]; cases hb : body a _ <;> rfl
  | cons c l ih =>
    rw [Res.forEach] at h
    rw [List.cons_append, Res.forEach]
    cases hc : body c s with
    | ok s1 => rw [hc] at h; exact ih h
    | err e s1 => rw [hc] at h; cases h

theorem Moments.snoc {log l : List Note} {v : View} {n : Note} (h : Moments diff b d s0 ft0 log) (h1 : log = s0.log ++ l)
    (h2 : Res.forEach (FT.react diff b d) l ft0 = .ok { ft0 with view := v }) (hn : Moment ft0.root n v) :
    Moments diff b d s0 ft0 (log ++ [n]) := by
  intro l1 m l2 u e hu
  rcases List.eq_nil_or_concat l2 with rfl | ⟨l2, k, rfl⟩
  · rw [h1, List.append_assoc, List.append_cancel_left_eq] at e
    obtain ⟨e1, e2⟩ := List.append_inj' e rfl
    subst e1
    obtain rfl : n = m := by simpa using e2
    rw [h2] at hu
    have : v = u := congrArg FT.view (Res.ok.inj hu)
    exact this ▸ hn
  · refine h l1 m l2 u ?_ hu
    have e' : log ++ [n] = (s0.log ++ (l1 ++ m :: l2)) ++ [k] := by rw [e]; simp
    exact (List.append_inj' e' rfl).1

theorem Watch.mono {s : St} (h : Watch diff b d s0 ft0 X s) {Y : Id → Prop} (hy : ∀ y, X y → Y y) :
    Watch diff b d s0 ft0 Y s := by
  obtain ⟨v, l, h1, h2, h3⟩ := h.seen
  exact ⟨h.rootFree, h.moments, v, l, h1, h2, h3.mono hy⟩

/-- A notification about `x` without a change of the tree. -/
theorem Watch.note (hdiff : SetDiff diff) {s : St} (h : Watch diff b d s0 ft0 X s) (hw : WF s.t) (ev : Ev) {x : Id}
    (hx : s.t.has x = true) : Watch diff b d s0 ft0 (fun y => X y ∧ y ≠ x) (s.emit ev x) := by
  obtain ⟨v, l, h1, h2, h3⟩ := h.seen
  have hE := env_ok hdiff b hw d ft0 h.rootFree
  have hne : x ≠ ft0.root := by rintro rfl; rw [h.rootFree] at hx; cases hx
  obtain ⟨v', a1, a2⟩ := h3.update hE s.t.nodes.keys (env_keys hw)
    (f := 2 * (s.t.nodes.keys.length + v.nodes.entries.length) + 8) (by omega) (x := x) hne
  obtain ⟨r, ho, hv⟩ := h3.inv
  refine ⟨h.rootFree, h.moments.snoc h1 h2 ⟨fun y hy hyr _ => accepts_has (hv.sub y hy hyr), 
    fun hf => absurd hx (by rw [show s.t.has x = false from hf]; simp), hne, hw, h.rootFree, _, r, rfl,
    by have := ho.1; rw [env_par hw] at this; exact this, hv⟩, v', l ++ [⟨s.t, ev, x⟩], ?_, ?_, a2⟩
  · show s.log ++ [_] = _
    rw [h1, List.append_assoc]
  · rw [forEach_snoc h2]
    exact react_eq (n := ⟨s.t, ev, x⟩) (ft := { ft0 with view := v }) a1

/-- The tree changes only at the parents of nodes in `Y`, and the filters give the same answers. -/
theorem Watch.moveD {s s' : St} (h : Watch diff b d s0 ft0 X s)
    (hdisp : ∀ y, (FT.env diff b s'.t d ft0).disp y = (FT.env diff b s.t d ft0).disp y) {Y : Id → Prop}
    (hw : WF s.t) (hw' : WF s'.t) (hl : s'.log = s.log) (hh : ∀ y, s'.t.has y = s.t.has y)
    (hXY : ∀ y, X y → Y y) (hpar : ∀ y, ¬ Y y → s'.t.rawParents y = s.t.rawParents y)
    (hord : ∀ v, Fit (FT.env diff b s.t d ft0) X v → ∃ r, Orders (FT.env diff b s'.t d ft0) v r) :
    Watch diff b d s0 ft0 Y s' := by
  obtain ⟨v, l, h1, h2, h3⟩ := h.seen
  refine ⟨by rw [hh]; exact h.rootFree, by rw [hl]; exact h.moments, v, l, hl.trans h1, h2, ?_, ?_, ?_⟩
  · obtain ⟨r, ho⟩ := hord v h3
    obtain ⟨r0, -, hv⟩ := h3.inv
    exact ⟨r, ho, (hv.rerank ho.2).congrE rfl (fun y hy hn => by rw [hdisp]; exact hv.sub y hy hn)⟩
  · intro y hy; rw [hdisp] at hy; exact h3.all y hy
  · intro y hy hn p
    rw [hdisp] at hy
    rw [h3.settled y hy (fun hx => hn (hXY y hx)) p]
    symm
    refine npAll_congr (E := FT.env diff b s.t d ft0) (E' := FT.env diff b s'.t d ft0) rfl rfl (hh y) (fun _ q => ?_) p
    rw [hdisp, env_par hw, env_par hw', hpar y hn]

/-- The tree changes only at the parents of nodes in `Y`. -/
theorem Watch.move (hb : OwnOn b ft0.applied) {s s' : St} (h : Watch diff b d s0 ft0 X s) {Y : Id → Prop}
    (hw : WF s.t) (hw' : WF s'.t) (hl : s'.log = s.log) (hh : ∀ y, s'.t.has y = s.t.has y)
    (hXY : ∀ y, X y → Y y) (hpar : ∀ y, ¬ Y y → s'.t.rawParents y = s.t.rawParents y)
    (hord : ∀ v, Fit (FT.env diff b s.t d ft0) X v → ∃ r, Orders (FT.env diff b s'.t d ft0) v r) :
    Watch diff b d s0 ft0 Y s' :=
  h.moveD (fun y => accepts_own hb (hh y) rfl) hw hw' hl hh hXY hpar hord

theorem Watch.same (hb : OwnOn b ft0.applied) {s s' : St} (h : Watch diff b d s0 ft0 X s) (hw : WF s.t) (hw' : WF s'.t)
    (hl : s'.log = s.log) (hh : ∀ y, s'.t.has y = s.t.has y) (hp : s'.t.rawParents = s.t.rawParents) :
    Watch diff b d s0 ft0 X s' := by
  refine h.move hb hw hw' hl hh (fun _ h => h) (fun y _ => by rw [hp]) ?_
  intro v hf
  obtain ⟨r, ho, -⟩ := hf.inv
  refine ⟨r, ?_, ho.2⟩
  rw [env_par hw', hp, ← env_par hw (diff := diff) (b := b) (d := d) (ft := ft0)]
  exact ho.1

/-- Relations to `c` disappear. -/
theorem Watch.cutD {s s' : St} (h : Watch diff b d s0 ft0 X s)
    (hdisp : ∀ y, (FT.env diff b s'.t d ft0).disp y = (FT.env diff b s.t d ft0).disp y) (hw : WF s.t) (hw' : WF s'.t)
    (hl : s'.log = s.log) (hh : ∀ y, s'.t.has y = s.t.has y) {c : Id} (hp : ∀ y, y ≠ c → s'.t.rawParents y = s.t.rawParents y)
    (hc : ∀ q, q ∈ s'.t.rawParents c → q ∈ s.t.rawParents c) :
    Watch diff b d s0 ft0 (fun y => X y ∨ y = c) s' := by
  refine h.moveD hdisp hw hw' hl hh (fun _ h => Or.inl h) (fun y hy => hp y fun e => hy (Or.inr e)) ?_
  intro v hf
  obtain ⟨r, ho, -⟩ := hf.inv
  refine ⟨r, ?_, ho.2⟩
  have ho1 := ho.1
  rw [env_par hw] at ho1
  rw [env_par hw']
  intro x p hpx
  by_cases e : x = c
  · subst e; exact ho1 x p (hc p hpx)
  · rw [hp x e] at hpx; exact ho1 x p hpx

theorem Watch.cut (hb : OwnOn b ft0.applied) {s s' : St} (h : Watch diff b d s0 ft0 X s) (hw : WF s.t) (hw' : WF s'.t)
    (hl : s'.log = s.log) (hh : ∀ y, s'.t.has y = s.t.has y) {c : Id} (hp : ∀ y, y ≠ c → s'.t.rawParents y = s.t.rawParents y)
    (hc : ∀ q, q ∈ s'.t.rawParents c → q ∈ s.t.rawParents c) :
    Watch diff b d s0 ft0 (fun y => X y ∨ y = c) s' :=
  h.cutD (fun y => accepts_own hb (hh y) rfl) hw hw' hl hh hp hc

/-- Relations to `c` are added. -/
theorem Watch.linkD (hdiff : SetDiff diff) {s s' : St} (h : Watch diff b d s0 ft0 (fun _ => False) s)
    (hdisp : ∀ y, (FT.env diff b s'.t d ft0).disp y = (FT.env diff b s.t d ft0).disp y) (hw : WF s.t)
    (hw' : WF s'.t) (hl : s'.log = s.log) (hh : ∀ y, s'.t.has y = s.t.has y) {c : Id}
    (hp : ∀ y, y ≠ c → s'.t.rawParents y = s.t.rawParents y) (hc : ∀ q, q ∈ s.t.rawParents c → q ∈ s'.t.rawParents c) :
    Watch diff b d s0 ft0 (fun y => y = c) s' := by
  refine h.moveD hdisp hw hw' hl hh (fun _ h => h.elim) (fun y hy => hp y hy) ?_
  intro v hf
  obtain ⟨r, -, hv⟩ := hf.inv
  refine orders_of_super (env_ok hdiff b hw' d ft0 (by rw [hh]; exact h.rootFree)) hv.rootPars
    (by rw [env_par hw']; exact hw'.acyclic) s'.t.nodes.keys (env_keys hw') ?_
  intro y p hpy
  rcases hf.parSub (fun _ h => h) hpy with e | e
  · exact Or.inl e
  · refine Or.inr ?_
    rw [env_par hw] at e
    rw [env_par hw']
    by_cases ey : y = c
    · subst ey; exact hc p e
    · rw [hp y ey]; exact e

theorem Watch.link (hb : OwnOn b ft0.applied) (hdiff : SetDiff diff) {s s' : St} (h : Watch diff b d s0 ft0 (fun _ => False) s) (hw : WF s.t)
    (hw' : WF s'.t) (hl : s'.log = s.log) (hh : ∀ y, s'.t.has y = s.t.has y) {c : Id}
    (hp : ∀ y, y ≠ c → s'.t.rawParents y = s.t.rawParents y) (hc : ∀ q, q ∈ s.t.rawParents c → q ∈ s'.t.rawParents c) :
    Watch diff b d s0 ft0 (fun y => y = c) s' :=
  h.linkD hdiff (fun y => accepts_own hb (hh y) rfl) hw hw' hl hh hp hc

/-- The view follows every edit of relations. -/
theorem watch_keeps (hb : OwnOn b ft0.applied) (hdiff : SetDiff diff) : KeepsGood (fun _ _ => True) (fun _ _ => True) (fun s => Good s.t ∧ Watch diff b d s0 ft0 (fun _ => False) s) where
  same := fun {s s'} h hl hh hp hg => ⟨hg, h.2.same hb h.1.wf hg.wf hl hh hp⟩
  link := fun {s p c t'} h hg hc hn hg' _ => by
    obtain ⟨hp, hcc, ef⟩ := Tree.create_eq_some hc
    refine ⟨hg', ?_⟩
    have h1 : Watch diff b d s0 ft0 (fun y => y = c) ⟨t', s.log⟩ := by
      refine h.2.link (s' := ⟨t', s.log⟩) hb hdiff hg.wf hg'.wf rfl ef.has (c := c) (fun y hy => by show t'.rawParents y = _; rw [ef.parents, if_neg hy]) ?_
      intro q hq
      show q ∈ t'.rawParents c
      rw [ef.parents, if_pos rfl, mem_appendNew]; exact Or.inl hq
    have h2 := h1.note hdiff hg'.wf .modified (x := p) (by show t'.has p = true; rw [ef.has]; exact hp)
    have h3 := h2.note hdiff hg'.wf .modified (x := c) (by show t'.has c = true; rw [ef.has]; exact hcc)
    exact h3.mono fun y hy => hy.2 hy.1.1
  cut := fun {s p c t'} h hg hp hcc hne ef hg' _ => by
    refine ⟨hg', ?_⟩
    have h1 : Watch diff b d s0 ft0 (fun y => False ∨ y = c) ⟨t', s.log⟩ := by
      refine h.2.cut (s' := ⟨t', s.log⟩) hb hg.wf hg'.wf rfl ef.has (c := c) (fun y hy => by show t'.rawParents y = _; rw [ef.parents, if_neg hy]) ?_
      intro q hq
      have hq' : q ∈ t'.rawParents c := hq
      rw [ef.parents, if_pos rfl] at hq'; exact List.mem_of_mem_erase hq'
    have h2 := h1.note hdiff hg'.wf .modified (x := p) (by show t'.has p = true; rw [ef.has]; exact hp)
    have h3 := h2.note hdiff hg'.wf .modified (x := c) (by show t'.has c = true; rw [ef.has]; exact hcc)
    exact h3.mono fun y hy => hy.2 (hy.1.1.resolve_left fun h => h)
  modified := fun {s} h hg {x} hx => ⟨hg, (h.2.note hdiff hg.wf .modified hx).mono fun _ h => h.1⟩

end Larch
