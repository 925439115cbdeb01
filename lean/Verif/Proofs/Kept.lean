import Verif.Proofs.SpecTree
import Verif.Spec.Kept

/-!
# Objects that leave the tree
-/

namespace Larch

open Graph Spec

@[simp] theorem Res.map_ok {σ τ : Type} (f : σ → τ) (s : σ) : (Res.ok s).map f = .ok (f s) := rfl
@[simp] theorem Res.map_err {σ τ : Type} (f : σ → τ) (e : Err) (s : σ) : (Res.err e s).map f = .err e (f s) := rfl

theorem Res.map_state {σ τ : Type} (f : σ → τ) (r : Res σ) : (r.map f).state = f r.state := by cases r <;> rfl
theorem Res.map_isOk {σ τ : Type} (f : σ → τ) (r : Res σ) : (r.map f).isOk = r.isOk := by cases r <;> rfl
theorem Res.map_map {σ τ ρ : Type} (f : σ → τ) (g : τ → ρ) (r : Res σ) : (r.map f).map g = r.map (fun s => g (f s)) := by
  cases r <;> rfl

/-! ### The tree of `removeKeep` is that of `removeNode` -/

theorem forEach_map {σ τ α : Type} (f : σ → τ) (b : α → σ → Res σ) (b' : α → τ → Res τ)
    (h : ∀ x s, (b x s).map f = b' x (f s)) (l : List α) (s : σ) : (Res.forEach b l s).map f = Res.forEach b' l (f s) := by
  induction l generalizing s with
  | nil => rfl
  | cons x l ih =>
    unfold Res.forEach
    rw [← h]
    cases b x s with
    | ok s' => exact ih s'
    | err e s' => rfl

theorem removeKeep_fst (f : Nat) (a : St × List Node) (x : Id) (r : Bool) :
    (removeKeep f a x r).map Prod.fst = removeNode f a.1 x r := by
  induction f generalizing a x r with
  | zero => rfl
  | succ f ih =>
    rw [removeKeep, removeNode]
    split
    · rfl
    · dsimp only
      cases removeParentsLoop _ 0 (a.1.mapTree fun t => { t with pending := dropPendingOf t.pending x }) x with
      | err e s2 => rfl
      | ok s2 =>
        simp only [Res.map_ok, Res.andThen_ok]
        have hl := forEach_map Prod.fst
          (fun c (b : St × List Node) => if r = true then removeKeep f b c true else (orphanChild x c b.1).map fun s => (s, b.2))
          (fun c s => if r = true then removeNode f s c true else orphanChild x c s)
          (by
            intro c b
            split
            · exact ih b c true
            · rw [Res.map_map]; cases orphanChild x c b.1 <;> rfl)
          (s2.t.rawChildren x) (s2, a.2)
        rw [← hl]
        cases Res.forEach
          (fun c (b : St × List Node) => if r = true then removeKeep f b c true else (orphanChild x c b.1).map fun s => (s, b.2))
          (s2.t.rawChildren x) (s2, a.2) with
        | err e a3 => rfl
        | ok a3 =>
          simp only [Res.map_ok, Res.andThen_ok]
          rw [Tree.has_eq]
          cases a3.1.t.node? x <;> rfl

/-! ### What is kept -/

/-- The objects `objs` left the tree between `t` and `t'`. -/
structure Left (t t' : Tree) (objs : List Node) : Prop where
  once : (objs.map Node.id).Nodup
  who : ∀ y, y ∈ objs.map Node.id ↔ t.has y = true ∧ t'.has y = false
  same : ∀ nd ∈ objs, t.nodeAttrs nd.id = some (Tree.attrs nd)
  bare : ∀ nd ∈ objs, nd.parents = [] ∧ nd.children = []

theorem Left.nil (t : Tree) : Left t t [] := by
  refine ⟨List.nodup_nil, fun y => ?_, by simp, by simp⟩
  cases t.has y <;> simp

theorem Left.trans {t t' t'' : Tree} {l l' : List Node} (h : Left t t' l) (h' : Left t' t'' l')
    (e : RemEffect t t') (e' : RemEffect t' t'') : Left t t'' (l ++ l') := by
  have sub := e.hasSub
  have sub' := e'.hasSub
  refine ⟨?_, fun y => ?_, ?_, ?_⟩
  · rw [List.map_append, List.nodup_append]
    refine ⟨h.once, h'.once, ?_⟩
    rintro a ha b hb rfl
    have h1 := ((h.who a).1 ha).2
    rw [((h'.who a).1 hb).1] at h1; cases h1
  · rw [List.map_append, List.mem_append, h.who, h'.who]
    have := sub y
    have := sub' y
    cases h1 : t.has y <;> cases h2 : t'.has y <;> cases h3 : t''.has y <;> simp_all
  · intro nd hnd
    rcases List.mem_append.1 hnd with hnd | hnd
    · exact h.same nd hnd
    · have hy := ((h'.who nd.id).1 (List.mem_map_of_mem hnd)).1
      rw [← e.attrs nd.id hy]; exact h'.same nd hnd
  · intro nd hnd
    rcases List.mem_append.1 hnd with hnd | hnd
    · exact h.bare nd hnd
    · exact h'.bare nd hnd

/-- Recursive removal below which nobody has two parents leaves no trace in the children lists. -/
theorem removeRec_noDangling {s s' : St} {x : Id} (h : WF s.t) (hn : NoDangling s.t)
    (h1 : ∀ y, ReachEq s.t.rawChildren x y → (s.t.rawParents y).length ≤ 1) (ef : RemEffect s.t s'.t)
    (g : s'.t.has x = false)
    (r : ∀ y, s.t.has y = true → s'.t.has y = false → ReachEq s.t.rawChildren x y)
    (hlast : s.t.has x = true → ∀ y, x ∈ s'.t.rawChildren y ↔ y ∈ Spec.everySecond (s.t.rawParents x)) :
    NoDangling s'.t := by
  have down : ∀ y, ReachEq s.t.rawChildren x y → s'.t.has y = false := by
    rintro y (rfl | hr)
    · exact g
    · induction hr with
      | single hm => exact ef.closed _ _ (Tree.has_of_mem_rawChildren hm) g hm
      | tail _ hm ih => exact ef.closed _ _ (Tree.has_of_mem_rawChildren hm) ih hm
  intro y c hc
  by_contra hcg
  have hcg : s'.t.has c = false := by simpa using hcg
  have hc0 := (ef.children y).subset hc
  have hhc := hn y c hc0
  have hyc := h.down y c hc0 hhc
  have hy := Tree.has_of_mem_rawChildren hc
  have hre := r c hhc hcg
  rcases hre with rfl | hr
  · have := (hlast hhc y).1 hc
    rw [everySecond_short (h1 x (Or.inl rfl))] at this
    cases this
  · have hlen := h1 c (Or.inr hr)
    obtain ⟨z, hz, hzc⟩ : ∃ z, ReachEq s.t.rawChildren x z ∧ c ∈ s.t.rawChildren z := by
      cases hr with
      | single hm => exact ⟨x, Or.inl rfl, hm⟩
      | tail hr hm => exact ⟨_, Or.inr hr, hm⟩
    have hzp := h.down z c hzc hhc
    have : z = y := by
      match hp : s.t.rawParents c, hlen with
      | [], _ => rw [hp] at hzp; cases hzp
      | [w], _ =>
        rw [hp] at hzp hyc
        rw [List.mem_singleton] at hzp hyc
        rw [hzp, hyc]
      | _ :: _ :: _, hl => simp at hl
    subst this
    rw [down z hz] at hy; cases hy

theorem removeKeep_rec (ht : Id → Nat) (f : Nat) : ∀ (s : St) (k : List Node) (x : Id), WF s.t → NoDangling s.t →
    (∀ y c, c ∈ s.t.rawChildren y → ht c < ht y) → ht x < f →
    (∀ y, ReachEq s.t.rawChildren x y → (s.t.rawParents y).length ≤ 1) →
    ∃ s' objs, removeKeep f (s, k) x true = .ok (s', k ++ objs) ∧ RemEffect s.t s'.t ∧ NoDangling s'.t ∧
      s'.t.has x = false ∧ Left s.t s'.t objs := by
  induction f with
  | zero => intro s k x _ _ _ h; omega
  | succ f ih =>
    intro s k x h hn hh hf h1
    obtain ⟨s', e, ef, g, r, hlast⟩ := removeNode_rec ht (f + 1) s x h hh hf
    have hnd := removeRec_noDangling h hn h1 ef g r hlast
    suffices hs : ∃ s'' objs, removeKeep (f + 1) (s, k) x true = .ok (s'', k ++ objs) ∧ Left s.t s''.t objs by
      obtain ⟨s'', objs, e', hl⟩ := hs
      have := removeKeep_fst (f + 1) (s, k) x true
      rw [e'] at this
      dsimp only at this
      rw [e] at this
      cases this
      exact ⟨_, objs, e', ef, hnd, g, hl⟩
    by_cases hx : s.t.has x = true
    · have hxn : x ≠ .none := by rintro rfl; have := (h.ids _ hx).1; cases this
      rw [removeKeep]
      rw [if_neg (by simp [hx, hxn])]
      dsimp only
      generalize hs1 : (s.mapTree fun t => { t with pending := dropPendingOf t.pending x }) = s1
      have ht1 : s1.t = { s.t with pending := dropPendingOf s.t.pending x } := by rw [← hs1]; rfl
      have hw1 : WF s1.t := by rw [ht1]; exact h.pending _
      obtain ⟨s2, e2, ef2⟩ := removeParentsLoop_effect (s1.t.rawParents x).length 0 s1 x hw1
      have hp2 := removeParentsLoop_parents _ [] (s1.t.rawParents x) s1 s2 x hw1 rfl (le_refl _) e2
      rw [e2, Res.map_ok, Res.andThen_ok]
      have sub2 : ∀ y c, c ∈ s2.t.rawChildren y → c ∈ s.t.rawChildren y := by
        intro y c hc
        have := (ef2.childrenSub y).subset hc
        rw [ht1] at this; exact this
      have has2 : ∀ y, s2.t.has y = s.t.has y := fun y => by rw [ef2.same.has, ht1]; rfl
      have nopar : s2.t.rawParents x = [] := by
        rw [hp2, List.nil_append, ht1]
        exact everySecond_short (h1 x (Or.inl rfl))
      have hn2 : NoDangling s2.t := by
        intro y c hc; rw [has2]; exact hn y c (sub2 y c hc)
      have loop : ∀ (l : List Id) (s2 : St) (k : List Node), WF s2.t → NoDangling s2.t →
          (∀ y c, c ∈ s2.t.rawChildren y → ht c < ht y) → (∀ c ∈ l, ht c < f) →
          (∀ c ∈ l, ∀ y, ReachEq s2.t.rawChildren c y → (s2.t.rawParents y).length ≤ 1) →
          ∃ s3 objs, Res.forEach (fun c (b : St × List Node) => if true = true then removeKeep f b c true
              else (orphanChild x c b.1).map fun s => (s, b.2)) l (s2, k) = .ok (s3, k ++ objs) ∧
            RemEffect s2.t s3.t ∧ NoDangling s3.t ∧ (∀ c ∈ l, s3.t.has c = false) ∧ Left s2.t s3.t objs := by
        intro l
        induction l with
        | nil =>
          intro s2 k hw hn _ _ _
          exact ⟨s2, [], by rw [List.append_nil]; rfl, RemEffect.refl hw, hn, by simp, Left.nil _⟩
        | cons c l ihl =>
          intro s2 k hw hn hd hl hlen
          obtain ⟨s3, o3, e3, ef3, hn3, g3, left3⟩ := ih s2 k c hw hn hd (hl c (by simp)) (hlen c (by simp))
          obtain ⟨s4, o4, e4, ef4, hn4, g4, left4⟩ := ihl s3 (k ++ o3) ef3.wf hn3
            (fun y d hd' => hd y d ((ef3.children y).subset hd')) (fun d hd' => hl d (by simp [hd']))
            (by
              intro d hd' y hy
              by_cases hhy : s3.t.has y = true
              · rw [ef3.parents y hhy]
                exact hlen d (by simp [hd']) y (ef3.reach hy)
              · have : s3.t.rawParents y = [] := by
                  by_contra hne
                  obtain ⟨p, hp⟩ := List.exists_mem_of_ne_nil _ hne
                  exact hhy (Tree.has_of_mem_rawParents hp)
                rw [this]; simp)
          refine ⟨s4, o3 ++ o4, ?_, ef3.trans ef4, hn4, ?_, left3.trans left4 ef3 ef4⟩
          · rw [Res.forEach, if_pos rfl, e3, ← List.append_assoc]; exact e4
          · intro d hd'
            rcases List.mem_cons.1 hd' with rfl | hd'
            · by_contra hc; have := ef4.hasSub d (by simpa using hc); rw [g3] at this; cases this
            · exact g4 d hd'
      obtain ⟨s3, o3, e3, ef3, hn3, g3, left3⟩ := loop (s2.t.rawChildren x) s2 k ef2.wf hn2
        (fun y c hc => hh y c (sub2 y c hc))
        (fun c hc => by have := hh x c (sub2 x c hc); omega)
        (by
          intro c hc y hy
          have hry : ReachEq s.t.rawChildren x y := ReachEq.head (sub2 x c hc) (hy.mono sub2)
          by_cases e : y = x
          · subst e; rw [nopar]; simp
          · rw [ef2.parents y e, ht1]; exact h1 y hry)
      rw [e3, Res.andThen_ok]
      dsimp only
      have hx3 : s3.t.has x = true := by
        have := removeKeep_fst (f + 1) (s, k) x true
        rw [e, removeKeep, if_neg (by simp [hx, hxn])] at this
        dsimp only at this
        rw [hs1, e2, Res.map_ok, Res.andThen_ok] at this
        dsimp only at this
        rw [e3, Res.andThen_ok] at this
        rw [Tree.has_eq]
        cases hq : s3.t.node? x with
        | none => dsimp only at this; rw [hq] at this; cases this
        | some nd => rfl
      obtain ⟨nd, hnd3⟩ := (Tree.has_iff _ _).1 hx3
      rw [hnd3]
      dsimp only
      refine ⟨_, o3 ++ [nd], by rw [List.append_assoc], ?_⟩
      show Left s.t (dropNode s3.t x) (o3 ++ [nd])
      have hid : nd.id = x := (ef3.wf.self x nd hnd3).1
      have notin : x ∉ o3.map Node.id := by
        intro hm; have := ((left3.who x).1 hm).2; rw [hx3] at this; cases this
      refine ⟨?_, fun y => ?_, ?_, ?_⟩
      · rw [List.map_append, List.nodup_append]
        refine ⟨left3.once, by simp, ?_⟩
        rintro a ha b hb rfl
        simp at hb; rw [hb, hid] at ha; exact notin ha
      · rw [List.map_append, List.mem_append, left3.who, has2, dropNode_has]
        simp only [List.map_cons, List.map_nil, List.mem_singleton, hid]
        by_cases hy : y = x
        · subst hy; simp [hx]
        · simp [hy]
      · intro m hm
        rcases List.mem_append.1 hm with hm | hm
        · rw [← left3.same m hm, ef2.same.attrs, ht1]; rfl
        · simp at hm; subst hm
          have := ef3.attrs x hx3
          rw [ef2.same.attrs, ht1] at this
          rw [hid]
          exact this.symm.trans (nodeAttrs_some hnd3)
      · intro m hm
        rcases List.mem_append.1 hm with hm | hm
        · exact left3.bare m hm
        · simp at hm; subst hm
          have hp : m.parents = s3.t.rawParents x := by unfold Tree.rawParents; rw [hnd3]; rfl
          have hc : m.children = s3.t.rawChildren x := by unfold Tree.rawChildren; rw [hnd3]; rfl
          refine ⟨by rw [hp, ef3.parents x hx3, nopar], ?_⟩
          rw [hc]
          by_contra hne
          obtain ⟨c, hc⟩ := List.exists_mem_of_ne_nil _ hne
          have := hn3 x c hc
          rw [g3 c ((ef3.children x).subset hc)] at this; cases this
    · refine ⟨s, [], ?_, Left.nil _⟩
      rw [removeKeep, if_pos (by simp [hx]), List.append_nil]

theorem removeKeep_recursive {s : St} (h : Good s.t) (hn : NoDangling s.t) (k : List Node) (x : Id)
    (h1 : ∀ y, ReachEq s.t.rawChildren x y → (s.t.rawParents y).length ≤ 1) :
    ∃ s' objs, removeKeep (removeFuel s.t) (s, k) x true = .ok (s', k ++ objs) ∧ Left s.t s'.t objs := by
  obtain ⟨ht, hle, hlt⟩ := exists_height s.t.rawChildren s.t.nodes.keys s.t.rawChildren_keys h.wf.acyclicC
  obtain ⟨s', objs, e, -, -, -, hl⟩ := removeKeep_rec ht (removeFuel s.t) s k x h.wf hn hlt (by
    have := hle x; rw [Dict.keys_length] at this; unfold removeFuel; omega) h1
  exact ⟨s', objs, e, hl⟩

theorem removeKeep_orphan {s : St} (h : Good s.t) (hn : NoDangling s.t) (k : List Node) (x : Id)
    (h1 : (s.t.rawParents x).length ≤ 1) :
    ∃ s' objs, removeKeep (removeFuel s.t) (s, k) x false = .ok (s', k ++ objs) ∧ Left s.t s'.t objs := by
  unfold removeFuel
  by_cases hx : s.t.has x = true
  · have hxn : x ≠ .none := by rintro rfl; have := (h.wf.ids _ hx).1; cases this
    rw [removeKeep, if_neg (by simp [hx, hxn])]
    dsimp only
    generalize hs1 : (s.mapTree fun t => { t with pending := dropPendingOf t.pending x }) = s1
    have ht1 : s1.t = { s.t with pending := dropPendingOf s.t.pending x } := by rw [← hs1]; rfl
    have hw1 : WF s1.t := by rw [ht1]; exact h.wf.pending _
    obtain ⟨s2, e2, ef2⟩ := removeParentsLoop_effect (s1.t.rawParents x).length 0 s1 x hw1
    have hp2 := removeParentsLoop_parents _ [] (s1.t.rawParents x) s1 s2 x hw1 rfl (le_refl _) e2
    rw [e2, Res.map_ok, Res.andThen_ok]
    have has2 : ∀ y, s2.t.has y = s.t.has y := fun y => by rw [ef2.same.has, ht1]; rfl
    have nopar : s2.t.rawParents x = [] := by
      rw [hp2, List.nil_append, ht1]
      exact everySecond_short h1
    have selfp : x ∉ s.t.rawParents x := fun hm => h.wf.acyclic x (Reach.single hm)
    have selfc : x ∉ s.t.rawChildren x := fun hm => selfp (h.wf.down x x hm hx)
    have ch2 : s2.t.rawChildren x = s.t.rawChildren x := by
      rw [ef2.others x (by rw [ht1]; exact selfp), ht1]; rfl
    obtain ⟨s3, e3, ef3⟩ := orphanLoop x (s2.t.rawChildren x) s2 ef2.wf (by rw [has2]; exact hx)
      (ef2.wf.ndC x) (by
        intro c hc
        have hcx : c ≠ x := by rintro rfl; rw [ch2] at hc; exact selfc hc
        rw [ch2] at hc
        rw [ef2.parents c hcx, ht1]
        exact h.wf.down x c hc (hn x c hc))
    have hloop := forEach_map (fun s : St => (s, k)) (fun c s => if false = true then removeNode 0 s c true else orphanChild x c s)
      (fun c (b : St × List Node) => (orphanChild x c b.1).map fun s => (s, b.2))
      (fun c s => rfl) (s2.t.rawChildren x) s2
    rw [e3, Res.map_ok] at hloop
    have hbody : (fun c (b : St × List Node) => if false = true then removeKeep s.t.nodes.entries.length b c true
        else (orphanChild x c b.1).map fun s => (s, b.2)) =
        (fun c (b : St × List Node) => (orphanChild x c b.1).map fun s => (s, b.2)) := by
      funext c b; simp
    rw [hbody, ← hloop, Res.andThen_ok]
    dsimp only
    have has3 : ∀ y, s3.t.has y = s.t.has y := by intro y; rw [ef3.same.has, has2]
    obtain ⟨nd, hnd3⟩ := (Tree.has_iff _ _).1 (by rw [has3]; exact hx : s3.t.has x = true)
    rw [hnd3]
    dsimp only
    refine ⟨_, [nd], rfl, ?_⟩
    show Left s.t (dropNode s3.t x) [nd]
    have hid : nd.id = x := (ef3.wf.self x nd hnd3).1
    refine ⟨by simp, fun y => ?_, ?_, ?_⟩
    · rw [dropNode_has, has3]
      simp only [List.map_cons, List.map_nil, List.mem_singleton, hid]
      by_cases hy : y = x
      · subst hy; simp [hx]
      · simp [hy]
    · intro m hm
      simp at hm; subst hm
      have := ef3.same.attrs x
      rw [ef2.same.attrs, ht1] at this
      rw [hid]
      exact this.symm.trans (nodeAttrs_some hnd3)
    · intro m hm
      simp at hm; subst hm
      have hp : m.parents = s3.t.rawParents x := by unfold Tree.rawParents; rw [hnd3]; rfl
      have hc : m.children = s3.t.rawChildren x := by unfold Tree.rawChildren; rw [hnd3]; rfl
      refine ⟨?_, ?_⟩
      · rw [hp, ef3.parents, nopar]; simp
      · rw [hc]
        by_contra hne
        obtain ⟨c, hc⟩ := List.exists_mem_of_ne_nil _ hne
        have := (ef3.childrenX c).1 hc
        exact this.2 this.1
  · refine ⟨s, [], ?_, Left.nil _⟩
    rw [removeKeep, if_pos (by simp [hx]), List.append_nil]

/-! ### Nodes of the tree have no request of their own -/

/-- The list of own requests of every node of the tree is empty. -/
def Settled (t : Tree) : Prop := ∀ x nd, t.node? x = some nd → nd.pending = []

theorem Settled.of_attrs {t t' : Tree} (h : Settled t)
    (ha : ∀ y nd', t'.node? y = some nd' → ∃ nd, t.node? y = some nd ∧ nd'.pending = nd.pending) : Settled t' := by
  intro y nd' hn
  obtain ⟨nd, h1, h2⟩ := ha y nd' hn
  rw [h2]; exact h y nd h1

theorem Settled.nodes {t t' : Tree} (h : Settled t) (e : t'.nodes = t.nodes) : Settled t' := by
  intro y nd hn
  unfold Tree.node? at hn; rw [e] at hn
  exact h y nd hn

theorem Settled.same {t t' : Tree} (h : Settled t) (e : SameAttrs t t') : Settled t' := by
  refine h.of_attrs (fun y nd' hn => ?_)
  obtain ⟨nd, h1, h2, -⟩ := e.node hn
  refine ⟨nd, h1, ?_⟩
  have := congrArg (fun a => a.2.2.2.2) h2
  exact this

theorem Settled.upd {t : Tree} (h : Settled t) (x : Id) (f : Node → Node) (hf : ∀ nd, (f nd).pending = nd.pending) :
    Settled (t.updNode x f) := by
  refine h.of_attrs (fun y nd' hn => ?_)
  rw [Tree.node?_updNode] at hn
  split at hn
  · rename_i e; subst e
    cases hq : t.node? y with
    | none => rw [hq] at hn; cases hn
    | some nd =>
      rw [hq] at hn
      simp at hn
      exact ⟨nd, rfl, by rw [← hn, hf]⟩
  · exact ⟨nd', hn, rfl⟩

theorem settled_keeps : Keeps (fun s => Settled s.t) where
  nodes := fun h e _ => h.nodes e
  create := fun h hc _ => h.same (Tree.create_eq_some hc).2.2.same
  destroy := fun h hc => h.same (Tree.destroy_eq_some hc).2.2.same
  eraseParent := fun h x p => Settled.upd h x _ (fun _ => rfl)
  appendChild := fun h x c _ => Settled.upd h x _ (fun _ => rfl)
  setParentsEnabled := fun h x b => Settled.upd h x _ (fun _ => rfl)
  setChildrenEnabled := fun h x b => Settled.upd h x _ (fun _ => rfl)
  modified := fun h _ _ => h

theorem Settled.insert {t : Tree} (h : Settled t) (nd : Node) : Settled (insertNode t nd) := by
  intro y nd' hn
  unfold insertNode Tree.node? at hn
  rw [Dict.get?_set] at hn
  split at hn
  · cases hn; rfl
  · exact h y nd' hn

theorem PendStep.settled {x : Id} {r : Id × Id} {t t' : Tree} {b b' : Bool} (hs : PendStep x r t b t' b')
    (h : Settled t) : Settled t' := by
  cases hs with
  | skip => exact h
  | drop => exact h
  | asChild t2 _ _ _ hc => exact (h.same (Tree.create_eq_some hc).2.2.same).nodes rfl
  | asParent t2 _ _ _ hc => exact (h.same (Tree.create_eq_some hc).2.2.same).nodes rfl

theorem addNode_settled {s : St} {nd : Node} {parent : Id} (h : UpInv s.t) (hn : Settled s.t)
    (hp : nd.parents = []) : Settled (addNode s nd parent).state.t := by
  by_cases hx : s.t.has nd.id = true
  · rw [addNode_existing hx]; exact hn
  · obtain ⟨t, b, -, -, -, hd, hend⟩ := addNode_spec s nd parent hp h (by simpa using hx)
      (fun _ t _ => Settled t) (hn.insert nd) (fun _ _ _ _ _ _ _ _ h hs => hs.settled h)
    have fin : ∀ log t b, Settled t → Settled (finishAdd log t b nd.id).t := by
      intro log t b ht
      unfold finishAdd
      cases b
      · exact ht
      · exact ht.nodes rfl
    generalize addNode s nd parent = r at hend
    cases hend with
    | noParent => exact fin _ _ _ hd
    | circular => exact hd
    | linked t' _ _ _ hc => exact fin _ _ _ (hd.same (Tree.create_eq_some hc).2.2.same)
    | later => exact fin _ _ _ (hd.nodes rfl)

theorem removeNode_settled (f : Nat) {s : St} (h : Settled s.t) (x : Id) (r : Bool) :
    Settled (removeNode f s x r).state.t := by
  refine removeNode_keeps settled_keeps.cuts ?_ f s x r h
  intro s x hs _ y nd hn
  have hn : (s.t.nodes.del x).get? y = some nd := hn
  rw [Dict.get?_del] at hn
  split at hn
  · cases hn
  · exact hs y nd hn

/-! ### Removed objects -/

/-- An object without relations and requests, under a proper name. -/
structure Bare (nd : Node) : Prop where
  parents : nd.parents = []
  children : nd.children = []
  pending : nd.pending = []
  goodId : GoodId nd.id

theorem Bare.made {nd : Node} (h : Bare nd) : Made { nd with hasTree := false } := by
  have := Made.setChildrenEnabled nd.childrenEnabled (Made.setParentsEnabled nd.parentsEnabled (Made.new nd.id .none))
  obtain ⟨id, pe, ce, ps, cs, ht, pd⟩ := nd
  obtain ⟨h1, h2, h3, -⟩ := h
  cases h1; cases h2; cases h3
  exact this

theorem addNode_hasTree (s : St) (nd : Node) (b : Bool) (parent : Id) :
    addNode s { nd with hasTree := b } parent = addNode s nd parent := rfl

theorem acceptNew_hasTree {t : Tree} {nd : Node} {parent : Id} (b : Bool) (h : AcceptNew t nd parent) :
    AcceptNew t { nd with hasTree := b } parent := h

theorem newRelationship_toAbsent {s : St} {p x : Id} (hx : s.t.has x = false) (h : p.falsy = false) (h' : x.falsy = false)
    (hne : p ≠ x) :
    newRelationship s p x = .ok (s.mapTree fun t => { t with pending := t.pending.erase (p, x) ++ [(p, x)] }) := by
  unfold newRelationship
  dsimp only
  rw [if_neg (by simp [h, h', hne]), if_pos (by simp [St.mapTree]; exact Or.inr hx)]
  rfl

theorem newRelationship_fromAbsent {s : St} {p x : Id} (hx : s.t.has p = false) (h : p.falsy = false) (h' : x.falsy = false)
    (hne : p ≠ x) :
    newRelationship s p x = .ok (s.mapTree fun t => { t with pending := t.pending.erase (p, x) ++ [(p, x)] }) := by
  unfold newRelationship
  dsimp only
  rw [if_neg (by simp [h, h', hne]), if_pos (by simp [St.mapTree]; exact Or.inl hx)]
  rfl

theorem OnlyAsks.nothing (s : St) (a : Option (Id × Id)) : OnlyAsks s s a := ⟨rfl, rfl, rfl, fun _ h => Or.inl h, fun _ h => h⟩

theorem OnlyAsks.append (s : St) (r : Id × Id) :
    OnlyAsks s (s.mapTree fun t => { t with pending := t.pending ++ [r] }) (some r) := by
  refine ⟨rfl, rfl, rfl, fun q hq => ?_, fun q hq => List.mem_append_left _ hq⟩
  rcases List.mem_append.1 hq with h | h
  · exact Or.inl h
  · simp at h; exact Or.inr (by rw [h])

theorem OnlyAsks.again (s : St) (r : Id × Id) :
    OnlyAsks s (s.mapTree fun t => { t with pending := t.pending.erase r ++ [r] }) (some r) := by
  refine ⟨rfl, rfl, rfl, fun q hq => ?_, fun q hq => ?_⟩
  · rcases List.mem_append.1 hq with h | h
    · exact Or.inl (List.mem_of_mem_erase h)
    · simp at h; exact Or.inr (by rw [h])
  · show q ∈ s.t.pending.erase r ++ [r]
    by_cases e : q = r
    · subst e; simp
    · exact List.mem_append_left _ ((List.mem_erase_of_ne e).2 hq)

/-- The relation can be asked for: the object accepts it and so does the other end, if it is in the tree. -/
def CanAsk (s : St) (nd : Node) : Call → Prop
  | .addParent p => p ≠ nd.id ∧ nd.parentsEnabled = true ∧ ∀ par, s.t.node? p = some par → par.childrenEnabled = true
  | .setParent p => p ≠ nd.id ∧ nd.parentsEnabled = true ∧ ∀ par, s.t.node? p = some par → par.childrenEnabled = true
  | .addChild c => c ≠ nd.id ∧ nd.childrenEnabled = true
  | _ => False

/-- What a call of a bare object does to the pending relations. -/
inductive Asked (s : St) (nd : Node) (c : Call) : St → Prop
  | nothing : ¬ CanAsk s nd c → Asked s nd c s
  | append (r : Id × Id) : CanAsk s nd c → Call.asks nd.id c = some r → s.t.has r.1 = false ∨ s.t.has r.2 = false →
      Asked s nd c (s.mapTree fun t => { t with pending := t.pending ++ [r] })
  | again (r : Id × Id) : CanAsk s nd c → Call.asks nd.id c = some r → s.t.has r.1 = false ∨ s.t.has r.2 = false →
      Asked s nd c (s.mapTree fun t => { t with pending := t.pending.erase r ++ [r] })

theorem Asked.onlyAsks {s s' : St} {nd : Node} {c : Call} (h : Asked s nd c s') : OnlyAsks s s' (Call.asks nd.id c) := by
  cases h with
  | nothing => exact OnlyAsks.nothing _ _
  | append r _ h => rw [h]; exact OnlyAsks.append s r
  | again r _ h => rw [h]; exact OnlyAsks.again s r

theorem addParent_bare {s : St} {nd : Node} (hw : WF s.t) (hb : Bare nd) (p : Id) (hx : s.t.has nd.id = false) :
    ∃ s', Dead.addParent s nd p = .ok (s', nd) ∧ Asked s nd (.addParent p) s' := by
  unfold Dead.addParent
  by_cases hc : p ≠ nd.id ∧ nd.parentsEnabled = true
  · rw [if_pos ⟨hc.1, hc.2, by rw [hb.parents]; simp⟩]
    cases hp : s.t.node? p with
    | none =>
      exact ⟨_, rfl, Asked.append (p, nd.id) ⟨hc.1, hc.2, fun par h => by rw [hp] at h; cases h⟩ rfl (Or.inr hx)⟩
    | some par =>
      dsimp only
      have hpf := (hw.ids p ((Tree.has_iff _ _).2 ⟨par, hp⟩)).1
      cases hce : par.childrenEnabled with
      | true =>
        rw [if_pos rfl, newRelationship_toAbsent hx hpf hb.goodId.1 hc.1]
        exact ⟨_, rfl, Asked.again (p, nd.id) ⟨hc.1, hc.2, fun par' h => by rw [hp] at h; cases h; exact hce⟩ rfl (Or.inr hx)⟩
      | false =>
        exact ⟨_, rfl, Asked.nothing (fun h => by have := h.2.2 par hp; rw [hce] at this; cases this)⟩
  · rw [if_neg (fun h => hc ⟨h.1, h.2.1⟩)]
    exact ⟨_, rfl, Asked.nothing (fun h => hc ⟨h.1, h.2.1⟩)⟩

theorem setParent_bare {s : St} {nd : Node} (hw : WF s.t) (hb : Bare nd) (p : Id) (hx : s.t.has nd.id = false) :
    ∃ s', Dead.setParent s nd p = .ok (s', nd) ∧ Asked s nd (.setParent p) s' := by
  unfold Dead.setParent
  have hpo : s.t.parentsOf nd = [] := by unfold Tree.parentsOf; rw [hb.parents]; simp
  by_cases hc : p ≠ nd.id ∧ nd.parentsEnabled = true
  · rw [if_pos hc]
    cases hp : s.t.node? p with
    | none =>
      rw [hpo]
      exact ⟨_, rfl, Asked.append (p, nd.id) ⟨hc.1, hc.2, fun par h => by rw [hp] at h; cases h⟩ rfl (Or.inr hx)⟩
    | some par =>
      dsimp only
      have hpf := (hw.ids p ((Tree.has_iff _ _).2 ⟨par, hp⟩)).1
      cases hce : par.childrenEnabled with
      | true =>
        rw [if_pos rfl, hb.parents]
        simp only [List.length_nil, Dead.setParentLoop, hpf, Bool.not_false, Bool.and_self, if_true]
        obtain ⟨s', e, ha⟩ := addParent_bare hw hb p hx
        refine ⟨s', e, ?_⟩
        cases ha with
        | nothing h => exact Asked.nothing h
        | append r h1 h2 h3 => exact Asked.append r h1 h2 h3
        | again r h1 h2 h3 => exact Asked.again r h1 h2 h3
      | false =>
        exact ⟨_, rfl, Asked.nothing (fun h => by have := h.2.2 par hp; rw [hce] at this; cases this)⟩
  · rw [if_neg hc]
    exact ⟨_, rfl, Asked.nothing (fun h => hc ⟨h.1, h.2.1⟩)⟩

theorem addChild_bare {s : St} {nd : Node} (hb : Bare nd) (c : Id) (hx : s.t.has nd.id = false) (hc : s.t.has c = false) :
    ∃ s', Dead.addChild s nd c = .ok (s', nd) ∧ Asked s nd (.addChild c) s' := by
  unfold Dead.addChild
  by_cases he : nd.childrenEnabled = true ∧ c ≠ nd.id
  · rw [if_pos he, if_pos (by rw [hb.children]; simp)]
    have hn : s.t.node? c = none := by
      rw [Tree.has_eq] at hc
      cases h : s.t.node? c with
      | none => rfl
      | some nd => rw [h] at hc; cases hc
    rw [hn]
    exact ⟨_, rfl, Asked.append (nd.id, c) ⟨he.2, he.1⟩ rfl (Or.inl hx)⟩
  · rw [if_neg he]
    exact ⟨_, rfl, Asked.nothing (fun h => he ⟨h.2, h.1⟩)⟩

theorem call_bare {s : St} {nd : Node} (hw : WF s.t) (hb : Bare nd) (c : Call) (hx : s.t.has nd.id = false)
    (hc : ∀ d, c = .addChild d → s.t.has d = false) :
    ∃ s', Dead.call s nd c = .ok (s', Call.after nd c) ∧ Asked s nd c s' := by
  have hpo : s.t.parentsOf nd = [] := by unfold Tree.parentsOf; rw [hb.parents]; simp
  have hco : s.t.childrenOf nd = [] := by unfold Tree.childrenOf; rw [hb.children]; simp
  cases c with
  | addParent p => exact addParent_bare hw hb p hx
  | setParent p => exact setParent_bare hw hb p hx
  | removeParent p =>
    refine ⟨s, ?_, Asked.nothing id⟩
    show Dead.removeParent s nd p = _
    unfold Dead.removeParent
    rw [if_neg (by rw [hb.parents]; simp)]; rfl
  | addChild d => exact addChild_bare hb d hx (hc d rfl)
  | setParentsEnabled b =>
    refine ⟨s, ?_, Asked.nothing id⟩
    show Dead.setParentsEnabled s nd b = _
    unfold Dead.setParentsEnabled
    rw [hpo]
    cases b <;> rfl
  | setChildrenEnabled b =>
    refine ⟨s, ?_, Asked.nothing id⟩
    show Dead.setChildrenEnabled s nd b = _
    unfold Dead.setChildrenEnabled
    rw [hco]
    cases b <;> rfl
  | modified =>
    refine ⟨s, ?_, Asked.nothing id⟩
    show Dead.modified s nd = _
    unfold Dead.modified modifyNode
    rw [if_neg (by simp [hx])]; rfl

/-- The calls through which no relation is asked for are harmless even if the name is in use. -/
theorem call_free {s : St} {nd : Node} (hb : Bare nd) (c : Call) (hc : Call.asks nd.id c = none) :
    ∃ s', Dead.call s nd c = .ok (s', Call.after nd c) ∧ (s' = s ∨ c = .modified ∧ s' = s.emit .modified nd.id ∧
      s.t.has nd.id = true) := by
  have hpo : s.t.parentsOf nd = [] := by unfold Tree.parentsOf; rw [hb.parents]; simp
  have hco : s.t.childrenOf nd = [] := by unfold Tree.childrenOf; rw [hb.children]; simp
  cases c with
  | addParent p => cases hc
  | setParent p => cases hc
  | addChild p => cases hc
  | removeParent p =>
    refine ⟨s, ?_, Or.inl rfl⟩
    show Dead.removeParent s nd p = _
    unfold Dead.removeParent
    rw [if_neg (by rw [hb.parents]; simp)]; rfl
  | setParentsEnabled b =>
    refine ⟨s, ?_, Or.inl rfl⟩
    show Dead.setParentsEnabled s nd b = _
    unfold Dead.setParentsEnabled
    rw [hpo]
    cases b <;> rfl
  | setChildrenEnabled b =>
    refine ⟨s, ?_, Or.inl rfl⟩
    show Dead.setChildrenEnabled s nd b = _
    unfold Dead.setChildrenEnabled
    rw [hco]
    cases b <;> rfl
  | modified =>
    show ∃ s', Dead.modified s nd = _ ∧ _
    unfold Dead.modified modifyNode
    split
    · rename_i h; exact ⟨_, rfl, Or.inr ⟨rfl, rfl, h.2⟩⟩
    · exact ⟨_, rfl, Or.inl rfl⟩

theorem Bare.after {nd : Node} (h : Bare nd) (c : Call) : Bare (Call.after nd c) := by
  cases c <;> exact ⟨h.parents, h.children, h.pending, h.goodId⟩

theorem step_again_none {h : Home} {k : Nat} {parent : Id} (hn : h.kept[k]? = none) : h.step (.again k parent) = .ok h := by
  unfold Home.step; dsimp only; rw [hn]

theorem step_again {h : Home} {k : Nat} {parent : Id} {nd : Node} (hn : h.kept[k]? = some nd) :
    h.step (.again k parent) = if h.s.t.has nd.id then .ok h
      else (addNode h.s nd parent).map fun s => ⟨s, h.kept.eraseIdx k⟩ := by
  rw [Home.step]; rw [hn]

theorem step_call_none {h : Home} {k : Nat} {c : Call} (hn : h.kept[k]? = none) : h.step (.call k c) = .ok h := by
  unfold Home.step; dsimp only; rw [hn]

theorem step_call {h : Home} {k : Nat} {c : Call} {nd : Node} (hn : h.kept[k]? = some nd) :
    h.step (.call k c) = (Dead.call h.s nd c).map fun a => ⟨a.1, h.kept.set k a.2⟩ := by
  rw [Home.step]; rw [hn]

/-! ### Careful deeds -/

/-- What careful deeds keep true. -/
structure HomeOK (h : Home) : Prop where
  good : Good h.s.t
  tidy : NoDangling h.s.t
  settled : Settled h.s.t
  kept : ∀ nd ∈ h.kept, Bare nd

theorem init_homeOK : HomeOK Home.init :=
  ⟨init_good, init_noDangling, (fun x nd h => by cases h), (fun nd h => by cases h)⟩

theorem HomeOK.reach_short {h : Home} (hk : HomeOK h) {x : Id} (h1 : (h.s.t.getParents x).length ≤ 1)
    (h2 : ∀ y, Descendant h.s.t y x → (h.s.t.getParents y).length ≤ 1) (y : Id) (hr : ReachEq h.s.t.rawChildren x y) :
    (h.s.t.rawParents y).length ≤ 1 := by
  rw [← hk.good.wf.getParents_eq]
  rcases hr with rfl | hr
  · exact h1
  · exact h2 y ((hk.good.descendant_down hk.tidy y x).2 hr)

/-- What a careful removal keeps. -/
theorem HomeOK.removed {h : Home} (hk : HomeOK h) (x : Id) (r : Bool) (hc : CarefulDeed h (.edit (.delNode x r))) :
    ∃ s' objs, h.step (.edit (.delNode x r)) = .ok ⟨s', h.kept ++ objs⟩ ∧ Larch.step h.s (.delNode x r) = .ok s' ∧
      Left h.s.t s'.t objs := by
  have key : ∃ s' objs, removeKeep (removeFuel h.s.t) (h.s, h.kept) x r = .ok (s', h.kept ++ objs) ∧ Left h.s.t s'.t objs := by
    cases r with
    | false => exact removeKeep_orphan hk.good hk.tidy h.kept x (by rw [← hk.good.wf.getParents_eq]; exact hc)
    | true => exact removeKeep_recursive hk.good hk.tidy h.kept x (hk.reach_short hc.1 hc.2)
  obtain ⟨s', objs, e, hl⟩ := key
  refine ⟨s', objs, ?_, ?_, hl⟩
  · show (removeKeep (removeFuel h.s.t) (h.s, h.kept) x r).map _ = _
    rw [e]; rfl
  · have := removeKeep_fst (removeFuel h.s.t) (h.s, h.kept) x r
    rw [e] at this
    exact this.symm

theorem CarefulDeed.careful {h : Home} (hk : HomeOK h) {op : Op} (hc : CarefulDeed h (.edit op)) : Careful h.s op := by
  cases op with
  | delNode x r =>
    cases r with
    | false => exact hc
    | true =>
      refine ⟨hc.1, fun y hy p hp => ?_⟩
      have hlen := hc.2 y hy
      obtain ⟨z, hz, hzy⟩ : ∃ z, (z = x ∨ Descendant h.s.t z x) ∧ IsChild h.s.t z y := by
        unfold Descendant at hy
        cases hy with
        | single hm => exact ⟨x, Or.inl rfl, hm⟩
        | tail hr hm => exact ⟨_, Or.inr hr, hm⟩
      have hzp : z ∈ h.s.t.getParents y := by
        have := (hk.good.wf.agree.mirror z y).1 hzy
        exact this
      have hpp : p ∈ h.s.t.getParents y := hp
      have : p = z := by
        match hq : h.s.t.getParents y, hlen with
        | [], _ => rw [hq] at hzp; cases hzp
        | [w], _ =>
          rw [hq] at hzp hpp
          rw [List.mem_singleton] at hzp hpp
          rw [hzp, hpp]
        | _ :: _ :: _, hl => simp at hl
      rw [this]; exact hz
  | _ => exact hc

theorem HomeOK.attrs_left {h : Home} (hk : HomeOK h) {s' : St} {objs : List Node} (hl : Left h.s.t s'.t objs)
    {nd : Node} (hm : nd ∈ objs) : Bare nd := by
  have h1 := hl.same nd hm
  have hhas := ((hl.who nd.id).1 (List.mem_map_of_mem hm)).1
  obtain ⟨old, ho⟩ := (Tree.has_iff _ _).1 hhas
  rw [nodeAttrs_some ho] at h1
  have hp : old.pending = nd.pending := congrArg (fun a => a.2.2.2.2) (Option.some.inj h1)
  exact ⟨(hl.bare nd hm).1, (hl.bare nd hm).2, by rw [← hp]; exact hk.settled _ _ ho, hk.good.wf.ids _ hhas⟩

theorem OnlyAsks.good {s s' : St} {nd : Node} {c : Call} (h : Good s.t) (ha : Asked s nd c s') : Good s'.t := by
  have key : ∀ l : List (Id × Id), (∀ p c, (p, c) ∈ l → ¬ (s.t.has p = true ∧ s.t.has c = true)) →
      Good ({ s.t with pending := l } : Tree) := by
    intro l hl
    exact ⟨h.wf.pending _, ⟨h.root.nodup, h.root.mem⟩, hl⟩
  cases ha with
  | nothing => exact h
  | append r _ _ hr =>
    refine key _ (fun p c hpc => ?_)
    rcases List.mem_append.1 hpc with hm | hm
    · exact h.pend p c hm
    · simp at hm; subst hm
      rintro ⟨h1, h2⟩
      rcases hr with hr | hr
      · rw [h1] at hr; cases hr
      · rw [h2] at hr; cases hr
  | again r _ _ hr =>
    refine key _ (fun p c hpc => ?_)
    rcases List.mem_append.1 hpc with hm | hm
    · exact h.pend p c (List.mem_of_mem_erase hm)
    · simp at hm; subst hm
      rintro ⟨h1, h2⟩
      rcases hr with hr | hr
      · rw [h1] at hr; cases hr
      · rw [h2] at hr; cases hr

theorem CarefulDeed.absent {h : Home} {k : Nat} {c : Call} {nd : Node} (hc : CarefulDeed h (.call k c))
    (hn : h.kept[k]? = some nd) (ha : Call.asks nd.id c ≠ none) :
    h.s.t.has nd.id = false ∧ ∀ d, c = .addChild d → h.s.t.has d = false := by
  cases c with
  | addParent p => exact ⟨hc nd hn, by simp⟩
  | setParent p => exact ⟨hc nd hn, by simp⟩
  | addChild p => exact ⟨(hc nd hn).1, by rintro d e; cases e; exact (hc nd hn).2⟩
  | _ => exact absurd rfl ha

theorem HomeOK.step {h : Home} (hk : HomeOK h) (d : Deed) (hc : CarefulDeed h d) : HomeOK (h.step d).state := by
  have local' : ∀ op : Op, op.isLocal = true → Careful h.s op →
      (h.step (.edit op)).state = ⟨(Larch.step h.s op).state, h.kept⟩ → HomeOK (h.step (.edit op)).state := by
    intro op hl hcc e
    rw [e]
    have htd := hcc.tidy hk.good hk.tidy
    exact ⟨step_good hk.good op (htd.safe hk.good hk.tidy), step_noDangling hk.good hk.tidy op htd,
      step_keeps settled_keeps h.s op hl hk.settled, hk.kept⟩
  cases d with
  | edit op =>
    have hcc := CarefulDeed.careful hk hc
    have htd := hcc.tidy hk.good hk.tidy
    have hg := step_good hk.good op (htd.safe hk.good hk.tidy)
    have hnd := step_noDangling hk.good hk.tidy op htd
    cases op with
    | delNode x r =>
      obtain ⟨s', objs, e, e', hl⟩ := hk.removed x r hc
      rw [e]
      rw [e'] at hg hnd
      refine ⟨hg, hnd, ?_, ?_⟩
      · have := removeNode_settled (removeFuel h.s.t) hk.settled x r
        have e'' : removeNode (removeFuel h.s.t) h.s x r = .ok s' := e'
        rw [e''] at this; exact this
      · intro nd hm
        rcases List.mem_append.1 hm with hm | hm
        · exact hk.kept nd hm
        · exact hk.attrs_left hl hm
    | addNode nd p =>
      have e : (h.step (.edit (.addNode nd p))).state = ⟨(Larch.step h.s (.addNode nd p)).state, h.kept⟩ :=
        Res.map_state _ _
      rw [e]
      exact ⟨hg, hnd, addNode_settled hk.good.wf.upInv hk.settled hcc.1.fresh.parents, hk.kept⟩
    | refreshNode x => exact local' _ rfl hcc (Res.map_state _ _)
    | moveNode x p => exact local' _ rfl hcc (Res.map_state _ _)
    | addParent x p => exact local' _ rfl hcc (Res.map_state _ _)
    | setParent x p => exact local' _ rfl hcc (Res.map_state _ _)
    | removeParent x p => exact local' _ rfl hcc (Res.map_state _ _)
    | addChild x p => exact local' _ rfl hcc (Res.map_state _ _)
    | setParentsEnabled x p => exact local' _ rfl hcc (Res.map_state _ _)
    | setChildrenEnabled x p => exact local' _ rfl hcc (Res.map_state _ _)
    | newRelationship x p => exact local' _ rfl hcc (Res.map_state _ _)
    | breakRelationship x p => exact local' _ rfl hcc (Res.map_state _ _)
  | again k parent =>
    cases hn : h.kept[k]? with
    | none => rw [step_again_none hn]; exact hk
    | some nd =>
      rw [step_again hn]
      have hb := hk.kept nd (List.mem_of_getElem? hn)
      by_cases hx : h.s.t.has nd.id = true
      · rw [if_pos hx]; exact hk
      · rw [if_neg hx, Res.map_state]
        have hcc : Careful h.s (.addNode { nd with hasTree := false } parent) := by
          rcases hc nd hn with h1 | ⟨h1, h2⟩
          · exact absurd h1 hx
          · exact ⟨hb.made, Or.inr ⟨hb.goodId.1, hb.goodId.2, acceptNew_hasTree false h1, h2⟩⟩
        have htd := hcc.tidy hk.good hk.tidy
        exact ⟨step_good hk.good (.addNode { nd with hasTree := false } parent) (htd.safe hk.good hk.tidy),
          step_noDangling hk.good hk.tidy (.addNode { nd with hasTree := false } parent) htd,
          addNode_settled hk.good.wf.upInv hk.settled hb.parents,
          fun m hm => hk.kept m (List.mem_of_mem_eraseIdx hm)⟩
  | call k c =>
    cases hn : h.kept[k]? with
    | none => rw [step_call_none hn]; exact hk
    | some nd =>
      rw [step_call hn]
      have hb := hk.kept nd (List.mem_of_getElem? hn)
      have hkept : ∀ m ∈ h.kept.set k (Call.after nd c), Bare m := by
        intro m hm
        rcases List.mem_or_eq_of_mem_set hm with hm | rfl
        · exact hk.kept m hm
        · exact hb.after c
      by_cases ha : Call.asks nd.id c = none
      · obtain ⟨s', e, hs⟩ := call_free (s := h.s) hb c ha
        rw [e]
        rcases hs with rfl | ⟨-, rfl, -⟩
        · exact ⟨hk.good, hk.tidy, hk.settled, hkept⟩
        · exact ⟨hk.good, hk.tidy, hk.settled, hkept⟩
      · obtain ⟨hx, hd⟩ := CarefulDeed.absent hc hn ha
        obtain ⟨s', e, hs⟩ := call_bare hk.good.wf hb c hx hd
        rw [e]
        have ho := hs.onlyAsks
        refine ⟨OnlyAsks.good hk.good hs, ?_, hk.settled.nodes ho.nodes, hkept⟩
        refine hk.tidy.congr (fun y hy => ?_) (fun y c hc => ?_)
        · show s'.t.nodes.has y = true
          rw [ho.nodes]; exact hy
        · have hc : c ∈ s'.t.rawChildren y := hc
          unfold Tree.rawChildren Tree.node? at hc ⊢
          rwa [ho.nodes] at hc

theorem HomeOK.run {h : Home} (hk : HomeOK h) (ds : List Deed) (hc : AlongHome CarefulDeed h ds) : HomeOK (h.run ds) := by
  induction ds generalizing h with
  | nil => exact hk
  | cons d ds ih => exact ih (hk.step d hc.1) hc.2

/-! ### The same tree by edits alone -/

theorem HomeOK.simulate {h : Home} (hk : HomeOK h) (d : Deed) (hc : CarefulOnce h d) :
    ∃ ops, Along Careful h.s ops ∧ (h.step d).state.s = runOps h.s ops := by
  obtain ⟨hc, honce⟩ := hc
  cases d with
  | edit op =>
    refine ⟨[op], ⟨CarefulDeed.careful hk hc, trivial⟩, ?_⟩
    cases op with
    | delNode x r =>
      obtain ⟨s', objs, e, e', -⟩ := hk.removed x r hc
      rw [e]
      show s' = (Larch.step h.s (.delNode x r)).state
      rw [e']; rfl
    | _ => exact congrArg Home.s (Res.map_state _ _)
  | again k parent =>
    cases hn : h.kept[k]? with
    | none => rw [step_again_none hn]; exact ⟨[], trivial, rfl⟩
    | some nd =>
      rw [step_again hn]
      have hb := hk.kept nd (List.mem_of_getElem? hn)
      by_cases hx : h.s.t.has nd.id = true
      · rw [if_pos hx]; exact ⟨[], trivial, rfl⟩
      · rw [if_neg hx, Res.map_state]
        refine ⟨[.addNode { nd with hasTree := false } parent], ⟨?_, trivial⟩, rfl⟩
        rcases hc nd hn with h1 | ⟨h1, h2⟩
        · exact absurd h1 hx
        · exact ⟨hb.made, Or.inr ⟨hb.goodId.1, hb.goodId.2, acceptNew_hasTree false h1, h2⟩⟩
  | call k c =>
    cases hn : h.kept[k]? with
    | none => rw [step_call_none hn]; exact ⟨[], trivial, rfl⟩
    | some nd =>
      rw [step_call hn]
      have hb := hk.kept nd (List.mem_of_getElem? hn)
      by_cases ha : Call.asks nd.id c = none
      · obtain ⟨s', e, hs⟩ := call_free (s := h.s) hb c ha
        rw [e]
        rcases hs with rfl | ⟨-, rfl, hx⟩
        · exact ⟨[], trivial, rfl⟩
        · refine ⟨[.refreshNode nd.id], ⟨trivial, trivial⟩, ?_⟩
          show _ = (modifyNode h.s nd.id).state
          unfold modifyNode
          rw [if_pos ⟨hb.goodId.2, hx⟩]; rfl
      · obtain ⟨hx, hd⟩ := CarefulDeed.absent hc hn ha
        obtain ⟨s', e, hs⟩ := call_bare hk.good.wf hb c hx hd
        rw [e]
        have key : ∀ r, CanAsk h.s nd c → Call.asks nd.id c = some r → Accept h.s.t r.1 r.2 ∧ r.1 ≠ r.2 := by
          intro r hcan hr
          have hxn : ∀ m, h.s.t.node? nd.id = some m → False := by
            intro m hm; rw [Tree.has_eq, hm] at hx; cases hx
          cases c with
          | addParent p =>
            cases hr
            exact ⟨⟨hcan.2.2, fun m hm => (hxn m hm).elim⟩, hcan.1⟩
          | setParent p =>
            cases hr
            exact ⟨⟨hcan.2.2, fun m hm => (hxn m hm).elim⟩, hcan.1⟩
          | addChild p =>
            cases hr
            have hp := hd p rfl
            exact ⟨⟨fun m hm => (hxn m hm).elim, fun m hm => by
              have hm : h.s.t.node? p = some m := hm
              rw [Tree.has_eq, hm] at hp; cases hp⟩, (Ne.symm hcan.1)⟩
          | _ => cases hr
        have same : ∀ r, CanAsk h.s nd c → Call.asks nd.id c = some r → (h.s.t.has r.1 = false ∨ h.s.t.has r.2 = false) →
            newRelationship h.s r.1 r.2 =
              .ok (h.s.mapTree fun t => { t with pending := t.pending.erase r ++ [r] }) := by
          intro r hcan hr hab
          obtain ⟨-, h1, h2⟩ := honce k c nd r rfl hn hr
          obtain ⟨-, hne⟩ := key r hcan hr
          rcases hab with hab | hab
          · exact newRelationship_fromAbsent hab h1 h2 hne
          · exact newRelationship_toAbsent hab h1 h2 hne
        cases hs with
        | nothing => exact ⟨[], trivial, rfl⟩
        | append r hcan hr hab =>
          refine ⟨[.newRelationship r.1 r.2], ⟨(key r hcan hr).1, trivial⟩, ?_⟩
          show _ = (newRelationship h.s r.1 r.2).state
          rw [same r hcan hr hab]
          have hnp : r ∉ h.s.t.pending := (honce k c nd r rfl hn hr).1
          show _ = h.s.mapTree fun t => { t with pending := t.pending.erase r ++ [r] }
          unfold St.mapTree
          dsimp only
          rw [List.erase_of_not_mem hnp]; rfl
        | again r hcan hr hab =>
          refine ⟨[.newRelationship r.1 r.2], ⟨(key r hcan hr).1, trivial⟩, ?_⟩
          show _ = (newRelationship h.s r.1 r.2).state
          rw [same r hcan hr hab]; rfl

theorem along_append {ok : St → Op → Prop} {s : St} {l l' : List Op} (h : Along ok s l) (h' : Along ok (runOps s l) l') :
    Along ok s (l ++ l') := by
  induction l generalizing s with
  | nil => exact h'
  | cons op l ih => exact ⟨h.1, ih h.2 h'⟩

theorem runOps_append' (s : St) (l l' : List Op) : runOps s (l ++ l') = runOps (runOps s l) l' := by
  induction l generalizing s with
  | nil => rfl
  | cons op l ih => exact ih _

theorem HomeOK.simulateRun {h : Home} (hk : HomeOK h) (ds : List Deed) (hc : AlongHome CarefulOnce h ds) :
    ∃ ops, Along Careful h.s ops ∧ (h.run ds).s = runOps h.s ops := by
  induction ds generalizing h with
  | nil => exact ⟨[], trivial, rfl⟩
  | cons d ds ih =>
    obtain ⟨l, hl, e⟩ := hk.simulate d hc.1
    obtain ⟨l', hl', e'⟩ := ih (hk.step d hc.1.1) hc.2
    rw [e] at hl' e'
    exact ⟨l ++ l', along_append hl hl', by rw [runOps_append']; exact e'⟩

end Larch
