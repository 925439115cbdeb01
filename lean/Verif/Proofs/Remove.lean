import Verif.Proofs.AddNode
import Verif.Spec.Tree

/-!
# `remove_node` on consistent trees
-/

namespace Larch

open Graph

/-! ### The loop over the parents -/

/-- Effect of the loop over the parents of `x` (`tree.py:238-240`): some of the relations
from a parent to `x` are gone, nothing else has changed. -/
structure ParentsLoopEffect (t t' : Tree) (x : Id) : Prop where
  wf : WF t'
  same : SameAttrs t t'
  root : t'.root = t.root
  pending : t'.pending = t.pending
  parents : ∀ y, y ≠ x → t'.rawParents y = t.rawParents y
  parentsX : (t'.rawParents x).Sublist (t.rawParents x)
  childrenSub : ∀ y, (t'.rawChildren y).Sublist (t.rawChildren y)
  children : ∀ y c, c ≠ x → (c ∈ t'.rawChildren y ↔ c ∈ t.rawChildren y)
  others : ∀ y, y ∉ t.rawParents x → t'.rawChildren y = t.rawChildren y

theorem ParentsLoopEffect.refl {t : Tree} (h : WF t) (x : Id) : ParentsLoopEffect t t x :=
  ⟨h, SameAttrs.refl t, rfl, rfl, fun _ _ => rfl, List.Sublist.refl _, fun _ => List.Sublist.refl _,
    fun _ _ _ => Iff.rfl, fun _ _ => rfl⟩

theorem ParentsLoopEffect.destroy {t t' : Tree} (h : WF t) {p x : Id} (hp : p ∈ t.rawParents x)
    (hd : t.destroy p x = some t') : ParentsLoopEffect t t' x := by
  obtain ⟨h1, h2, e⟩ := Tree.destroy_eq_some hd
  refine ⟨h.destroy hd, e.same, e.root, e.pending, ?_, ?_, ?_, ?_, ?_⟩
  · intro y hy; rw [e.parents, if_neg hy]
  · rw [e.parents, if_pos rfl]; exact List.erase_sublist
  · intro y; rw [e.children]; split
    · rename_i ey; rw [ey]; exact List.erase_sublist
    · exact List.Sublist.refl _
  · intro y c hc; rw [e.children]; split
    · rename_i ey; rw [ey]; exact List.mem_erase_of_ne hc
    · rfl
  · intro y hy; rw [e.children, if_neg (by rintro rfl; exact hy hp)]

theorem ParentsLoopEffect.trans {t t' t'' : Tree} {x : Id} (h : ParentsLoopEffect t t' x)
    (h' : ParentsLoopEffect t' t'' x) : ParentsLoopEffect t t'' x :=
  ⟨h'.wf, h.same.trans h'.same, h'.root.trans h.root, h'.pending.trans h.pending,
    fun y hy => (h'.parents y hy).trans (h.parents y hy), h'.parentsX.trans h.parentsX,
    fun y => (h'.childrenSub y).trans (h.childrenSub y),
    fun y c hc => (h'.children y c hc).trans (h.children y c hc),
    fun y hy => (h'.others y (fun hm => hy (h.parentsX.subset hm))).trans (h.others y hy)⟩

theorem removeParentsLoop_effect (f i : Nat) (s : St) (x : Id) (h : WF s.t) :
    ∃ s', removeParentsLoop f i s x = .ok s' ∧ ParentsLoopEffect s.t s'.t x := by
  induction f generalizing i s with
  | zero => exact ⟨s, rfl, ParentsLoopEffect.refl h x⟩
  | succ f ih =>
    unfold removeParentsLoop
    cases hp : (s.t.rawParents x)[i]? with
    | none => exact ⟨s, rfl, ParentsLoopEffect.refl h x⟩
    | some p =>
      have hm : p ∈ s.t.rawParents x := List.mem_of_getElem? hp
      obtain ⟨t', ht', -⟩ := Tree.destroy_spec (h.has_parent hm) (Tree.has_of_mem_rawParents hm)
      have e1 := ParentsLoopEffect.destroy h hm ht'
      obtain ⟨s', hs', e2⟩ := ih (i + 1) (({ s with t := t' } : St).emit .modified p) e1.wf
      dsimp only
      rw [ht']
      exact ⟨s', hs', e1.trans e2⟩

theorem everySecond_short {l : List Id} (h : l.length ≤ 1) : Spec.everySecond l = [] := by
  match l with
  | [] => rfl
  | [_] => rfl
  | _ :: _ :: _ => simp at h

theorem everySecond_eq_nil {l : List Id} : Spec.everySecond l = [] ↔ l.length ≤ 1 := by
  refine ⟨fun h => ?_, everySecond_short⟩
  match l with
  | [] => simp
  | [_] => simp
  | _ :: _ :: _ => cases h

/-- The loop removes the first parent, the third, ... and steps over the others. -/
theorem removeParentsLoop_parents (f : Nat) : ∀ (a b : List Id) (s s' : St) (x : Id), WF s.t → s.t.rawParents x = a ++ b →
    b.length ≤ f → removeParentsLoop f a.length s x = .ok s' → s'.t.rawParents x = a ++ Spec.everySecond b := by
  induction f with
  | zero =>
    intro a b s s' x _ hl hb hs
    cases List.length_eq_zero_iff.1 (Nat.le_zero.1 hb)
    cases hs
    exact hl
  | succ f ih =>
    intro a b s s' x h hl hb hs
    unfold removeParentsLoop at hs
    rw [hl] at hs
    cases b with
    | nil =>
      rw [List.append_nil, List.getElem?_eq_none (le_refl _)] at hs
      cases hs
      exact hl
    | cons p b =>
      rw [List.getElem?_append_right (le_refl _), Nat.sub_self, List.getElem?_cons_zero] at hs
      dsimp only at hs
      have hm : p ∈ s.t.rawParents x := by rw [hl]; simp
      obtain ⟨t', ht', e⟩ := Tree.destroy_spec (h.has_parent hm) (Tree.has_of_mem_rawParents hm)
      rw [ht'] at hs
      have hnd := h.ndP x
      rw [hl] at hnd
      have hpa : p ∉ a := fun hpa => (List.nodup_append.1 hnd).2.2 p hpa p (by simp) rfl
      have hl' : t'.rawParents x = a ++ b := by
        rw [e.parents, if_pos rfl, hl, List.erase_append_right _ hpa, List.erase_cons_head]
      cases b with
      | nil =>
        show s'.t.rawParents x = a ++ []
        cases f with
        | zero => cases hs; exact hl'
        | succ f =>
          have hg : ((({ s with t := t' } : St).emit .modified p).t.rawParents x)[a.length + 1]? = none := by
            show (t'.rawParents x)[a.length + 1]? = none
            rw [hl']; simp
          dsimp only at hs
          unfold removeParentsLoop at hs
          rw [hg] at hs
          cases hs; exact hl'
      | cons q b =>
        have := ih (a ++ [q]) b (({ s with t := t' } : St).emit .modified p) s' x (h.destroy ht')
          (by show t'.rawParents x = _; rw [hl']; simp) (by simp at hb; omega) (by rw [List.length_append]; exact hs)
        rw [this]
        simp [Spec.everySecond]

/-- What the loop leaves: every second parent keeps its child. -/
theorem removeParentsLoop_exact {s s' : St} {x : Id} (h : WF s.t) (hx : s.t.has x = true)
    (hs : removeParentsLoop (s.t.rawParents x).length 0 s x = .ok s') :
    ∀ y, x ∈ s'.t.rawChildren y ↔ y ∈ Spec.everySecond (s.t.rawParents x) := by
  intro y
  have hp := removeParentsLoop_parents _ [] (s.t.rawParents x) s s' x h rfl (le_refl _) hs
  obtain ⟨s1, e, ef⟩ := removeParentsLoop_effect (s.t.rawParents x).length 0 s x h
  rw [hs] at e
  cases e
  rw [List.nil_append] at hp
  rw [← hp]
  exact ⟨fun hy => ef.wf.down y x hy (by rw [ef.same.has]; exact hx), fun hy => ef.wf.up y x hy⟩

/-! ### Deleting a node nobody has as a parent -/

/-- The last lines of `_remove_node` (`tree.py:252-255`). -/
def dropNode (t : Tree) (x : Id) : Tree :=
  { t.updRoot (fun l => l.erase x) with nodes := t.nodes.del x }

theorem dropNode_node? (t : Tree) (x y : Id) : (dropNode t x).node? y = if y = x then none else t.node? y := by
  unfold dropNode Tree.node?
  simp only [Dict.get?_del]

theorem dropNode_has (t : Tree) (x y : Id) : (dropNode t x).has y = (decide (y ≠ x) && t.has y) := by
  rw [Tree.has_eq, dropNode_node?, Tree.has_eq]
  by_cases h : y = x <;> simp [h]

theorem dropNode_rawParents (t : Tree) (x y : Id) :
    (dropNode t x).rawParents y = if y = x then [] else t.rawParents y := by
  unfold Tree.rawParents; rw [dropNode_node?]; split <;> simp

theorem dropNode_rawChildren (t : Tree) (x y : Id) :
    (dropNode t x).rawChildren y = if y = x then [] else t.rawChildren y := by
  unfold Tree.rawChildren; rw [dropNode_node?]; split <;> simp

theorem dropNode_attrs (t : Tree) (x y : Id) :
    (dropNode t x).nodeAttrs y = if y = x then none else t.nodeAttrs y := by
  unfold Tree.nodeAttrs; rw [dropNode_node?]; split <;> simp

theorem WF.dropNode {t : Tree} (h : WF t) {x : Id} (hx : ∀ c, c ≠ x → x ∉ t.rawParents c) :
    WF (Larch.dropNode t x) := by
  have subP : ∀ y q, q ∈ (Larch.dropNode t x).rawParents y → q ∈ t.rawParents y := by
    intro y q hq; rw [dropNode_rawParents] at hq; split at hq
    · simp at hq
    · exact hq
  constructor
  · show (t.nodes.del x).keys.Nodup
    rw [Dict.keys_del]; exact h.keys.filter _
  · intro y nd hn; rw [dropNode_node?] at hn; split at hn
    · cases hn
    · exact h.self y nd hn
  · intro y hy; rw [dropNode_has] at hy; simp at hy; exact h.ids y hy.2
  · exact h.rootIs
  · exact h.rootTree
  · exact h.rootKids
  · intro p c hpc
    rw [dropNode_rawParents] at hpc
    split at hpc
    · simp at hpc
    · rename_i hc
      rw [dropNode_rawChildren, if_neg (by rintro rfl; exact hx c hc hpc)]
      exact h.up p c hpc
  · intro p c hpc hc
    rw [dropNode_has] at hc; simp at hc
    rw [dropNode_rawChildren] at hpc
    split at hpc
    · simp at hpc
    · rw [dropNode_rawParents, if_neg hc.1]; exact h.down p c hpc hc.2
  · intro y; rw [dropNode_rawParents]; split
    · exact List.nodup_nil
    · exact h.ndP y
  · intro y; rw [dropNode_rawChildren]; split
    · exact List.nodup_nil
    · exact h.ndC y
  · exact h.acyclic.mono subP
  · intro y nd hn hf; rw [dropNode_node?] at hn; split at hn
    · cases hn
    · exact h.flagP y nd hn hf
  · intro y nd hn hf c hc; rw [dropNode_node?] at hn; split at hn
    · cases hn
    · rw [dropNode_has, h.flagC y nd hn hf c hc]; simp

/-! ### Pending relations of a removed node -/

theorem foldl_erase_count {α : Type} [BEq α] [LawfulBEq α] (q : α → Prop) [DecidablePred q] (l acc : List α)
    (r : α) (hr : q r) : (l.foldl (fun acc r => if q r then acc.erase r else acc) acc).count r ≤
      acc.count r - l.count r := by
  induction l generalizing acc with
  | nil => simp
  | cons a l ih =>
    rw [List.foldl_cons]
    refine le_trans (ih _) ?_
    rw [List.count_cons]
    by_cases e : a = r
    · subst e
      rw [if_pos hr, List.count_erase_self]
      simp; omega
    · have e' : (a == r) = false := by simpa using e
      simp only [e', Bool.false_eq_true, if_false, Nat.add_zero]
      split
      · rw [List.count_erase_of_ne (by simpa using Ne.symm e)]
      · exact le_refl _

theorem foldl_erase_keep {α : Type} [BEq α] [LawfulBEq α] (q : α → Prop) [DecidablePred q] (l acc : List α)
    (r : α) (hr : ¬ q r) : r ∈ l.foldl (fun acc r => if q r then acc.erase r else acc) acc ↔ r ∈ acc := by
  induction l generalizing acc with
  | nil => rfl
  | cons a l ih =>
    rw [List.foldl_cons, ih]
    split
    · rename_i ha
      exact List.mem_erase_of_ne (by rintro rfl; exact hr ha)
    · rfl

theorem mem_dropPendingOf (l : List (Id × Id)) (x : Id) (r : Id × Id) :
    r ∈ dropPendingOf l x ↔ r ∈ l ∧ x ≠ r.1 ∧ x ≠ r.2 := by
  by_cases hr : x = r.1 ∨ x = r.2
  · have := foldl_erase_count (fun r : Id × Id => x = r.1 ∨ x = r.2) l l r hr
    have h0 : (dropPendingOf l x).count r = 0 := by
      unfold dropPendingOf; omega
    constructor
    · intro hm; rw [List.count_eq_zero] at h0; exact absurd hm h0
    · rintro ⟨_, h1, h2⟩; rcases hr with h | h
      · exact absurd h h1
      · exact absurd h h2
  · have := foldl_erase_keep (fun r : Id × Id => x = r.1 ∨ x = r.2) l l r hr
    push Not at hr
    exact this.trans ⟨fun h => ⟨h, hr⟩, fun h => h.1⟩

/-! ### Recursive removal -/

/-- Effect of removing a set of nodes with all their descendants. -/
structure RemEffect (t t' : Tree) : Prop where
  wf : WF t'
  hasSub : ∀ y, t'.has y = true → t.has y = true
  closed : ∀ y c, t.has y = true → t'.has y = false → c ∈ t.rawChildren y → t'.has c = false
  keep : ∀ y c, c ∈ t.rawChildren y → t'.has y = true → t'.has c = true → c ∈ t'.rawChildren y
  parents : ∀ y, t'.has y = true → t'.rawParents y = t.rawParents y
  children : ∀ y, (t'.rawChildren y).Sublist (t.rawChildren y)
  attrs : ∀ y, t'.has y = true → t'.nodeAttrs y = t.nodeAttrs y
  rootNodup : t.root.children.Nodup → t'.root.children.Nodup
  root : t.root.children.Nodup →
    ∀ z, z ∈ t'.root.children ↔ z ∈ t.root.children ∧ ¬ (t.has z = true ∧ t'.has z = false)
  pending : ∀ r, r ∈ t'.pending ↔ r ∈ t.pending ∧ ¬ (t.has r.1 = true ∧ t'.has r.1 = false) ∧
    ¬ (t.has r.2 = true ∧ t'.has r.2 = false)

theorem RemEffect.refl {t : Tree} (h : WF t) : RemEffect t t := by
  refine ⟨h, fun _ h => h, ?_, fun _ _ h _ _ => h, fun _ _ => rfl, fun _ => List.Sublist.refl _,
    fun _ _ => rfl, fun h => h, ?_, ?_⟩
  · intro y c h1 h2; rw [h1] at h2; cases h2
  · intro _ z; cases t.has z <;> simp
  · intro r; cases t.has r.1 <;> cases t.has r.2 <;> simp

theorem RemEffect.trans {t t' t'' : Tree} (h : RemEffect t t') (h' : RemEffect t' t'') :
    RemEffect t t'' := by
  have gone : ∀ y, t'.has y = false → t''.has y = false := by
    intro y hy
    by_contra hc
    have := h'.hasSub y (by simpa using hc)
    rw [hy] at this; cases this
  have comb : ∀ z, ¬ (t.has z = true ∧ t''.has z = false) ↔
      ¬ (t.has z = true ∧ t'.has z = false) ∧ ¬ (t'.has z = true ∧ t''.has z = false) := by
    intro z
    have g := gone z
    have g2 := h.hasSub z
    revert g g2
    cases t.has z <;> cases t'.has z <;> cases t''.has z <;> simp
  refine ⟨h'.wf, fun y hy => h.hasSub y (h'.hasSub y hy), ?_, ?_, ?_, ?_, ?_, ?_, ?_, ?_⟩
  · intro y c h1 h2 hc
    cases hy : t'.has y with
    | false => exact gone c (h.closed y c h1 hy hc)
    | true =>
      cases hcc : t'.has c with
      | false => exact gone c hcc
      | true => exact h'.closed y c hy h2 (h.keep y c hc hy hcc)
  · intro y c hc hy hcc
    exact h'.keep y c (h.keep y c hc (h'.hasSub y hy) (h'.hasSub c hcc)) hy hcc
  · intro y hy; rw [h'.parents y hy, h.parents y (h'.hasSub y hy)]
  · intro y; exact (h'.children y).trans (h.children y)
  · intro y hy; rw [h'.attrs y hy, h.attrs y (h'.hasSub y hy)]
  · intro hn; exact h'.rootNodup (h.rootNodup hn)
  · intro hn z
    rw [h'.root (h.rootNodup hn), h.root hn, comb]; tauto
  · intro r; rw [h'.pending, h.pending, comb, comb]; tauto

theorem RemEffect.reach {t t' : Tree} (h : RemEffect t t') {x y : Id}
    (hr : ReachEq t'.rawChildren x y) : ReachEq t.rawChildren x y :=
  hr.mono (fun _ _ hy => (h.children _).subset hy)

/-- The effect of one call, assembled from its parts. -/
theorem RemEffect.assemble {t t1 t2 t3 : Tree} {x : Id} (h : WF t) (hx : t.has x = true)
    (h1 : t1 = { t with pending := dropPendingOf t.pending x })
    (h2 : ParentsLoopEffect t1 t2 x) (h3 : RemEffect t2 t3) (hx3 : t3.has x = true)
    (hgone : ∀ c ∈ t2.rawChildren x, t3.has c = false) : RemEffect t (dropNode t3 x) := by
  subst h1
  have has2 : ∀ y, t2.has y = t.has y := fun y => h2.same.has y
  have nox : ∀ c, c ≠ x → x ∉ t3.rawParents c := by
    intro c _ hm
    have hc := Tree.has_of_mem_rawParents hm
    have := (h3.children x).subset (h3.wf.up x c hm)
    rw [hgone c this] at hc; cases hc
  have selfx : x ∉ t.rawChildren x := by
    intro hm
    exact h.acyclic x (Reach.single (h.down x x hm hx))
  refine ⟨h3.wf.dropNode nox, ?_, ?_, ?_, ?_, ?_, ?_, ?_, ?_, ?_⟩
  · intro y hy
    rw [dropNode_has] at hy; simp at hy
    rw [← has2]; exact h3.hasSub y hy.2
  · intro y c hy hy' hc
    rw [dropNode_has] at hy' ⊢
    by_cases hcx : c = x
    · simp [hcx]
    · have hc2 : c ∈ t2.rawChildren y := (h2.children y c hcx).2 hc
      by_cases hyx : y = x
      · subst hyx; rw [hgone c hc2]; simp
      · simp [hyx] at hy'
        rw [h3.closed y c (by rw [has2]; exact hy) hy' hc2]; simp
  · intro y c hc hy hcc
    rw [dropNode_has] at hy hcc; simp at hy hcc
    rw [dropNode_rawChildren, if_neg hy.1]
    exact h3.keep y c ((h2.children y c hcc.1).2 hc) hy.2 hcc.2
  · intro y hy
    rw [dropNode_has] at hy; simp at hy
    rw [dropNode_rawParents, if_neg hy.1, h3.parents y hy.2, h2.parents y hy.1]; rfl
  · intro y
    rw [dropNode_rawChildren]
    split
    · exact List.nil_sublist _
    · exact (h3.children y).trans (h2.childrenSub y)
  · intro y hy
    rw [dropNode_has] at hy; simp at hy
    rw [dropNode_attrs, if_neg hy.1, h3.attrs y hy.2, h2.same.attrs]; rfl
  · intro hn
    have : t2.root.children.Nodup := by rw [h2.root]; exact hn
    exact (h3.rootNodup this).erase _
  · intro hn z
    have hn2 : t2.root.children.Nodup := by rw [h2.root]; exact hn
    show z ∈ (t3.root.children).erase x ↔ _
    rw [(h3.rootNodup hn2).mem_erase_iff, h3.root hn2, h2.root, dropNode_has, has2]
    by_cases hz : z = x
    · subst hz; simp [hx]
    · simp [hz]
  · intro r
    show r ∈ t3.pending ↔ _
    rw [h3.pending, h2.pending, has2, has2, dropNode_has, dropNode_has]
    show r ∈ dropPendingOf t.pending x ∧ _ ↔ _
    rw [mem_dropPendingOf]
    by_cases e1 : r.1 = x
    · rw [e1]; simp [hx]
    · by_cases e2 : r.2 = x
      · rw [e2]; simp [hx]
      · simp [e1, e2, Ne.symm e1, Ne.symm e2]

/-- Recursive removal ends without error and has the effect of `RemEffect`; the node is gone and
only its descendants are. -/
theorem removeNode_rec (ht : Id → Nat) (f : Nat) : ∀ (s : St) (x : Id), WF s.t →
    (∀ y c, c ∈ s.t.rawChildren y → ht c < ht y) → ht x < f →
    ∃ s', removeNode f s x true = .ok s' ∧ RemEffect s.t s'.t ∧ s'.t.has x = false ∧
      (∀ y, s.t.has y = true → s'.t.has y = false → ReachEq s.t.rawChildren x y) ∧
      (s.t.has x = true → ∀ y, x ∈ s'.t.rawChildren y ↔ y ∈ Spec.everySecond (s.t.rawParents x)) := by
  induction f with
  | zero => intro s x _ _ h; omega
  | succ f ih =>
    intro s x h hh hf
    by_cases hx : s.t.has x = true
    · have hxn : x ≠ .none := by rintro rfl; have := (h.ids _ hx).1; cases this
      unfold removeNode
      rw [if_neg (by simp [hx, hxn])]
      dsimp only
      generalize hs1 : (s.mapTree fun t => { t with pending := dropPendingOf t.pending x }) = s1
      have ht1 : s1.t = { s.t with pending := dropPendingOf s.t.pending x } := by rw [← hs1]; rfl
      have hw1 : WF s1.t := by rw [ht1]; exact h.pending _
      obtain ⟨s2, e2, ef2⟩ := removeParentsLoop_effect (s1.t.rawParents x).length 0 s1 x hw1
      rw [e2, Res.andThen_ok]
      -- the loop over the children
      have sub2 : ∀ y c, c ∈ s2.t.rawChildren y → c ∈ s.t.rawChildren y := by
        intro y c hc
        have := (ef2.childrenSub y).subset hc
        rw [ht1] at this; exact this
      have loop : ∀ (l : List Id) (s2 : St), WF s2.t → (∀ y c, c ∈ s2.t.rawChildren y → ht c < ht y) →
          (∀ c ∈ l, ht c < f) →
          ∃ s3, Res.forEach (fun c s => if true = true then removeNode f s c true else orphanChild x c s) l s2 = .ok s3 ∧
            RemEffect s2.t s3.t ∧ (∀ c ∈ l, s3.t.has c = false) ∧
            ∀ y, s2.t.has y = true → s3.t.has y = false → ∃ c ∈ l, ReachEq s2.t.rawChildren c y := by
        intro l
        induction l with
        | nil =>
          intro s2 hw _ _
          refine ⟨s2, rfl, RemEffect.refl hw, by simp, ?_⟩
          intro y h1 h2; rw [h1] at h2; cases h2
        | cons c l ihl =>
          intro s2 hw hd hl
          obtain ⟨s3, e3, ef3, g3, r3, -⟩ := ih s2 c hw hd (hl c (by simp))
          obtain ⟨s4, e4, ef4, g4, r4⟩ := ihl s3 ef3.wf
            (fun y d hd' => hd y d ((ef3.children y).subset hd')) (fun d hd' => hl d (by simp [hd']))
          refine ⟨s4, ?_, ef3.trans ef4, ?_, ?_⟩
          · unfold Res.forEach; rw [if_pos rfl, e3]; exact e4
          · intro d hd'
            rcases List.mem_cons.1 hd' with rfl | hd'
            · by_contra hc; have := ef4.hasSub d (by simpa using hc); rw [g3] at this; cases this
            · exact g4 d hd'
          · intro y h1 h2
            by_cases h3 : s3.t.has y = true
            · obtain ⟨d, hd', hr⟩ := r4 y h3 h2
              exact ⟨d, by simp [hd'], ef3.reach hr⟩
            · exact ⟨c, by simp, r3 y h1 (by simpa using h3)⟩
      obtain ⟨s3, e3, ef3, g3, r3⟩ := loop (s2.t.rawChildren x) s2 ef2.wf
        (fun y c hc => hh y c (sub2 y c hc))
        (fun c hc => by have := hh x c (sub2 x c hc); omega)
      rw [e3, Res.andThen_ok]
      have hx3 : s3.t.has x = true := by
        by_contra hc
        obtain ⟨c, hc1, hr⟩ := r3 x (by rw [ef2.same.has, ht1]; exact hx) (by simpa using hc)
        have hac : ∀ z w, ReachEq s2.t.rawChildren z w → ht w ≤ ht z := by
          rintro z w (rfl | hr)
          · exact le_refl _
          · induction hr with
            | single hm => exact le_of_lt (hh _ _ (sub2 _ _ hm))
            | tail _ hm ih => exact le_trans (le_of_lt (hh _ _ (sub2 _ _ hm))) ih
        have h1 := hac c x hr
        have h2 := hh x c (sub2 x c hc1)
        omega
      rw [if_pos hx3]
      refine ⟨_, rfl, RemEffect.assemble h hx ht1 ef2 ef3 hx3 g3, ?_, ?_, ?_⟩
      · show (dropNode s3.t x).has x = false
        simp [dropNode_has]
      · intro y hy hy'
        have hy'' : (dropNode s3.t x).has y = false := hy'
        rw [dropNode_has] at hy''
        by_cases e : y = x
        · exact Or.inl e.symm
        · simp [e] at hy''
          obtain ⟨c, hc, hr⟩ := r3 y (by rw [ef2.same.has, ht1]; exact hy) hy''
          exact ReachEq.head (sub2 x c hc) (hr.mono sub2)
      · intro _ y
        show x ∈ (dropNode s3.t x).rawChildren y ↔ _
        have hex := removeParentsLoop_exact hw1 (by rw [ht1]; exact hx) e2 y
        rw [show s1.t.rawParents x = s.t.rawParents x from by rw [ht1]; rfl] at hex
        rw [← hex, dropNode_rawChildren]
        have low : ∀ z w, ReachEq s2.t.rawChildren z w → ht w ≤ ht z := by
          rintro z w (rfl | hr)
          · exact le_refl _
          · induction hr with
            | single hm => exact le_of_lt (hh _ _ (sub2 _ _ hm))
            | tail _ hm ih => exact le_trans (le_of_lt (hh _ _ (sub2 _ _ hm))) ih
        split
        · next e =>
          subst e
          constructor
          · intro hm; cases hm
          · intro hm; have := hh _ _ (sub2 _ _ hm); omega
        · constructor
          · exact fun hm => (ef3.children y).subset hm
          · intro hm
            refine ef3.keep y x hm ?_ hx3
            by_contra hc
            obtain ⟨c, hc1, hr⟩ := r3 y (Tree.has_of_mem_rawChildren hm) (by simpa using hc)
            have h1 := low c y hr
            have h2 := hh x c (sub2 x c hc1)
            have h3 := hh y x (sub2 y x hm)
            omega
    · refine ⟨s, ?_, RemEffect.refl h, by simpa using hx, ?_, fun h => absurd h hx⟩
      · unfold removeNode; rw [if_pos (by simp [hx])]
      · intro y h1 h2; rw [h1] at h2; cases h2

/-- The children direction is acyclic, too. -/
theorem WF.acyclicC {t : Tree} (h : WF t) : Acyclic t.rawChildren := by
  have key : ∀ x y, Reach t.rawChildren x y → t.has y = true → Reach t.rawParents y x := by
    intro x y hr
    induction hr with
    | single hm => intro hy; exact Reach.single (h.down _ _ hm hy)
    | tail hr hm ih =>
      intro hy
      exact Reach.head (h.down _ _ hm hy) (ih (Tree.has_of_mem_rawChildren hm))
  intro x hx
  obtain ⟨y, hy, _⟩ := (reach_iff _ _ _).1 hx
  exact h.acyclic x (key x x hx (Tree.has_of_mem_rawChildren hy))

/-- Recursive removal: the node and exactly its descendants go. -/
theorem removeNode_recursive {s : St} (h : WF s.t) (x : Id) :
    ∃ s', removeNode (removeFuel s.t) s x true = .ok s' ∧ RemEffect s.t s'.t ∧
      (∀ y, s'.t.has y = true ↔ s.t.has y = true ∧ ¬ ReachEq s.t.rawChildren x y) ∧
      (s.t.has x = true → ∀ y, x ∈ s'.t.rawChildren y ↔ y ∈ Spec.everySecond (s.t.rawParents x)) := by
  obtain ⟨ht, hle, hlt⟩ := exists_height s.t.rawChildren s.t.nodes.keys s.t.rawChildren_keys h.acyclicC
  obtain ⟨s', e, ef, g, r, hlast⟩ := removeNode_rec ht (removeFuel s.t) s x h hlt (by
    have := hle x; rw [Dict.keys_length] at this; unfold removeFuel; omega)
  refine ⟨s', e, ef, fun y => ⟨fun hy => ⟨ef.hasSub y hy, fun hr => ?_⟩, fun ⟨h1, h2⟩ => ?_⟩, hlast⟩
  · have : ∀ y, ReachEq s.t.rawChildren x y → s'.t.has y = false := by
      rintro y (rfl | hr)
      · exact g
      · induction hr with
        | single hm => exact ef.closed _ _ (Tree.has_of_mem_rawChildren hm) g hm
        | tail _ hm ih => exact ef.closed _ _ (Tree.has_of_mem_rawChildren hm) ih hm
    rw [this y hr] at hy; cases hy
  · by_contra hc
    exact h2 (r y h1 (by simpa using hc))

theorem RemEffect.good {t t' : Tree} (h : Good t) (e : RemEffect t t') : Good t' := by
  refine ⟨e.wf, ⟨e.rootNodup h.root.nodup, fun y => ?_⟩, ?_⟩
  · rw [e.root h.root.nodup, h.root.mem]
    constructor
    · rintro ⟨⟨h1, h2, -⟩, h3⟩
      have hy : t'.has y = true := by
        by_contra hc; exact h3 ⟨h1, by simpa using hc⟩
      exact ⟨hy, by rw [e.parents y hy]; exact h2, fun h => h⟩
    · rintro ⟨h1, h2, -⟩
      rw [e.parents y h1] at h2
      refine ⟨⟨e.hasSub y h1, h2, fun h => h⟩, ?_⟩
      rintro ⟨-, h3⟩; rw [h1] at h3; cases h3
  · intro p c hpc ⟨h1, h2⟩
    exact h.pend p c ((e.pending _).1 hpc).1 ⟨e.hasSub p h1, e.hasSub c h2⟩

/-! ### Non-recursive removal -/

/-- Effect of the loop that releases the children `l` of `x`. -/
structure OrphanEffect (t t' : Tree) (x : Id) (l : List Id) : Prop where
  wf : WF t'
  same : SameAttrs t t'
  pending : t'.pending = t.pending
  parents : ∀ y, t'.rawParents y = if y ∈ l then (t.rawParents y).erase x else t.rawParents y
  childrenX : ∀ c, c ∈ t'.rawChildren x ↔ c ∈ t.rawChildren x ∧ c ∉ l
  children : ∀ y, y ≠ x → t'.rawChildren y = t.rawChildren y
  root : t'.root.children = t.root.children ++ l.filter (fun c => decide (t.rawParents c = [x]))

theorem orphanLoop (x : Id) : ∀ (l : List Id) (s : St), WF s.t → s.t.has x = true → l.Nodup →
    (∀ c ∈ l, x ∈ s.t.rawParents c) →
    ∃ s', Res.forEach (fun c s => if false = true then removeNode 0 s c true else orphanChild x c s) l s = .ok s' ∧
      OrphanEffect s.t s'.t x l := by
  intro l
  induction l with
  | nil =>
    intro s h _ _ _
    exact ⟨s, rfl, h, SameAttrs.refl _, rfl, fun y => by simp, fun c => by simp, fun _ _ => rfl, by simp⟩
  | cons c l ih =>
    intro s h hx hnd hl
    have hxc := hl c (by simp)
    have hc := Tree.has_of_mem_rawParents hxc
    obtain ⟨t', ht', e⟩ := Tree.destroy_spec hx hc
    have hw := h.destroy ht'
    rw [List.nodup_cons] at hnd
    have hcx : c ≠ x := by rintro rfl; exact h.acyclic c (Reach.single hxc)
    have hnil : t'.rawParents c = [] ↔ s.t.rawParents c = [x] := by
      rw [e.parents, if_pos rfl]
      exact ⟨fun h => erase_eq_nil (List.ne_nil_of_mem hxc) h, fun h => by rw [h]; simp⟩
    generalize hs1 : (if t'.rawParents c = [] then
        (({ s with t := t' } : St).emit .modified c).mapTree (fun t => t.updRoot (fun l => l ++ [c]))
        else ({ s with t := t' } : St).emit .modified c) = s1
    have ho : orphanChild x c s = .ok s1 := by
      unfold orphanChild; rw [ht']; dsimp only; rw [← hs1]; rfl
    have hs1t : s1.t = if t'.rawParents c = [] then t'.updRoot (fun l => l ++ [c]) else t' := by
      rw [← hs1]; split <;> rfl
    have hn1 : s1.t.nodes = t'.nodes := by rw [hs1t]; split <;> rfl
    have hp1 : ∀ y, s1.t.rawParents y = t'.rawParents y := by
      intro y; unfold Tree.rawParents Tree.node?; rw [hn1]
    have hc1 : ∀ y, s1.t.rawChildren y = t'.rawChildren y := by
      intro y; unfold Tree.rawChildren Tree.node?; rw [hn1]
    have hh1 : ∀ y, s1.t.has y = t'.has y := by
      intro y; unfold Tree.has; rw [hn1]
    have hw1 : WF s1.t := by
      rw [hs1t]; split
      · exact hw.updRoot _
      · exact hw
    have hsame : SameAttrs s.t s1.t := by
      have := e.same
      rw [hs1t]; split
      · exact ⟨this.keys, this.attrs, this.rootId, this.rootTree, this.rootKids⟩
      · exact this
    obtain ⟨s', e', ef⟩ := ih s1 hw1 (by rw [hh1, e.has]; exact hx) hnd.2 (by
      intro d hd
      rw [hp1, e.parents, if_neg (by rintro rfl; exact hnd.1 hd)]
      exact hl d (by simp [hd]))
    refine ⟨s', ?_, ef.wf, hsame.trans ef.same, ?_, ?_, ?_, ?_, ?_⟩
    · unfold Res.forEach
      rw [if_neg (by simp), ho]
      exact e'
    · rw [ef.pending, hs1t]; split <;> exact e.pending
    · intro y
      rw [ef.parents, hp1, e.parents]
      by_cases hy : y = c
      · subst hy; simp [hnd.1]
      · simp [hy]
    · intro d
      rw [ef.childrenX, hc1, e.children, if_pos rfl, (h.ndC x).mem_erase_iff]
      simp only [List.mem_cons]; tauto
    · intro y hy
      rw [ef.children y hy, hc1, e.children, if_neg hy]
    · rw [ef.root]
      have hf : l.filter (fun d => decide (s1.t.rawParents d = [x])) =
          l.filter (fun d => decide (s.t.rawParents d = [x])) := by
        apply List.filter_congr
        intro d hd
        rw [hp1, e.parents, if_neg (by rintro rfl; exact hnd.1 hd)]
      rw [hf, hs1t]
      by_cases hh : s.t.rawParents c = [x]
      · rw [if_pos (hnil.2 hh), List.filter_cons_of_pos (by simpa using hh), Tree.rootChildren_updRoot, e.root]
        simp
      · rw [if_neg (fun h => hh (hnil.1 h)), List.filter_cons_of_neg (by simpa using hh), e.root]

/-- Without dangling children the fuel plays no role in the non-recursive case. -/
theorem orphanLoop_body (f : Nat) (x : Id) (l : List Id) (s : St) :
    Res.forEach (fun c s => if false = true then removeNode f s c true else orphanChild x c s) l s =
    Res.forEach (fun c s => if false = true then removeNode 0 s c true else orphanChild x c s) l s := by
  simp

/-- Effect of a non-recursive removal. -/
structure OrphanRemoval (t t' : Tree) (x : Id) : Prop where
  good : Good t'
  has : ∀ y, t'.has y = true ↔ t.has y = true ∧ y ≠ x
  attrs : ∀ y, y ≠ x → t'.nodeAttrs y = t.nodeAttrs y
  parents : ∀ y, y ≠ x → t'.rawParents y = (t.rawParents y).erase x
  children : ∀ y c, y ≠ x → c ≠ x → (c ∈ t'.rawChildren y ↔ c ∈ t.rawChildren y)
  childrenSub : ∀ y, (t'.rawChildren y).Sublist (t.rawChildren y)
  root : t'.root.children =
    (t.root.children ++ (t.rawChildren x).filter (fun c => decide (t.rawParents c = [x]))).erase x
  pending : ∀ r, r ∈ t'.pending ↔ r ∈ t.pending ∧ r.1 ≠ x ∧ r.2 ≠ x

theorem removeNode_orphan {s : St} (h : Good s.t) {x : Id} (hx : s.t.has x = true)
    (hch : ∀ c ∈ s.t.rawChildren x, s.t.has c = true) (f : Nat) :
    ∃ s', removeNode (f + 1) s x false = .ok s' ∧ OrphanRemoval s.t s'.t x ∧
      ∀ y, x ∈ s'.t.rawChildren y ↔ y ∈ Spec.everySecond (s.t.rawParents x) := by
  have hxn : x ≠ .none := by rintro rfl; have := (h.wf.ids _ hx).1; cases this
  unfold removeNode
  rw [if_neg (by simp [hx, hxn])]
  dsimp only
  generalize hs1 : (s.mapTree fun t => { t with pending := dropPendingOf t.pending x }) = s1
  have ht1 : s1.t = { s.t with pending := dropPendingOf s.t.pending x } := by rw [← hs1]; rfl
  have hw1 : WF s1.t := by rw [ht1]; exact h.wf.pending _
  obtain ⟨s2, e2, ef2⟩ := removeParentsLoop_effect (s1.t.rawParents x).length 0 s1 x hw1
  have hex := removeParentsLoop_exact hw1 (by rw [ht1]; exact hx) e2
  rw [show s1.t.rawParents x = s.t.rawParents x from by rw [ht1]; rfl] at hex
  rw [e2, Res.andThen_ok]
  have has2 : ∀ y, s2.t.has y = s.t.has y := by intro y; rw [ef2.same.has, ht1]; rfl
  have selfp : x ∉ s.t.rawParents x := fun hm => h.wf.acyclic x (Reach.single hm)
  have selfc : x ∉ s.t.rawChildren x := fun hm => selfp (h.wf.down x x hm hx)
  have ch2 : s2.t.rawChildren x = s.t.rawChildren x := by
    rw [ef2.others x (by rw [ht1]; exact selfp), ht1]; rfl
  have par2 : ∀ y, y ≠ x → s2.t.rawParents y = s.t.rawParents y := by
    intro y hy; rw [ef2.parents y hy, ht1]; rfl
  have hcx : ∀ c ∈ s.t.rawChildren x, c ≠ x := by rintro c hc rfl; exact selfc hc
  obtain ⟨s3, e3, ef3⟩ := orphanLoop x (s2.t.rawChildren x) s2 ef2.wf (by rw [has2]; exact hx)
    (ef2.wf.ndC x) (by
      intro c hc
      rw [ch2] at hc
      rw [par2 c (hcx c hc)]
      exact h.wf.down x c hc (hch c hc))
  rw [orphanLoop_body, e3, Res.andThen_ok]
  have has3 : ∀ y, s3.t.has y = s.t.has y := by intro y; rw [ef3.same.has, has2]
  rw [if_pos (by rw [has3]; exact hx)]
  have par3 : ∀ y, y ≠ x → s3.t.rawParents y = (s.t.rawParents y).erase x := by
    intro y hy
    rw [ef3.parents, par2 y hy, ch2]
    split
    · rfl
    · rename_i hm
      rw [List.erase_of_not_mem]
      intro hxm; exact hm (h.wf.up x y hxm)
  have nox : ∀ c, c ≠ x → x ∉ s3.t.rawParents c := by
    intro c hc; rw [par3 c hc]; exact (h.wf.ndP c).not_mem_erase
  have root3 : s3.t.root.children = s.t.root.children ++
      (s.t.rawChildren x).filter (fun c => decide (s.t.rawParents c = [x])) := by
    rw [ef3.root, ef2.root, ht1, ch2]
    congr 1
    apply List.filter_congr
    intro c hc
    rw [par2 c (hcx c hc)]
  have rootEq : (dropNode s3.t x).root.children = (s.t.root.children ++
      (s.t.rawChildren x).filter (fun c => decide (s.t.rawParents c = [x]))).erase x := by
    rw [← root3]; rfl
  have rootNd : (s.t.root.children ++
      (s.t.rawChildren x).filter (fun c => decide (s.t.rawParents c = [x]))).Nodup := by
    rw [List.nodup_append]
    refine ⟨h.root.nodup, (h.wf.ndC x).filter _, ?_⟩
    rintro a ha b hb rfl
    rw [h.root.mem] at ha
    have := (List.mem_filter.1 hb).2
    simp at this
    rw [this] at ha; simp at ha
  refine ⟨_, rfl, ⟨⟨ef3.wf.dropNode nox, ⟨?_, ?_⟩, ?_⟩, ?_, ?_, ?_, ?_, ?_, ?_, ?_⟩, ?_⟩
  · show (dropNode s3.t x).root.children.Nodup
    rw [rootEq]; exact rootNd.erase _
  · intro y
    show y ∈ (dropNode s3.t x).root.children ↔ (dropNode s3.t x).has y = true ∧ (dropNode s3.t x).rawParents y = [] ∧ _
    rw [rootEq, rootNd.mem_erase_iff, List.mem_append, h.root.mem, List.mem_filter, dropNode_has,
      dropNode_rawParents, has3]
    by_cases hy : y = x
    · simp [hy]
    · rw [if_neg hy, par3 y hy]
      simp only [ne_eq, hy, not_false_eq_true, true_and, noneOf, and_true, decide_true, Bool.true_and,
        decide_eq_true_eq]
      constructor
      · rintro (⟨h1, h2⟩ | ⟨h1, h2⟩)
        · exact ⟨h1, by rw [h2]; rfl⟩
        · exact ⟨hch y h1, by rw [h2]; simp⟩
      · rintro ⟨h1, h2⟩
        by_cases h3 : s.t.rawParents y = []
        · exact Or.inl ⟨h1, h3⟩
        · have := erase_eq_nil h3 h2
          exact Or.inr ⟨h.wf.up x y (by rw [this]; simp), this⟩
  · intro p c hpc
    have hpc' : (p, c) ∈ s3.t.pending := hpc
    rw [ef3.pending, ef2.pending, ht1] at hpc'
    have := (mem_dropPendingOf _ _ _).1 hpc'
    show ¬ ((dropNode s3.t x).has p = true ∧ (dropNode s3.t x).has c = true)
    rw [dropNode_has, dropNode_has, has3, has3]
    rintro ⟨h1, h2⟩
    rw [Bool.and_eq_true] at h1 h2
    exact h.pend p c this.1 ⟨h1.2, h2.2⟩
  · intro y
    show (dropNode s3.t x).has y = true ↔ _
    rw [dropNode_has, has3]; simp; tauto
  · intro y hy
    show (dropNode s3.t x).nodeAttrs y = _
    rw [dropNode_attrs, if_neg hy, ef3.same.attrs, ef2.same.attrs, ht1]; rfl
  · intro y hy
    show (dropNode s3.t x).rawParents y = _
    rw [dropNode_rawParents, if_neg hy, par3 y hy]
  · intro y c hy hc
    show c ∈ (dropNode s3.t x).rawChildren y ↔ _
    rw [dropNode_rawChildren, if_neg hy, ef3.children y hy, ef2.children y c hc, ht1]; rfl
  · intro y
    show ((dropNode s3.t x).rawChildren y).Sublist _
    rw [dropNode_rawChildren]
    split
    · exact List.nil_sublist _
    · rename_i hy
      rw [ef3.children y hy]
      have := ef2.childrenSub y
      rw [ht1] at this; exact this
  · exact rootEq
  · intro r
    show r ∈ s3.t.pending ↔ _
    rw [ef3.pending, ef2.pending, ht1]
    show r ∈ dropPendingOf s.t.pending x ↔ _
    rw [mem_dropPendingOf]
    constructor
    · rintro ⟨h1, h2, h3⟩; exact ⟨h1, h2.symm, h3.symm⟩
    · rintro ⟨h1, h2, h3⟩; exact ⟨h1, h2.symm, h3.symm⟩
  · intro y
    show x ∈ (dropNode s3.t x).rawChildren y ↔ _
    rw [← hex y, dropNode_rawChildren]
    split
    · next e =>
      rw [e, ch2]
      exact ⟨(fun hm => (List.not_mem_nil hm).elim), (fun hm => absurd hm selfc)⟩
    · next hy => rw [ef3.children y hy]

/-- A removal that ends normally met no dangling child. -/
theorem removeNode_ok_children {s : St} (h : WF s.t) {x : Id} (hx : s.t.has x = true) (f : Nat)
    (hok : (removeNode (f + 1) s x false).isOk = true) : ∀ c ∈ s.t.rawChildren x, s.t.has c = true := by
  have hxn : x ≠ .none := by rintro rfl; have := (h.ids _ hx).1; cases this
  unfold removeNode at hok
  rw [if_neg (by simp [hx, hxn])] at hok
  dsimp only at hok
  generalize hs1 : (s.mapTree fun t => { t with pending := dropPendingOf t.pending x }) = s1 at hok
  have ht1 : s1.t = { s.t with pending := dropPendingOf s.t.pending x } := by rw [← hs1]; rfl
  have hw1 : WF s1.t := by rw [ht1]; exact h.pending _
  obtain ⟨s2, e2, ef2⟩ := removeParentsLoop_effect (s1.t.rawParents x).length 0 s1 x hw1
  rw [e2, Res.andThen_ok] at hok
  have has2 : ∀ y, s2.t.has y = s.t.has y := by intro y; rw [ef2.same.has, ht1]; rfl
  have selfp : x ∉ s.t.rawParents x := fun hm => h.acyclic x (Reach.single hm)
  have ch2 : s2.t.rawChildren x = s.t.rawChildren x := by
    rw [ef2.others x (by rw [ht1]; exact selfp), ht1]; rfl
  rw [ch2] at hok
  have key : ∀ (l : List Id) (s2 : St), (∀ y, s2.t.has y = s.t.has y) →
      (Res.forEach (fun c s => if false = true then removeNode f s c true else orphanChild x c s) l s2).isOk = true →
      ∀ c ∈ l, s.t.has c = true := by
    intro l
    induction l with
    | nil => simp
    | cons c l ih =>
      intro s2 hh ho
      unfold Res.forEach at ho
      rw [if_neg (by simp)] at ho
      unfold orphanChild at ho
      cases hd : s2.t.destroy x c with
      | none => rw [hd] at ho; cases ho
      | some t' =>
        obtain ⟨-, hc, e⟩ := Tree.destroy_eq_some hd
        rw [hd] at ho
        dsimp only [Res.andThen] at ho
        intro d hdm
        rcases List.mem_cons.1 hdm with rfl | hdm
        · rw [← hh]; exact hc
        · refine ih _ ?_ ho d hdm
          intro y
          split
          · exact (e.has y).trans (hh y)
          · exact (e.has y).trans (hh y)
  cases hr : Res.forEach (fun c s => if false = true then removeNode f s c true else orphanChild x c s)
      (s.t.rawChildren x) s2 with
  | err e s3 => rw [hr] at hok; cases hok
  | ok s3 => exact key _ s2 has2 (by rw [hr]; rfl)

theorem removeNode_good {s : St} (h : Good s.t) (x : Id) (r : Bool)
    (hok : (removeNode (removeFuel s.t) s x r).isOk = true) :
    Good (removeNode (removeFuel s.t) s x r).state.t := by
  cases r with
  | true =>
    obtain ⟨s', e, ef, -⟩ := removeNode_recursive h.wf x
    rw [e]; exact ef.good h
  | false =>
    by_cases hx : s.t.has x = true
    · obtain ⟨s', e, ef, -⟩ := removeNode_orphan h hx (removeNode_ok_children h.wf hx _ hok) _
      unfold removeFuel
      rw [e]; exact ef.good
    · unfold removeFuel removeNode; rw [if_pos (by simp [hx])]; exact h

end Larch
