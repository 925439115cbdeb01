import Verif.Proofs.SpecTree

/-! # `set_parent` on consistent trees -/

namespace Larch

open Graph Spec

/-- What is left of a list of parents after the loop of `set_parent` (`treenode.py:105-109`): every parent
other than `p` is removed, but the element after a removed one is skipped. -/
def skipRemove (p : Id) : List Id → List Id
  | [] => []
  | [x] => if x = p then [x] else []
  | x :: y :: l => if x = p then x :: skipRemove p (y :: l) else y :: skipRemove p l

/-- Only the parents of `x` differ. -/
structure MoveFrame (t t' : Tree) (x : Id) : Prop where
  has : ∀ y, t'.has y = t.has y
  attrs : ∀ y, t'.nodeAttrs y = t.nodeAttrs y
  parents : ∀ y, y ≠ x → t'.rawParents y = t.rawParents y

theorem MoveFrame.refl (t : Tree) (x : Id) : MoveFrame t t x := ⟨fun _ => rfl, fun _ => rfl, fun _ _ => rfl⟩

theorem MoveFrame.trans {t t' t'' : Tree} {x : Id} (h : MoveFrame t t' x) (h' : MoveFrame t' t'' x) :
    MoveFrame t t'' x :=
  ⟨fun y => (h'.has y).trans (h.has y), fun y => (h'.attrs y).trans (h.attrs y),
    fun y hy => (h'.parents y hy).trans (h.parents y hy)⟩

theorem BreakEffect.frame {t t' : Tree} {p c : Id} (h : BreakEffect t t' p c) : MoveFrame t t' c :=
  ⟨h.has, h.attrs, fun y hy => by rw [h.parents, if_neg hy]⟩

/-- Removing one parent the node has. -/
theorem removeParent_step {s : St} (h : Good s.t) {x q : Id} (hq : q ∈ s.t.rawParents x) :
    ∃ s', nodeRemoveParent s x q = .ok s' ∧ breakRelationship s q x = .ok s' ∧ Good s'.t ∧ MoveFrame s.t s'.t x ∧
      s'.t.rawParents x = (s.t.rawParents x).erase q := by
  have hne : q ≠ x := by rintro rfl; exact h.wf.acyclic q (Reach.single hq)
  obtain ⟨t', e, hg, ef⟩ := breakRelationship_spec h (h.wf.has_parent hq) (Tree.has_of_mem_rawParents hq) hne
  refine ⟨_, by rw [nodeRemoveParent_eq h hq, e], e, hg, ef.frame, ?_⟩
  show t'.rawParents x = _
  rw [ef.parents, if_pos rfl]

theorem setParentLoop_spec (x p : Id) : ∀ (f : Nat) (pre l : List Id) (s : St) (flag : Bool), Good s.t →
    s.t.rawParents x = pre ++ l → l.length ≤ f → (flag = true → p ∈ pre) →
    ∃ s' flag', setParentLoop f pre.length s x p flag = .ok (s', flag') ∧ Good s'.t ∧ MoveFrame s.t s'.t x ∧
      s'.t.rawParents x = pre ++ skipRemove p l ∧ (flag' = true → p ∈ s'.t.rawParents x) := by
  intro f
  induction f with
  | zero =>
    intro pre l s flag h hl hf hflag
    have : l = [] := List.length_eq_zero_iff.1 (by omega)
    subst this
    exact ⟨s, flag, rfl, h, MoveFrame.refl _ _, hl, fun hf => by rw [hl]; simp [hflag hf]⟩
  | succ f ih =>
    intro pre l s flag h hl hf hflag
    cases l with
    | nil =>
      refine ⟨s, flag, ?_, h, MoveFrame.refl _ _, hl, fun hf => by rw [hl]; simp [hflag hf]⟩
      unfold setParentLoop
      rw [hl]; simp
    | cons q l =>
      have hget : (s.t.rawParents x)[pre.length]? = some q := by rw [hl]; simp
      unfold setParentLoop
      rw [hget]
      dsimp only
      have hnd := h.wf.ndP x
      rw [hl] at hnd
      by_cases hqp : q = p
      · rw [if_neg (by simpa using hqp)]
        obtain ⟨s', flag', e, h1, h2, h3, h4⟩ := ih (pre ++ [q]) l s true h (by rw [hl]; simp) (by simp at hf; omega)
          (fun _ => by simp [hqp])
        rw [List.length_append] at e
        refine ⟨s', flag', e, h1, h2, ?_, h4⟩
        rw [h3, List.append_assoc]
        cases l with
        | nil => simp [skipRemove, hqp]
        | cons y l => simp [skipRemove, hqp]
      · rw [if_pos hqp]
        obtain ⟨s1, e1, -, hg1, fr1, hp1⟩ := removeParent_step h (q := q) (x := x) (by rw [hl]; simp)
        rw [e1]
        dsimp only
        have hqpre : q ∉ pre := by
          intro hm
          have := (List.nodup_append.1 hnd).2.2 q hm q (by simp)
          exact this rfl
        rw [hl, List.erase_append_right _ hqpre, List.erase_cons_head] at hp1
        cases l with
        | nil =>
          -- the iterator is past the end
          have hstop : ∀ f flag, setParentLoop f (pre.length + 1) s1 x p flag = .ok (s1, flag) := by
            intro f flag
            cases f with
            | zero => rfl
            | succ f => unfold setParentLoop; rw [hp1]; simp
          rw [hstop]
          refine ⟨s1, flag, rfl, hg1, fr1, ?_, fun hf => by rw [hp1]; simp [hflag hf]⟩
          rw [hp1]; simp [skipRemove, hqp]
        | cons y l =>
          obtain ⟨s', flag', e, h1, h2, h3, h4⟩ := ih (pre ++ [y]) l s1 flag hg1 (by rw [hp1]; simp)
            (by simp at hf; omega) (fun hf => by simp [hflag hf])
          rw [List.length_append] at e
          refine ⟨s', flag', e, h1, fr1.trans h2, ?_, h4⟩
          rw [h3]; simp [skipRemove, hqp]

theorem skipRemove_sub (p : Id) : ∀ l : List Id, ∀ q ∈ skipRemove p l, q ∈ l
  | [], q, h => by simp [skipRemove] at h
  | [x], q, h => by
    unfold skipRemove at h
    split at h
    · exact h
    · cases h
  | x :: y :: l, q, h => by
    unfold skipRemove at h
    split at h
    · rcases List.mem_cons.1 h with h | h
      · simp [h]
      · exact List.mem_cons_of_mem _ (skipRemove_sub p (y :: l) q h)
    · rcases List.mem_cons.1 h with h | h
      · simp [h]
      · exact List.mem_cons_of_mem _ (List.mem_cons_of_mem _ (skipRemove_sub p l q h))

theorem MoveFrame.reach_to {t t' : Tree} {x : Id} (h : MoveFrame t t' x) (hac : Acyclic t.rawParents) {p : Id}
    (hr : Reach t.rawParents p x) : Reach t'.rawParents p x := by
  unfold Reach at hr
  induction hr using Relation.TransGen.head_induction_on with
  | single hm =>
    rename_i a
    have : a ≠ x := by rintro rfl; exact hac a (Reach.single hm)
    exact Reach.single (by rw [h.parents a this]; exact hm)
  | head hm hr ih =>
    rename_i a b
    have : a ≠ x := by rintro rfl; exact hac a (Reach.head hm hr)
    exact Reach.head (by rw [h.parents a this]; exact hm) ih

/-- The complete effect of `move_node` onto an existing node that accepts children. -/
theorem moveNode_spec {s : St} (h : Good s.t) {x p : Id} (hx : s.t.has x = true) (hp : s.t.has p = true)
    (hne : p ≠ x) (hacc : Accept s.t p x) :
    (¬ Reach s.t.rawParents p x → ∃ s', moveNode s x p = .ok s' ∧ Good s'.t ∧ MoveFrame s.t s'.t x ∧
      s'.t.rawParents x = appendNew (skipRemove p (s.t.rawParents x)) p) ∧
    (Reach s.t.rawParents p x → ∃ s', moveNode s x p = .err .circular s' ∧ Good s'.t ∧ MoveFrame s.t s'.t x ∧
      s'.t.rawParents x = skipRemove p (s.t.rawParents x)) := by
  obtain ⟨np, hnp⟩ := (Tree.has_iff _ _).1 hp
  obtain ⟨nx, hnx⟩ := (Tree.has_iff _ _).1 hx
  have hpar := Tree.rawParents_of_node hnx
  obtain ⟨s1, flag, e, hg1, fr, hps, hflag⟩ := setParentLoop_spec x p nx.parents.length [] nx.parents s false h
    (by rw [hpar]; rfl) (le_refl _) (by intro h; cases h)
  simp only [List.nil_append] at hps
  have key : moveNode s x p = if (!p.falsy && !flag) = true then nodeAddParent s1 x p else .ok s1 := by
    unfold moveNode nodeSetParent
    rw [if_pos hx, hnx]
    dsimp only
    rw [if_pos ⟨hne, hacc.2 _ hnx⟩, hnp]
    dsimp only
    rw [if_pos (hacc.1 _ hnp)]
    simp only [List.length_nil] at e
    rw [e]
  have hpf : p.falsy = false := (h.wf.ids p hp).1
  have hacc1 : Accept s1.t p x := by
    have tr : ∀ y nd, s1.t.node? y = some nd → ∃ nd0, s.t.node? y = some nd0 ∧
        nd0.parentsEnabled = nd.parentsEnabled ∧ nd0.childrenEnabled = nd.childrenEnabled := by
      intro y nd hn
      have h1 := fr.attrs y
      unfold Tree.nodeAttrs at h1
      rw [hn] at h1
      cases h2 : s.t.node? y with
      | none => rw [h2] at h1; simp at h1
      | some nd0 =>
        rw [h2] at h1
        simp [Tree.attrs] at h1
        exact ⟨nd0, rfl, h1.2.1.symm, h1.2.2.1.symm⟩
    constructor
    · intro nd hn
      obtain ⟨nd0, h0, -, h2⟩ := tr p nd hn
      rw [← h2]; exact hacc.1 _ h0
    · intro nd hn
      obtain ⟨nd0, h0, h2, -⟩ := tr x nd hn
      rw [← h2]; exact hacc.2 _ h0
  have hp1 : s1.t.has p = true := by rw [fr.has]; exact hp
  have hx1 : s1.t.has x = true := by rw [fr.has]; exact hx
  obtain ⟨np1, hnp1⟩ := (Tree.has_iff _ _).1 hp1
  obtain ⟨nx1, hnx1⟩ := (Tree.has_iff _ _).1 hx1
  have addp : p ∉ s1.t.rawParents x → nodeAddParent s1 x p = newRelationship s1 p x := by
    intro hnot
    unfold nodeAddParent
    rw [hnx1]; dsimp only
    rw [Tree.rawParents_of_node hnx1] at hnot
    rw [if_pos ⟨hne, hacc1.2 _ hnx1, hnot⟩, hnp1]; dsimp only
    rw [if_pos (hacc1.1 _ hnp1)]
  have addp' : p ∈ s1.t.rawParents x → nodeAddParent s1 x p = .ok s1 := by
    intro hin
    unfold nodeAddParent
    rw [hnx1]; dsimp only
    rw [Tree.rawParents_of_node hnx1] at hin
    rw [if_neg (fun h => h.2.2 hin)]
  constructor
  · intro hnr
    by_cases hin : p ∈ s1.t.rawParents x
    · refine ⟨s1, ?_, hg1, fr, ?_⟩
      · rw [key]; split
        · exact addp' hin
        · rfl
      · rw [hps, ← hpar] at hin
        rw [hps, ← hpar, appendNew, if_pos hin]
    · have hfl : flag = false := by
        cases flag with
        | false => rfl
        | true => exact absurd (hflag rfl) hin
      have hre : ¬ ReachEq s1.t.rawParents p x := by
        rintro (e | hr)
        · exact hne e
        · refine hnr (hr.mono ?_)
          intro a b hab
          by_cases hax : a = x
          · subst hax
            rw [hps] at hab
            rw [hpar]
            exact skipRemove_sub p _ b hab
          · rwa [fr.parents a hax] at hab
      obtain ⟨t', ht', e'⟩ := newRelationship_linked hg1.wf hg1.root hg1.pend hp1 hx1 hre
      obtain ⟨-, -, ef⟩ := Tree.create_eq_some ht'
      refine ⟨((⟨t', s1.log⟩ : St).emit .modified p).emit .modified x, ?_, hg1.create ht' hre hacc1, fr.trans ⟨ef.has, ef.attrs, fun y hy => ?_⟩, ?_⟩
      · rw [key, if_pos (by simp [hpf, hfl]), addp hin, e']
      · show t'.rawParents y = _
        rw [ef.parents, if_neg hy]
      · show t'.rawParents x = _
        rw [ef.parents, if_pos rfl, hps, ← hpar]
  · intro hr
    have hr1 := fr.reach_to h.wf.acyclic hr
    have hin : p ∉ s1.t.rawParents x := fun hm => hg1.wf.acyclic p (hr1.trans (Reach.single hm))
    have hfl : flag = false := by
      cases flag with
      | false => rfl
      | true => exact absurd (hflag rfl) hin
    refine ⟨s1, ?_, hg1, fr, by rw [hps, ← hpar]⟩
    rw [key, if_pos (by simp [hpf, hfl]), addp hin]
    exact newRelationship_refused hg1.wf hg1.pend hne hp1 hx1 (Or.inr hr1)

theorem breakAll {x : Id} : ∀ (l : List Id) (s : St), Good s.t → s.t.rawParents x = l →
    ∃ s', Res.forEach (fun q s => breakRelationship s q x) l s = .ok s' ∧ Good s'.t ∧ MoveFrame s.t s'.t x ∧
      s'.t.rawParents x = [] := by
  intro l
  induction l with
  | nil => intro s h hl; exact ⟨s, rfl, h, MoveFrame.refl _ _, hl⟩
  | cons q l ih =>
    intro s h hl
    obtain ⟨s1, -, e1, hg1, fr1, hp1⟩ := removeParent_step h (q := q) (x := x) (by rw [hl]; simp)
    rw [hl, List.erase_cons_head] at hp1
    obtain ⟨s', e, hg, fr, hp⟩ := ih s1 hg1 hp1
    refine ⟨s', ?_, hg, fr1.trans fr, hp⟩
    unfold Res.forEach; rw [e1]; exact e

/-- `move_node` to `None` or to a node that does not exist (yet). -/
theorem moveNode_absent {s : St} (h : Good s.t) {x p : Id} {nx : Node} (hnx : s.t.node? x = some nx)
    (hp : s.t.has p = false) (hen : nx.parentsEnabled = true) :
    ∃ s', moveNode s x p = .ok s' ∧ Good s'.t ∧ MoveFrame s.t s'.t x ∧ s'.t.rawParents x = [] := by
  have hx := has_of_some hnx
  obtain ⟨s1, e, hg, fr, hp0⟩ := breakAll (x := x) (s.t.getParents x) s h (by rw [h.wf.getParents_eq])
  have hpn : s.t.node? p = none := (Tree.has_false_iff _ _).1 hp
  have hne : p ≠ x := by rintro rfl; rw [hp] at hx; cases hx
  refine ⟨s1.mapTree fun t => { t with pending := t.pending ++ [(p, x)] }, ?_, ?_, ⟨fr.has, fr.attrs, fr.parents⟩, hp0⟩
  · unfold moveNode nodeSetParent
    rw [if_pos hx, hnx]
    dsimp only
    rw [if_pos ⟨hne, hen⟩, hpn]
    dsimp only
    rw [e]; rfl
  · refine hg.appendPending ?_
    rw [fr.has, hp]; simp

end Larch
