import Verif.Spec.Leftover
import Verif.Proofs.BelowApp
import Verif.Proofs.SpecTree

/-! # Removing nodes with several parents -/

namespace Larch

open Graph Spec

variable {V : Type} {diff : List Id → List Id → List Id}

theorem mentioned_iff {t : Tree} {x : Id} : Mentioned t x ↔ ∃ p, x ∈ t.rawChildren p := by
  unfold Mentioned Tree.rawChildren
  refine exists_congr fun p => ?_
  cases t.node? p <;> simp

theorem Decent.kids {s : St} {x : Id} (h : Decent s (.delNode x false)) : ∀ c ∈ s.t.rawChildren x, s.t.has c = true := by
  intro c hc
  unfold Tree.rawChildren at hc
  cases hn : s.t.node? x with
  | none => rw [hn] at hc; simp at hc
  | some nd => rw [hn] at hc; exact h nd hn c (by simpa using hc)

theorem Considerate.safe {s : St} (h : Good s.t) {op : Op} (hc : Considerate s op) : Safe s op := by
  obtain ⟨hp, hm⟩ := hc
  cases op with
  | addNode nd p =>
    obtain ⟨hmade, hx | ⟨h1, h2, h3, h4⟩⟩ := hp
    · exact ⟨hmade.fresh, Or.inl hx⟩
    · refine ⟨hmade.fresh, (hm nd p rfl).imp id fun hm => ⟨⟨h1, h2⟩, fun q hq => hm (mentioned_iff.2 ⟨q, hq⟩), h3, h4⟩⟩
  | delNode x r =>
    cases r with
    | true =>
      obtain ⟨s', e, -⟩ := removeNode_recursive h.wf x
      show (removeNode (removeFuel s.t) s x true).isOk = true
      rw [e]; rfl
    | false =>
      show (removeNode (removeFuel s.t) s x false).isOk = true
      by_cases hx : s.t.has x = true
      · obtain ⟨s', e, -⟩ := removeNode_orphan h hx (Decent.kids hp) s.t.nodes.entries.length
        unfold removeFuel; rw [e]; rfl
      · unfold removeFuel removeNode; rw [if_pos (by simp [hx])]; rfl
  | newRelationship p c => exact hp
  | refreshNode x => trivial
  | moveNode x p => trivial
  | addParent x p => trivial
  | setParent x p => trivial
  | removeParent x p => trivial
  | addChild x c => trivial
  | setParentsEnabled x b => trivial
  | setChildrenEnabled x b => trivial
  | breakRelationship p c => trivial

theorem runOps_considerate (ops : List Op) (s : St) (h : Good s.t) (hc : Along Considerate s ops) : Good (runOps s ops).t := by
  induction ops generalizing s with
  | nil => exact h
  | cons op ops ih => exact ih _ (step_good h op (Considerate.safe h hc.1)) hc.2

theorem Good.sound {t : Tree} (h : Good t) : Sound t := ⟨h.wf.agree, h.wf.upInv.noCycle, h.topLevel, h.fromRoot⟩

/-- A careful user is considerate. -/
theorem careful_considerate {s : St} (h : Good s.t) (hn : NoDangling s.t) {op : Op} (hc : Careful s op) : Considerate s op := by
  refine ⟨?_, ?_⟩
  · cases op with
    | delNode x r =>
      cases r with
      | true => trivial
      | false =>
        intro nd hnd c hcc
        refine hn x c ?_
        unfold Tree.rawChildren; rw [hnd]; exact hcc
    | addNode nd p => exact hc
    | newRelationship p c => exact hc
    | _ => trivial
  · intro nd p e
    by_cases hx : s.t.has nd.id = true
    · exact Or.inl hx
    · refine Or.inr fun hm => ?_
      obtain ⟨q, hq⟩ := mentioned_iff.1 hm
      exact hx (hn q _ hq)

/-! ### Ids that were never used -/

/-- All ids of nodes and all ids in children lists are in `S`. -/
structure Known (S : Id → Prop) (t : Tree) : Prop where
  nodes : ∀ x, t.has x = true → S x
  kids : ∀ p c, c ∈ t.rawChildren p → S c

theorem Known.congr {S : Id → Prop} {t t' : Tree} (h : Known S t) (hh : ∀ y, t'.has y = true → t.has y = true)
    (hc : ∀ y c, c ∈ t'.rawChildren y → c ∈ t.rawChildren y) : Known S t' :=
  ⟨fun x hx => h.nodes x (hh x hx), fun p c hpc => h.kids p c (hc p c hpc)⟩

theorem Known.mono {S S' : Id → Prop} {t : Tree} (h : Known S t) (hs : ∀ x, S x → S' x) : Known S' t :=
  ⟨fun x hx => hs x (h.nodes x hx), fun p c hpc => hs c (h.kids p c hpc)⟩

theorem Known.create {S : Id → Prop} {t t' : Tree} (h : Known S t) {p c : Id} (hc : t.create p c = some t') : Known S t' := by
  obtain ⟨-, hhc, ef⟩ := Tree.create_eq_some hc
  refine ⟨fun x hx => h.nodes x (by rw [← ef.has]; exact hx), fun q d hq => ?_⟩
  rw [ef.children] at hq
  split at hq
  · rcases (mem_appendNew _ _ _).1 hq with hq | rfl
    · exact h.kids _ _ hq
    · exact h.nodes _ hhc
  · exact h.kids _ _ hq

theorem known_keeps (S : Id → Prop) : Keeps (fun s => Known S s.t) where
  nodes := by
    intro s s' h hn _
    refine h.congr (fun y hy => ?_) (fun y c hc => ?_)
    · unfold Tree.has at *; rwa [hn] at hy
    · unfold Tree.rawChildren Tree.node? at *; rwa [hn] at hc
  create := fun h hc _ => h.create hc
  destroy := by
    intro s p c t' h hc
    have ef := (Tree.destroy_eq_some hc).2.2
    refine h.congr (fun y hy => by rw [← ef.has]; exact hy) (fun y d hd => ?_)
    rw [ef.children] at hd
    split at hd
    · rename_i e; subst e; exact List.mem_of_mem_erase hd
    · exact hd
  eraseParent := by
    intro s h x p
    refine Known.congr h (fun y hy => ?_) (fun y c hc => ?_)
    · exact (Tree.has_updNode _ _ _ _).symm.trans hy
    · have e := rawChildren_updNode_same s.t x (fun nd => { nd with parents := nd.parents.erase p }) (fun _ => rfl) y
      exact e ▸ hc
  appendChild := by
    intro s h x c hc
    refine ⟨fun y hy => h.nodes y ((Tree.has_updNode s.t x _ y).symm.trans hy), fun p d hd => ?_⟩
    by_cases hx : s.t.has x = true
    · have := Tree.rawChildren_updChildren s.t x (fun l => l ++ [c]) hx p
      change d ∈ (s.t.updNode x _).rawChildren p at hd
      rw [this] at hd
      split at hd
      · rcases List.mem_append.1 hd with hd | hd
        · exact h.kids _ _ hd
        · simp at hd; subst hd; exact h.nodes _ hc
      · exact h.kids _ _ hd
    · have hp := Tree.has_of_mem_rawChildren hd
      have hp' : s.t.has p = true := (Tree.has_updNode s.t x _ p).symm.trans hp
      have hne : p ≠ x := by rintro rfl; exact hx hp'
      change d ∈ (s.t.updNode x _).rawChildren p at hd
      unfold Tree.rawChildren at hd
      rw [Tree.node?_updNode, if_neg hne] at hd
      exact h.kids _ _ hd
  setParentsEnabled := by
    intro s h x p
    refine Known.congr h (fun y hy => ?_) (fun y c hc => ?_)
    · exact (Tree.has_updNode _ _ _ _).symm.trans hy
    · have e := rawChildren_updNode_same s.t x (fun nd => { nd with parentsEnabled := p }) (fun _ => rfl) y
      exact e ▸ hc
  setChildrenEnabled := by
    intro s h x p
    refine Known.congr h (fun y hy => ?_) (fun y c hc => ?_)
    · exact (Tree.has_updNode _ _ _ _).symm.trans hy
    · have e := rawChildren_updNode_same s.t x (fun nd => { nd with childrenEnabled := p }) (fun _ => rfl) y
      exact e ▸ hc
  modified := fun h _ _ => h

theorem PendStep.known {S : Id → Prop} {x : Id} {r : Id × Id} {t t' : Tree} {b b' : Bool} (hs : PendStep x r t b t' b')
    (h : Known S t) : Known S t' := by
  cases hs with
  | skip => exact h
  | drop => exact ⟨h.nodes, h.kids⟩
  | asChild t2 _ _ _ hc => have := h.create hc; exact ⟨this.nodes, this.kids⟩
  | asParent t2 _ _ _ hc => have := h.create hc; exact ⟨this.nodes, this.kids⟩

theorem addNode_known {S : Id → Prop} {s : St} {nd : Node} {parent : Id} (h : UpInv s.t) (hn : Known S s.t)
    (hp : nd.parents = []) (hc : nd.children = []) : Known (fun x => S x ∨ x = nd.id) (addNode s nd parent).state.t := by
  by_cases hx : s.t.has nd.id = true
  · rw [addNode_existing hx]; exact hn.mono fun _ h => Or.inl h
  · obtain ⟨t, b, -, -, -, hd, hend⟩ := addNode_spec s nd parent hp h (by simpa using hx)
      (fun _ t _ => Known (fun x => S x ∨ x = nd.id) t) (by
        refine ⟨fun y hy => ?_, fun p c hpc => ?_⟩
        · rw [has_insertNode] at hy
          by_cases e : y = nd.id
          · exact Or.inr e
          · exact Or.inl (hn.nodes y (by simpa [e] using hy))
        · rw [rawChildren_insertNode] at hpc
          split at hpc
          · rw [hc] at hpc; simp at hpc
          · exact Or.inl (hn.kids p c hpc)) (fun _ _ _ _ _ _ _ _ h hs => hs.known h)
    have fin : ∀ log t b, Known (fun x => S x ∨ x = nd.id) t → Known (fun x => S x ∨ x = nd.id) (finishAdd log t b nd.id).t := by
      intro log t b ht
      unfold finishAdd
      cases b <;> exact ⟨ht.nodes, ht.kids⟩
    generalize addNode s nd parent = r at hend
    cases hend with
    | noParent => exact fin _ _ _ hd
    | circular => exact hd
    | linked t' _ _ _ hc => exact fin _ _ _ (hd.create hc)
    | later => exact fin _ _ _ ⟨hd.nodes, hd.kids⟩

theorem removeNode_known {S : Id → Prop} {s : St} (h : Good s.t) (hn : Known S s.t) (x : Id) (r : Bool)
    (ht : Decent s (.delNode x r)) : Known S (removeNode (removeFuel s.t) s x r).state.t := by
  cases r with
  | true =>
    obtain ⟨s', e, ef, -⟩ := removeNode_recursive h.wf x
    rw [e]
    exact hn.congr ef.hasSub fun y c hc => (ef.children y).mem hc
  | false =>
    by_cases hx : s.t.has x = true
    · obtain ⟨s', e, ef, -⟩ := removeNode_orphan h hx (Decent.kids ht) s.t.nodes.entries.length
      unfold removeFuel
      rw [e]
      exact hn.congr (fun y hy => ((ef.has y).1 hy).1) fun y c hc => (ef.childrenSub y).mem hc
    · unfold removeFuel removeNode; rw [if_pos (by simp [hx])]; exact hn

theorem step_known {S : Id → Prop} {s : St} (h : Good s.t) (hn : Known S s.t) (op : Op) (hp : Decent s op) :
    Known (fun x => S x ∨ x ∈ addedId op) (step s op).state.t := by
  by_cases hl : op.isLocal = true
  · exact (step_keeps (known_keeps S) s op hl hn).mono fun _ h => Or.inl h
  · cases op with
    | addNode nd p =>
      exact (addNode_known (parent := p) h.wf.upInv hn hp.1.fresh.parents hp.1.fresh.children).mono
        fun _ h => h.imp id fun e => by rw [e]; exact List.mem_singleton_self _
    | delNode x r => exact (removeNode_known h hn x r hp).mono fun _ h => Or.inl h
    | _ => exact absurd rfl hl

theorem Known.init (S : Id → Prop) : Known S Tree.init := ⟨(fun x h => by cases h), (fun p c h => by cases h)⟩

/-- An id that is not known is left over nowhere. -/
theorem Known.considerate {S : Id → Prop} {s : St} (hk : Known S s.t) {op : Op} (hp : Decent s op) (hs : ∀ x ∈ addedId op, ¬ S x) :
    Considerate s op := by
  refine ⟨hp, ?_⟩
  rintro nd p rfl
  refine Or.inr fun hm => ?_
  obtain ⟨q, hq⟩ := mentioned_iff.1 hm
  exact hs nd.id (List.mem_singleton_self _) (hk.kids q _ hq)

theorem decent_considerate : ∀ (ops : List Op) {S : Id → Prop} {s : St}, Good s.t → Known S s.t → (∀ x ∈ addedIds ops, ¬ S x) → (addedIds ops).Nodup →
    Along Decent s ops → Along Considerate s ops ∧ Known (fun x => S x ∨ x ∈ addedIds ops) (runOps s ops).t
  | [], S, s, _, hk, _, _, _ => ⟨trivial, hk.mono fun _ h => Or.inl h⟩
  | op :: ops, S, s, h, hk, hS, hnd, hp => by
    have e : addedIds (op :: ops) = addedId op ++ addedIds ops := rfl
    rw [e] at hS hnd
    rw [List.nodup_append] at hnd
    obtain ⟨-, hnd, hdis⟩ := hnd
    have hc : Considerate s op := hk.considerate hp.1 fun x hx => hS x (List.mem_append_left _ hx)
    obtain ⟨h1, h2⟩ := decent_considerate ops (step_good h op (Considerate.safe h hc)) (step_known h hk op hp.1) (by
      rintro x hx (hs | hs)
      · exact hS x (List.mem_append_right _ hx) hs
      · exact hdis x hs x hx rfl) hnd hp.2
    refine ⟨⟨hc, h1⟩, h2.mono ?_⟩
    rintro x ((hx | hx) | hx)
    · exact Or.inl hx
    · exact Or.inr (by rw [e]; exact List.mem_append_left _ hx)
    · exact Or.inr (by rw [e]; exact List.mem_append_right _ hx)

/-! ### Views -/

/-- What is reached through children lists is a descendant, unless it is no node any more. -/
theorem Good.descendant_of_reach {t : Tree} (h : Good t) {x y : Id} (hr : Reach t.rawChildren x y) (hy : t.has y = true) : Descendant t y x := by
  rw [h.wf.descendant_up]
  have key : ∀ z, Reach t.rawChildren x z → t.has z = true → Reach t.rawParents z x := by
    intro z hz
    induction hz with
    | single hm => intro hh; exact Reach.single (h.wf.down _ _ hm hh)
    | @tail b c _ hm ih => intro hh; exact Reach.head (h.wf.down _ _ hm hh) (ih (Tree.has_of_mem_rawChildren hm))
  exact key y hr hy

theorem left_act (hdiff : SetDiff diff) {a : FApp V} {T : Tree → Prop} (h : VOver T diff a) (c : FAct V) (hf : LeftFair a c) :
    ∃ a', a.act diff c = .ok a' ∧ VOver (fun t => (∀ op, c ≠ .edit op) → t = a.s.t) diff a' := by
  have quiet : ∀ c : FAct V, (∀ op, c ≠ .edit op) → (∀ x v, c ≠ .change x v) → ViewFair a c →
      ∃ a', a.act diff c = .ok a' ∧ VOver (fun t => (∀ op, c ≠ .edit op) → t = a.s.t) diff a' := by
    intro c h1 h2 hc
    obtain ⟨a', e, h'⟩ := act_quietOver hdiff (T := fun t => t = a.s.t) ⟨h.good, rfl, h.bank, h.rootFree, h.flat, h.fit⟩ c h1 h2 hc
    exact ⟨a', e, h'.good, fun _ => h'.tidy, h'.bank, h'.rootFree, h'.flat, h'.fit⟩
  cases c with
  | edit op =>
    obtain ⟨hc, own, hadd, hdel⟩ := hf
    have hs := Considerate.safe h.good hc
    refine vover_of_watch h hs (fun hq => absurd rfl (hq op)) (edit_watchSafe hdiff h own op hs hadd ?_ ?_)
    · rintro x rfl _; exact Decent.kids hc.1
    · intro x e y hy
      by_cases hh : a.s.t.has y = true
      · rw [← h.good.wf.getParents_eq]
        exact hdel x e y (h.good.descendant_of_reach hy hh)
      · have : a.s.t.rawParents y = [] := by
          by_contra hc
          obtain ⟨q, hq⟩ := List.exists_mem_of_ne_nil _ hc
          exact hh (Tree.has_of_mem_rawParents hq)
        rw [this]; simp
  | change x v =>
    obtain ⟨a', e, h'⟩ := change_ownOver hdiff (T := fun t => t = a.s.t) ⟨h.good, rfl, h.bank, h.rootFree, h.flat, h.fit⟩ hf x v
    exact ⟨a', e, h'.good, fun _ => h'.tidy, h'.bank, h'.rootFree, h'.flat, h'.fit⟩
  | bank c => exact quiet _ (by rintro _ ⟨⟩) (by rintro _ _ ⟨⟩) hf
  | setParams n p => exact quiet _ (by rintro _ ⟨⟩) (by rintro _ _ ⟨⟩) hf
  | apply n p rs rf => exact quiet _ (by rintro _ ⟨⟩) (by rintro _ _ ⟨⟩) hf
  | unapply n rf => exact quiet _ (by rintro _ ⟨⟩) (by rintro _ _ ⟨⟩) hf
  | reset rf => exact quiet _ (by rintro _ ⟨⟩) (by rintro _ _ ⟨⟩) hf
  | currentState => exact hf.elim

theorem VOver.weaken {a : FApp V} {T T' : Tree → Prop} (h : VOver T diff a) (ht : T' a.s.t) : VOver T' diff a :=
  ⟨h.good, ht, h.bank, h.rootFree, h.flat, h.fit⟩

theorem left_run (hdiff : SetDiff diff) : ∀ (cs : List (FAct V)) {a : FApp V}, VOver (fun _ => True) diff a → LeftFairRun diff cs a →
    ∃ a', FApp.run diff cs a = .ok a' ∧ VOver (fun _ => True) diff a'
  | [], a, h, _ => ⟨a, rfl, h⟩
  | c :: cs, a, h, hf => by
    obtain ⟨a1, e1, h1⟩ := left_act hdiff h c hf.1
    have hf2 := hf.2
    rw [e1] at hf2
    obtain ⟨a', e', h'⟩ := left_run hdiff cs (h1.weaken trivial) hf2
    exact ⟨a', by unfold FApp.run; rw [e1]; exact e', h'⟩

/-- What an action does to the tree. -/
theorem act_tree {a a' : FApp V} {c : FAct V} {op : Op} (hc : c = .edit op) (e : a.act diff c = .ok a') : a'.s = (step a.s op).state := by
  subst hc
  have e : a.edit diff op = .ok a' := e
  unfold FApp.edit FApp.withFT at e
  dsimp only at e
  split at e
  · cases e; rfl
  · cases e

theorem newId_run (hdiff : SetDiff diff) : ∀ (cs : List (FAct V)) {S : Id → Prop} {a : FApp V}, VOver (Known S) diff a →
    (∀ x ∈ addedIds (editsOf cs), ¬ S x) → (addedIds (editsOf cs)).Nodup → NewIdFairRun diff cs a → LeftFairRun diff cs a
  | [], _, _, _, _, _, _ => trivial
  | c :: cs, S, a, h, hS, hnd, hf => by
    by_cases hq : ∃ op, c = .edit op
    · obtain ⟨op, rfl⟩ := hq
      have e : addedIds (editsOf (FAct.edit op :: cs)) = addedId op ++ addedIds (editsOf cs) := rfl
      rw [e] at hS hnd
      rw [List.nodup_append] at hnd
      obtain ⟨-, hnd, hdis⟩ := hnd
      obtain ⟨⟨hp, h2, h3, h4⟩, hf2⟩ := hf
      have hl : LeftFair a (.edit op) := ⟨h.tidy.considerate hp fun x hx => hS x (List.mem_append_left _ hx), h2, h3, h4⟩
      obtain ⟨a1, e1, h1⟩ := left_act hdiff h _ hl
      rw [e1] at hf2
      have hk : Known (fun x => S x ∨ x ∈ addedId op) a1.s.t := by rw [act_tree rfl e1]; exact step_known h.good h.tidy op hp
      refine ⟨hl, ?_⟩
      rw [e1]
      refine newId_run hdiff cs (h1.weaken hk) ?_ hnd hf2
      rintro x hx (hs | hs)
      · exact hS x (List.mem_append_right _ hx) hs
      · exact hdis x hs x hx rfl
    · have hl : LeftFair a c := by
        cases c with
        | edit op => exact absurd ⟨op, rfl⟩ hq
        | _ => exact hf.1
      have he : editsOf (c :: cs) = editsOf cs := by
        cases c with
        | edit op => exact absurd ⟨op, rfl⟩ hq
        | _ => rfl
      rw [he] at hS hnd
      obtain ⟨a1, e1, h1⟩ := left_act hdiff h c hl
      have hf2 := hf.2
      rw [e1] at hf2
      refine ⟨hl, ?_⟩
      rw [e1]
      exact newId_run hdiff cs (h1.weaken (by rw [h1.tidy fun op e => hq ⟨op, e⟩]; exact h.tidy)) hS hnd hf2

end Larch
