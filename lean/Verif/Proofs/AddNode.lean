import Verif.Proofs.NodeEdits

/-!
# `add_node` on consistent trees
-/

namespace Larch

open Graph

/-- The relations that `add_node` will try to realise respect the flags. -/
def AddLinkable (t : Tree) (nd : Node) (parent : Id) : Prop :=
  (∀ p c, ((p, c) ∈ t.pending ∨ (p, c) ∈ nd.pending) → p = nd.id ∨ c = nd.id →
    (insertNode t nd).Linkable p c) ∧ (parent ≠ .none → (insertNode t nd).Linkable parent nd.id)

/-- What a node handed to `add_node` looks like if nothing but the public methods of a detached
node were used on it. -/
structure FreshNode (nd : Node) : Prop where
  parents : nd.parents = []
  children : nd.children = []
  pending : ∀ r ∈ nd.pending, r.1 = nd.id ∨ r.2 = nd.id

theorem rawParents_insertNode (t : Tree) (nd : Node) (y : Id) :
    (insertNode t nd).rawParents y = if y = nd.id then nd.parents else t.rawParents y := by
  unfold Tree.rawParents Tree.node? insertNode
  simp only [Dict.get?_set]
  split <;> simp_all

theorem rawChildren_insertNode (t : Tree) (nd : Node) (y : Id) :
    (insertNode t nd).rawChildren y = if y = nd.id then nd.children else t.rawChildren y := by
  unfold Tree.rawChildren Tree.node? insertNode
  simp only [Dict.get?_set]
  split <;> simp_all

theorem node?_insertNode (t : Tree) (nd : Node) (y : Id) :
    (insertNode t nd).node? y =
      if y = nd.id then some { nd with hasTree := true, pending := [] } else t.node? y := by
  unfold Tree.node? insertNode
  simp only [Dict.get?_set]

theorem mem_mergePending (tp np : List (Id × Id)) (r : Id × Id) :
    r ∈ mergePending tp np ↔ r ∈ tp ∨ r ∈ np := by
  unfold mergePending
  induction np generalizing tp with
  | nil => simp
  | cons a np ih =>
    rw [List.foldl_cons, ih, mem_appendNew]
    simp only [List.mem_cons]; tauto

theorem WF.insertNode {t : Tree} (h : WF t) {nd : Node} (hf : FreshNode nd) (hx : t.has nd.id = false)
    (hid : nd.id.falsy = false ∧ nd.id ≠ rootId) (hd : ∀ q, nd.id ∉ t.rawChildren q) :
    WF (Larch.insertNode t nd) := by
  have hp0 : ∀ c, nd.id ∉ t.rawParents c := by
    intro c hc
    have := h.has_parent hc
    rw [hx] at this; cases this
  constructor
  · show (t.nodes.set nd.id _).keys.Nodup
    rw [Dict.keys_set, if_neg (by unfold Tree.has at hx; simp [hx])]
    rw [List.nodup_append]
    refine ⟨h.keys, by simp, ?_⟩
    rintro a ha b hb rfl
    simp at hb; subst hb
    rw [Dict.mem_keys] at ha
    unfold Tree.has at hx; rw [hx] at ha; cases ha
  · intro x nd' hn
    rw [node?_insertNode] at hn
    split at hn
    · rename_i e; cases hn; exact ⟨e.symm, rfl⟩
    · exact h.self x nd' hn
  · intro x hh
    rw [has_insertNode] at hh
    by_cases e : x = nd.id
    · rw [e]; exact hid
    · simp [e] at hh; exact h.ids x hh
  · exact h.rootIs
  · exact h.rootTree
  · exact h.rootKids
  · intro p c hpc
    rw [rawParents_insertNode] at hpc
    rw [rawChildren_insertNode]
    split at hpc
    · rw [hf.parents] at hpc; simp at hpc
    · rw [if_neg (by rintro rfl; exact hp0 c hpc)]
      exact h.up p c hpc
  · intro p c hpc hh
    rw [rawChildren_insertNode] at hpc
    rw [rawParents_insertNode]
    split at hpc
    · rw [hf.children] at hpc; simp at hpc
    · have hcx : c ≠ nd.id := by rintro rfl; exact hd p hpc
      rw [if_neg hcx]
      rw [has_insertNode] at hh
      simp [hcx] at hh
      exact h.down p c hpc hh
  · intro x; rw [rawParents_insertNode]; split
    · rw [hf.parents]; exact List.nodup_nil
    · exact h.ndP x
  · intro x; rw [rawChildren_insertNode]; split
    · rw [hf.children]; exact List.nodup_nil
    · exact h.ndC x
  · exact (h.upInv.insertNode nd hf.parents).acyclic
  · intro x nd' hn hfl
    rw [node?_insertNode] at hn
    split at hn
    · cases hn; exact hf.parents
    · exact h.flagP x nd' hn hfl
  · intro x nd' hn hfl c hc
    rw [node?_insertNode] at hn
    split at hn
    · cases hn; dsimp only at hc; rw [hf.children] at hc; simp at hc
    · rw [has_insertNode]
      have hcx : c ≠ nd.id := by
        rintro rfl; exact hd x (by rw [Tree.rawChildren_of_node hn]; exact hc)
      simp [hcx, h.flagC x nd' hn hfl c hc]

/-- A pending relation that the arrival of `x` settles. -/
def Settles (t : Tree) (x : Id) (r : Id × Id) : Prop :=
  (r.2 = x ∧ t.has r.1 = true) ∨ (r.1 = x ∧ t.has r.2 = true)

/-- Invariant of the loop over the pending relations in `_add_node`. -/
structure AddInv (t0 : Tree) (x : Id) (l : List (Id × Id)) (t : Tree) (b : Bool) : Prop where
  wf : WF t
  same : SameAttrs t0 t
  root : RootOK t (fun y => y = x)
  toRoot : b = true ↔ t.rawParents x = []
  sub : ∀ r, r ∈ t.pending → r ∈ t0.pending
  left : ∀ r, Settles t x r → t.pending.count r ≤ l.count r
  todo : ∀ r, r ∈ l → r ∈ t0.pending

theorem AddInv.step {t0 : Tree} {x : Id} (hlink : ∀ r ∈ t0.pending, r.1 = x ∨ r.2 = x → t0.Linkable r.1 r.2)
    {r : Id × Id} {l : List (Id × Id)} {t t' : Tree} {b b' : Bool} (h : AddInv t0 x (r :: l) t b)
    (hx : t.has x = true) (hs : PendStep x r t b t' b') : AddInv t0 x l t' b' := by
  have hr : r ∈ t0.pending := h.todo r (by simp)
  have htodo : ∀ q, q ∈ l → q ∈ t0.pending := fun q hq => h.todo q (by simp [hq])
  have cnt : ∀ q, Settles t x q → (t.pending.erase r).count q ≤ l.count q := by
    intro q hq
    have := h.left q hq
    rw [List.count_cons] at this
    rw [List.count_erase]
    by_cases e : r = q
    · subst e; simp at this ⊢; omega
    · have e' : (r == q) = false := by simpa using e
      simp [e'] at this ⊢; omega
  have hset : ∀ t'' : Tree, (∀ y, t''.has y = t.has y) → ∀ q, Settles t'' x q → Settles t x q := by
    intro t'' hh q hq
    unfold Settles at *
    rwa [hh, hh] at hq
  cases hs with
  | skip h1 h2 =>
    refine ⟨h.wf, h.same, h.root, h.toRoot, h.sub, ?_, htodo⟩
    intro q hq
    have := h.left q hq
    have hqr : q ≠ r := by rintro rfl; rcases hq with hq | hq; exacts [h1 hq, h2 hq]
    rwa [List.count_cons_of_ne (Ne.symm hqr)] at this
  | drop l' hm hre hl =>
    refine ⟨h.wf.pending _, ?_, h.root.congr rfl rfl, h.toRoot, ?_, ?_, htodo⟩
    · exact ⟨h.same.keys, h.same.attrs, h.same.rootId, h.same.rootTree, h.same.rootKids⟩
    · intro q hq
      apply h.sub
      rcases hl with rfl | rfl
      · exact List.mem_of_mem_erase hq
      · exact List.mem_of_mem_erase (List.mem_of_mem_erase hq)
    · intro q hq
      have := cnt q hq
      rcases hl with rfl | rfl
      · exact this
      · exact le_trans ((List.erase_sublist).count_le q) this
  | asChild t2 hrx hp hn hc =>
    obtain ⟨-, -, e⟩ := Tree.create_eq_some hc
    have hl := h.same.linkable (hlink r hr (Or.inr hrx))
    refine ⟨(h.wf.create hc hn hl).pending _, ?_, (h.root.create hc).congr rfl rfl, ?_, ?_, ?_, htodo⟩
    · have := h.same.trans e.same
      exact ⟨this.keys, this.attrs, this.rootId, this.rootTree, this.rootKids⟩
    · simp only [Bool.false_eq_true, false_iff]
      show t2.rawParents x ≠ []
      rw [e.parents, if_pos hrx.symm]
      exact List.ne_nil_of_mem ((mem_appendNew _ _ _).2 (Or.inr rfl))
    · intro q hq
      dsimp only at hq
      rw [e.pending] at hq
      exact h.sub q (List.mem_of_mem_erase hq)
    · intro q hq
      show (t2.pending.erase r).count q ≤ _
      rw [e.pending]
      exact cnt q (hset t2 e.has q hq)
  | asParent t2 hrx hp hn hc =>
    obtain ⟨-, -, e⟩ := Tree.create_eq_some hc
    have hl := h.same.linkable (hlink r hr (Or.inl hrx))
    refine ⟨(h.wf.create hc hn hl).pending _, ?_, (h.root.create hc).congr rfl rfl, ?_, ?_, ?_, htodo⟩
    · have := h.same.trans e.same
      exact ⟨this.keys, this.attrs, this.rootId, this.rootTree, this.rootKids⟩
    · have hne : x ≠ r.2 := by
        rintro e2; exact hn (Or.inl (hrx.trans e2))
      show b = true ↔ t2.rawParents x = []
      rw [e.parents, if_neg hne]
      exact h.toRoot
    · intro q hq
      dsimp only at hq
      rw [e.pending] at hq
      exact h.sub q (List.mem_of_mem_erase hq)
    · intro q hq
      show (t2.pending.erase r).count q ≤ _
      rw [e.pending]
      exact cnt q (hset t2 e.has q hq)

theorem finishAdd_good {t : Tree} {x : Id} {b : Bool} (log : List Note) (hw : WF t)
    (hr : RootOK t (fun y => y = x)) (hp : PendOK t) (hx : t.has x = true)
    (hb : b = true ↔ t.rawParents x = []) : Good (finishAdd log t b x).t := by
  unfold finishAdd
  cases b with
  | true =>
    refine ⟨hw.updRoot (fun l => l ++ [x]), ?_, hp⟩
    refine RootOK.weaken (hr.append hx (hb.1 rfl) rfl) ?_
    intro y _ _
    simp [noneOf]
  | false =>
    refine ⟨hw, hr.weaken ?_, hp⟩
    intro y _ hy
    simp only [noneOf, iff_false]
    rintro rfl
    have := hb.2 hy; cases this

/-- Outcome of `add_node` for a new node on a consistent tree. -/
theorem addNode_good {s : St} (h : Good s.t) {nd : Node} {parent : Id} (hf : FreshNode nd)
    (hx : s.t.has nd.id = false) (hid : nd.id.falsy = false ∧ nd.id ≠ rootId)
    (hd : ∀ q, nd.id ∉ s.t.rawChildren q) (hl : AddLinkable s.t nd parent)
    (hok : (addNode s nd parent).isOk = true) : Good (addNode s nd parent).state.t := by
  have hw0 := h.wf.insertNode hf hx hid hd
  have h0 : AddInv (insertNode s.t nd) nd.id (insertNode s.t nd).pending (insertNode s.t nd) true := by
    refine ⟨hw0, SameAttrs.refl _, ?_, ?_, fun r h => h, fun r _ => le_refl _, fun r h => h⟩
    · refine ⟨h.root.nodup, fun y => ?_⟩
      show y ∈ s.t.root.children ↔ _
      rw [h.root.mem, has_insertNode, rawParents_insertNode]
      by_cases e : y = nd.id
      · rw [e, hx]; simp
      · simp [e, noneOf]
    · simp [rawParents_insertNode, hf.parents]
  have hlink : ∀ r ∈ (insertNode s.t nd).pending, r.1 = nd.id ∨ r.2 = nd.id →
      (insertNode s.t nd).Linkable r.1 r.2 := by
    intro r hr hm
    exact hl.1 r.1 r.2 ((mem_mergePending _ _ _).1 hr) hm
  obtain ⟨t, b, -, hu, hxt, hinv, hend⟩ := addNode_spec s nd parent hf.parents h.wf.upInv hx
    (AddInv (insertNode s.t nd) nd.id) h0
    (fun r l t b t' b' _ hx hi hs => hi.step hlink hx hs)
  have hp : PendOK t := by
    intro p c hpc ⟨h1, h2⟩
    have hns : ¬ Settles t nd.id (p, c) := by
      intro hs
      have := hinv.left _ hs
      rw [List.count_nil] at this
      have := List.count_pos_iff.2 hpc
      omega
    have hnp : p ≠ nd.id := fun e => hns (Or.inr ⟨e, h2⟩)
    have hnc : c ≠ nd.id := fun e => hns (Or.inl ⟨e, h1⟩)
    have hm := (mem_mergePending _ _ _).1 (hinv.sub _ hpc)
    rw [hinv.same.has, has_insertNode] at h1 h2
    simp [hnp] at h1
    simp [hnc] at h2
    rcases hm with hm | hm
    · exact h.pend p c hm ⟨h1, h2⟩
    · rcases hf.pending _ hm with e | e
      · exact hnp e
      · exact hnc e
  generalize addNode s nd parent = r at hend hok
  cases hend with
  | noParent => exact finishAdd_good _ hinv.wf hinv.root hp hxt hinv.toRoot
  | circular => cases hok
  | linked t' hne hn hh hc =>
    obtain ⟨-, -, e⟩ := Tree.create_eq_some hc
    refine finishAdd_good _ (hinv.wf.create hc hn (hinv.same.linkable (hl.2 hne))) (hinv.root.create hc)
      (e.pendOK hp) (by rw [e.has]; exact hxt) ?_
    simp only [Bool.false_eq_true, false_iff]
    rw [e.parents, if_pos rfl]
    exact List.ne_nil_of_mem ((mem_appendNew _ _ _).2 (Or.inr rfl))
  | later hne hn hh =>
    refine finishAdd_good _ (hinv.wf.pending _) (hinv.root.congr rfl rfl) ?_ hxt hinv.toRoot
    intro p c hpc
    rcases List.mem_append.1 hpc with hpc | hpc
    · exact hp p c hpc
    · simp at hpc
      obtain ⟨rfl, rfl⟩ := hpc
      show ¬ (t.has p = true ∧ _)
      simp [hh]

theorem addNode_existing {s : St} {nd : Node} (hx : s.t.has nd.id = true) (parent : Id) :
    addNode s nd parent = .ok s := by
  unfold addNode; rw [if_pos hx]

end Larch
