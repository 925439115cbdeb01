import Verif.Proofs.Keeps
import Verif.Proofs.History

/-! # Tidy histories leave no dangling children -/

namespace Larch

open Graph

theorem NoDangling.congr {t t' : Tree} (h : NoDangling t) (hh : ∀ y, t.has y = true → t'.has y = true)
    (hc : ∀ y c, c ∈ t'.rawChildren y → c ∈ t.rawChildren y) : NoDangling t' :=
  fun p c hpc => hh c (h p c (hc p c hpc))

theorem NoDangling.create {t t' : Tree} (h : NoDangling t) {p c : Id} (hc : t.create p c = some t') :
    NoDangling t' := by
  obtain ⟨-, hhc, ef⟩ := Tree.create_eq_some hc
  intro q d hq
  rw [ef.has]
  rw [ef.children] at hq
  split at hq
  · rcases (mem_appendNew _ _ _).1 hq with hq | rfl
    · exact h _ _ hq
    · exact hhc
  · exact h _ _ hq

theorem rawChildren_updNode_same (t : Tree) (x : Id) (f : Node → Node) (hf : ∀ nd, (f nd).children = nd.children)
    (y : Id) : (t.updNode x f).rawChildren y = t.rawChildren y := by
  unfold Tree.rawChildren
  rw [Tree.node?_updNode]
  by_cases h : y = x
  · subst h; rw [if_pos rfl]; cases t.node? y <;> simp [hf]
  · rw [if_neg h]

theorem noDangling_keeps : Keeps (fun s => NoDangling s.t) where
  nodes := by
    intro s s' h hn _
    refine h.congr (fun y hy => ?_) (fun y c hc => ?_)
    · unfold Tree.has at *; rwa [hn]
    · unfold Tree.rawChildren Tree.node? at *; rwa [hn] at hc
  create := fun h hc _ => h.create hc
  destroy := by
    intro s p c t' h hc
    have ef := (Tree.destroy_eq_some hc).2.2
    refine h.congr (fun y hy => by rw [ef.has]; exact hy) (fun y d hd => ?_)
    rw [ef.children] at hd
    split at hd
    · rename_i e; subst e; exact List.mem_of_mem_erase hd
    · exact hd
  eraseParent := by
    intro s h x p
    refine NoDangling.congr h (fun y hy => ?_) (fun y c hc => ?_)
    · exact (Tree.has_updNode _ _ _ _).trans hy
    · have e := rawChildren_updNode_same s.t x (fun nd => { nd with parents := nd.parents.erase p }) (fun _ => rfl) y
      exact e ▸ hc
  appendChild := by
    intro s h x c hc p d hd
    refine (Tree.has_updNode s.t x _ d).trans ?_
    by_cases hx : s.t.has x = true
    · have := Tree.rawChildren_updChildren s.t x (fun l => l ++ [c]) hx p
      change d ∈ (s.t.updNode x _).rawChildren p at hd
      rw [this] at hd
      split at hd
      · rcases List.mem_append.1 hd with hd | hd
        · exact h _ _ hd
        · simp at hd; subst hd; exact hc
      · exact h _ _ hd
    · have hp := Tree.has_of_mem_rawChildren hd
      have hp' : s.t.has p = true := (Tree.has_updNode s.t x _ p).symm.trans hp
      have hne : p ≠ x := by rintro rfl; exact hx hp'
      change d ∈ (s.t.updNode x _).rawChildren p at hd
      unfold Tree.rawChildren at hd
      rw [Tree.node?_updNode, if_neg hne] at hd
      exact h _ _ hd
  setParentsEnabled := by
    intro s h x p
    refine NoDangling.congr h (fun y hy => ?_) (fun y c hc => ?_)
    · exact (Tree.has_updNode _ _ _ _).trans hy
    · have e := rawChildren_updNode_same s.t x (fun nd => { nd with parentsEnabled := p }) (fun _ => rfl) y
      exact e ▸ hc
  setChildrenEnabled := by
    intro s h x p
    refine NoDangling.congr h (fun y hy => ?_) (fun y c hc => ?_)
    · exact (Tree.has_updNode _ _ _ _).trans hy
    · have e := rawChildren_updNode_same s.t x (fun nd => { nd with childrenEnabled := p }) (fun _ => rfl) y
      exact e ▸ hc
  modified := fun h _ _ => h

theorem PendStep.noDangling {x : Id} {r : Id × Id} {t t' : Tree} {b b' : Bool} (hs : PendStep x r t b t' b')
    (h : NoDangling t) : NoDangling t' := by
  cases hs with
  | skip => exact h
  | drop => exact h
  | asChild t2 _ _ _ hc => exact (h.create hc : NoDangling t2)
  | asParent t2 _ _ _ hc => exact (h.create hc : NoDangling t2)

theorem addNode_noDangling {s : St} {nd : Node} {parent : Id} (h : UpInv s.t) (hn : NoDangling s.t)
    (hp : nd.parents = []) (hc : nd.children = []) : NoDangling (addNode s nd parent).state.t := by
  by_cases hx : s.t.has nd.id = true
  · rw [addNode_existing hx]; exact hn
  · obtain ⟨t, b, -, -, -, hd, hend⟩ := addNode_spec s nd parent hp h (by simpa using hx)
      (fun _ t _ => NoDangling t) (by
        intro p c hpc
        rw [rawChildren_insertNode] at hpc
        rw [has_insertNode]
        split at hpc
        · rw [hc] at hpc; simp at hpc
        · simp [hn p c hpc]) (fun _ _ _ _ _ _ _ _ h hs => hs.noDangling h)
    have fin : ∀ log t b, NoDangling t → NoDangling (finishAdd log t b nd.id).t := by
      intro log t b ht
      unfold finishAdd
      cases b <;> exact ht
    generalize addNode s nd parent = r at hend
    cases hend with
    | noParent => exact fin _ _ _ hd
    | circular => exact hd
    | linked t' _ _ _ hc => exact fin _ _ _ (hd.create hc)
    | later => exact fin _ _ _ hd

theorem removeNode_noDangling {s : St} (h : Good s.t) (hn : NoDangling s.t) (x : Id) (r : Bool)
    (ht : Tidy s (.delNode x r)) : NoDangling (removeNode (removeFuel s.t) s x r).state.t := by
  have hgp := h.wf.getParents_eq
  cases r with
  | true =>
    obtain ⟨s', e, ef, hh, hlast⟩ := removeNode_recursive h.wf x
    rw [e]
    obtain ⟨hl, hd⟩ := ht
    intro p c hpc
    have hpc0 := (ef.children p).mem hpc
    have hp' : s'.t.has p = true := Tree.has_of_mem_rawChildren hpc
    rw [Res.state_ok, hh]
    refine ⟨hn p c hpc0, ?_⟩
    rintro (rfl | hr)
    · have := (hlast (hn p _ hpc0) p).1 hpc
      rw [everySecond_short (by rw [← hgp]; exact hl)] at this
      cases this
    · have := hd c hr p (by rw [hgp]; exact h.wf.down p c hpc0 (hn p c hpc0))
      exact ((hh p).1 hp').2 this
  | false =>
    by_cases hx : s.t.has x = true
    · obtain ⟨s', e, ef, hlast⟩ := removeNode_orphan h hx (fun c hc => hn x c hc) s.t.nodes.entries.length
      unfold removeFuel
      rw [e]
      intro p c hpc
      rw [Res.state_ok, ef.has]
      refine ⟨hn p c ((ef.childrenSub p).mem hpc), ?_⟩
      rintro rfl
      have := (hlast p).1 hpc
      rw [everySecond_short (by rw [← hgp]; exact ht)] at this
      cases this
    · unfold removeFuel removeNode; rw [if_pos (by simp [hx])]; exact hn

theorem step_noDangling {s : St} (h : Good s.t) (hn : NoDangling s.t) (op : Op) (ht : Tidy s op) :
    NoDangling (step s op).state.t := by
  by_cases hl : op.isLocal = true
  · exact step_keeps noDangling_keeps s op hl hn
  · cases op with
    | addNode nd p => exact addNode_noDangling h.wf.upInv hn ht.1.parents ht.1.children
    | delNode x r => exact removeNode_noDangling h hn x r ht
    | _ => exact absurd rfl hl

theorem init_noDangling : NoDangling Tree.init := by intro p c h; cases h

theorem runOps_tidy (ops : List Op) (s : St) (h : Good s.t) (hn : NoDangling s.t)
    (ht : Spec.Along Tidy s ops) : Good (runOps s ops).t ∧ NoDangling (runOps s ops).t := by
  induction ops generalizing s with
  | nil => exact ⟨h, hn⟩
  | cons op ops ih =>
    exact ih _ (step_good h op (ht.1.safe h hn)) (step_noDangling h hn op ht.1) ht.2

end Larch
