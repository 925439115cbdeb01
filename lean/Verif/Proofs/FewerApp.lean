import Verif.Proofs.FewerRemove

/-!
# A view with filters that look at the children of a node is right after every fair history
-/

namespace Larch

open Graph Spec

variable {V : Type} {diff : List Id → List Id → List Id}

theorem edit_watchFew (hdiff : SetDiff diff) {a : FApp V} (h : VState diff a) (op : Op) (hf : EditFair a op) (hb : FewerApplied a)
    (hone : PlainArrival a op) (hdel : PlainRemoval a op) :
    Watch diff a.bank a.data a.s a.ft (fun _ => False) (step a.s op).state := by
  obtain ⟨hc, hadd, -⟩ := hf
  have ht := hc.tidy h.good h.tidy
  have hs := ht.safe h.good h.tidy
  have w0 := watch_start h
  by_cases hl : op.isLocal = true
  · exact (step_keepsGood (few_keeps hb hdiff) h.good op hl hs (fun _ _ _ => trivial) (fun _ _ _ => trivial) ⟨h.good, w0⟩).2
  · cases op with
    | addNode nd p =>
      show Watch _ _ _ _ _ _ (addNode a.s nd p).state
      by_cases hx : a.s.t.has nd.id = true
      · rw [addNode_existing hx]; exact w0
      · obtain ⟨hm, hc⟩ := hc
        obtain ⟨-, -, -, hok⟩ := hc.resolve_left hx
        have hg := step_good h.good (.addNode nd p) hs
        change Good (addNode a.s nd p).state.t at hg
        cases hr : addNode a.s nd p with
        | err e s' => rw [hr] at hok; cases hok
        | ok s' =>
          obtain ⟨t', rfl, har⟩ := addNode_arrived h.good hm.fresh (by simpa using hx) hr
          rw [hr] at hg
          refine w0.addedFew hb hdiff h.good.wf hg.wf har (by simpa using hx) (hadd nd p rfl) ?_
          have h1 := hone nd p rfl (by simpa using hx)
          rw [hr] at h1
          have hgp : t'.getParents = t'.rawParents := funext hg.wf.getParents_eq
          unfold IsParent at h1
          change (∀ q, q ∉ t'.getParents nd.id) ∨ (_ → ∀ c, nd.id ∉ t'.getParents c) ∧ (t'.getParents nd.id).length ≤ 1 at h1
          rw [hgp] at h1
          rw [List.eq_nil_iff_forall_not_mem]
          exact h1.imp id fun h2 => ⟨fun h3 => h2.1 ((accepts_iff (a := { a with s := ⟨t', a.s.log⟩ }) hg.wf nd.id).1 h3), h2.2⟩
    | delNode x r =>
      by_cases hx : a.s.t.has x = true
      · cases r with
        | true =>
          show Watch _ _ _ _ _ _ (removeNode (removeFuel a.s.t) a.s x true).state
          refine few_removeRecursive hb hdiff h.good.wf hx ?_ w0
          intro y hy
          rw [← h.good.wf.getParents_eq]
          rcases hy with rfl | hy
          · exact hc.1
          · exact hdel x rfl y ((h.good.descendant_down h.tidy y x).2 hy)
        | false =>
          show Watch _ _ _ _ _ _ (removeNode (a.s.t.nodes.entries.length + 1) a.s x false).state
          refine few_removeOrphan hb hdiff h.good hx (fun c hcx => h.tidy x c hcx) ?_ _ w0
          rw [← h.good.wf.getParents_eq]; exact hc
      · have : (step a.s (.delNode x r)).state = a.s := by
          show (removeNode (a.s.t.nodes.entries.length + 1) a.s x r).state = a.s
          unfold removeNode; rw [if_pos (by simp [hx])]; rfl
        rw [this]; exact w0
    | _ => exact absurd rfl hl

theorem change_few (hdiff : SetDiff diff) {a : FApp V} (h : VState diff a) (hb : FewerApplied a) (x : Id) (v : V) :
    ∃ a', a.act diff (.change x v) = .ok a' ∧ VState diff a' :=
  vstate_of_change h x v (fun hx => change_fitD (b := a.bank) hdiff h.good.wf h.rootFree hx (d := a.data)
      (fun y hy => accepts_kids hb h.good.wf h.good.wf rfl (if_neg hy).symm fun z => Iff.rfl) h.fit .modified)
    fun _ y hy => accepts_kids hb h.good.wf h.good.wf rfl (if_neg hy).symm fun z => Iff.rfl

end Larch
