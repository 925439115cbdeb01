import Verif.Proofs.BelowRemove
import Verif.Proofs.FewerApp

/-!
# A view with filters that look at everything below a node is right after every fair history
-/

namespace Larch

open Graph Spec

variable {V : Type} {diff : List Id → List Id → List Id}

theorem edit_watchBelow (hdiff : SetDiff diff) {a : FApp V} (h : VState diff a) (hflat : a.ft.flat = false) (op : Op)
    (hf : EditFair a op) (hb : BelowApplied a) (h1 : SingleParent a.s.t) (h1' : SingleParent (step a.s op).state.t) :
    Watch diff a.bank a.data a.s a.ft (fun _ => False) (step a.s op).state := by
  obtain ⟨hc, hadd, hdel⟩ := hf
  have ht := hc.tidy h.good h.tidy
  have hs := ht.safe h.good h.tidy
  have h1 := h.good.wf.oneUp h1
  have hg := step_good h.good op hs
  have h1' := hg.wf.oneUp h1'
  have w0 := watch_start h
  by_cases hl : op.isLocal = true
  · exact below_local hb hdiff hflat h.good op hl hs h1 h1' w0
  · cases op with
    | addNode nd p =>
      show Watch _ _ _ _ _ _ (addNode a.s nd p).state
      by_cases hx : a.s.t.has nd.id = true
      · rw [addNode_existing hx]; exact w0
      · obtain ⟨hm, hc⟩ := hc
        obtain ⟨-, -, -, hok⟩ := hc.resolve_left hx
        change Good (addNode a.s nd p).state.t at hg
        change OneUp (addNode a.s nd p).state.t at h1'
        cases hr : addNode a.s nd p with
        | err e s' => rw [hr] at hok; cases hok
        | ok s' =>
          obtain ⟨t', rfl, har⟩ := addNode_arrived h.good hm.fresh (by simpa using hx) hr
          rw [hr] at hg h1'
          exact w0.addedBelow hb hdiff hflat h.good.wf hg.wf h1 h1' har (by simpa using hx) (hadd nd p rfl)
    | delNode x r =>
      by_cases hx : a.s.t.has x = true
      · cases r with
        | true =>
          show Watch _ _ _ _ _ _ (removeNode (removeFuel a.s.t) a.s x true).state
          exact below_removeRecursive hb hdiff hflat h.good.wf hx h1 w0
        | false =>
          show Watch _ _ _ _ _ _ (removeNode (a.s.t.nodes.entries.length + 1) a.s x false).state
          exact below_removeOrphan hb hdiff hflat h.good hx (fun c hcx => h.tidy x c hcx) h1 _ w0
      · have : (step a.s (.delNode x r)).state = a.s := by
          show (removeNode (a.s.t.nodes.entries.length + 1) a.s x r).state = a.s
          unfold removeNode; rw [if_pos (by simp [hx])]; rfl
        rw [this]; exact w0
    | _ => exact absurd rfl hl

theorem change_belowApp (hdiff : SetDiff diff) {a : FApp V} (h : VState diff a) (hb : BelowApplied a) (hflat : ¬ FlatView a)
    (h1 : SingleParent a.s.t) (x : Id) (v : V) : ∃ a', a.act diff (.change x v) = .ok a' ∧ VState diff a' := by
  have h1 := h.good.wf.oneUp h1
  refine vstate_of_change h x v (fun hx => change_below (b := a.bank) hb hdiff (h.notFlat hflat) h.good.wf h1 h.rootFree hx (d := a.data)
    (fun y hy => (if_neg hy).symm) h.fit .modified) fun hxf y _ => ?_
  cases hy : a.s.t.has y with
  | false => unfold FT.accepts; rw [hy]; simp
  | true =>
    refine accepts_below hb h.good.wf h.good.wf rfl fun z hz => ⟨(if_neg ?_).symm, fun c => Iff.rfl⟩
    rintro rfl
    rcases hz with rfl | hz
    · rw [hy] at hxf; cases hxf
    · obtain ⟨q, hq, -⟩ := Relation.TransGen.head'_iff.1 hz
      rw [Tree.has_of_mem_rawParents hq] at hxf; cases hxf

/-! ### All kinds of filters -/

theorem edit_watch (hdiff : SetDiff diff) {a : FApp V} (h : VState diff a) (op : Op) (hf : ViewFair a (.edit op)) :
    Watch diff a.bank a.data a.s a.ft (fun _ => False) (step a.s op).state := by
  obtain ⟨he, hk | ⟨hk, hp⟩ | ⟨hk, hfl, h1, h2⟩⟩ := hf
  · exact edit_watchOwn hdiff h hk op he
  · exact edit_watchFew hdiff h op he hk hp.1 hp.2
  · exact edit_watchBelow hdiff h (h.notFlat hfl) op he hk h1 h2

theorem edit_vstate (hdiff : SetDiff diff) {a : FApp V} (h : VState diff a) (op : Op) (hf : ViewFair a (.edit op)) :
    ∃ a', a.edit diff op = .ok a' ∧ VState diff a' :=
  vstate_of_watch h hf.1.1 (edit_watch hdiff h op hf)

theorem change_vstate (hdiff : SetDiff diff) {a : FApp V} (h : VState diff a) (x : Id) (v : V) (hf : FollowsData a) :
    ∃ a', a.act diff (.change x v) = .ok a' ∧ VState diff a' := by
  obtain hk | hk | ⟨hk, hfl, h1⟩ := hf
  · exact change_own hdiff h hk x v
  · exact change_few hdiff h hk x v
  · exact change_belowApp hdiff h hk hfl h1 x v

/-- The data of `x` change. If it is accepted afterwards, then everything else that was accepted is still accepted. -/
theorem change_keeps {a : FApp V} (hw : WF a.s.t) (hf : FollowsData a) {x y : Id} {d' : Id → V} (hd : ∀ z, z ≠ x → a.data z = d' z)
    (hx : FT.accepts a.bank a.s.t d' a.ft.applied x = true) (hy : y ≠ x) (h : FT.accepts a.bank a.s.t a.data a.ft.applied y = true) :
    FT.accepts a.bank a.s.t d' a.ft.applied y = true := by
  obtain hk | hk | ⟨hk, -, -⟩ := hf
  · rw [accepts_own hk (t := a.s.t) (d := a.data) rfl (hd y hy).symm]; exact h
  · rw [accepts_kids hk hw hw rfl (hd y hy) fun z => Iff.rfl]; exact h
  · by_cases hr : Reach a.s.t.rawParents x y
    · clear h hy
      induction hr with
      | single h1 => exact accepts_up hk hw h1 hx
      | tail _ h1 ih => exact accepts_up hk hw h1 ih
    · rw [accepts_below hk hw hw (d := a.data) (d' := d') rfl fun z hz => ⟨hd z ?_, fun c => Iff.rfl⟩]
      · exact h
      · rintro rfl
        rcases hz with rfl | hz
        · exact hy rfl
        · exact hr hz

theorem act_vstate (hdiff : SetDiff diff) {a : FApp V} (h : VState diff a) (c : FAct V) (hf : ViewFair a c) :
    ∃ a', a.act diff c = .ok a' ∧ VState diff a' := by
  by_cases h1 : ∃ op, c = .edit op
  · obtain ⟨op, rfl⟩ := h1
    exact edit_vstate hdiff h op hf
  · by_cases h2 : ∃ x v, c = .change x v
    · obtain ⟨x, v, rfl⟩ := h2
      exact change_vstate hdiff h x v hf
    · exact act_quiet hdiff h c (fun op e => h1 ⟨op, e⟩) (fun x v e => h2 ⟨x, v, e⟩) hf

theorem run_vstate (hdiff : SetDiff diff) (cs : List (FAct V)) (a : FApp V) (h : VState diff a) (hf : ViewFairRun diff cs a) :
    ∃ a', FApp.run diff cs a = .ok a' ∧ VState diff a' := by
  induction cs generalizing a with
  | nil => exact ⟨a, rfl, h⟩
  | cons c cs ih =>
    obtain ⟨a1, e1, h1⟩ := act_vstate hdiff h c hf.1
    have hf2 := hf.2
    rw [e1] at hf2
    obtain ⟨a2, e2, h2⟩ := ih a1 h1 hf2
    exact ⟨a2, by unfold FApp.run; rw [e1]; exact e2, h2⟩

end Larch
