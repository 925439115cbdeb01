import Verif.Proofs.Kept
import Verif.Props.Removal
import Verif.Props.Consistency

/-!
# C63: node objects that have left the tree
-/

namespace Larch

open Graph Spec

/-! ### What leaves the tree -/

/-- C63: what a careful removal leaves in the hands of the program: one object for each node that is gone, with the flags of the
node, and without parents, children or requests. Nothing raises. Missing for the literal claim: see `C63_refuted_parents`. -/
theorem C63_removed_partial (ds : List Deed) (hc : AlongHome CarefulDeed Home.init ds) (x : Id) (r : Bool)
    (hd : CarefulDeed (Home.init.run ds) (.edit (.delNode x r))) :
    ∃ s' objs, (Home.init.run ds).step (.edit (.delNode x r)) = .ok ⟨s', (Home.init.run ds).kept ++ objs⟩ ∧
      LeftBare (Home.init.run ds).s.t s'.t objs := by
  have hk := init_homeOK.run ds hc
  obtain ⟨s', objs, e, -, hl⟩ := hk.removed x r hd
  refine ⟨s', objs, e, hl.once, hl.who, fun nd hm => ?_, fun nd hm => ?_⟩
  · obtain ⟨old, ho⟩ := (Tree.has_iff _ _).1 ((hl.who nd.id).1 (List.mem_map_of_mem hm)).1
    have h1 := hl.same nd hm
    rw [nodeAttrs_some ho] at h1
    have h2 := Option.some.inj h1
    exact ⟨old, ho, congrArg (fun a => a.2.1) h2.symm, congrArg (fun a => a.2.2.1) h2.symm⟩
  · have hb := hk.attrs_left hl hm
    exact ⟨hb.parents, hb.children, hb.pending⟩

/-- C63: handing a removed object to `add_node` is the same as handing over a newly made one with its name and flags. -/
theorem C63_again_partial (ds : List Deed) (hc : AlongHome CarefulDeed Home.init ds) (k : Nat) (nd : Node)
    (hn : (Home.init.run ds).kept[k]? = some nd) :
    ∃ new, Made new ∧ new.id = nd.id ∧ new.parentsEnabled = nd.parentsEnabled ∧ new.childrenEnabled = nd.childrenEnabled ∧
      new.pending = [] ∧ ∀ parent, addNode (Home.init.run ds).s nd parent = addNode (Home.init.run ds).s new parent := by
  have hb := (init_homeOK.run ds hc).kept nd (List.mem_of_getElem? hn)
  exact ⟨{ nd with hasTree := false }, hb.made, rfl, rfl, rfl, hb.pending, fun _ => rfl⟩

/-- C63: while its name is not in use, the methods of a removed object never raise, tell nobody, and change neither the nodes nor
the top level; the setters set their flag; a relation that is asked for is written down at most. `add_child` is covered for
children that are not in the tree either; see `C63_refuted_child`. -/
theorem C63_calls_partial (ds : List Deed) (hc : AlongHome CarefulDeed Home.init ds) (k : Nat) (nd : Node) (c : Call)
    (hn : (Home.init.run ds).kept[k]? = some nd) (hx : (Home.init.run ds).s.t.has nd.id = false)
    (hd : ∀ d, c = .addChild d → (Home.init.run ds).s.t.has d = false) :
    ∃ s', (Home.init.run ds).step (.call k c) = .ok ⟨s', (Home.init.run ds).kept.set k (Call.after nd c)⟩ ∧
      OnlyAsks (Home.init.run ds).s s' (Call.asks nd.id c) := by
  have hk := init_homeOK.run ds hc
  obtain ⟨s', e, ha⟩ := call_bare hk.good.wf (hk.kept nd (List.mem_of_getElem? hn)) c hx hd
  exact ⟨s', by rw [step_call hn, e]; rfl, ha.onlyAsks⟩

/-- C63: and it is written down, if the object has its parents enabled and the parent, as far as it is in the tree, its children. -/
theorem C63_request_partial (ds : List Deed) (hc : AlongHome CarefulDeed Home.init ds) (k : Nat) (nd : Node) (p : Id)
    (hn : (Home.init.run ds).kept[k]? = some nd) (hx : (Home.init.run ds).s.t.has nd.id = false) (hp : p ≠ nd.id)
    (he : nd.parentsEnabled = true) (hpar : ∀ par, (Home.init.run ds).s.t.node? p = some par → par.childrenEnabled = true) :
    (p, nd.id) ∈ ((Home.init.run ds).step (.call k (.addParent p))).state.s.t.pending ∧
    (p, nd.id) ∈ ((Home.init.run ds).step (.call k (.setParent p))).state.s.t.pending := by
  have hk := init_homeOK.run ds hc
  have hb := hk.kept nd (List.mem_of_getElem? hn)
  have key : ∀ c s', CanAsk (Home.init.run ds).s nd c → Call.asks nd.id c = some (p, nd.id) → Asked (Home.init.run ds).s nd c s' →
      (p, nd.id) ∈ s'.t.pending := by
    intro c s' hcan hr ha
    cases ha with
    | nothing h => exact absurd hcan h
    | append r _ hr' _ =>
      rw [hr] at hr'; cases hr'
      exact List.mem_append_right _ (by simp)
    | again r _ hr' _ =>
      rw [hr] at hr'; cases hr'
      exact List.mem_append_right _ (by simp)
  constructor
  · obtain ⟨s', e, ha⟩ := addParent_bare hk.good.wf hb p hx
    have e' : Dead.call (Home.init.run ds).s nd (.addParent p) = .ok (s', nd) := e
    rw [step_call hn, e']
    exact key (.addParent p) s' ⟨hp, he, hpar⟩ rfl ha
  · obtain ⟨s', e, ha⟩ := setParent_bare hk.good.wf hb p hx
    have e' : Dead.call (Home.init.run ds).s nd (.setParent p) = .ok (s', nd) := e
    rw [step_call hn, e']
    exact key (.setParent p) s' ⟨hp, he, hpar⟩ rfl ha

/-- C63: whatever a careful user does with removed objects, parents and children lists agree, nobody is its own ancestor, and the
top level is right. -/
theorem C63_tree_partial (ds : List Deed) (hc : AlongHome CarefulDeed Home.init ds) :
    Agree (Home.init.run ds).s.t ∧ NoCycle (Home.init.run ds).s.t ∧ TopLevel (Home.init.run ds).s.t ∧
      ∀ x, (Home.init.run ds).s.t.has x = true → FromRoot (Home.init.run ds).s.t x := by
  have hk := init_homeOK.run ds hc
  exact ⟨hk.good.wf.agree, hk.good.wf.upInv.noCycle, hk.good.topLevel, hk.good.fromRoot⟩

/-- C63: the tree and the notifications are those of a careful history without removed objects, in which each step is at most one
edit; so what is proved about careful histories holds here as well. -/
theorem C63_history_partial (ds : List Deed) (hc : AlongHome CarefulOnce Home.init ds) :
    ∃ ops, Along Careful St.init ops ∧ (Home.init.run ds).s = runOps St.init ops :=
  init_homeOK.simulateRun ds hc

/-! ### Taking a removal back -/

theorem putBack {h : Home} (hk : HomeOK h) (x parent : Id) (hx : h.s.t.has x = true) (hch : h.s.t.getChildren x = [])
    (hp : h.s.t.getParents x = if parent = .none then [] else [parent]) :
    ∃ s', HomeQuiet h [.edit (.delNode x false), .again h.kept.length parent] ∧
      h.run [.edit (.delNode x false), .again h.kept.length parent] = ⟨s', h.kept⟩ ∧ PutBack h.s.t s'.t x parent := by
  have hw := hk.good.wf
  have hlen : (h.s.t.getParents x).length ≤ 1 := by rw [hp]; split <;> simp
  obtain ⟨s1, objs, e, e', hl⟩ := hk.removed x false hlen
  have hk1 := hk.step (.edit (.delNode x false)) hlen
  rw [e] at hk1
  obtain ⟨s1', e1, ef, -⟩ := removeNode_orphan hk.good hx (fun c hc => hk.tidy x c hc) h.s.t.nodes.entries.length
  have e1' : Larch.step h.s (.delNode x false) = .ok s1' := e1
  rw [e'] at e1'
  cases e1'
  have hrc : h.s.t.rawChildren x = [] := by
    have := hch
    rw [hw.getChildren_eq] at this
    by_contra hne
    obtain ⟨c, hc⟩ := List.exists_mem_of_ne_nil _ hne
    have : c ∈ (h.s.t.rawChildren x).filter h.s.t.has := List.mem_filter.2 ⟨hc, hk.tidy x c hc⟩
    rw [‹(h.s.t.rawChildren x).filter h.s.t.has = []›] at this; cases this
  have hnop : ∀ y, x ∉ h.s.t.rawParents y := by
    intro y hy
    have := hw.up x y hy
    rw [hrc] at this; cases this
  have par1 : ∀ y, y ≠ x → s1.t.rawParents y = h.s.t.rawParents y := by
    intro y hy; rw [ef.parents y hy, List.erase_of_not_mem (hnop y)]
  have has1x : s1.t.has x = false := by
    by_contra hc
    exact ((ef.has x).1 (by simpa using hc)).2 rfl
  have par1x : s1.t.rawParents x = [] := by
    by_contra hne
    obtain ⟨q, hq⟩ := List.exists_mem_of_ne_nil _ hne
    rw [Tree.has_of_mem_rawParents hq] at has1x; cases has1x
  -- the object
  obtain ⟨nd, hnd, hid⟩ : ∃ nd ∈ objs, nd.id = x := List.mem_map.1 ((hl.who x).2 ⟨hx, has1x⟩)
  have hobjs : objs = [nd] := by
    have hall : ∀ y ∈ objs.map Node.id, y = x := by
      intro y hy
      by_contra hne
      have h1 := (hl.who y).1 hy
      rw [(ef.has y).2 ⟨h1.1, hne⟩] at h1
      exact absurd h1.2 (by simp)
    have honce := hl.once
    match objs, hnd, hall, honce with
    | [m], hm, _, _ => rw [List.mem_singleton.1 hm]
    | a :: b :: l, _, hall, honce =>
      have ha := hall a.id (by simp)
      have hb := hall b.id (by simp)
      simp only [List.map_cons, List.nodup_cons, List.mem_cons] at honce
      exact absurd (Or.inl (ha.trans hb.symm)) honce.1
  subst hobjs
  have hb : Bare nd := hk1.kept nd (by simp)
  have hidx : (h.kept ++ [nd])[h.kept.length]? = some nd := by simp
  -- adding it again
  obtain ⟨t, b, -, -, -, ⟨ht, hbt, -⟩, hend⟩ := addNode_spec s1 nd parent hb.parents ef.good.wf.upInv (by rw [hid]; exact has1x)
    (fun l t b => t = insertNode s1.t nd ∧ b = true ∧ ∀ r ∈ l, r.1 ≠ nd.id ∧ r.2 ≠ nd.id) (by
      refine ⟨rfl, rfl, fun r hr => ?_⟩
      have hr : r ∈ mergePending s1.t.pending nd.pending := hr
      rw [hb.pending] at hr
      have := (ef.pending r).1 hr
      rw [hid]; exact this.2) (by
      rintro r l t b t' b' - - ⟨h1, h2, h3⟩ hs
      have h4 := h3 r (by simp)
      cases hs with
      | skip => exact ⟨h1, h2, fun q hq => h3 q (by simp [hq])⟩
      | drop l' hor => exact absurd hor (by simp [h4.1, h4.2])
      | asChild t' h5 => exact absurd h5 h4.2
      | asParent t' h5 => exact absurd h5 h4.1)
  subst ht
  subst hbt
  rw [hid] at hend
  have hreach : parent ≠ .none → ¬ ReachEq (insertNode s1.t nd).rawParents parent x := by
    intro hpn hr
    have hpx : parent ∈ h.s.t.rawParents x := by rw [← hw.getParents_eq, hp, if_neg hpn]; simp
    rcases hr with hr | hr
    · rw [hr] at hpx; exact hnop x hpx
    · cases hr with
      | single hm =>
        rw [rawParents_insertNode] at hm
        split at hm
        · rw [hb.parents] at hm; cases hm
        · rename_i hne
          rw [par1 _ (by rw [← hid]; exact hne)] at hm; exact hnop _ hm
      | tail _ hm =>
        rw [rawParents_insertNode] at hm
        split at hm
        · rw [hb.parents] at hm; cases hm
        · rename_i hne
          rw [par1 _ (by rw [← hid]; exact hne)] at hm; exact hnop _ hm
  -- the tree at the end
  have hcc : ∀ s'', addNode s1 nd parent = .ok s'' →
      HomeQuiet h [.edit (.delNode x false), .again h.kept.length parent] ∧
      h.run [.edit (.delNode x false), .again h.kept.length parent] = ⟨s'', h.kept⟩ := by
    intro s'' he
    have hstep : Home.step ⟨s1, h.kept ++ [nd]⟩ (.again h.kept.length parent) = .ok ⟨s'', h.kept⟩ := by
      rw [step_again hidx, if_neg (by rw [hid, has1x]; simp)]
      show (addNode s1 nd parent).map _ = _
      rw [he, Res.map_ok]
      congr 2
      rw [List.eraseIdx_append_of_length_le (le_refl _)]
      simp
    constructor
    · refine ⟨by show (h.step _).isOk = true; rw [e]; rfl, ?_, trivial⟩
      show (Home.step (h.step (.edit (.delNode x false))).state _).isOk = true
      rw [e, Res.state_ok, hstep]; rfl
    · show Home.run (h.step (.edit (.delNode x false))).state _ = _
      rw [e, Res.state_ok]
      show (Home.step ⟨s1, h.kept ++ [nd]⟩ (.again h.kept.length parent)).state = _
      rw [hstep]; rfl
  have attrsN : ∀ y, (insertNode s1.t nd).nodeAttrs y = if y = x then some (nd.id, nd.parentsEnabled, nd.childrenEnabled, true, [])
      else h.s.t.nodeAttrs y := by
    intro y
    by_cases hy : y = x
    · subst hy
      rw [if_pos rfl]
      unfold Tree.nodeAttrs
      rw [node?_insertNode, if_pos hid.symm]; rfl
    · rw [if_neg hy, ← ef.attrs y hy]
      unfold Tree.nodeAttrs
      rw [node?_insertNode, if_neg (by rw [hid]; exact hy)]
  have hxattrs : h.s.t.nodeAttrs x = some (Tree.attrs nd) := by rw [← hid]; exact hl.same nd (by simp)
  -- common end
  have fin : ∀ (s'' : St), Good s''.t → addNode s1 nd parent = .ok s'' →
      (∀ y, s''.t.has y = (insertNode s1.t nd).has y) → (∀ y, s''.t.nodeAttrs y = (insertNode s1.t nd).nodeAttrs y) →
      (∀ y, y ≠ x → s''.t.rawParents y = (insertNode s1.t nd).rawParents y) →
      s''.t.rawParents x = (if parent = .none then [] else [parent]) →
      s''.t.pending = (insertNode s1.t nd).pending →
      (parent ≠ .none → s''.t.rawChildren parent = appendNew (s1.t.rawChildren parent) x) →
      PutBack h.s.t s''.t x parent := by
    intro s'' hg he hh ha hpar hparx hpend hkids
    have hhas : ∀ y, s''.t.has y = h.s.t.has y := by
      intro y
      rw [hh, has_insertNode, hid]
      by_cases hy : y = x
      · subst hy; simp [hx]
      · have := ef.has y
        cases h1 : h.s.t.has y <;> cases h2 : s1.t.has y <;> simp_all
    have hgp : ∀ y, s''.t.rawParents y = h.s.t.rawParents y := by
      intro y
      by_cases hy : y = x
      · subst hy; rw [hparx, ← hp, hw.getParents_eq]
      · rw [hpar y hy, rawParents_insertNode, if_neg (by rw [hid]; exact hy), par1 y hy]
    have hpe : ∀ y, s''.t.getParents y = h.s.t.getParents y := by
      intro y; rw [hg.wf.getParents_eq, hw.getParents_eq, hgp]
    refine ⟨hhas, hpe, fun q c => ?_, fun hpn => ?_, fun z => ?_, fun y m hm => ?_, fun r => ?_⟩
    · rw [hg.wf.isChild, hw.isChild, hgp]
    · refine ⟨(s1.t.rawChildren parent).filter s''.t.has, ?_, ?_⟩
      · rw [hg.wf.getChildren_eq, hkids hpn]
        unfold appendNew
        rw [if_neg (by
          intro hm
          have := hk1.tidy parent x hm
          have this : s1.t.has x = true := this
          rw [has1x] at this; cases this), List.filter_append]
        congr 1
        rw [List.filter_cons_of_pos (by rw [hhas]; exact hx)]; rfl
      · rw [hw.getChildren_eq]
        have hf : (fun y => s''.t.has y) = (fun y => h.s.t.has y) := funext hhas
        have : (s1.t.rawChildren parent).filter s''.t.has = (s1.t.rawChildren parent).filter h.s.t.has := by
          exact congrArg (fun f => (s1.t.rawChildren parent).filter f) hf
        rw [this]
        exact (ef.childrenSub parent).filter _
    · rw [hg.topLevel.exact, hk.good.topLevel.exact, hhas]
      unfold IsParent
      rw [hpe]
    · have h1 := ha y
      rw [attrsN] at h1
      have h2 : s''.t.nodeAttrs y = some (Tree.attrs m) ∨
          (y = x ∧ s''.t.nodeAttrs y = some (nd.id, nd.parentsEnabled, nd.childrenEnabled, true, [])) := by
        split at h1
        · rename_i hy; exact Or.inr ⟨hy, h1⟩
        · left; rw [h1, nodeAttrs_some hm]
      obtain ⟨m', hm'⟩ := (Tree.has_iff _ _).1 (by rw [hhas]; exact (Tree.has_iff _ _).2 ⟨m, hm⟩ : s''.t.has y = true)
      refine ⟨m', hm', ?_⟩
      rw [nodeAttrs_some hm'] at h2
      rcases h2 with h2 | ⟨hy, h2⟩
      · have h3 := Option.some.inj h2
        exact ⟨congrArg (fun a => a.2.1) h3, congrArg (fun a => a.2.2.1) h3⟩
      · subst hy
        rw [nodeAttrs_some hm] at hxattrs
        have h3 := Option.some.inj h2
        have h4 := Option.some.inj hxattrs
        exact ⟨(congrArg (fun a => a.2.1) h3).trans (congrArg (fun a => a.2.1) h4).symm,
          (congrArg (fun a => a.2.2.1) h3).trans (congrArg (fun a => a.2.2.1) h4).symm⟩
    · rw [hpend]
      show r ∈ mergePending s1.t.pending nd.pending ↔ _
      rw [hb.pending]
      exact ef.pending r
  have goodEnd : ∀ s'', addNode s1 nd parent = .ok s'' → Good s''.t := by
    intro s'' he
    have hxnd : h.s.t.node? x ≠ none := by
      intro hq; rw [Tree.has_eq, hq] at hx; cases hx
    have := addNode_good ef.good (nd := nd) (parent := parent) ⟨hb.parents, hb.children, by rw [hb.pending]; simp⟩
      (by rw [hid]; exact has1x) hb.goodId (fun q hq => by
        have := hk1.tidy q nd.id hq
        have this : s1.t.has nd.id = true := this
        rw [hid, has1x] at this; cases this) (by
        constructor
        · intro p c hpc hor
          rcases hpc with hpc | hpc
          · have := (ef.pending (p, c)).1 hpc
            rw [hid] at hor
            rcases hor with hor | hor
            · exact absurd hor this.2.1
            · exact absurd hor this.2.2
          · rw [hb.pending] at hpc; cases hpc
        · intro hpn
          have hpx : parent ∈ h.s.t.rawParents x := by rw [← hw.getParents_eq, hp, if_neg hpn]; simp
          refine ⟨fun m hm => ?_, fun m hm => ?_⟩
          · rw [node?_insertNode] at hm
            split at hm
            · rename_i hq
              rw [hq, hid] at hpx; exact absurd hpx (hnop x)
            · rename_i hne
              have hpnx : parent ≠ x := by rw [← hid]; exact hne
              have ha := ef.attrs parent hpnx
              rw [nodeAttrs_some hm] at ha
              obtain ⟨old, ho⟩ := (Tree.has_iff _ _).1 (hw.has_parent hpx)
              rw [nodeAttrs_some ho] at ha
              have h3 : m.childrenEnabled = old.childrenEnabled := congrArg (fun a => a.2.2.1) (Option.some.inj ha)
              rw [h3]
              by_contra hce
              have hx' := hw.flagC parent old ho (by simpa using hce) x (by
                have := hw.up parent x hpx
                unfold Tree.rawChildren at this
                rw [ho] at this; exact this)
              rw [hx] at hx'; cases hx'
          · rw [node?_insertNode, if_pos rfl] at hm
            cases hm
            show nd.parentsEnabled = true
            obtain ⟨old, ho⟩ := (Tree.has_iff _ _).1 hx
            have ha := hxattrs
            rw [nodeAttrs_some ho] at ha
            have h3 : old.parentsEnabled = nd.parentsEnabled := congrArg (fun a => a.2.1) (Option.some.inj ha)
            rw [← h3]
            by_contra hpe
            have := hw.flagP x old ho (by simpa using hpe)
            unfold Tree.rawParents at hpx
            rw [ho] at hpx
            simp [this] at hpx) (by rw [he]; rfl)
    rw [he] at this; exact this
  generalize hr : addNode s1 nd parent = r at hend
  cases hend with
  | noParent hpn =>
    obtain ⟨h1, h2⟩ := hcc _ hr
    refine ⟨_, h1, h2, fin _ (goodEnd _ hr) hr (fun y => ?_) (fun y => ?_) (fun y _ => ?_) ?_ ?_ (fun h => absurd hpn h)⟩
    · rfl
    · rfl
    · rfl
    · rw [if_pos hpn]
      show (insertNode s1.t nd).rawParents x = []
      rw [rawParents_insertNode, if_pos hid.symm, hb.parents]
    · rfl
  | circular hpn hre => exact absurd hre (hreach hpn)
  | linked t' hpn hre hhp hcr =>
    obtain ⟨h1, h2⟩ := hcc _ hr
    obtain ⟨-, -, ec⟩ := Tree.create_eq_some hcr
    refine ⟨_, h1, h2, fin _ (goodEnd _ hr) hr ec.has ec.attrs (fun y hy => ?_) ?_ ec.pending (fun _ => ?_)⟩
    · show t'.rawParents y = _
      rw [ec.parents, if_neg hy]
    · rw [if_neg hpn]
      show t'.rawParents x = _
      rw [ec.parents, if_pos rfl, rawParents_insertNode, if_pos hid.symm, hb.parents]; rfl
    · show t'.rawChildren parent = _
      rw [ec.children, if_pos rfl, rawChildren_insertNode, if_neg (by
        rw [hid]; rintro rfl
        exact hreach hpn (Or.inl rfl))]
  | later hpn hre hhp =>
    exfalso
    have hpx : parent ∈ h.s.t.rawParents x := by rw [← hw.getParents_eq, hp, if_neg hpn]; simp
    have hne : parent ≠ x := by rintro rfl; exact hnop _ hpx
    have := (ef.has parent).2 ⟨hw.has_parent hpx, hne⟩
    rw [has_insertNode, this] at hhp
    simp at hhp

/-- C63: a node without children that is removed by a careful user and added again under its parent is back as before: the same
nodes, relations, top level and flags. It has become the last child of its parent, and relations of it that were waiting for their
other end are forgotten. -/
theorem C63_undo_partial (ds : List Deed) (hc : AlongHome CarefulDeed Home.init ds) (x parent : Id)
    (hx : (Home.init.run ds).s.t.has x = true) (hch : (Home.init.run ds).s.t.getChildren x = [])
    (hp : (Home.init.run ds).s.t.getParents x = if parent = .none then [] else [parent]) :
    ∃ s', HomeQuiet (Home.init.run ds) [.edit (.delNode x false), .again (Home.init.run ds).kept.length parent] ∧
      (Home.init.run ds).run [.edit (.delNode x false), .again (Home.init.run ds).kept.length parent] =
        ⟨s', (Home.init.run ds).kept⟩ ∧ PutBack (Home.init.run ds).s.t s'.t x parent :=
  putBack (init_homeOK.run ds hc) x parent hx hch hp

/-! ### Concrete cases -/

/-- Two nodes are removed in one go; one is added again after it has asked for a new parent, then the other one below it. -/
def homeOps : List Deed :=
  [ .edit (.addNode (Node.new (.str 1) .none) .none),
    .edit (.addNode (Node.new (.str 2) .none) (.str 1)),
    .edit (.addNode (Node.new (.str 3) .none) (.str 2)),
    .edit (.addNode (Node.new (.str 4) .none) .none),
    .edit (.delNode (.str 2) true),
    .call 0 (.addParent (.str 4)),
    .call 1 (.setChildrenEnabled false),
    .again 0 .none,
    .again 0 (.str 3) ]

theorem short_of_keys {t : Tree} (h : (t.nodes.keys.all fun y => decide ((t.getParents y).length ≤ 1)) = true) (y : Id) :
    (t.getParents y).length ≤ 1 := by
  by_cases hy : y ∈ t.nodes.keys
  · simpa using List.all_eq_true.1 h y hy
  · have : t.node? y = none := by
      cases hq : t.node? y with
      | none => rfl
      | some nd => exact absurd (List.mem_map.2 ⟨_, Dict.mem_of_get? hq, rfl⟩) hy
    unfold Tree.getParents; rw [this]; simp

theorem careful_again {h : Home} {k : Nat} {parent : Id} {nd : Node} (hn : h.kept[k]? = some nd)
    (hd : ((insertNode h.s.t nd).nodes.entries.all fun e => e.2.parentsEnabled) = true)
    (hp : parent ≠ .none → ∀ m, (insertNode h.s.t nd).node? parent = some m → m.childrenEnabled = true)
    (hq : (h.s.t.pending.all fun r => decide (r.1 ≠ nd.id)) = true ∧ nd.pending = [] ∧
      (h.s.t.pending.all fun r => decide (∀ m, (insertNode h.s.t nd).node? r.1 = some m → m.childrenEnabled = true)) = true)
    (ho : (addNode h.s nd parent).isOk = true) : CarefulDeed h (.again k parent) := by
  have par : ∀ c m, (insertNode h.s.t nd).node? c = some m → m.parentsEnabled = true := by
    intro c m hm
    have hm : (c, m) ∈ (insertNode h.s.t nd).nodes.entries := Dict.mem_of_get? hm
    simpa using List.all_eq_true.1 hd _ hm
  intro nd' hn'
  rw [hn] at hn'; cases hn'
  refine Or.inr ⟨⟨fun p c hpc _ => ?_, fun hpn => ⟨hp hpn, par _⟩⟩, ho⟩
  rcases hpc with hpc | hpc
  · exact ⟨by simpa using List.all_eq_true.1 hq.2.2 _ hpc, par _⟩
  · rw [hq.2.1] at hpc; cases hpc

theorem homeOps_careful : AlongHome CarefulOnce Home.init homeOps := by
  have add : ∀ {h : Home} {nd : Node} {p : Id}, Careful h.s (.addNode nd p) → CarefulOnce h (.edit (.addNode nd p)) :=
    fun hc => ⟨hc, fun _ _ _ _ h => by cases h⟩
  refine ⟨add (careful_add (Made.new _ _) (by decide)), add (careful_add (Made.new _ _) (by decide)),
    add (careful_add (Made.new _ _) (by decide)), add (careful_add (Made.new _ _) (by decide)),
    ⟨⟨short_of_keys (by decide) _, fun y _ => short_of_keys (by decide) y⟩, fun _ _ _ _ h => by cases h⟩,
    ⟨fun nd hn => ?_, fun k c nd r h hn hr => ?_⟩, ⟨trivial, fun k c nd r h _ hr => ?_⟩,
    ⟨?_, fun _ _ _ _ h => by cases h⟩, ⟨?_, fun _ _ _ _ h => by cases h⟩, trivial⟩
  · cases hn; decide
  · cases h; cases hn; cases hr; decide
  · cases h; cases hr
  · exact careful_again rfl (by decide) (by decide) (by decide) (by decide)
  · exact careful_again rfl (by decide) (by decide) (by decide) (by decide)

theorem along_mono {ok ok' : Home → Deed → Prop} (hm : ∀ h d, ok h d → ok' h d) {h : Home} {ds : List Deed}
    (ha : AlongHome ok h ds) : AlongHome ok' h ds := by
  induction ds generalizing h with
  | nil => trivial
  | cons d ds ih => exact ⟨hm _ _ ha.1, ih ha.2⟩

example : AlongHome CarefulDeed Home.init homeOps ∧ (Home.init.run homeOps).s.t.getParents (.str 3) = [.str 4] ∧
    (Home.init.run homeOps).s.t.getParents (.str 2) = [.str 3] ∧ (Home.init.run homeOps).kept = [] ∧
    ((Home.init.run (homeOps.take 5)).kept.map Node.id = [.str 3, .str 2]) ∧
    Agree (Home.init.run homeOps).s.t :=
  ⟨along_mono (fun _ _ h => h.1) homeOps_careful, by decide, by decide, by decide, by decide,
    (C63_tree_partial homeOps (along_mono (fun _ _ h => h.1) homeOps_careful)).1⟩

/-- Hypotheses of `C63_undo_partial`. -/
example : (Home.init.run homeOps).s.t.has (.str 2) = true ∧ (Home.init.run homeOps).s.t.getChildren (.str 2) = [] ∧
    (Home.init.run homeOps).s.t.getParents (.str 2) = if Id.str 3 = .none then [] else [.str 3] := by decide

/-- Hypotheses of `C63_removed_partial`, `C63_again_partial`, `C63_calls_partial` and `C63_request_partial`. -/
example : CarefulDeed (Home.init.run (homeOps.take 4)) (.edit (.delNode (.str 2) true)) ∧
    ∃ nd, (Home.init.run (homeOps.take 5)).kept[0]? = some nd ∧ nd.id = .str 3 ∧ nd.parentsEnabled = true ∧
      (Home.init.run (homeOps.take 5)).s.t.has nd.id = false ∧
      (∀ par, (Home.init.run (homeOps.take 5)).s.t.node? (.str 4) = some par → par.childrenEnabled = true) :=
  ⟨⟨short_of_keys (by decide) _, fun y _ => short_of_keys (by decide) y⟩, _, rfl, by decide, by decide, by decide, by decide⟩

/-! ### What is false -/

/-- A removed object can keep a parent: the second of two parents is not dropped (`tree.py:238-240`). Added again, the node is
both at the top level and below that parent. No call raises. -/
def twoParentsHome : List Deed :=
  [ .edit (.addNode (Node.new (.str 1) .none) .none),
    .edit (.addNode (Node.new (.str 2) .none) .none),
    .edit (.addNode (Node.new (.str 3) .none) (.str 1)),
    .edit (.addParent (.str 3) (.str 2)),
    .edit (.delNode (.str 3) false),
    .again 0 .none ]

theorem C63_refuted_parents : ∃ ds, NewHome ds ∧ HomeQuiet Home.init ds ∧ ¬ TopLevel (Home.init.run ds).s.t := by
  refine ⟨twoParentsHome, ?_, by decide, fun h => ?_⟩
  · intro nd p hm
    simp only [twoParentsHome, List.mem_cons, Deed.edit.injEq, Op.addNode.injEq, reduceCtorEq, List.not_mem_nil,
      or_false] at hm
    rcases hm with ⟨rfl, -⟩ | ⟨rfl, -⟩ | ⟨rfl, -⟩ <;> exact Made.new _ _
  · exact ((h.exact (.str 3)).1 (by decide)).2 (.str 2) (by decide)

/-- Two such objects can close a cycle, since `_add_node` does not look at the parents that the object brings along. No call
raises. -/
def cycleHome : List Deed :=
  [ .edit (.addNode (Node.new (.str 1) .none) .none),
    .edit (.addNode (Node.new (.str 2) .none) .none),
    .edit (.addNode (Node.new (.str 3) .none) (.str 1)),
    .edit (.addParent (.str 3) (.str 2)),
    .edit (.delNode (.str 3) false),
    .edit (.addNode (Node.new (.str 3) .none) .none),
    .edit (.addNode (Node.new (.str 4) .none) .none),
    .edit (.addParent (.str 2) (.str 4)),
    .edit (.addParent (.str 2) (.str 3)),
    .edit (.delNode (.str 2) false),
    .edit (.delNode (.str 3) true),
    .again 0 .none,
    .again 0 .none ]

theorem C63_refuted_cycle : ∃ ds, NewHome ds ∧ HomeQuiet Home.init ds ∧ ¬ NoCycle (Home.init.run ds).s.t := by
  refine ⟨cycleHome, ?_, by decide, fun h => ?_⟩
  · intro nd p hm
    simp only [cycleHome, List.mem_cons, Deed.edit.injEq, Op.addNode.injEq, reduceCtorEq, List.not_mem_nil, or_false,
      false_or] at hm
    rcases hm with ⟨rfl, -⟩ | ⟨rfl, -⟩ | ⟨rfl, -⟩ | ⟨rfl, -⟩ | ⟨rfl, -⟩ <;> exact Made.new _ _
  · refine h (.str 2) (Relation.TransGen.tail (b := .str 3) (Relation.TransGen.single ?_) ?_)
    · show Id.str 3 ∈ (Home.init.run cycleHome).s.t.getParents (.str 2); decide
    · show Id.str 2 ∈ (Home.init.run cycleHome).s.t.getParents (.str 3); decide

/-- `add_child` of a removed object lists the child at once (`treenode.py:168`); if the child is removed before the object comes
back, the object later has a child that does not know it. No call raises. -/
def childHome : List Deed :=
  [ .edit (.addNode (Node.new (.str 1) .none) .none),
    .edit (.addNode (Node.new (.str 2) .none) .none),
    .edit (.delNode (.str 1) false),
    .call 0 (.addChild (.str 2)),
    .edit (.delNode (.str 2) false),
    .again 0 .none,
    .again 0 .none ]

theorem C63_refuted_child : ∃ ds, NewHome ds ∧ HomeQuiet Home.init ds ∧ ¬ Agree (Home.init.run ds).s.t := by
  refine ⟨childHome, ?_, by decide, fun h => ?_⟩
  · intro nd p hm
    simp only [childHome, List.mem_cons, Deed.edit.injEq, Op.addNode.injEq, reduceCtorEq, List.not_mem_nil,
      or_false] at hm
    rcases hm with ⟨rfl, -⟩ | ⟨rfl, -⟩ <;> exact Made.new _ _
  · exact absurd ((h.mirror (.str 1) (.str 2)).1 (by decide)) (by decide)

/-- If the name is in use again, the removed object moves the other node around, without noticing the relation itself. -/
def namesakeHome : List Deed :=
  [ .edit (.addNode (Node.new (.str 1) .none) .none),
    .edit (.addNode (Node.new (.str 2) .none) .none),
    .edit (.delNode (.str 2) false),
    .edit (.addNode (Node.new (.str 2) .none) .none) ]

theorem C63_refuted_namesake : ∃ ds, NewHome ds ∧ HomeQuiet Home.init (ds ++ [.call 0 (.addParent (.str 1))]) ∧
    (Home.init.run ds).s.t.getParents (.str 2) = [] ∧
    (Home.init.run (ds ++ [.call 0 (.addParent (.str 1))])).s.t.getParents (.str 2) = [.str 1] ∧
    (Home.init.run (ds ++ [.call 0 (.addParent (.str 1))])).kept.map Node.parents = [[]] := by
  refine ⟨namesakeHome, ?_, by decide, by decide, by decide, by decide⟩
  intro nd p hm
  simp only [namesakeHome, List.mem_cons, Deed.edit.injEq, Op.addNode.injEq, reduceCtorEq, List.not_mem_nil, or_false,
    false_or] at hm
  rcases hm with ⟨rfl, -⟩ | ⟨rfl, -⟩ | ⟨rfl, -⟩ <;> exact Made.new _ _

end Larch
