import Verif.Proofs.Fewer
import Verif.Proofs.KeepsRem

/-!
# Counters follow the edits of the tree

Two cases: filters on a node's own data, and filters on a node's own data and its children.
-/

namespace Larch

open Graph Spec

variable {V : Type}

/-! ### Filters on a node's own data -/

theorem react_trace {b : Bank (Id → V)} {d : Id → V} {t t' : Tree} {l : List Note} (ht : Trace t.has l t'.has) (v : VC)
    (h : BankOK b v.applied) (own : ∀ n ∈ v.applied, ∀ f, b.getFilter n = some f → OwnData f.func) (hc : Counts b d t v) :
    ∃ v', Res.forEach (VC.react b d) l v = .ok v' ∧ v'.initialized = v.initialized ∧ v'.applied = v.applied ∧
      Counts b d t' v' := by
  have move : ∀ {t t' : Tree} {v : VC} (_ : ∀ n ∈ v.applied, ∀ f, b.getFilter n = some f → OwnData f.func) (x : Id),
      t'.has x = t.has x → ((t.has x = true ∧ Takes b t d v.applied x) ↔ (t'.has x = true ∧ Takes b t' d v.applied x)) := by
    intro t t' v own x hx
    by_cases h1 : t.has x = true
    · have h2 : t'.has x = true := hx.trans h1
      simp only [h1, h2, true_and]
      exact takes_own own h1 h2 rfl
    · rw [hx]; simp [h1]
  induction l generalizing t v with
  | nil => exact ⟨v, rfl, rfl, rfl, hc.nodup, fun x => by rw [hc.mem x]; exact move own x (ht x)⟩
  | cons n l ih =>
    obtain ⟨h1, h2, h3, h4, h5⟩ := ht
    have key : ∃ v1, VC.react b d n v = .ok v1 ∧ v1.initialized = v.initialized ∧ v1.applied = v.applied ∧
        Counts b d n.snap v1 := by
      have same : n.snap.has n.nid = true → ∃ v1, VC.modify b n.snap d n.nid v = .ok v1 ∧
          v1.initialized = v.initialized ∧ v1.applied = v.applied ∧ Counts b d n.snap v1 := by
        intro hx
        obtain ⟨v1, e1, m1⟩ := modify_spec h n.snap d n.nid
        refine ⟨v1, e1, m1.initialized, m1.applied, m1.nodup hc.nodup, fun y => ?_⟩
        rw [m1.mem hc.nodup, m1.applied]
        by_cases e : y = n.nid
        · subst e; simp [hx]
        · rw [hc.mem, move own y (h1 y e)]; simp [e]
      unfold VC.react
      cases hev : n.ev with
      | added => exact same (h3 hev)
      | modified => exact same (h2 hev).1
      | deleted =>
        have m1 := moved_delete v n.nid False id
        refine ⟨_, rfl, m1.initialized, m1.applied, m1.nodup hc.nodup, fun y => ?_⟩
        rw [m1.mem hc.nodup, m1.applied]
        by_cases e : y = n.nid
        · subst e; simp [h4 hev]
        · rw [hc.mem, move own y (h1 y e)]; simp [e]
    obtain ⟨v1, e1, i1, a1, c1⟩ := key
    obtain ⟨v2, e2, i2, a2, c2⟩ := ih h5 v1 (a1 ▸ h) (a1 ▸ own) c1
    exact ⟨v2, by rw [Res.forEach, e1]; exact e2, i2.trans i1, a2.trans a1, c2⟩

theorem edit_own (a : CApp V) (h : CInv a) (own : OwnUsed a) (op : Op)
    (hok : ∀ nd p, op = .addNode nd p → (step a.s op).isOk = true) : ∃ a', a.edit op = .ok a' ∧ CInv a' := by
  obtain ⟨l, hl, ht⟩ := step_traced a.s op hok
  obtain ⟨v', e, i, ap, c⟩ := react_trace ht a.vc h.bank own h.counts
  unfold CApp.edit
  dsimp only
  rw [hl, List.drop_left, e]
  exact ⟨_, rfl, by rw [ap]; exact h.bank, c, i.trans h.initialized⟩

/-! ### Filters on the children -/

/-- All filters in the list look at a node's data and children. -/
def KidsOn (b : Bank (Id → V)) (ap : List FName) : Prop := ∀ n ∈ ap, ∀ f, b.getFilter n = some f → LooksAtChildren f

/-- Children are listed once, and as the parents say. -/
structure Kids (t : Tree) : Prop where
  once : ∀ x, (t.getChildren x).Nodup
  mirror : ∀ p c, c ∈ t.getChildren p ↔ p ∈ t.rawParents c

theorem WF.kids {t : Tree} (h : WF t) : Kids t := ⟨h.nodup_getChildren, h.mem_getChildren⟩

theorem Kids.same {t t' : Tree} (h : Kids t) (e : t'.nodes = t.nodes) : Kids t' := by
  have e1 : t'.getChildren = t.getChildren := by
    funext x; unfold Tree.getChildren Tree.childrenOf Tree.node? Tree.has; rw [e]
  have e2 : t'.rawParents = t.rawParents := by funext x; unfold Tree.rawParents Tree.node?; rw [e]
  exact ⟨fun x => by rw [e1]; exact h.once x, fun p c => by rw [e1, e2]; exact h.mirror p c⟩

theorem takes_kids {b : Bank (Id → V)} {l : List FName} (hb : KidsOn b l) {t t' : Tree} {d d' : Id → V} {x : Id} (hw : Kids t) (hw' : Kids t')
    (h : t.has x = true) (h' : t'.has x = true) (e : d x = d' x) (hc : ∀ c, x ∈ t.rawParents c ↔ x ∈ t'.rawParents c) :
    Takes b t d l x ↔ Takes b t' d' l x := by
  have key : ∀ n ∈ l, ∀ f, b.getFilter n = some f → f.isDisplayed t d x = f.isDisplayed t' d' x := by
    intro n hn f hf
    refine hb n hn f hf t t' d d' x h h' e (hw.once x) (hw'.once x) fun c => ?_
    unfold IsChild
    rw [hw.mirror, hw'.mirror]; exact hc c
  unfold Takes
  constructor <;> intro hh n hn <;> obtain ⟨f, hf, hv⟩ := hh n hn <;> refine ⟨f, hf, ?_⟩
  · rw [← key n hn f hf]; exact hv
  · rw [key n hn f hf]; exact hv

/-- Since `s0` the notifications were heard by the counter `v0`, and it now counts what it should, apart from the nodes in `X`; of these
it counts at most those that exist. -/
structure Tracks (b : Bank (Id → V)) (d : Id → V) (s0 : St) (v0 : VC) (X : Id → Prop) (s : St) : Prop where
  kids : Kids s.t
  now : ∃ l v, s.log = s0.log ++ l ∧ Res.forEach (VC.react b d) l v0 = .ok v ∧ v.initialized = v0.initialized ∧ v.applied = v0.applied ∧
    v.nodes.Nodup ∧ (∀ x ∈ v.nodes, s.t.has x = true) ∧
    ∀ x, ¬ X x → (x ∈ v.nodes ↔ s.t.has x = true ∧ Takes b s.t d v0.applied x)

variable {b : Bank (Id → V)} {d : Id → V} {s0 : St} {v0 : VC} {X Y : Id → Prop}

theorem Tracks.move (hk : KidsOn b v0.applied) {s s' : St} (h : Tracks b d s0 v0 X s) (hw : Kids s'.t) (hl : s'.log = s.log)
    (hh : ∀ y, s'.t.has y = s.t.has y) (hp : ∀ y, ¬ X y → ∀ c, y ∈ s.t.rawParents c ↔ y ∈ s'.t.rawParents c) : Tracks b d s0 v0 X s' := by
  obtain ⟨l, v, h1, h2, h3, h4, h5, h6, h7⟩ := h.now
  refine ⟨hw, l, v, hl.trans h1, h2, h3, h4, h5, fun x hx => by rw [hh]; exact h6 x hx, fun x hx => ?_⟩
  rw [h7 x hx, hh]
  by_cases hy : s.t.has x = true
  · simp only [hy, true_and]
    exact takes_kids hk h.kids hw hy (by rw [hh]; exact hy) rfl (hp x hx)
  · simp [hy]

theorem Tracks.note (hb : BankOK b v0.applied) (hk : KidsOn b v0.applied) {s : St} (h : Tracks b d s0 v0 X s) {t' : Tree} (hw : Kids t') (ev : Ev) {x : Id}
    (hx : t'.has x = true ↔ ev ≠ .deleted) (hh : ∀ y, y ≠ x → t'.has y = s.t.has y)
    (hp : ∀ y, y ≠ x → ¬ Y y → ¬ X y ∧ ∀ c, y ∈ s.t.rawParents c ↔ y ∈ t'.rawParents c) :
    Tracks b d s0 v0 Y ((⟨t', s.log⟩ : St).emit ev x) := by
  obtain ⟨l, v, h1, h2, h3, h4, h5, h6, h7⟩ := h.now
  have key : ∃ v', VC.react b d ⟨t', ev, x⟩ v = .ok v' ∧ Moved v v' x (t'.has x = true ∧ Takes b t' d v0.applied x) := by
    have md : ev ≠ .deleted → ∃ v', VC.modify b t' d x v = .ok v' ∧ Moved v v' x (t'.has x = true ∧ Takes b t' d v0.applied x) := by
      intro hev
      obtain ⟨v', e, m⟩ := modify_spec (v := v) (by rw [h4]; exact hb) t' d x
      refine ⟨v', e, m.initialized, m.applied, m.nodup, fun hn y => ?_⟩
      rw [m.mem hn, h4]
      simp [hx.2 hev]
    unfold VC.react
    cases ev with
    | added => exact md (by simp)
    | modified => exact md (by simp)
    | deleted => exact ⟨_, rfl, moved_delete v x _ fun hc => hx.1 hc.1 rfl⟩
  obtain ⟨v', e, m⟩ := key
  refine ⟨hw, l ++ [⟨t', ev, x⟩], v', ?_, ?_, m.initialized.trans h3, m.applied.trans h4, m.nodup h5, fun y hy => ?_, fun y hy => ?_⟩
  · show s.log ++ [_] = _
    rw [h1, List.append_assoc]
  · rw [forEach_snoc h2]; exact e
  · rw [m.mem h5] at hy
    rcases hy with ⟨rfl, g, -⟩ | ⟨g1, g2⟩
    · exact g
    · show t'.has y = true
      rw [hh y g1]; exact h6 y g2
  · rw [m.mem h5]
    show _ ↔ t'.has y = true ∧ Takes b t' d v0.applied y
    by_cases e : y = x
    · subst e; simp
    · simp only [e, false_and, false_or, ne_eq, not_false_eq_true, true_and]
      obtain ⟨g1, g2⟩ := hp y e hy
      rw [h7 y g1, hh y e]
      by_cases hy : s.t.has y = true
      · simp only [hy, true_and]
        exact takes_kids hk h.kids hw hy (by rw [hh y e]; exact hy) rfl g2
      · simp [hy]

/-- Removals: exempt are the nodes that will be removed. -/
theorem tracks_rem (hb : BankOK b v0.applied) (hk : KidsOn b v0.applied) (S : Id → Prop) : KeepsRem S (fun _ => Tracks b d s0 v0 S) where
  same := by
    intro X s s' h hn hl
    refine h.move hk (h.kids.same hn) hl (fun y => by unfold Tree.has; rw [hn]) fun y _ c => ?_
    unfold Tree.rawParents Tree.node?; rw [hn]
  weaken := fun h _ => h
  cut := by
    intro X s p c n t' h hw hd hw' _ hS hn
    obtain ⟨-, -, e⟩ := Tree.destroy_eq_some hd
    refine h.note hb hk hw'.kids .modified (by simp [e.has, hn]) (fun y _ => e.has y) fun y hy hyS => ⟨hyS, fun z => ?_⟩
    have hyp : y ≠ p := by
      rintro rfl
      rcases hS with h | rfl
      · exact hyS h
      · exact hy rfl
    rw [e.parents]
    split
    · rename_i hz; subst hz; rw [List.mem_erase_of_ne hyp]
    · rfl
  del := by
    intro X Y s x h hw hx hno hS _
    refine h.note hb hk (hw.dropNode fun c _ => hno c).kids .deleted (by simp [dropNode_has]) (fun y hy => by simp [dropNode_has, hy])
      fun y hy hyS => ⟨hyS, fun z => ?_⟩
    rw [dropNode_rawParents]
    split
    · rename_i hz; subst hz
      exact ⟨fun hm => absurd (hS y hm) hyS, fun hm => by cases hm⟩
    · rfl

theorem tracks_good (hb : BankOK b v0.applied) (hk : KidsOn b v0.applied) :
    KeepsGood (fun _ _ => True) (fun _ _ => True) (Tracks b d s0 v0 fun _ => False) where
  same := by
    intro s s' h hl hh hp hg
    exact h.move hk hg.wf.kids hl hh fun y _ c => by rw [hp]
  link := by
    intro s p c t' h _ hcr _ hg _
    obtain ⟨hp, hc, e⟩ := Tree.create_eq_some hcr
    refine Tracks.note hb hk (h.note hb hk hg.wf.kids .modified (Y := fun _ => False) (by simp [e.has, hp]) (fun y _ => e.has y) ?_)
      hg.wf.kids .modified (by simp [e.has, hc]) (fun y _ => rfl) (fun y _ _ => ⟨id, fun _ => Iff.rfl⟩)
    intro y hy _
    refine ⟨id, fun z => ?_⟩
    rw [e.parents]
    split
    · rename_i hz; subst hz; rw [mem_appendNew]; simp [hy]
    · rfl
  cut := by
    intro s p c t' h _ hp hc _ e hg _
    refine Tracks.note hb hk (h.note hb hk hg.wf.kids .modified (Y := fun _ => False) (by simp [e.has, hp]) (fun y _ => e.has y) ?_)
      hg.wf.kids .modified (by simp [e.has, hc]) (fun y _ => rfl) (fun y _ _ => ⟨id, fun _ => Iff.rfl⟩)
    intro y hy _
    refine ⟨id, fun z => ?_⟩
    rw [e.parents]
    split
    · rename_i hz; subst hz; rw [List.mem_erase_of_ne hy]
    · rfl
  modified := by
    intro s h hg x hx
    exact h.note hb hk hg.wf.kids .modified (by simp [hx]) (fun y _ => rfl) (fun y _ _ => ⟨id, fun _ => Iff.rfl⟩)

/-- The exempt nodes are gone. -/
theorem Tracks.settle {S : Id → Prop} {s : St} (h : Tracks b d s0 v0 S s) (hS : ∀ y, S y → s.t.has y = false) :
    Tracks b d s0 v0 (fun _ => False) s := by
  obtain ⟨l, v, h1, h2, h3, h4, h5, h6, h7⟩ := h.now
  refine ⟨h.kids, l, v, h1, h2, h3, h4, h5, h6, fun x _ => ?_⟩
  by_cases hx : S x
  · rw [hS x hx]
    have : x ∉ v.nodes := fun hm => by have := h6 x hm; rw [hS x hx] at this; cases this
    simp [this]
  · exact h7 x hx

theorem Tracks.mono {s : St} (h : Tracks b d s0 v0 (fun _ => False) s) (S : Id → Prop) : Tracks b d s0 v0 S s := by
  obtain ⟨l, v, h1, h2, h3, h4, h5, h6, h7⟩ := h.now
  exact ⟨h.kids, l, v, h1, h2, h3, h4, h5, h6, fun x _ => h7 x id⟩

theorem step_tracks (hb : BankOK b v0.applied) (hk : KidsOn b v0.applied) {s : St} (h : Good s.t) (hn : NoDangling s.t) (op : Op)
    (hc : Careful s op) (ha : ComesAlone s op) (hf : Tracks b d s0 v0 (fun _ => False) s) :
    Tracks b d s0 v0 (fun _ => False) (step s op).state := by
  have ht := hc.tidy h hn
  have hs := ht.safe h hn
  by_cases hl : op.isLocal = true
  · exact step_keepsGood (tracks_good hb hk) h op hl hs (fun _ _ _ => trivial) (fun _ _ _ => trivial) hf
  · cases op with
    | addNode nd p =>
      have hg := step_good h (.addNode nd p) hs
      show Tracks b d s0 v0 _ (addNode s nd p).state
      replace hg : Good (addNode s nd p).state.t := hg
      cases hx : s.t.has nd.id with
      | true => rw [addNode_existing hx]; exact hf
      | false =>
        have ha := ha nd p rfl hx
        obtain ⟨hm, hc⟩ := hc
        obtain ⟨-, -, -, hok⟩ := hc.resolve_left (by simp [hx])
        cases hr : addNode s nd p with
        | err e s' => rw [hr] at hok; cases hok
        | ok s' =>
          rw [hr] at hg ha
          obtain ⟨t', e, har⟩ := addNode_arrived h hm.fresh hx hr
          subst e
          refine hf.note hb hk (t' := t') hg.wf.kids .added (by rw [har.has]; simp) (fun y hy => by rw [har.has]; simp [hy]) ?_
          intro y hy _
          refine ⟨id, fun z => ?_⟩
          by_cases hz : z = nd.id
          · subst hz
            constructor
            · intro hm; have := Tree.has_of_mem_rawParents hm; rw [hx] at this; cases this
            · intro hm
              refine absurd ?_ (ha y)
              show y ∈ t'.getParents nd.id
              rw [WF.getParents_eq (t := t') hg.wf]; exact hm
          · exact (har.parents z y hz hy).symm
    | delNode x r =>
      by_cases hx : s.t.has x = true
      · cases r with
        | true =>
          show Tracks b d s0 v0 _ (removeNode (removeFuel s.t) s x true).state
          obtain ⟨s', e, -, hgone, -⟩ := removeNode_recursive h.wf x
          have := removeNode_remRecursive (tracks_rem (d := d) (s0 := s0) hb hk (fun y => ReachEq s.t.rawChildren x y)) h.wf x (Or.inl rfl) ?_
            (hf.mono _)
          · refine this.settle fun y hy => ?_
            rw [e]
            by_contra hc
            exact ((hgone y).1 (by simpa using hc)).2 hy
          · refine ⟨fun y c hy hc => ?_, fun y hy => ?_⟩
            · rcases hy with rfl | hy
              · exact Or.inr (Reach.single hc)
              · exact Or.inr (hy.tail hc)
            · rcases hy with rfl | hy
              · right; rw [← h.wf.getParents_eq]; exact hc.1
              · left
                intro p hp
                rw [← h.wf.getParents_eq] at hp
                rcases hc.2 y ((h.descendant_down hn y x).2 hy) p hp with rfl | hd
                · exact Or.inl rfl
                · exact Or.inr ((h.descendant_down hn p x).1 hd)
        | false =>
          show Tracks b d s0 v0 _ (removeNode (s.t.nodes.entries.length + 1) s x false).state
          obtain ⟨s', e, ef, -⟩ := removeNode_orphan h hx (fun c hc => hn x c hc) s.t.nodes.entries.length
          have := removeNode_remOrphan (tracks_rem (d := d) (s0 := s0) hb hk (fun y => y = x)) h hx (fun c hc => hn x c hc) rfl
            (Or.inr (by rw [← h.wf.getParents_eq]; exact hc)) s.t.nodes.entries.length (hf.mono _)
          refine this.settle fun y hy => ?_
          rw [e]
          by_contra hc
          exact ((ef.has y).1 (by simpa using hc)).2 hy
      · have : (step s (.delNode x r)).state = s := by
          show (removeNode (s.t.nodes.entries.length + 1) s x r).state = s
          unfold removeNode; rw [if_pos (by simp [hx])]; rfl
        rw [this]; exact hf
    | _ => exact absurd rfl hl

theorem edit_kids (a : CApp V) (h : CInv a) (hg : Good a.s.t) (hn : NoDangling a.s.t) (hk : ChildrenUsed a) (op : Op)
    (hc : Careful a.s op) (ha : ComesAlone a.s op) : ∃ a', a.edit op = .ok a' ∧ CInv a' := by
  have h0 : Tracks a.bank a.data a.s a.vc (fun _ => False) a.s :=
    ⟨hg.wf.kids, [], a.vc, by simp, rfl, rfl, rfl, h.counts.nodup, fun x hx => ((h.counts.mem x).1 hx).1, fun x _ => h.counts.mem x⟩
  obtain ⟨l, v, h1, h2, h3, h4, h5, -, h7⟩ := (step_tracks h.bank hk hg hn op hc ha h0).now
  unfold CApp.edit
  dsimp only
  rw [h1, List.drop_left, h2]
  exact ⟨_, rfl, by rw [h4]; exact h.bank, ⟨h5, fun x => by rw [h4]; exact h7 x id⟩, h3.trans h.initialized⟩

theorem madeCarefully_good {s : St} (h : MadeCarefully s) : Good s.t ∧ NoDangling s.t := by
  obtain ⟨ops, h1, rfl⟩ := h
  exact runOps_careful ops _ init_good init_noDangling h1

theorem careful_added {s : St} {op : Op} (hc : Careful s op) : ∀ nd p, op = .addNode nd p → (step s op).isOk = true := by
  rintro nd p rfl
  show (addNode s nd p).isOk = true
  by_cases hx : s.t.has nd.id = true
  · rw [addNode_existing hx]; rfl
  · exact (hc.2.resolve_left hx).2.2.2

/-- Edits in either case. -/
theorem countEdit_follows (a : CApp V) (h : CInv a) (hg : Good a.s.t) (hn : NoDangling a.s.t) (op : Op) (hc : Careful a.s op)
    (hf : CountFollows a op) : ∃ a', a.edit op = .ok a' ∧ CInv a' := by
  rcases hf with own | ⟨kids, ha⟩
  · exact edit_own a h own op (careful_added hc)
  · exact edit_kids a h hg hn kids op hc ha

/-! ### The applied filters stay -/

theorem modify_applied (b : Bank (Id → V)) (t : Tree) (d : Id → V) (x : Id) (v : VC) : (VC.modify b t d x v).state.applied = v.applied := by
  unfold VC.modify
  split
  · rfl
  · show (v.add x).applied = _; unfold VC.add; split <;> rfl
  · show (v.delete x).applied = _; unfold VC.delete; split <;> rfl

theorem react_applied (b : Bank (Id → V)) (d : Id → V) (l : List Note) (v : VC) : (Res.forEach (VC.react b d) l v).state.applied = v.applied := by
  have one : ∀ n v, (VC.react b d n v).state.applied = v.applied := by
    intro n v
    unfold VC.react
    split
    · exact modify_applied _ _ _ _ _
    · exact modify_applied _ _ _ _ _
    · show (v.delete _).applied = _; unfold VC.delete; split <;> rfl
  induction l generalizing v with
  | nil => rfl
  | cons x l ih =>
    rw [Res.forEach]
    have := one x v
    cases hr : VC.react b d x v with
    | ok v' => rw [hr] at this; exact (ih v').trans this
    | err e v' => rw [hr] at this; exact this

theorem countEdit_same {a a' : CApp V} {op : Op} (e : a.edit op = .ok a') :
    a'.s = (step a.s op).state ∧ a'.bank = a.bank ∧ a'.vc.applied = a.vc.applied := by
  unfold CApp.edit at e
  dsimp only at e
  have := react_applied a.bank a.data ((step a.s op).state.log.drop a.s.log.length) a.vc
  split at e
  · rename_i hr; rw [hr] at this; cases e; exact ⟨rfl, rfl, this⟩
  · cases e

/-! ### The application -/

/-- Changing the data of `x` leaves the others alone. -/
theorem takes_change {a : CApp V} (hf : OwnUsed a ∨ (WF a.s.t ∧ ChildrenUsed a)) (d' : Id → V) {y : Id} (e : a.data y = d' y)
    (hy : a.s.t.has y = true) : Takes a.bank a.s.t a.data a.vc.applied y ↔ Takes a.bank a.s.t d' a.vc.applied y := by
  rcases hf with own | ⟨hw, kids⟩
  · exact takes_own own hy hy e
  · exact takes_kids kids hw.kids hw.kids hy hy e fun _ => Iff.rfl

/-- Changing the data of `x` and announcing it. -/
theorem change_inv (a : CApp V) (h : CInv a) (x : Id) (v : V) (hr : a.s.t.has x = true → x ≠ rootId)
    (hf : OwnUsed a ∨ (WF a.s.t ∧ ChildrenUsed a)) :
    ∃ a', (a.act (.change x v)) = .ok a' ∧ CInv a' := by
  show ∃ a', CApp.edit _ _ = .ok a' ∧ CInv a'
  generalize hd : (fun y => if y = x then v else a.data y) = d'
  have same : ∀ y, y ≠ x → a.s.t.has y = true →
      (Takes a.bank a.s.t a.data a.vc.applied y ↔ Takes a.bank a.s.t d' a.vc.applied y) :=
    fun y hy => takes_change hf d' (by rw [← hd]; simp [hy])
  by_cases hx : x ≠ rootId ∧ a.s.t.has x = true
  · have es : (step a.s (.refreshNode x)).state = a.s.emit .modified x := by
      show (modifyNode a.s x).state = _
      unfold modifyNode; rw [if_pos hx]; rfl
    obtain ⟨v1, e1, m1⟩ := modify_spec h.bank a.s.t d' x
    refine ⟨⟨a.s.emit .modified x, d', a.bank, v1⟩, ?_, ?_, ⟨m1.nodup h.counts.nodup, fun y => ?_⟩, ?_⟩
    · unfold CApp.edit
      dsimp only
      rw [es]
      show (match Res.forEach (VC.react a.bank d') ((a.s.log ++ [_]).drop a.s.log.length) a.vc with
        | .ok vc => _ | .err e vc => _) = _
      rw [List.drop_left]
      have : Res.forEach (VC.react a.bank d') [⟨a.s.t, .modified, x⟩] a.vc = .ok v1 := by
        rw [Res.forEach]
        show (VC.modify a.bank a.s.t d' x a.vc).andThen _ = _
        rw [e1]; rfl
      rw [this]
    · show BankOK a.bank v1.applied
      rw [m1.applied]; exact h.bank
    · show y ∈ v1.nodes ↔ a.s.t.has y = true ∧ Takes a.bank a.s.t d' v1.applied y
      rw [m1.mem h.counts.nodup, m1.applied]
      by_cases e : y = x
      · subst e; simp [hx.2]
      · by_cases hy : a.s.t.has y = true
        · simp [e, h.counts.mem, hy, same y e hy]
        · simp [e, h.counts.mem, hy]
    · exact m1.initialized.trans h.initialized
  · have es : (step a.s (.refreshNode x)).state = a.s := by
      show (modifyNode a.s x).state = _
      unfold modifyNode; rw [if_neg hx]; rfl
    refine ⟨⟨a.s, d', a.bank, a.vc⟩, ?_, h.bank, ⟨h.counts.nodup, fun y => ?_⟩, h.initialized⟩
    · unfold CApp.edit
      dsimp only
      rw [es, List.drop_length]
      rfl
    · show y ∈ a.vc.nodes ↔ a.s.t.has y = true ∧ Takes a.bank a.s.t d' a.vc.applied y
      rw [h.counts.mem]
      by_cases hy : a.s.t.has y = true
      · rw [same y (by rintro rfl; exact hx ⟨hr hy, hy⟩) hy]
      · simp [hy]

/-- Changes of the bank that leave the applied filters alone. -/
theorem bank_inv (a : CApp V) (h : CInv a) (b : Bank (Id → V)) (hb : BankInv b)
    (same : ∀ n ∈ a.vc.applied, b.getFilter n = a.bank.getFilter n) : CInv { a with bank := b } := by
  refine ⟨⟨hb, fun n hn => ?_⟩, ⟨h.counts.nodup, fun x => ?_⟩, h.initialized⟩
  · rw [same n hn]; exact h.bank.known n hn
  · show x ∈ a.vc.nodes ↔ a.s.t.has x = true ∧ Takes b a.s.t a.data a.vc.applied x
    rw [h.counts.mem]
    unfold Takes
    constructor
    · rintro ⟨h1, h2⟩
      exact ⟨h1, fun n hn => by rw [same n hn]; exact h2 n hn⟩
    · rintro ⟨h1, h2⟩
      exact ⟨h1, fun n hn => by rw [← same n hn]; exact h2 n hn⟩

theorem act_inv (a : CApp V) (h : CInv a) (c : CAct V) (hf : Fair a c) : ∃ a', a.act c = .ok a' ∧ CInv a' := by
  cases c with
  | edit op =>
    rcases hf with ⟨own, hok⟩ | ⟨hm, hc, hf⟩
    · exact edit_own a h own op hok
    · exact countEdit_follows a h (madeCarefully_good hm).1 (madeCarefully_good hm).2 op hc hf
  | change x v => exact change_inv a h x v (fun _ => hf.1) (hf.2.imp id fun h => ⟨(madeCarefully_good h.1).1.wf, h.2⟩)
  | bank c =>
    refine ⟨_, rfl, bank_inv a h _ (bank_call _ h.bank.inv c) ?_⟩
    · intro m hm
      cases c with
      | add n func p =>
        rcases getFilter_add h.bank.inv n m func p with e | ⟨e, -⟩
        · exact e
        · obtain ⟨f, hk⟩ := h.bank.known m hm
          rw [e] at hk; cases hk
      | remove n =>
        show (a.bank.removeFilter n).2.getFilter m = _
        rw [getFilter_remove h.bank.inv, if_neg]
        rintro rfl; exact hf hm
  | setParams n p =>
    refine ⟨_, rfl, bank_inv a h _ (setParameters_inv h.bank.inv n _) ?_⟩
    · intro m hm
      rw [getFilter_setParameters h.bank.inv, if_neg]
      rintro rfl; exact hf hm
  | apply n r =>
    subst hf
    show ∃ a', a.withVC (a.vc.applyFilter a.bank a.s.t a.data n true) = .ok a' ∧ _
    unfold VC.applyFilter
    by_cases h1 : a.bank.hasFilter n = true
    · rw [if_pos h1]
      by_cases h2 : n ∈ a.vc.applied
      · rw [if_neg (by simpa using h2)]; exact ⟨_, rfl, h⟩
      · rw [if_pos h2]
        dsimp only
        rw [if_pos rfl, if_pos h.initialized]
        have hk : ∃ f, a.bank.getFilter n = some f := by
          rw [bank_get _ h.bank.inv]
          unfold Bank.hasFilter at h1
          rw [h.bank.inv.noStock] at h1
          simpa [KV.has, KV.get?, Option.isSome_iff_exists] using h1
        have hb : BankOK a.bank ({ a.vc with applied := a.vc.applied ++ [n] } : VC).applied := by
          refine ⟨h.bank.inv, fun m hm => ?_⟩
          rcases List.mem_append.1 hm with hm | hm
          · exact h.bank.known m hm
          · simp at hm; subst hm; exact hk
        obtain ⟨v', e, i, ap, nd, m⟩ := modifyAll_spec a.s.t a.data a.vc.nodes
          { a.vc with applied := a.vc.applied ++ [n] } hb h.counts.nodup
        rw [e]
        refine ⟨_, rfl, by rw [← ap] at hb; exact hb, ⟨nd, fun y => ?_⟩, i.trans h.initialized⟩
        show y ∈ v'.nodes ↔ a.s.t.has y = true ∧ Takes a.bank a.s.t a.data v'.applied y
        rw [m, ap]
        dsimp only
        rw [h.counts.mem]
        have sub : Takes a.bank a.s.t a.data (a.vc.applied ++ [n]) y → Takes a.bank a.s.t a.data a.vc.applied y :=
          fun hh m hm => hh m (List.mem_append_left _ hm)
        constructor
        · rintro (⟨⟨g1, -⟩, g2⟩ | ⟨g1, g2⟩)
          · exact ⟨g1, g2⟩
          · exact absurd g2 g1
        · rintro ⟨g1, g2⟩; exact .inl ⟨⟨g1, sub g2⟩, g2⟩
    · rw [if_neg h1]; exact ⟨_, rfl, h⟩
  | unapply n =>
    show ∃ a', a.withVC (a.vc.unapplyFilter a.bank a.s.t a.data n) = .ok a' ∧ _
    unfold VC.unapplyFilter
    by_cases h2 : n ∈ a.vc.applied
    · rw [if_pos h2]
      have hb : BankOK a.bank ({ a.vc with applied := a.vc.applied.erase n } : VC).applied :=
        ⟨h.bank.inv, fun m hm => h.bank.known m (List.mem_of_mem_erase hm)⟩
      obtain ⟨v', e, i, ap, c⟩ := keys_refreshed a { a.vc with applied := a.vc.applied.erase n } hb h.counts.nodup
        (fun x hx => ((h.counts.mem x).1 hx).1)
      rw [e]
      exact ⟨_, rfl, by rw [← ap] at hb; exact hb, c, i.trans h.initialized⟩
    · rw [if_neg h2]; exact ⟨_, rfl, h⟩
  | touch x =>
    obtain ⟨v', e, m⟩ := modify_spec h.bank a.s.t a.data x
    show ∃ a', a.withVC (VC.modify a.bank a.s.t a.data x a.vc) = .ok a' ∧ _
    rw [e]
    refine ⟨_, rfl, by have := h.bank; rw [← m.applied] at this; exact this,
      ⟨m.nodup h.counts.nodup, fun y => ?_⟩, m.initialized.trans h.initialized⟩
    show y ∈ v'.nodes ↔ a.s.t.has y = true ∧ Takes a.bank a.s.t a.data v'.applied y
    rw [m.mem h.counts.nodup, m.applied]
    change a.s.t.has x = true at hf
    by_cases ey : y = x
    · subst ey; simp [hf]
    · simp [ey, h.counts.mem]
  | register c =>
    refine ⟨_, rfl, ?_⟩
    show CInv { a with vc := a.vc.register c }
    unfold VC.register
    split
    · exact ⟨h.bank, ⟨h.counts.nodup, h.counts.mem⟩, h.initialized⟩
    · exact h
  | unregister c => exact hf.elim

theorem run_inv (cs : List (CAct V)) (a : CApp V) (h : CInv a) (hf : FairRun cs a) :
    ∃ a', CApp.run cs a = .ok a' ∧ CInv a' := by
  induction cs generalizing a with
  | nil => exact ⟨a, rfl, h⟩
  | cons c cs ih =>
    obtain ⟨a1, e1, h1⟩ := act_inv a h c hf.1
    have hf2 := hf.2
    rw [e1] at hf2
    obtain ⟨a2, e2, h2⟩ := ih a1 h1 hf2
    exact ⟨a2, by rw [CApp.run, e1]; exact e2, h2⟩

theorem CInv.exact {a : CApp V} (h : CInv a) : Exact a := by
  refine ⟨a.vc.nodes, h.counts.nodup, fun x => ?_, rfl⟩
  rw [h.counts.mem]
  rfl

/-- A new counter, created with refresh. -/
theorem new_inv (s : St) (d : Id → V) (b : Bank (Id → V)) (hb : BankInv b) :
    ∃ v, VC.new b s.t d true = .ok v ∧ CInv ⟨s, d, b, v⟩ := by
  obtain ⟨v', e, i, ap, c⟩ := keys_refreshed ⟨s, d, b, {}⟩ {} ⟨hb, fun n hn => by cases hn⟩ List.nodup_nil
    (fun x hx => by cases hx)
  refine ⟨{ v' with initialized := true }, ?_, ?_, ⟨c.nodup, c.mem⟩, rfl⟩
  · show VC.refresh b s.t d {} = _
    unfold VC.refresh
    change Res.forEach (VC.modify b s.t d) s.t.nodes.keys {} = .ok v' at e
    rw [e]; rfl
  · refine ⟨hb, fun n hn => ?_⟩
    change n ∈ v'.applied at hn
    rw [ap] at hn; cases hn

end Larch
