import Verif.Proofs.Kept
import Verif.Proofs.Move
import Verif.Proofs.KeepsGood
import Verif.Props.Refresh
import Verif.Props.ForestSuite
import Verif.Spec.Hierarchy

/-!
# Plain hierarchies stay forests
-/

namespace Larch

open Graph Spec

/-- No node has this name. -/
def Never (x : Id) : Prop := x.falsy = true ∨ x = rootId

/-- Only relations to things that are no nodes wait. -/
def Idle (t : Tree) : Prop := ∀ r ∈ t.pending, Never r.1 ∧ ¬ Never r.2

/-- No node refuses parents or children. -/
def Open (t : Tree) : Prop := ∀ x nd, t.node? x = some nd → nd.parentsEnabled = true ∧ nd.childrenEnabled = true

theorem Good.never {t : Tree} (h : Good t) {x : Id} (hx : t.has x = true) : ¬ Never x := by
  rintro (e | e)
  · rw [(h.wf.ids x hx).1] at e; cases e
  · exact (h.wf.ids x hx).2 e

/-! ### Flags -/

theorem Open.of_attrs {t t' : Tree} (h : Open t) (ha : ∀ y, t'.has y = true → t'.nodeAttrs y = t.nodeAttrs y) : Open t' := by
  intro y nd hn
  have h1 := ha y (has_of_some hn)
  unfold Tree.nodeAttrs at h1
  rw [hn] at h1
  cases h2 : t.node? y with
  | none => rw [h2] at h1; cases h1
  | some nd0 =>
    rw [h2] at h1
    simp only [Option.map_some, Option.some.injEq, Tree.attrs, Prod.mk.injEq] at h1
    obtain ⟨a, b⟩ := h y nd0 h2
    exact ⟨h1.2.1.trans a, h1.2.2.1.trans b⟩

theorem Open.nodes {t t' : Tree} (h : Open t) (e : t'.nodes = t.nodes) : Open t' := by
  intro y nd hn
  unfold Tree.node? at hn
  rw [e] at hn
  exact h y nd hn

theorem Open.insert {t : Tree} (h : Open t) {nd : Node} (hn : nd.parentsEnabled = true ∧ nd.childrenEnabled = true) :
    Open (insertNode t nd) := by
  intro y nd' hy
  unfold insertNode Tree.node? at hy
  rw [Dict.get?_set] at hy
  split at hy
  · cases hy; exact hn
  · exact h y nd' hy

theorem PendStep.open {x : Id} {r : Id × Id} {t t' : Tree} {b b' : Bool} (hs : PendStep x r t b t' b') (h : Open t) : Open t' := by
  cases hs with
  | skip => exact h
  | drop => exact h
  | asChild t2 _ _ _ hc => exact Open.nodes (h.of_attrs fun y _ => (Tree.create_eq_some hc).2.2.attrs y) rfl
  | asParent t2 _ _ _ hc => exact Open.nodes (h.of_attrs fun y _ => (Tree.create_eq_some hc).2.2.attrs y) rfl

theorem addNode_open {s : St} {nd : Node} {parent : Id} (h : UpInv s.t) (ho : Open s.t) (hp : nd.parents = [])
    (hn : nd.parentsEnabled = true ∧ nd.childrenEnabled = true) : Open (addNode s nd parent).state.t := by
  by_cases hx : s.t.has nd.id = true
  · rw [addNode_existing hx]; exact ho
  · obtain ⟨t, b, -, -, -, hd, hend⟩ := addNode_spec s nd parent hp h (by simpa using hx)
      (fun _ t _ => Open t) (ho.insert hn) (fun _ _ _ _ _ _ _ _ h hs => hs.open h)
    have fin : ∀ log t b, Open t → Open (finishAdd log t b nd.id).t := by
      intro log t b ht
      unfold finishAdd
      cases b
      · exact ht
      · exact ht.nodes rfl
    generalize addNode s nd parent = r at hend
    cases hend with
    | noParent => exact fin _ _ _ hd
    | circular => exact hd
    | linked t' _ _ _ hc => exact fin _ _ _ (hd.of_attrs fun y _ => (Tree.create_eq_some hc).2.2.attrs y)
    | later => exact fin _ _ _ (hd.nodes rfl)

theorem Open.accept {t : Tree} (h : Open t) (p c : Id) : Accept t p c := ⟨fun nd hn => (h p nd hn).2, fun nd hn => (h c nd hn).1⟩

/-! ### Waiting relations -/

theorem break_idle {s : St} (hg : Good s.t) (h : Idle s.t) (p c : Id) : Idle (breakRelationship s p c).state.t := by
  by_cases h1 : p.falsy = true ∨ c.falsy = true ∨ p = c ∨ s.t.has p = false ∨ s.t.has c = false
  · rw [breakRelationship_skip s h1]
    exact fun r hr => h r (dropPending_sub _ _ _ _ hr)
  · push Not at h1
    obtain ⟨-, -, h3, h4, h5⟩ := h1
    have hc : s.t.has c = true := by simpa using h5
    obtain ⟨t', e, -, ef⟩ := breakRelationship_spec hg (by simpa using h4) hc h3
    rw [e]
    intro r hr
    have hr : r ∈ t'.pending := hr
    rw [ef.pending] at hr
    split at hr
    · rcases List.mem_append.1 hr with hr | hr
      · exact h r (List.mem_of_mem_erase hr)
      · rw [List.mem_singleton.1 hr]
        exact ⟨.inr rfl, hg.never hc⟩
    · exact h r hr

theorem removeParent_idle {s : St} (hg : Good s.t) (h : Idle s.t) (x p : Id) : Idle (nodeRemoveParent s x p).state.t := by
  cases hnd : s.t.node? x with
  | none => unfold nodeRemoveParent; rw [hnd]; exact h
  | some nd =>
    by_cases hm : p ∈ s.t.rawParents x
    · rw [nodeRemoveParent_eq hg hm]; exact break_idle hg h p x
    · rw [nodeRemoveParent_noop hnd hm]; exact h

theorem setParentLoop_idle (f i : Nat) (s : St) (x p : Id) (flag : Bool) (hg : Good s.t) (h : Idle s.t) :
    Idle (setParentLoop f i s x p flag).state.1.t := by
  induction f generalizing i s flag with
  | zero => exact h
  | succ f ih =>
    unfold setParentLoop
    split
    · exact h
    · split
      · rename_i q _ hq
        have h1 := (nodeRemoveParent_good hg x q).1
        have h2 := removeParent_idle hg h x q
        split
        · rename_i heq; rw [heq] at h2; exact h2
        · rename_i heq; rw [heq] at h1 h2; exact ih _ _ _ h1 h2
      · exact ih _ _ _ hg h

theorem forEach_break_idle (l : List Id) (x : Id) (s : St) (hg : Good s.t) (h : Idle s.t) :
    Idle (Res.forEach (fun q s => breakRelationship s q x) l s).state.t := by
  induction l generalizing s with
  | nil => exact h
  | cons q l ih =>
    obtain ⟨s1, e, hg1⟩ := breakRelationship_good hg q x
    have h1 := break_idle hg h q x
    unfold Res.forEach
    rw [e] at h1 ⊢
    exact ih s1 hg1 h1

theorem newRelationship_idle {s : St} (hg : Good s.t) (h : Idle s.t) {p c : Id} (hp : s.t.has p = true) (hc : s.t.has c = true) :
    Idle (newRelationship s p c).state.t := by
  by_cases hpc : p = c
  · rw [newRelationship_skip s (.inr (.inr hpc))]
    exact fun r hr => h r (List.mem_of_mem_erase hr)
  · by_cases hre : ReachEq s.t.rawParents p c
    · rw [newRelationship_refused hg.wf hg.pend hpc hp hc hre]; exact h
    · obtain ⟨t', ht', e⟩ := newRelationship_linked hg.wf hg.root hg.pend hp hc hre
      rw [e]
      intro r hr
      have hr : r ∈ t'.pending := hr
      rw [(Tree.create_eq_some ht').2.2.pending] at hr
      exact h r hr

theorem addParent_idle {s : St} (hg : Good s.t) (h : Idle s.t) {x p : Id} (hp : s.t.has p = true) : Idle (nodeAddParent s x p).state.t := by
  unfold nodeAddParent
  split
  · exact h
  · rename_i nd hnd
    split
    · split
      · rename_i hn
        rw [(Tree.has_false_iff _ _).2 hn] at hp; cases hp
      · split
        · exact newRelationship_idle hg h hp (has_of_some hnd)
        · exact h
    · exact h

theorem setParent_idle {s : St} (hg : Good s.t) (h : Idle s.t) {x p : Id} (hp : p = .none ∨ s.t.has p = true) :
    Idle (nodeSetParent s x p).state.t := by
  unfold nodeSetParent
  split
  · exact h
  · rename_i nd hnd
    split
    · split
      · rename_i hpn
        have hp : p = .none := hp.resolve_right fun hh => by rw [(Tree.has_false_iff _ _).2 hpn] at hh; cases hh
        obtain ⟨s', e, hg'⟩ := forEach_break_good (s.t.getParents x) (fun q => (q, x)) s hg
        have h1 := forEach_break_idle (s.t.getParents x) x s hg h
        dsimp only at e
        rw [e] at h1 ⊢
        intro r hr
        rcases List.mem_append.1 (show r ∈ s'.t.pending ++ [(p, x)] from hr) with hr | hr
        · exact h1 r hr
        · rw [List.mem_singleton.1 hr, hp]
          exact ⟨.inl rfl, hg.never (has_of_some hnd)⟩
      · rename_i par hpn
        split
        · have h0 := setParentLoop_spec x p nd.parents.length [] nd.parents s false hg (Tree.rawParents_of_node hnd) (le_refl _)
            (by intro h; cases h)
          obtain ⟨s1, fl, e, hg1, fr, -⟩ := h0
          have h2 := setParentLoop_idle nd.parents.length 0 s x p false hg h
          have e : setParentLoop nd.parents.length 0 s x p false = .ok (s1, fl) := e
          rw [e] at h2 ⊢
          dsimp only
          split
          · exact addParent_idle hg1 h2 (by rw [fr.has]; exact has_of_some hpn)
          · exact h2
        · exact h
    · exact h

/-! ### The invariant -/

/-- What holds in a plain hierarchy. -/
structure Hier (s : St) : Prop where
  made : ∃ ops, Along Careful St.init ops ∧ s = runOps St.init ops
  forest : Forest s.t
  idle : Idle s.t
  opn : Open s.t

theorem Hier.good {s : St} (h : Hier s) : Good s.t ∧ NoDangling s.t := by
  obtain ⟨ops, hc, rfl⟩ := h.made
  exact runOps_careful ops St.init init_good init_noDangling hc

theorem Hier.init : Hier St.init where
  made := ⟨[], trivial, rfl⟩
  forest := fun x p q h _ => by cases h
  idle := fun r h => by cases h
  opn := fun x nd h => by cases h

theorem forest_single {t : Tree} (hw : WF t) (h : ∀ x, (t.rawParents x).length ≤ 1) : Forest t := by
  intro x p q hp hq
  have hp : p ∈ t.getParents x := hp
  have hq : q ∈ t.getParents x := hq
  rw [hw.getParents_eq] at hp hq
  have := h x
  match hl : t.rawParents x with
  | [] => rw [hl] at hp; cases hp
  | [a] => rw [hl, List.mem_singleton] at hp hq; rw [hp, hq]
  | a :: b :: l => rw [hl] at this; simp at this

theorem Forest.single {t : Tree} (hw : WF t) (h : Forest t) (x : Id) : (t.rawParents x).length ≤ 1 := by
  have hn := hw.ndP x
  match hl : t.rawParents x with
  | [] => simp
  | [_] => simp
  | p :: q :: l =>
    have hp : IsParent t p x := by show p ∈ t.getParents x; rw [hw.getParents_eq, hl]; simp
    have hq : IsParent t q x := by show q ∈ t.getParents x; rw [hw.getParents_eq, hl]; simp
    rw [hl, h x p q hp hq] at hn
    simp at hn

theorem Forest.sub {t t' : Tree} (hw : WF t) (hw' : WF t') (h : Forest t)
    (hs : ∀ x, (t'.rawParents x).length ≤ (t.rawParents x).length) : Forest t' :=
  forest_single hw' fun x => (hs x).trans (Forest.single hw h x)

/-- What an edit has to keep. -/
def KeptHier (r : Res St) : Prop := Forest r.state.t ∧ Idle r.state.t ∧ Open r.state.t

theorem Hier.break {s : St} (h : Hier s) (p c : Id) : KeptHier (breakRelationship s p c) := by
  obtain ⟨hg, -⟩ := h.good
  refine ⟨?_, break_idle hg h.idle p c, ?_⟩
  all_goals
    by_cases h1 : p.falsy = true ∨ c.falsy = true ∨ p = c ∨ s.t.has p = false ∨ s.t.has c = false
    · rw [breakRelationship_skip s h1]
      first
        | exact h.forest
        | exact h.opn
    · push Not at h1
      obtain ⟨-, -, h3, h4, h5⟩ := h1
      obtain ⟨t', e, hg', ef⟩ := breakRelationship_spec hg (by simpa using h4) (by simpa using h5) h3
      rw [e]
      first
        | exact Open.of_attrs h.opn fun y _ => ef.attrs y
        | refine Forest.sub hg.wf hg'.wf h.forest fun x => ?_
          show (t'.rawParents x).length ≤ _
          rw [ef.parents]
          split
          · rename_i e; rw [e]; exact List.length_erase_le
          · exact le_refl _

theorem Hier.removeParent {s : St} (h : Hier s) (x p : Id) : KeptHier (nodeRemoveParent s x p) := by
  obtain ⟨hg, -⟩ := h.good
  cases hnd : s.t.node? x with
  | none => unfold nodeRemoveParent; rw [hnd]; exact ⟨h.forest, h.idle, h.opn⟩
  | some nd =>
    by_cases hm : p ∈ s.t.rawParents x
    · rw [nodeRemoveParent_eq hg hm]; exact h.break p x
    · rw [nodeRemoveParent_noop hnd hm]; exact ⟨h.forest, h.idle, h.opn⟩

theorem skipRemove_single {l : List Id} (p : Id) (h : l.length ≤ 1) : skipRemove p l = [] ∨ skipRemove p l = [p] := by
  match l with
  | [] => exact .inl rfl
  | [a] =>
    unfold skipRemove
    split
    · rename_i e; right; rw [e]
    · exact .inl rfl
  | _ :: _ :: _ => simp at h

theorem Hier.setParent {s : St} (h : Hier s) (x : Id) {p : Id} (hp : p = .none ∨ s.t.has p = true) : KeptHier (nodeSetParent s x p) := by
  obtain ⟨hg, -⟩ := h.good
  cases hnd : s.t.node? x with
  | none => unfold nodeSetParent; rw [hnd]; exact ⟨h.forest, h.idle, h.opn⟩
  | some nd =>
    have hx := has_of_some hnd
    by_cases hpx : p = x
    · have : nodeSetParent s x p = .ok s := by
        unfold nodeSetParent; rw [hnd]; dsimp only; rw [if_neg fun hh => hh.1 hpx]
      rw [this]; exact ⟨h.forest, h.idle, h.opn⟩
    · have hmv : nodeSetParent s x p = moveNode s x p := by unfold moveNode; rw [if_pos hx]
      have key : ∃ s', (moveNode s x p).state = s' ∧ Good s'.t ∧ MoveFrame s.t s'.t x ∧ (s'.t.rawParents x).length ≤ 1 := by
        rcases hp with rfl | hp
        · obtain ⟨s', e, hg', fr, hr⟩ := moveNode_absent hg hnd (p := .none) (by
            cases hh : s.t.has .none with
            | false => rfl
            | true => have := (hg.wf.ids _ hh).1; cases this) (h.opn x nd hnd).1
          exact ⟨s', by rw [e]; rfl, hg', fr, by rw [hr]; simp⟩
        · obtain ⟨h1, h2⟩ := moveNode_spec hg hx hp hpx (h.opn.accept p x)
          have hs := skipRemove_single p (Forest.single hg.wf h.forest x)
          by_cases hr : Reach s.t.rawParents p x
          · obtain ⟨s', e, hg', fr, hr⟩ := h2 hr
            refine ⟨s', by rw [e]; rfl, hg', fr, ?_⟩
            rcases hs with hs | hs <;> rw [hr, hs] <;> simp
          · obtain ⟨s', e, hg', fr, hr⟩ := h1 hr
            refine ⟨s', by rw [e]; rfl, hg', fr, ?_⟩
            rcases hs with hs | hs <;> rw [hr, hs] <;> simp [appendNew]
      have hi := setParent_idle hg h.idle (x := x) hp
      rw [hmv] at hi ⊢
      obtain ⟨s', e, hg', fr, hl⟩ := key
      unfold KeptHier
      rw [e] at hi ⊢
      refine ⟨forest_single hg'.wf fun y => ?_, hi, h.opn.of_attrs fun y _ => fr.attrs y⟩
      by_cases hy : y = x
      · rw [hy]; exact hl
      · rw [fr.parents y hy]; exact Forest.single hg.wf h.forest y

theorem Hier.remove {s : St} (h : Hier s) (x : Id) (r : Bool) :
    Careful s (.delNode x r) ∧ KeptHier (removeNode (removeFuel s.t) s x r) := by
  obtain ⟨hg, hn⟩ := h.good
  have hone : ∀ y, (s.t.getParents y).length ≤ 1 := fun y => by rw [hg.wf.getParents_eq]; exact Forest.single hg.wf h.forest y
  have hag : ∀ z y, IsChild s.t z y → IsParent s.t z y := fun z y hh => (hg.wf.isParent z y).2 ((hg.wf.isChild z y).1 hh)
  cases r with
  | true =>
    refine ⟨⟨hone x, fun y hy p hp => ?_⟩, ?_⟩
    · rcases Relation.TransGen.tail'_iff.1 hy with ⟨z, hz, hzy⟩
      have : p = z := h.forest y p z hp (hag z y hzy)
      rw [this]
      rcases Relation.reflTransGen_iff_eq_or_transGen.1 hz with e | e
      · exact .inl e
      · exact .inr e
    · obtain ⟨s', e, ef, -, -⟩ := removeNode_recursive hg.wf x
      rw [e]
      refine ⟨Forest.sub hg.wf ef.wf h.forest fun y => ?_, fun r hr => h.idle r ((ef.pending r).1 hr).1, h.opn.of_attrs ef.attrs⟩
      by_cases hy : s'.t.has y = true
      · exact le_of_eq (congrArg _ (ef.parents y hy))
      · have : s'.t.rawParents y = [] := by
          by_contra hne
          obtain ⟨q, hq⟩ := List.exists_mem_of_ne_nil _ hne
          exact hy (Tree.has_of_mem_rawParents hq)
        show (s'.t.rawParents y).length ≤ _
        rw [this]; simp
  | false =>
    refine ⟨hone x, ?_⟩
    by_cases hx : s.t.has x = true
    · obtain ⟨s', e, ef, -⟩ := removeNode_orphan hg hx (fun c hc => hn x c hc) s.t.nodes.entries.length
      have e : removeNode (removeFuel s.t) s x false = .ok s' := e
      rw [e]
      have hgone : ∀ y, s'.t.has y = true → y ≠ x := fun y hy => ((ef.has y).1 hy).2
      refine ⟨Forest.sub hg.wf ef.good.wf h.forest fun y => ?_, fun r hr => h.idle r ((ef.pending r).1 hr).1,
        h.opn.of_attrs fun y hy => ef.attrs y (hgone y hy)⟩
      show (s'.t.rawParents y).length ≤ _
      by_cases hy : y = x
      · have : s'.t.rawParents y = [] := by
          by_contra hne
          obtain ⟨q, hq⟩ := List.exists_mem_of_ne_nil _ hne
          exact hgone y (Tree.has_of_mem_rawParents hq) hy
        rw [this]; simp
      · rw [ef.parents y hy]; exact List.length_erase_le
    · have : removeNode (removeFuel s.t) s x false = .ok s := by
        unfold removeFuel removeNode
        rw [if_pos (by simp [hx])]
      rw [this]; exact ⟨h.forest, h.idle, h.opn⟩

theorem Hier.relate {s : St} (h : Hier s) {p c : Id} (hc0 : s.t.getParents c = []) (hp : s.t.has p = true) (hc : s.t.has c = true) :
    KeptHier (newRelationship s p c) := by
  obtain ⟨hg, -⟩ := h.good
  have hi := newRelationship_idle hg h.idle hp hc
  by_cases hpc : p = c
  · rw [newRelationship_skip s (.inr (.inr hpc))] at hi ⊢
    exact ⟨h.forest, hi, h.opn⟩
  · by_cases hre : ReachEq s.t.rawParents p c
    · rw [newRelationship_refused hg.wf hg.pend hpc hp hc hre]; exact ⟨h.forest, h.idle, h.opn⟩
    · obtain ⟨t', ht', e⟩ := newRelationship_linked hg.wf hg.root hg.pend hp hc hre
      have ef := (Tree.create_eq_some ht').2.2
      have hg' : Good (newRelationship s p c).state.t := step_good hg (.newRelationship p c) (by
        have : Careful s (.newRelationship p c) := h.opn.accept p c
        exact (this.tidy hg h.good.2).safe hg h.good.2)
      refine ⟨forest_single hg'.wf fun y => ?_, hi, ?_⟩
      · rw [e]
        show (t'.rawParents y).length ≤ 1
        rw [ef.parents]
        split
        · rw [← hg.wf.getParents_eq, hc0]; simp [appendNew]
        · exact Forest.single hg.wf h.forest y
      · rw [e]; exact Open.of_attrs h.opn fun y _ => ef.attrs y

theorem Hier.addParent {s : St} (h : Hier s) {x p : Id} (hx : s.t.getParents x = []) (hp : s.t.has p = true) : KeptHier (nodeAddParent s x p) := by
  unfold nodeAddParent
  split
  · exact ⟨h.forest, h.idle, h.opn⟩
  · rename_i nd hnd
    split
    · split
      · rename_i hn
        rw [(Tree.has_false_iff _ _).2 hn] at hp; cases hp
      · split
        · exact h.relate hx hp (has_of_some hnd)
        · exact ⟨h.forest, h.idle, h.opn⟩
    · exact ⟨h.forest, h.idle, h.opn⟩

theorem Hier.addChild {s : St} (h : Hier s) {x c : Id} (hc0 : s.t.getParents c = []) (hc : s.t.has c = true) : KeptHier (nodeAddChild s x c) := by
  obtain ⟨hg, -⟩ := h.good
  obtain ⟨child, hch⟩ := (Tree.has_iff _ _).1 hc
  cases hnd : s.t.node? x with
  | none => unfold nodeAddChild; rw [hnd]; exact ⟨h.forest, h.idle, h.opn⟩
  | some nd =>
    by_cases h1 : nd.childrenEnabled = true ∧ c ≠ x
    · by_cases h2 : c ∉ nd.children
      · rw [nodeAddChild_eq hg hnd hch h1.1 h1.2 h2 (h.opn c child hch).1]
        exact h.relate hc0 (has_of_some hnd) hc
      · unfold nodeAddChild; rw [hnd]; dsimp only; rw [if_pos h1, if_neg h2]; exact ⟨h.forest, h.idle, h.opn⟩
    · unfold nodeAddChild; rw [hnd]; dsimp only; rw [if_neg h1]; exact ⟨h.forest, h.idle, h.opn⟩

theorem node_new (x q : Id) : (Node.new x q).id = x ∧ (Node.new x q).parents = [] ∧ (Node.new x q).parentsEnabled = true ∧
    (Node.new x q).childrenEnabled = true ∧ ∀ r ∈ (Node.new x q).pending, r = (q, x) ∧ q.falsy = false := by
  unfold Node.new
  split
  · exact ⟨rfl, rfl, rfl, rfl, fun r hr => by cases hr⟩
  · rename_i hq
    unfold Node.detachedAddParent
    split
    · refine ⟨rfl, rfl, rfl, rfl, fun r hr => ?_⟩
      have hr : r ∈ ([] ++ [(q, x)] : List (Id × Id)) := hr
      rw [List.nil_append, List.mem_singleton] at hr
      exact ⟨hr, by simpa using hq⟩
    · exact ⟨rfl, rfl, rfl, rfl, fun r hr => by cases hr⟩

theorem Hier.add {s : St} (h : Hier s) {x q0 p : Id} (hx : x.falsy = false) (hr : x ≠ rootId) (hq0 : q0 = .none ∨ s.t.has q0 = true)
    (hp : p = .none ∨ s.t.has p = true) (hpq : q0 = .none ∨ p = .none ∨ p = q0) :
    Careful s (.addNode (Node.new x q0) p) ∧ KeptHier (addNode s (Node.new x q0) p) ∧
      (s.t.has x = false → ∃ s', addNode s (Node.new x q0) p = .ok s' ∧ AddsNode s.t s'.t (Node.new x q0) p) := by
  obtain ⟨hid, hnp, hf1, hf2, hpe⟩ := node_new x q0
  have hmade := Made.new x q0
  have hdecl : ∀ r ∈ (Node.new x q0).pending, r.2 = x ∧ s.t.has r.1 = true ∧ (r.1 = q0) ∧ (p = .none ∨ r.1 = p) := by
    intro r hr
    obtain ⟨e, hf⟩ := hpe r hr
    have hne : q0 ≠ .none := by rintro rfl; cases hf
    rw [e]
    exact ⟨rfl, hq0.resolve_left hne, rfl, (hpq.resolve_left hne).imp id Eq.symm⟩
  generalize Node.new x q0 = nd at *
  subst hid
  generalize hxe : nd.id = x at *
  obtain ⟨hg, -⟩ := h.good
  by_cases hhas : s.t.has x = true
  · rw [addNode_existing (nd := nd) (by rw [hxe]; exact hhas)]
    exact ⟨⟨hmade, .inl (by rw [hxe]; exact hhas)⟩, ⟨h.forest, h.idle, h.opn⟩, fun hno => by rw [hno] at hhas; cases hhas⟩
  have hno : s.t.has x = false := by simpa using hhas
  have hnx : ¬ Never x := by rintro (e | e); · rw [hx] at e; cases e
                             · exact hr e
  have hflags : nd.parentsEnabled = true ∧ nd.childrenEnabled = true := ⟨hf1, hf2⟩
  have hopn := h.opn.insert hflags
  have hacc : AcceptNew s.t nd p := ⟨fun q c _ _ => hopn.accept q c, fun _ => hopn.accept _ _⟩
  have hw : ∀ q c, Waits s.t nd p q c → (Never q ∧ ¬ Never c) ∨ (c = x ∧ s.t.has q = true) := by
    rintro q c (hh | hh | ⟨h1, h2, h3⟩)
    · exact .inl (h.idle _ hh)
    · obtain ⟨h1, h2, -⟩ := hdecl _ hh
      exact .inr ⟨h1, h2⟩
    · exact .inr ⟨h3.trans hxe, by rw [h2]; exact hp.resolve_left h1⟩
  have hpar : ∀ q c, IsParent s.t q c → s.t.has q = true ∧ s.t.has c = true := by
    intro q c hh
    have hh : q ∈ s.t.getParents c := hh
    rw [hg.wf.getParents_eq] at hh
    exact ⟨hg.wf.has_parent hh, Tree.has_of_mem_rawParents hh⟩
  -- where relations start
  have hout : ∀ c q, IsParent s.t q c ∨ Waits s.t nd p q c → ¬ Never c := by
    rintro c q (hh | hh)
    · exact hg.never (hpar q c hh).2
    · rcases hw q c hh with hh | ⟨rfl, -⟩
      · exact hh.2
      · exact hnx
  have hedge : ∀ c q, IsParent s.t q c ∨ Waits s.t nd p q c → ¬ Never q → s.t.has q = true ∧ (c = x ∨ IsParent s.t q c) := by
    rintro c q (hh | hh) hq
    · exact ⟨(hpar q c hh).1, .inr hh⟩
    · rcases hw q c hh with hh | ⟨e, hh⟩
      · exact absurd hh.1 hq
      · exact ⟨hh, .inl e⟩
  have hpath : ∀ a b, Relation.TransGen (fun c q => IsParent s.t q c ∨ Waits s.t nd p q c) a b → ¬ Never b →
      s.t.has b = true ∧ (a = x ∨ Relation.TransGen (fun c q => IsParent s.t q c) a b) := by
    intro a b hab hb
    induction hab using Relation.TransGen.head_induction_on with
    | single hh =>
      obtain ⟨h1, h2⟩ := hedge _ _ hh hb
      exact ⟨h1, h2.imp id .single⟩
    | head hh htl ih =>
      rename_i a c
      obtain ⟨h1, h2⟩ := ih
      refine ⟨h1, ?_⟩
      have hc : ¬ Never c := by
        rcases Relation.TransGen.head'_iff.1 htl with ⟨d, hd, -⟩
        exact hout _ _ hd
      obtain ⟨h3, h4⟩ := hedge _ _ hh hc
      refine h4.imp id fun h4 => ?_
      rcases h2 with h2 | h2
      · rw [h2, hno] at h3; cases h3
      · exact .head h4 h2
  have hac : ∀ y, ¬ Relation.TransGen (fun c q => IsParent s.t q c ∨ Waits s.t nd p q c) y y := by
    intro y hy
    have hny : ¬ Never y := by
      rcases Relation.TransGen.head'_iff.1 hy with ⟨d, hd, -⟩
      exact hout _ _ hd
    obtain ⟨h1, h2 | h2⟩ := hpath y y hy hny
    · rw [h2, hno] at h1; cases h1
    · exact hg.wf.upInv.noCycle y h2
  obtain ⟨ops, hc, hops⟩ := h.made
  have h44 := C44_add_node ops hc nd p (hmade) (by rw [← hops, hxe]; exact hno) (by rw [hxe]; exact ⟨hx, hr⟩) (by rw [← hops]; exact hacc)
    (by rw [← hops]; exact hac)
  rw [← hops] at h44
  obtain ⟨s', e, ef, -⟩ := h44
  have ho := addNode_open (nd := nd) (parent := p) hg.wf.upInv h.opn hnp hflags
  refine ⟨⟨hmade, .inr ⟨by rw [hxe]; exact hx, by rw [hxe]; exact hr, hacc, by rw [e]; rfl⟩⟩, ?_, fun _ => ⟨s', e, ef⟩⟩
  rw [e] at ho ⊢
  have hnev : ∀ y, s'.t.has y = true → ¬ Never y := by
    intro y hy
    rcases (ef.nodes y).1 hy with hy | hy
    · exact hg.never hy
    · rw [hy, hxe]; exact hnx
  have hnew : ∀ q c, IsParent s'.t q c → IsParent s.t q c ∨ (c = x ∧ ((p ≠ .none ∧ q = p) ∨ (q = q0 ∧ (p = .none ∨ q = p)))) := by
    intro q c hh
    rcases (ef.parents q c).1 hh with hh | ⟨hh | hh | hh, h1, h2⟩
    · exact .inl hh
    · exact absurd (h.idle _ hh).1 (hnev q h1)
    · obtain ⟨h3, -, h4, h5⟩ := hdecl _ hh
      exact .inr ⟨h3, .inr ⟨h4, h5⟩⟩
    · exact .inr ⟨hh.2.2.trans hxe, .inl ⟨hh.1, hh.2.1⟩⟩
  refine ⟨fun y q q' h1 h2 => ?_, fun r hr => ?_, ho⟩
  · have absent : ∀ q, ¬ IsParent s.t q x := fun q hh => hhas (hpar q x hh).2
    rcases hnew q y h1 with h1 | ⟨e1, h1⟩ <;> rcases hnew q' y h2 with h2 | ⟨e2, h2⟩
    · exact h.forest y q q' h1 h2
    · rw [e2] at h1; exact absurd h1 (absent q)
    · rw [e1] at h2; exact absurd h2 (absent q')
    · rcases h1 with ⟨h1, h3⟩ | ⟨h1, h3⟩ <;> rcases h2 with ⟨h2, h4⟩ | ⟨h2, h4⟩
      · rw [h3, h4]
      · rw [h3, h4.resolve_left h1]
      · rw [h4, h3.resolve_left h2]
      · rw [h1, h2]
  · obtain ⟨h1, h2⟩ := (ef.pending r.1 r.2).1 hr
    rcases h1 with h1 | h1 | ⟨h1, h3, h4⟩
    · exact h.idle r h1
    · obtain ⟨h3, h4, -⟩ := hdecl _ h1
      exact absurd ⟨(ef.nodes _).2 (.inl h4), (ef.nodes _).2 (.inr (h3.trans hxe.symm))⟩ h2
    · refine absurd ⟨(ef.nodes _).2 (.inl ?_), (ef.nodes _).2 (.inr h4)⟩ h2
      rw [h3]; exact hp.resolve_left h1

/-- One edit. -/
theorem Hier.step {s : St} (h : Hier s) (op : Op) (hp : HierarchyEdit s.t op) : Careful s op ∧ Hier (step s op).state := by
  have key : Careful s op ∧ KeptHier (Larch.step s op) := by
    cases op with
    | addNode nd p =>
      obtain ⟨x, q, rfl, h1, h2, -, h3, h4, h5⟩ := hp
      exact ⟨(h.add h1 h2 h3 h4 h5).1, (h.add h1 h2 h3 h4 h5).2.1⟩
    | delNode x r => exact h.remove x r
    | refreshNode x =>
      refine ⟨trivial, ?_⟩
      unfold KeptHier
      rw [refreshed_tree]
      exact ⟨h.forest, h.idle, h.opn⟩
    | moveNode x p =>
      refine ⟨trivial, ?_⟩
      show KeptHier (moveNode s x p)
      unfold moveNode
      split
      · exact h.setParent x hp
      · exact ⟨h.forest, h.idle, h.opn⟩
    | setParent x p => exact ⟨trivial, h.setParent x hp⟩
    | removeParent x p => exact ⟨trivial, h.removeParent x p⟩
    | breakRelationship p c => exact ⟨trivial, h.break p c⟩
    | addParent x p =>
      refine ⟨trivial, ?_⟩
      show KeptHier (treeAddParent s x p)
      unfold treeAddParent
      split
      · exact h.addParent hp.1 hp.2
      · exact ⟨h.forest, h.idle, h.opn⟩
    | addChild x c => exact ⟨trivial, h.addChild hp.1 hp.2⟩
    | setParentsEnabled x b => exact hp.elim
    | setChildrenEnabled x b => exact hp.elim
    | newRelationship p c => exact ⟨h.opn.accept p c, h.relate hp.1 hp.2.1 hp.2.2⟩
  obtain ⟨hc, h1, h2, h3⟩ := key
  obtain ⟨ops, ha, e⟩ := h.made
  refine ⟨hc, ⟨ops ++ [op], along_append ha (by rw [← e]; exact ⟨hc, trivial⟩), ?_⟩, h1, h2, h3⟩
  rw [runOps_append', ← e]; rfl

end Larch
