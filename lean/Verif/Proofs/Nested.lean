import Verif.Spec.Nested
import Verif.Proofs.Now
import Verif.Proofs.KeepsGood
import Verif.Proofs.ViewEdits
import Verif.Proofs.SpecTree

/-!
# Edits with observers that may edit the tree
-/

namespace Larch

open Graph Spec

variable {σ : Type} {tell : Ev → Id → Now σ → Res (Now σ)}

/-! ### What an edit sends -/

/-- If `r` is what an edit does to the tree alone, then `q` is what it does with observers: it tells nothing, one thing, or two
things, after it has changed the tree. -/
def Sends (tell : Ev → Id → Now σ → Res (Now σ)) (w : Now σ) (r : Res St) (q : Res (Now σ)) : Prop :=
  (r.state.log = w.s.log ∧ q = withObservers w.o r) ∨
    (∃ t' ev x, r = .ok ((⟨t', w.s.log⟩ : St).emit ev x) ∧ q = tell ev x ⟨⟨t', w.s.log⟩, w.o⟩) ∨
    ∃ t' p c, r = .ok (((⟨t', w.s.log⟩ : St).emit .modified p).emit .modified c) ∧
      q = (tell .modified p ⟨⟨t', w.s.log⟩, w.o⟩).andThen (tell .modified c)

namespace Sends

variable {w : Now σ} {r : Res St} {q : Res (Now σ)}

theorem quiet (h : Sends tell w r q) (hl : r.state.log = w.s.log) : q = withObservers w.o r := by
  rcases h with h | ⟨t', ev, x, rfl, -⟩ | ⟨t', p, c, rfl, -⟩
  · exact h.2
  · have := congrArg List.length hl
    simp [Res.state, St.emit] at this
  · have := congrArg List.length hl
    simp [Res.state, St.emit] at this

theorem pair (h : Sends tell w r q) {t' : Tree} {p c : Id}
    (hr : r = .ok (((⟨t', w.s.log⟩ : St).emit .modified p).emit .modified c)) :
    q = (tell .modified p ⟨⟨t', w.s.log⟩, w.o⟩).andThen (tell .modified c) := by
  subst hr
  rcases h with ⟨hl, -⟩ | ⟨t1, ev, x, e, -⟩ | ⟨t1, p1, c1, e, hq⟩
  · have := congrArg List.length hl
    simp [Res.state, St.emit] at this
  · have := congrArg (fun r => r.state.log.length) e
    simp [Res.state, St.emit] at this
  · simp only [St.emit, Res.ok.injEq, St.mk.injEq, List.append_assoc, List.append_cancel_left_eq, List.cons_append, List.nil_append, List.cons.injEq,
      Note.mk.injEq, true_and, and_true] at e
    obtain ⟨rfl, ⟨-, rfl⟩, -, rfl⟩ := e
    exact hq

theorem one (h : Sends tell w r q) {t' : Tree} {ev : Ev} {x : Id} (hr : r = .ok ((⟨t', w.s.log⟩ : St).emit ev x)) :
    q = tell ev x ⟨⟨t', w.s.log⟩, w.o⟩ := by
  subst hr
  rcases h with ⟨hl, -⟩ | ⟨t1, ev1, x1, e, hq⟩ | ⟨t1, p1, c1, e, hq⟩
  · have := congrArg List.length hl
    simp [Res.state, St.emit] at this
  · simp only [St.emit, Res.ok.injEq, St.mk.injEq, List.append_cancel_left_eq, List.cons.injEq, Note.mk.injEq, and_true] at e
    obtain ⟨rfl, -, rfl, rfl⟩ := e
    exact hq
  · have := congrArg (fun r => r.state.log.length) e
    simp [Res.state, St.emit] at this

/-- The tree changes first. -/
theorem after {w' : Now σ} (h : Sends tell w' r q) (hl : w'.s.log = w.s.log) (ho : w'.o = w.o) : Sends tell w r q := by
  unfold Sends at h ⊢
  rw [hl, ho] at h
  exact h

end Sends

theorem Now.newRelationship_sends (w : Now σ) (p c : Id) : Sends tell w (Larch.newRelationship w.s p c) (Now.newRelationship tell w p c) := by
  unfold Larch.newRelationship Now.newRelationship
  dsimp only [Now.mapTree]
  split
  · exact .inl ⟨rfl, rfl⟩
  · split
    · exact .inl ⟨rfl, rfl⟩
    · split
      · rename_i hc
        rw [hc]
        exact .inl ⟨rfl, rfl⟩
      · rename_i hc
        rw [hc]
        dsimp only
        split
        · rename_i hd; rw [hd]; exact .inl ⟨rfl, rfl⟩
        · rename_i hd; rw [hd]; exact .inl ⟨rfl, rfl⟩
      · rename_i hc
        rw [hc]
        dsimp only
        split
        · rename_i hd; rw [hd]; exact .inl ⟨rfl, rfl⟩
        · rename_i hd; rw [hd]; exact .inr (.inr ⟨_, p, c, rfl, rfl⟩)

theorem Now.rootAddChild_quiet (w : Now σ) (c : Id) (hr : w.s.t.has w.s.t.root.id = false) :
    (Larch.rootAddChild w.s c).state.log = w.s.log ∧ Now.rootAddChild tell w c = withObservers w.o (Larch.rootAddChild w.s c) := by
  unfold Larch.rootAddChild Now.rootAddChild
  split
  · split
    · cases w.s.t.node? c with
      | none => exact ⟨rfl, rfl⟩
      | some child =>
        dsimp only
        split
        · have hh : ((w.s.mapTree fun t => t.updRoot (fun l => l ++ [c])).mapTree fun t =>
              { t with pending := t.pending.erase (w.s.t.root.id, c) }).t.has w.s.t.root.id = false := hr
          unfold Larch.newRelationship Now.newRelationship
          dsimp only [Now.mapTree]
          rw [hh]
          simp only [Bool.not_false, Bool.true_or, if_true]
          split <;> exact ⟨rfl, rfl⟩
        · exact ⟨rfl, rfl⟩
    · exact ⟨rfl, rfl⟩
  · exact ⟨rfl, rfl⟩

theorem Now.breakRelationship_sends (w : Now σ) (p c : Id) (hr : w.s.t.has w.s.t.root.id = false) :
    Sends tell w (Larch.breakRelationship w.s p c) (Now.breakRelationship tell w p c) := by
  unfold Larch.breakRelationship Now.breakRelationship
  dsimp only [Now.mapTree]
  split
  · exact .inl ⟨rfl, rfl⟩
  · split
    · exact .inl ⟨rfl, rfl⟩
    · cases hd : (w.s.mapTree fun t => { t with pending := dropPending t.pending p c }).t.destroy p c with
      | none => exact .inl ⟨rfl, rfl⟩
      | some t2 =>
        dsimp only
        have hr2 : t2.has t2.root.id = false := by
          obtain ⟨_, _, ef⟩ := Tree.destroy_eq_some hd
          rw [ef.has, ef.root]; exact hr
        rw [show (St.mapTree (w.s.mapTree fun t => { t with pending := dropPending t.pending p c }) fun _ => t2) = ⟨t2, w.s.log⟩ from rfl]
        dsimp only
        by_cases hg : t2.getParents c = []
        · rw [if_pos hg, if_pos hg]
          obtain ⟨h1, h2⟩ := Now.rootAddChild_quiet (tell := tell) (⟨⟨t2, w.s.log⟩, w.o⟩ : Now σ) c hr2
          rw [h2]
          change (Larch.rootAddChild ⟨t2, w.s.log⟩ c).state.log = w.s.log at h1
          change Sends tell w ((Larch.rootAddChild ⟨t2, w.s.log⟩ c).andThen _) ((withObservers w.o (Larch.rootAddChild ⟨t2, w.s.log⟩ c)).andThen _)
          generalize Larch.rootAddChild ⟨t2, w.s.log⟩ c = q at h1
          cases q with
          | err e s' => exact .inl ⟨h1, rfl⟩
          | ok s' =>
            obtain ⟨t3, l3⟩ := s'
            have h1' : l3 = w.s.log := h1
            subst h1'
            exact .inr (.inr ⟨t3, p, c, rfl, rfl⟩)
        · rw [if_neg hg, if_neg hg]
          exact .inr (.inr ⟨t2, p, c, rfl, rfl⟩)

theorem Now.modifyNode_sends (w : Now σ) (x : Id) : Sends tell w (Larch.modifyNode w.s x) (Now.modifyNode tell w x) := by
  unfold Larch.modifyNode Now.modifyNode
  split
  · exact .inr (.inl ⟨w.s.t, .modified, x, rfl, rfl⟩)
  · exact .inl ⟨rfl, rfl⟩

theorem Now.nodeAddParent_sends (w : Now σ) (x p : Id) : Sends tell w (Larch.nodeAddParent w.s x p) (Now.nodeAddParent tell w x p) := by
  unfold Larch.nodeAddParent Now.nodeAddParent
  cases w.s.t.node? x with
  | none => exact .inl ⟨rfl, rfl⟩
  | some nd =>
    dsimp only
    split
    · cases w.s.t.node? p with
      | none => exact .inl ⟨rfl, rfl⟩
      | some par =>
        dsimp only
        split
        · exact Now.newRelationship_sends w p x
        · exact .inl ⟨rfl, rfl⟩
    · exact .inl ⟨rfl, rfl⟩

theorem Now.treeAddParent_sends (w : Now σ) (x p : Id) : Sends tell w (Larch.treeAddParent w.s x p) (Now.treeAddParent tell w x p) := by
  unfold Larch.treeAddParent Now.treeAddParent
  split
  · exact Now.nodeAddParent_sends w x p
  · exact .inl ⟨rfl, rfl⟩

theorem Now.nodeRemoveParent_sends (w : Now σ) (x p : Id) (hr : w.s.t.has w.s.t.root.id = false) :
    Sends tell w (Larch.nodeRemoveParent w.s x p) (Now.nodeRemoveParent tell w x p) := by
  unfold Larch.nodeRemoveParent Now.nodeRemoveParent
  cases w.s.t.node? x with
  | none => exact .inl ⟨rfl, rfl⟩
  | some nd =>
    dsimp only
    split
    · refine (Now.breakRelationship_sends (w.mapTree fun t => t.updNode x (fun nd => { nd with parents := nd.parents.erase p })) p x ?_).after rfl rfl
      show (w.s.t.updNode x _).has (w.s.t.updNode x _).root.id = false
      rw [Tree.has_updNode]; exact hr
    · exact .inl ⟨rfl, rfl⟩

theorem Now.nodeAddChild_sends (w : Now σ) (x c : Id) : Sends tell w (Larch.nodeAddChild w.s x c) (Now.nodeAddChild tell w x c) := by
  unfold Larch.nodeAddChild Now.nodeAddChild
  cases w.s.t.node? x with
  | none => exact .inl ⟨rfl, rfl⟩
  | some nd =>
    dsimp only
    split
    · split
      · cases w.s.t.node? c with
        | none => exact .inl ⟨rfl, rfl⟩
        | some child =>
          dsimp only
          split
          · exact (Now.newRelationship_sends (w.mapTree fun t => t.updNode x (fun nd => { nd with children := nd.children ++ [c] })) x c).after rfl rfl
          · exact .inl ⟨rfl, rfl⟩
      · exact .inl ⟨rfl, rfl⟩
    · exact .inl ⟨rfl, rfl⟩

theorem Now.addNode_sends (w : Now σ) (nd : Node) (p : Id) : Sends tell w (Larch.addNode w.s nd p) (Now.addNode tell w nd p) := by
  unfold Larch.addNode Now.addNode
  dsimp only [Now.mapTree]
  split
  · exact .inl ⟨rfl, rfl⟩
  · split
    · rename_i hf; rw [hf]; exact .inl ⟨rfl, rfl⟩
    · rename_i t2 toRoot hf
      rw [hf]
      dsimp only
      by_cases hp : p = Id.none
      · rw [if_pos hp, if_pos hp]
        cases toRoot <;> exact .inr (.inl ⟨_, _, _, rfl, rfl⟩)
      · rw [if_neg hp, if_neg hp]
        cases hc : t2.isCircular p nd.id with
        | none => exact .inl ⟨rfl, rfl⟩
        | some b =>
          cases b with
          | true => exact .inl ⟨rfl, rfl⟩
          | false =>
            dsimp only
            by_cases hh : t2.has p = true
            · rw [if_pos hh, if_pos hh]
              cases hq : t2.create p nd.id with
              | none => exact .inl ⟨rfl, rfl⟩
              | some t3 => exact .inr (.inl ⟨_, _, _, rfl, rfl⟩)
            · rw [if_neg hh, if_neg hh]
              cases toRoot <;> exact .inr (.inl ⟨_, _, _, rfl, rfl⟩)

/-! ### What is kept -/

/-- No node has been removed. -/
def Grows (w w' : Now σ) : Prop := ∀ y, w.s.t.has y = true → w'.s.t.has y = true

theorem Grows.refl (w : Now σ) : Grows w w := fun _ h => h

theorem Grows.trans {w w' w'' : Now σ} (h : Grows w w') (h' : Grows w' w'') : Grows w w'' := fun y hy => h' y (h y hy)

/-- Observers have been told, or an edit has been made: if nothing has raised, then `I X` holds; otherwise the exception is one of
`bad`, and at least the tree is consistent. -/
def Fine (I : (Id → Prop) → Now σ → Prop) (bad : Err → Prop) (X : Id → Prop) (w : Now σ) (r : Res (Now σ)) : Prop :=
  Grows w r.state ∧ match r with
    | .ok w' => I X w'
    | .err e w' => bad e ∧ Sane w'.s

/-- The same, but the edit may also have been refused. -/
def Ends (I : (Id → Prop) → Now σ → Prop) (bad : Err → Prop) (X : Id → Prop) (w : Now σ) (r : Res (Now σ)) : Prop :=
  Fine I bad X w r ∨ Grows w r.state ∧ I X r.state

/-- `I X` is kept by the edits while nobody is told, with the nodes whose parents change put into `X`. If `cut` is false, relations
are only added; if `link` is false, relations are added only when `calm X`. -/
structure Grip (I : (Id → Prop) → Now σ → Prop) (cut link : Prop) (calm : (Id → Prop) → Prop) : Prop where
  sane : ∀ {X w}, I X w → Sane w.s
  mono : ∀ {X Y : Id → Prop} {w}, I X w → (∀ y, X y → Y y) → I Y w
  same : ∀ {X w} {s' : St}, I X w → s'.log = w.s.log → (∀ y, s'.t.has y = w.s.t.has y) → s'.t.rawParents = w.s.t.rawParents →
    Sane s' → I X ⟨s', w.o⟩
  linked : ∀ {X w} {p c : Id} {t' : Tree}, (link ∨ calm X) → I X w → w.s.t.create p c = some t' →
    ¬ ReachEq w.s.t.rawParents p c → Sane ⟨t', w.s.log⟩ → I (fun y => X y ∨ y = c) ⟨⟨t', w.s.log⟩, w.o⟩
  cuts : ∀ {X w} {p c : Id} {t' : Tree}, cut → I X w → BreakEffect w.s.t t' p c → Sane ⟨t', w.s.log⟩ →
    I (fun y => X y ∨ y = c) ⟨⟨t', w.s.log⟩, w.o⟩

/-- What telling the observers does. `name` are the names that nodes may have. -/
structure Tells (I : (Id → Prop) → Now σ → Prop) (bad : Err → Prop) (link : Prop) (calm : (Id → Prop) → Prop) (name : Id → Prop)
    (tell : Ev → Id → Now σ → Res (Now σ)) : Prop where
  modified : ∀ {X w} {x : Id}, I X w → w.s.t.has x = true → Fine I bad (fun y => X y ∧ y ≠ x) w (tell .modified x w)
  added : ∀ {X w} {x : Id} {t' : Tree}, I X w → Sane ⟨t', w.s.log⟩ → Arrived w.s.t t' x → w.s.t.has x = false → name x →
    (link ∨ calm X ∨ ∀ y, x ∉ t'.rawParents y) → Fine I bad X ⟨⟨t', w.s.log⟩, w.o⟩ (tell .added x ⟨⟨t', w.s.log⟩, w.o⟩)

variable {I : (Id → Prop) → Now σ → Prop} {bad : Err → Prop} {cut link : Prop} {calm : (Id → Prop) → Prop} {name : Id → Prop} {X : Id → Prop} {w : Now σ}

theorem Fine.ends {r : Res (Now σ)} (h : Fine I bad X w r) : Ends I bad X w r := .inl h

theorem Fine.grows {r : Res (Now σ)} {w0 : Now σ} (h : Fine I bad X w r) (hg : Grows w0 w) : Fine I bad X w0 r := ⟨hg.trans h.1, h.2⟩

theorem Ends.grows {r : Res (Now σ)} {w0 : Now σ} (h : Ends I bad X w r) (hg : Grows w0 w) : Ends I bad X w0 r := by
  rcases h with h | h
  · exact .inl (h.grows hg)
  · exact .inr ⟨hg.trans h.1, h.2⟩

theorem Fine.mono {r : Res (Now σ)} (G : Grip I cut link calm) (h : Fine I bad X w r) {Y : Id → Prop} (hy : ∀ y, X y → Y y) : Fine I bad Y w r := by
  refine ⟨h.1, ?_⟩
  cases r with
  | ok w' => exact G.mono h.2 hy
  | err e w' => exact h.2

theorem Ends.sane (G : Grip I cut link calm) {r : Res (Now σ)} (h : Ends I bad X w r) : Sane r.state.s := by
  rcases h with h | h
  · cases r with
    | ok w' => exact G.sane h.2
    | err e w' => exact h.2.2
  · exact G.sane h.2

/-- Two things are told one after the other. -/
theorem Tells.pair (G : Grip I cut link calm) (T : Tells I bad link calm name tell) {p c : Id} (h : I (fun y => X y ∨ y = c) w)
    (hp : w.s.t.has p = true) (hc : w.s.t.has c = true) :
    Fine I bad X w ((tell .modified p w).andThen (tell .modified c)) := by
  have h1 := T.modified h hp
  cases e : tell .modified p w with
  | err a w1 => rw [e] at h1; exact h1
  | ok w1 =>
    rw [e] at h1
    have h2 := (T.modified h1.2 (h1.1 c hc)).grows h1.1
    refine h2.mono G ?_
    rintro y ⟨⟨h | h, -⟩, hn⟩
    · exact h
    · exact absurd h hn

theorem newRelationship_ends (G : Grip I cut link calm) (T : Tells I bad link calm name tell) {p c : Id} (hl : w.s.t.Linkable p c)
    (hX : link ∨ calm X) (h : I X w) : Ends I bad X w (Now.newRelationship tell w p c) := by
  obtain ⟨hg, hn⟩ := G.sane h
  have hs := Now.newRelationship_sends (tell := tell) w p c
  have hg' := newRelationship_good hg p c hl
  have hn' : NoDangling (newRelationship w.s p c).state.t := step_noDangling hg hn (.newRelationship p c) hl
  by_cases h1 : p.falsy = true ∨ c.falsy = true ∨ p = c
  · rw [newRelationship_skip w.s h1] at hs hg' hn'
    rw [hs.quiet rfl]
    exact .inr ⟨fun _ h => h, G.same h rfl (fun _ => rfl) rfl ⟨hg', hn'⟩⟩
  · push Not at h1
    have hp1 : p.falsy = false := by simpa using h1.1
    have hc1 : c.falsy = false := by simpa using h1.2.1
    by_cases h2 : w.s.t.has p = true ∧ w.s.t.has c = true
    · by_cases hre : ReachEq w.s.t.rawParents p c
      · rw [newRelationship_refused hg.wf hg.pend h1.2.2 h2.1 h2.2 hre] at hs
        rw [hs.quiet rfl]
        exact .inr ⟨fun _ h => h, h⟩
      · obtain ⟨t', ht', e⟩ := newRelationship_linked hg.wf hg.root hg.pend h2.1 h2.2 hre
        rw [e] at hg' hn'
        rw [hs.pair e]
        obtain ⟨-, -, ef⟩ := Tree.create_eq_some ht'
        refine .inl ((Tells.pair G T (G.linked hX h ht' hre ⟨hg', hn'⟩) ?_ ?_).grows fun y hy => ?_)
        · show t'.has p = true; rw [ef.has]; exact h2.1
        · show t'.has c = true; rw [ef.has]; exact h2.2
        · show t'.has y = true; rw [ef.has]; exact hy
    · rw [newRelationship_later w.s hp1 hc1 h1.2.2 h2] at hs hg' hn'
      rw [hs.quiet rfl]
      exact .inr ⟨fun _ h => h, G.same h rfl (fun _ => rfl) rfl ⟨hg', hn'⟩⟩

theorem Spec.Sane.rootFree {s : St} (h : Sane s) : s.t.has s.t.root.id = false := by
  rw [h.1.wf.rootIs]
  by_contra hc
  exact (h.1.wf.ids rootId (by simpa using hc)).2 rfl

theorem breakRelationship_ends (G : Grip I cut link calm) (T : Tells I bad link calm name tell) {p c : Id} (hcut : cut) (h : I X w) :
    Fine I bad X w (Now.breakRelationship tell w p c) := by
  obtain ⟨hg, hn⟩ := G.sane h
  have hs := Now.breakRelationship_sends (tell := tell) w p c (G.sane h).rootFree
  have hn' : NoDangling (breakRelationship w.s p c).state.t := step_noDangling hg hn (.breakRelationship p c) trivial
  by_cases h1 : p.falsy = true ∨ c.falsy = true ∨ p = c ∨ w.s.t.has p = false ∨ w.s.t.has c = false
  · obtain ⟨s', e, hg'⟩ := breakRelationship_good hg p c
    rw [breakRelationship_skip w.s h1] at e hs hn'
    cases e
    rw [hs.quiet rfl]
    exact ⟨fun _ h => h, G.same h rfl (fun _ => rfl) rfl ⟨hg', hn'⟩⟩
  · push Not at h1
    have a1 : w.s.t.has p = true := by simpa using h1.2.2.2.1
    have a2 : w.s.t.has c = true := by simpa using h1.2.2.2.2
    obtain ⟨t', e, hg', ef⟩ := breakRelationship_spec hg a1 a2 h1.2.2.1
    rw [e] at hn'
    rw [hs.pair e]
    refine (Tells.pair G T (G.cuts hcut h ef ⟨hg', hn'⟩) ?_ ?_).grows fun y hy => ?_
    · show t'.has p = true; rw [ef.has]; exact a1
    · show t'.has c = true; rw [ef.has]; exact a2
    · show t'.has y = true; rw [ef.has]; exact hy

theorem Ends.refused (h : I X w) {e : Err} : Ends I bad X w (.err e w) := .inr ⟨fun _ h => h, h⟩

theorem Ends.nothing (h : I X w) : Ends I bad X w (.ok w) := .inr ⟨fun _ h => h, h⟩

/-- Only the list of pending relations changes. -/
theorem Ends.pending (G : Grip I cut link calm) (h : I X w) {l : List (Id × Id)} (hp : PendOK { w.s.t with pending := l }) :
    Ends I bad X w (.ok (w.mapTree fun t => { t with pending := l })) := by
  obtain ⟨hg, hn⟩ := G.sane h
  exact .inr ⟨fun _ h => h, G.same (s' := ⟨{ w.s.t with pending := l }, w.s.log⟩) h rfl (fun _ => rfl) rfl ⟨hg.pending l hp, hn⟩⟩

theorem nodeAddParent_ends (G : Grip I cut link calm) (T : Tells I bad link calm name tell) {x p : Id} (hX : link ∨ calm X) (h : I X w) :
    Ends I bad X w (Now.nodeAddParent tell w x p) := by
  obtain ⟨hg, hn⟩ := G.sane h
  unfold Now.nodeAddParent
  cases hnd : w.s.t.node? x with
  | none => exact .refused h
  | some nd =>
    dsimp only
    split
    · rename_i hcond
      cases hpar : w.s.t.node? p with
      | none =>
        refine Ends.pending G h fun a b hab => ?_
        rcases List.mem_append.1 hab with hab | hab
        · exact hg.pend a b hab
        · cases List.mem_singleton.1 hab
          rintro ⟨ha, -⟩
          change w.s.t.has p = true at ha
          rw [Tree.has_eq, hpar] at ha; cases ha
      | some par =>
        dsimp only
        split
        · rename_i hce
          exact newRelationship_ends G T (WF.linkable_flags hpar hnd hce hcond.2.1) hX h
        · exact .nothing h
    · exact .nothing h

theorem nodeRemoveParent_ends (G : Grip I cut link calm) (T : Tells I bad link calm name tell) {x p : Id} (hcut : cut) (h : I X w) :
    Ends I bad X w (Now.nodeRemoveParent tell w x p) ∧ (w.s.t.has x = true → Fine I bad X w (Now.nodeRemoveParent tell w x p)) := by
  obtain ⟨hg, hn⟩ := G.sane h
  have hs := Now.nodeRemoveParent_sends (tell := tell) w x p (G.sane h).rootFree
  cases hnd : w.s.t.node? x with
  | none =>
    have e : Now.nodeRemoveParent tell w x p = .err .valueError w := by unfold Now.nodeRemoveParent; rw [hnd]
    rw [e]
    refine ⟨.refused h, fun hx => ?_⟩
    rw [Tree.has_eq, hnd] at hx; cases hx
  | some nd =>
    suffices hf : Fine I bad X w (Now.nodeRemoveParent tell w x p) from ⟨.inl hf, fun _ => hf⟩
    by_cases hm : p ∈ w.s.t.rawParents x
    · rw [nodeRemoveParent_eq hg hm] at hs
      have a1 := hg.wf.has_parent hm
      have a2 := Tree.has_of_mem_rawParents hm
      have a3 : p ≠ x := by rintro rfl; exact hg.wf.acyclic p (Reach.single hm)
      have hn' : NoDangling (breakRelationship w.s p x).state.t := step_noDangling hg hn (.breakRelationship p x) trivial
      obtain ⟨t', e, hg', ef⟩ := breakRelationship_spec hg a1 a2 a3
      rw [e] at hn'
      rw [hs.pair e]
      refine (Tells.pair G T (G.cuts hcut h ef ⟨hg', hn'⟩) ?_ ?_).grows fun y hy => ?_
      · show t'.has p = true; rw [ef.has]; exact a1
      · show t'.has x = true; rw [ef.has]; exact a2
      · show t'.has y = true; rw [ef.has]; exact hy
    · rw [nodeRemoveParent_noop hnd hm] at hs
      rw [hs.quiet rfl]
      exact ⟨fun _ h => h, h⟩

theorem nodeAddChild_ends (G : Grip I cut link calm) (T : Tells I bad link calm name tell) {x c : Id} (hX : link ∨ calm X) (h : I X w) :
    Ends I bad X w (Now.nodeAddChild tell w x c) := by
  obtain ⟨hg, hn⟩ := G.sane h
  have hs := Now.nodeAddChild_sends (tell := tell) w x c
  cases hnd : w.s.t.node? x with
  | none => unfold Now.nodeAddChild; rw [hnd]; exact .refused h
  | some nd =>
    by_cases h1 : nd.childrenEnabled = true ∧ c ≠ x
    · by_cases h2 : c ∉ nd.children
      · cases hc : w.s.t.node? c with
        | none =>
          unfold Now.nodeAddChild; rw [hnd]; dsimp only; rw [if_pos h1, if_pos h2, hc]
          refine Ends.pending G h fun a b hab => ?_
          rcases List.mem_append.1 hab with hab | hab
          · exact hg.pend a b hab
          · cases List.mem_singleton.1 hab
            rintro ⟨-, ha⟩
            change w.s.t.has c = true at ha
            rw [Tree.has_eq, hc] at ha; cases ha
        | some child =>
          by_cases h3 : child.parentsEnabled = true
          · have hl := WF.linkable_flags hnd hc h1.1 h3
            have e := nodeAddChild_eq hg hnd hc h1.1 h1.2 h2 h3
            rw [e] at hs
            have hs' := Now.newRelationship_sends (tell := tell) w x c
            suffices hq : Now.nodeAddChild tell w x c = Now.newRelationship tell w x c by
              rw [hq]; exact newRelationship_ends G T hl hX h
            rcases hs with ⟨a1, a2⟩ | ⟨t', ev, y, a1, a2⟩ | ⟨t', p, c', a1, a2⟩
            · rw [a2, hs'.quiet a1]
            · rw [a2, hs'.one a1]
            · rw [a2, hs'.pair a1]
          · unfold Now.nodeAddChild; rw [hnd]; dsimp only; rw [if_pos h1, if_pos h2, hc]; dsimp only
            rw [if_neg h3]; exact .nothing h
      · unfold Now.nodeAddChild; rw [hnd]; dsimp only; rw [if_pos h1, if_neg h2]; exact .nothing h
    · unfold Now.nodeAddChild; rw [hnd]; dsimp only; rw [if_neg h1]; exact .nothing h

theorem modifyNode_ends (T : Tells I bad link calm name tell) (G : Grip I cut link calm) {x : Id} (h : I X w) : Fine I bad X w (Now.modifyNode tell w x) := by
  unfold Now.modifyNode
  split
  · rename_i hx
    exact (T.modified h hx.2).mono G fun y hy => hy.1
  · exact ⟨fun _ h => h, h⟩

theorem addNode_ends (G : Grip I cut link calm) (T : Tells I bad link calm name tell) {nd : Node} {p : Id} (hc : Careful w.s (.addNode nd p)) (hname : name nd.id)
    (hX : link ∨ calm X ∨ ∀ y, nd.id ∉ (addNode w.s nd p).state.t.getParents y) (h : I X w) : Fine I bad X w (Now.addNode tell w nd p) := by
  obtain ⟨hg, hn⟩ := G.sane h
  have htd := hc.tidy hg hn
  have hsafe := htd.safe hg hn
  have hs := Now.addNode_sends (tell := tell) w nd p
  have hg' : Good (addNode w.s nd p).state.t := step_good hg (.addNode nd p) hsafe
  have hn' : NoDangling (addNode w.s nd p).state.t := step_noDangling hg hn (.addNode nd p) htd
  cases hx : w.s.t.has nd.id with
  | true =>
    rw [addNode_existing hx] at hs
    rw [hs.quiet rfl]
    exact ⟨fun _ h => h, h⟩
  | false =>
    obtain ⟨hfr, h2⟩ := hsafe
    rw [hx] at h2
    obtain h2 | ⟨-, -, -, hok⟩ := h2
    · cases h2
    · cases hr : addNode w.s nd p with
      | err a s' => rw [hr] at hok; cases hok
      | ok s' =>
        rw [hr] at hg' hn' hX
        obtain ⟨t', e, ha⟩ := addNode_arrived hg hfr hx hr
        subst e
        rw [hs.one hr]
        refine (T.added h ⟨hg', hn'⟩ ha hx hname ?_).grows fun y hy => ?_
        · rcases hX with hX | hX | hX
          · exact .inl hX
          · exact .inr (.inl hX)
          · refine .inr (.inr fun y hy => hX y ?_)
            show nd.id ∈ t'.getParents y
            have hw : WF t' := hg'.wf
            rw [hw.getParents_eq]; exact hy
        · show t'.has y = true; rw [ha.has, hy]; simp

/-- The loop of `set_parent`. -/
theorem setParentLoop_ends (G : Grip I cut link calm) (T : Tells I bad link calm name tell) {x p : Id} (hcut : cut) (f i : Nat) (flag : Bool) (w : Now σ) (h : I X w) :
    Grows w (Now.setParentLoop tell f i w x p flag).state.1 ∧ match Now.setParentLoop tell f i w x p flag with
      | .ok (w', _) => I X w'
      | .err e (w', _) => bad e ∧ Sane w'.s ∨ I X w' := by
  induction f generalizing i w flag with
  | zero => exact ⟨fun _ h => h, h⟩
  | succ f ih =>
    unfold Now.setParentLoop
    cases hq : (w.s.t.rawParents x)[i]? with
    | none => exact ⟨fun _ h => h, h⟩
    | some q =>
      dsimp only
      split
      · have h1 := (nodeRemoveParent_ends G T (x := x) (p := q) hcut h).1
        cases e : Now.nodeRemoveParent tell w x q with
        | err a w' =>
          rw [e] at h1
          rcases h1 with h1 | h1
          · exact ⟨h1.1, .inl h1.2⟩
          · exact ⟨h1.1, .inr h1.2⟩
        | ok w' =>
          rw [e] at h1
          have h1' : Grows w w' ∧ I X w' := by rcases h1 with h1 | h1 <;> exact h1
          obtain ⟨a1, a2⟩ := ih (i + 1) flag w' h1'.2
          exact ⟨h1'.1.trans a1, a2⟩
      · exact ih (i + 1) true w h

theorem forEach_break_ends (G : Grip I cut link calm) (T : Tells I bad link calm name tell) {x : Id} (hcut : cut) (l : List Id) (w : Now σ) (h : I X w) :
    Fine I bad X w (Res.forEach (fun q w => Now.breakRelationship tell w q x) l w) := by
  induction l generalizing w with
  | nil => exact ⟨fun _ h => h, h⟩
  | cons q l ih =>
    have h1 := breakRelationship_ends G T (p := q) (c := x) hcut h
    unfold Res.forEach
    cases e : Now.breakRelationship tell w q x with
    | err a w' => rw [e] at h1; exact h1
    | ok w' => rw [e] at h1; exact (ih w' h1.2).grows h1.1

theorem nodeSetParent_ends (G : Grip I cut link calm) (T : Tells I bad link calm name tell) {x p : Id} (hcut : cut) (hX : link ∨ calm X)
    (hp : w.s.t.has p = true ∨ p.falsy = true ∨ w.s.t.getParents x = []) (more : Nat) (h : I X w) :
    Ends I bad X w (Now.nodeSetParent tell w x p more) := by
  obtain ⟨hg, hn⟩ := G.sane h
  unfold Now.nodeSetParent
  cases hnd : w.s.t.node? x with
  | none => exact .refused h
  | some nd =>
    dsimp only
    split
    · cases hpar : w.s.t.node? p with
      | none =>
        dsimp only
        have hno : w.s.t.has p ≠ true := by rw [Tree.has_eq, hpar]; simp
        have hf := forEach_break_ends G T (x := x) hcut (w.s.t.getParents x) w h
        have key : ∀ w', I X w' → w'.s.t.has p ≠ true → Ends I bad X w' (.ok (w'.mapTree fun t => { t with pending := t.pending ++ [(p, x)] })) := by
          intro w' h' hno'
          refine Ends.pending G h' fun a b hab => ?_
          rcases List.mem_append.1 hab with hab | hab
          · exact (G.sane h').1.pend a b hab
          · cases List.mem_singleton.1 hab
            rintro ⟨ha, -⟩
            exact hno' ha
        rcases hp with hp | hp | hp
        · exact absurd hp hno
        · cases e : Res.forEach (fun q w => Now.breakRelationship tell w q x) (w.s.t.getParents x) w with
          | err a w' => rw [e] at hf; exact .inl hf
          | ok w' =>
            rw [e] at hf
            refine (key w' hf.2 fun hc => ?_).grows hf.1
            have := ((G.sane hf.2).1.wf.ids p hc).1
            rw [hp] at this; cases this
        · rw [hp]
          exact key w h hno
      | some par =>
        dsimp only
        split
        · obtain ⟨h1, h2⟩ := setParentLoop_ends G T (x := x) (p := p) hcut (nd.parents.length + more) 0 false w h
          cases e : Now.setParentLoop tell (nd.parents.length + more) 0 w x p false with
          | err a wf =>
            rw [e] at h1 h2
            rcases h2 with h2 | h2
            · exact .inl ⟨h1, h2⟩
            · exact .inr ⟨h1, h2⟩
          | ok wf =>
            rw [e] at h1 h2
            dsimp only
            split
            · exact (nodeAddParent_ends G T hX h2).grows h1
            · exact .inr ⟨h1, h2⟩
        · exact .nothing h
    · exact .nothing h

theorem flags_ends (G : Grip I cut link calm) (h : I X w) {x : Id} (f : Node → Node) (hp : ∀ nd, (f nd).parents = nd.parents)
    (hc : ∀ nd, (f nd).children = nd.children) (hg : Good (w.s.t.updNode x f)) :
    Ends I bad X w (.ok (w.mapTree fun t => t.updNode x f)) := by
  obtain ⟨rp, rc⟩ := updNode_flags_raw w.s.t x f hp hc
  have hn : NoDangling (w.s.t.updNode x f) := by
    intro q c hqc
    rw [rc] at hqc
    rw [Tree.has_updNode]; exact (G.sane h).2 q c hqc
  refine .inr ⟨fun y hy => ?_, G.same (s' := ⟨w.s.t.updNode x f, w.s.log⟩) h rfl (fun y => Tree.has_updNode _ _ _ _) rp ⟨hg, hn⟩⟩
  show (w.s.t.updNode x f).has y = true
  rw [Tree.has_updNode]; exact hy

theorem nodeSetParentsEnabled_ends (G : Grip I cut link calm) {x : Id} {b : Bool} (hb : b = true ∨ w.s.t.getParents x = []) (h : I X w) :
    Ends I bad X w (Now.nodeSetParentsEnabled tell w x b) := by
  have hg := nodeSetParentsEnabled_good (G.sane h).1 x b
  unfold Now.nodeSetParentsEnabled
  unfold nodeSetParentsEnabled at hg
  cases hnd : w.s.t.node? x with
  | none => exact .refused h
  | some nd =>
    rw [hnd] at hg
    dsimp only at hg ⊢
    have e1 : (if b = true then Res.ok w.s else Res.forEach (fun p s => Larch.nodeRemoveParent s x p) (w.s.t.getParents x) w.s) = .ok w.s := by
      rcases hb with hb | hb
      · rw [if_pos hb]
      · rw [hb]; split <;> rfl
    have e2 : (if b = true then Res.ok w else Res.forEach (fun p w => Now.nodeRemoveParent tell w x p) (w.s.t.getParents x) w) = .ok w := by
      rcases hb with hb | hb
      · rw [if_pos hb]
      · rw [hb]; split <;> rfl
    rw [e1] at hg
    rw [e2]
    exact flags_ends G h _ (fun _ => rfl) (fun _ => rfl) hg

theorem nodeSetChildrenEnabled_ends (G : Grip I cut link calm) {x : Id} {b : Bool} (hb : b = true ∨ w.s.t.getChildren x = []) (h : I X w) :
    Ends I bad X w (Now.nodeSetChildrenEnabled tell w x b) := by
  have hg := nodeSetChildrenEnabled_good (G.sane h).1 x b
  unfold Now.nodeSetChildrenEnabled
  unfold nodeSetChildrenEnabled at hg
  cases hnd : w.s.t.node? x with
  | none => exact .refused h
  | some nd =>
    rw [hnd] at hg
    dsimp only at hg ⊢
    have e1 : (if b = true then Res.ok w.s else Res.forEach (fun c s => Larch.breakRelationship s x c) (w.s.t.getChildren x) w.s) = .ok w.s := by
      rcases hb with hb | hb
      · rw [if_pos hb]
      · rw [hb]; split <;> rfl
    have e2 : (if b = true then Res.ok w else Res.forEach (fun c w => Now.breakRelationship tell w x c) (w.s.t.getChildren x) w) = .ok w := by
      rcases hb with hb | hb
      · rw [if_pos hb]
      · rw [hb]; split <;> rfl
    rw [e1] at hg
    rw [e2]
    exact flags_ends G h _ (fun _ => rfl) (fun _ => rfl) hg

/-- The edit may break a relation. -/
def Op.mayCut : Op → Prop
  | .moveNode _ _ | .setParent _ _ | .removeParent _ _ | .breakRelationship _ _ => True
  | _ => False

/-- The edit may add a relation between nodes that are there. -/
def Op.mayLink : Op → Prop
  | .moveNode _ _ | .setParent _ _ | .addParent _ _ | .addChild _ _ | .newRelationship _ _ => True
  | _ => False

theorem gentle_ends (G : Grip I cut link calm) (T : Tells I bad link calm name tell) {op : Op} (more : Nat) (hg : Gentle w.s op) (hcut : op.mayCut → cut)
    (hlink : op.mayLink → link ∨ calm X)
    (hadd : ∀ nd p, op = .addNode nd p → name nd.id ∧ (link ∨ calm X ∨ ∀ y, nd.id ∉ (addNode w.s nd p).state.t.getParents y)) (h : I X w) :
    Ends I bad X w (Now.step tell w op more) := by
  cases op with
  | addNode nd p => exact .inl (addNode_ends G T hg (hadd nd p rfl).1 (hadd nd p rfl).2 h)
  | delNode x r => exact hg.elim
  | refreshNode x => exact .inl (modifyNode_ends T G h)
  | moveNode x p =>
    show Ends I bad X w (Now.moveNode tell w x p more)
    unfold Now.moveNode
    split
    · exact nodeSetParent_ends G T (hcut trivial) (hlink trivial) hg more h
    · exact .nothing h
  | addParent x p =>
    show Ends I bad X w (Now.treeAddParent tell w x p)
    unfold Now.treeAddParent
    split
    · exact nodeAddParent_ends G T (hlink trivial) h
    · exact .nothing h
  | setParent x p => exact nodeSetParent_ends G T (hcut trivial) (hlink trivial) hg more h
  | removeParent x p => exact (nodeRemoveParent_ends G T (hcut trivial) h).1
  | addChild x c => exact nodeAddChild_ends G T (hlink trivial) h
  | setParentsEnabled x b => exact nodeSetParentsEnabled_ends G hg h
  | setChildrenEnabled x b => exact nodeSetChildrenEnabled_ends G hg h
  | newRelationship p c => exact newRelationship_ends G T hg (hlink trivial) h
  | breakRelationship p c => exact .inl (breakRelationship_ends G T (hcut trivial) h)

/-! ### The tree stays consistent -/

/-- Nothing but the tree matters. -/
theorem grip_sane : Grip (fun _ w => Sane w.s : (Id → Prop) → Now σ → Prop) True True (fun _ => True) :=
  ⟨fun h => h, fun h _ => h, fun _ _ _ _ h => h, fun _ _ _ _ h => h, fun _ _ _ h => h⟩

theorem fine_sane {w : Now σ} {r : Res (Now σ)} {X : Id → Prop} (h : Grows w r.state) (hs : Sane r.state.s) :
    Fine (fun _ w => Sane w.s) (fun _ => True) X w r := by
  refine ⟨h, ?_⟩
  cases r with
  | ok w' => exact hs
  | err e w' => exact ⟨trivial, hs⟩

theorem run_sane {edit : Now σ → Op → Res (Now σ)}
    (he : ∀ w op, Sane w.s → Gentle w.s op → Grows w (edit w op).state ∧ Sane (edit w op).state.s) :
    ∀ (p : Prog σ) (w : Now σ), Sane w.s → Polite Sane Gentle p w → Grows w (Now.run edit p w).state ∧ Sane (Now.run edit p w).state.s
  | .done o, w, h, _ => ⟨fun _ h => h, h⟩
  | .raise e o, w, h, _ => ⟨fun _ h => h, h⟩
  | .edit o op next, w, h, hp => by
    obtain ⟨a1, a2⟩ := he ⟨w.s, o⟩ op h hp.1
    obtain ⟨b1, b2⟩ := run_sane he (next (edit ⟨w.s, o⟩ op)) (edit ⟨w.s, o⟩ op).state a2 (hp.2 _ a2)
    exact ⟨fun y hy => b1 y (a1 y hy), b2⟩

variable {obs : List (Watcher σ)} {more n : Nat}

theorem told_sane (hobs : ∀ ob ∈ obs, PoliteWatcher Sane Gentle ob) (ev : Ev) (x : Id) (w : Now σ) (h : Sane w.s) :
    Grows w (Now.told obs more n ev x w).state ∧ Sane (Now.told obs more n ev x w).state.s := by
  induction n generalizing ev x w with
  | zero => exact ⟨fun _ h => h, h⟩
  | succ n ih =>
    have T : Tells (fun _ w => Sane w.s : (Id → Prop) → Now σ → Prop) (fun _ => True) True (fun _ => True) (fun _ => True) (Now.told obs more n) := by
      constructor
      · intro X w x h hx
        obtain ⟨a, b⟩ := ih .modified x w h
        exact fine_sane a b
      · intro X w x t' h h' _ _ _ _
        obtain ⟨a, b⟩ := ih .added x ⟨⟨t', w.s.log⟩, w.o⟩ h'
        exact fine_sane a b
    show Grows w (Res.forEach _ obs (⟨w.s.emit ev x, w.o⟩ : Now σ)).state ∧ Sane (Res.forEach _ obs (⟨w.s.emit ev x, w.o⟩ : Now σ)).state.s
    refine forEach_inv (fun w' : Now σ => Grows w w' ∧ Sane w'.s) _ obs ?_ (⟨w.s.emit ev x, w.o⟩ : Now σ) ⟨fun _ h => h, h⟩
    intro ob hob w' ⟨h1, h2⟩
    obtain ⟨a, b⟩ := run_sane (fun w op hs hg => by
      have h := gentle_ends (X := fun _ => False) grip_sane T more hg (fun _ => trivial) (fun _ => .inl trivial) (fun _ _ _ => ⟨trivial, .inl trivial⟩) hs
      refine ⟨?_, h.sane grip_sane⟩
      rcases h with h | h <;> exact h.1) (ob ev x w') w' h2 (hobs ob hob ev x w' h2)
    exact ⟨h1.trans a, b⟩

theorem Tree.getChildren_nil_raw {t : Tree} (hg : Good t) (hn : NoDangling t) {x : Id} (h : t.getChildren x = []) : t.rawChildren x = [] := by
  rw [hg.wf.getChildren_eq, List.filter_eq_nil_iff] at h
  exact List.eq_nil_iff_forall_not_mem.2 fun c hc => h c hc (hn x c hc)

/-- An edit of the application. -/
theorem nested_sane (hobs : ∀ ob ∈ obs, PoliteWatcher Sane Gentle ob) {w : Now σ} {op : Op} (h : Sane w.s) (hg : GentleOuter w.s op) :
    Sane (Now.nested obs more n w op).state.s := by
  have T : Tells (fun _ w => Sane w.s : (Id → Prop) → Now σ → Prop) (fun _ => True) True (fun _ => True) (fun _ => True) (Now.told obs more n) := by
    constructor
    · intro X w x h hx
      obtain ⟨a, b⟩ := told_sane hobs (more := more) (n := n) .modified x w h
      exact fine_sane a b
    · intro X w x t' h h' _ _ _ _
      obtain ⟨a, b⟩ := told_sane hobs (more := more) (n := n) .added x ⟨⟨t', w.s.log⟩, w.o⟩ h'
      exact fine_sane a b
  by_cases hd : ∃ x r, op = .delNode x r
  · obtain ⟨x, r, rfl⟩ := hd
    obtain ⟨hp, hc⟩ := hg
    have hp' : w.s.t.rawParents x = [] := by rw [← h.1.wf.getParents_eq]; exact hp
    have hc' := Tree.getChildren_nil_raw h.1 h.2 hc
    have hpl : Tidy w.s (.delNode x r) := by
      cases r with
      | false => show (w.s.t.getParents x).length ≤ 1; rw [hp]; simp
      | true =>
        refine ⟨by rw [hp]; simp, fun y hy => ?_⟩
        exfalso
        obtain ⟨q, hq, -⟩ := (reach_iff _ _ _).1 hy
        rw [hc'] at hq; cases hq
    have hg' := step_good h.1 (.delNode x r) (hpl.safe h.1 h.2)
    have hn' := step_noDangling h.1 h.2 (.delNode x r) hpl
    show Sane (Now.removeNode (Now.told obs more n) more (w.s.t.nodes.entries.length + 1) w x r).state.s
    change Good (removeNode (w.s.t.nodes.entries.length + 1) w.s x r).state.t at hg'
    change NoDangling (removeNode (w.s.t.nodes.entries.length + 1) w.s x r).state.t at hn'
    unfold Now.removeNode
    unfold removeNode at hg' hn'
    split
    · exact h
    · rename_i hcond
      rw [if_neg hcond] at hg' hn'
      have e1 : ∀ (s : St) (k : Nat), s.t.rawParents x = [] → removeParentsLoop k 0 s x = .ok s := by
        intro s k hk
        cases k with
        | zero => rfl
        | succ k => unfold removeParentsLoop; rw [hk]; rfl
      have e2 : ∀ (w : Now σ) (k : Nat), w.s.t.rawParents x = [] → Now.removeParentsLoop (Now.told obs more n) k 0 w x = .ok w := by
        intro s k hk
        cases k with
        | zero => rfl
        | succ k => unfold Now.removeParentsLoop; rw [hk]; rfl
      dsimp only at hg' hn' ⊢
      rw [e1 _ _ (show (w.s.mapTree fun t => { t with pending := dropPendingOf t.pending x }).t.rawParents x = [] from hp'), Res.andThen_ok] at hg' hn'
      rw [e2 _ _ (show (w.mapTree fun t => { t with pending := dropPendingOf t.pending x }).s.t.rawParents x = [] from hp'), Res.andThen_ok]
      rw [show ((w.s.mapTree fun t => { t with pending := dropPendingOf t.pending x }).t.rawChildren x) = [] from hc'] at hg' hn'
      rw [show ((w.mapTree fun t => { t with pending := dropPendingOf t.pending x }).s.t.rawChildren x) = [] from hc']
      unfold Res.forEach at hg' hn' ⊢
      rw [Res.andThen_ok] at hg' hn' ⊢
      have hx : w.s.t.has x = true := by
        by_contra hc; rw [Bool.not_eq_true] at hc; rw [hc] at hcond; simp at hcond
      rw [if_pos (show (w.s.mapTree fun t => { t with pending := dropPendingOf t.pending x }).t.has x = true from hx)] at hg' hn'
      rw [if_pos (show (w.mapTree fun t => { t with pending := dropPendingOf t.pending x }).s.t.has x = true from hx)]
      refine (told_sane hobs .deleted x _ ?_).2
      exact ⟨hg', hn'⟩
  · refine (gentle_ends (X := fun _ => False) grip_sane T more (op := op) ?_ (fun _ => trivial) (fun _ => .inl trivial) (fun _ _ _ => ⟨trivial, .inl trivial⟩) h).sane grip_sane
    cases op with
    | delNode x r => exact absurd ⟨x, r, rfl⟩ hd
    | _ => exact hg

end Larch
