import Verif.Spec.Now

/-!
# Edits with observers follow the recorded notifications
-/

namespace Larch

open Spec

variable {σ : Type} {tell : Note → σ → Res σ} {s : St} {o : σ}

theorem forEach_append {α τ : Type} (f : α → τ → Res τ) (l l' : List α) (x : τ) :
    Res.forEach f (l ++ l') x = (Res.forEach f l x).andThen (Res.forEach f l') := by
  induction l generalizing x with
  | nil => rfl
  | cons a l ih =>
    show (f a x).andThen _ = ((f a x).andThen _).andThen _
    cases f a x with
    | ok y => exact ih y
    | err e y => rfl

namespace Spec.Interleaves

/-- Nothing was sent. -/
theorem quiet {r : Res St} (h : r.state.log = s.log) : Interleaves tell s o r (withObservers o r) :=
  ⟨[], by rw [h, List.append_nil], .inl ⟨o, rfl, rfl⟩⟩

theorem andThen {r : Res St} {q : Res (Now σ)} (h : Interleaves tell s o r q) {f : St → Res St} {g : Now σ → Res (Now σ)}
    (hf : ∀ s' o', Interleaves tell s' o' (f s') (g ⟨s', o'⟩)) : Interleaves tell s o (r.andThen f) (q.andThen g) := by
  obtain ⟨notes, hl, h⟩ := h
  cases r with
  | err e s' =>
    refine ⟨notes, hl, ?_⟩
    rcases h with ⟨o', h1, rfl⟩ | ⟨pre, n, post, o1, e', o2, h1, h2, h3, rfl⟩
    · exact .inl ⟨o', h1, rfl⟩
    · exact .inr ⟨pre, n, post, o1, e', o2, h1, h2, h3, rfl⟩
  | ok s' =>
    change s'.log = _ at hl
    rcases h with ⟨o', h1, rfl⟩ | ⟨pre, n, post, o1, e', o2, h1, h2, h3, rfl⟩
    · obtain ⟨more, hm, h'⟩ := hf s' o'
      refine ⟨notes ++ more, by show (f s').state.log = _; rw [hm, hl, List.append_assoc], ?_⟩
      rcases h' with ⟨o'', k1, k2⟩ | ⟨pre, n, post, o1, e', o2, k1, k2, k3, k4⟩
      · exact .inl ⟨o'', by rw [forEach_append, h1]; exact k1, k2⟩
      · refine .inr ⟨notes ++ pre, n, post, o1, e', o2, by rw [k1, List.append_assoc], by rw [forEach_append, h1]; exact k2, k3, ?_⟩
        show g ⟨s', o'⟩ = _
        rw [k4, hl, List.append_assoc s.log]
    · obtain ⟨more, hm, -⟩ := hf s' o
      refine ⟨notes ++ more, by show (f s').state.log = _; rw [hm, hl, List.append_assoc], .inr ⟨pre, n, post ++ more, o1, e', o2, ?_, h2, h3, rfl⟩⟩
      rw [h1, List.append_assoc]; rfl

/-- An observer is told. -/
theorem told (s : St) (o : σ) (ev : Ev) (x : Id) : Interleaves tell s o (.ok (s.emit ev x)) (Now.emit tell ⟨s, o⟩ ev x) := by
  refine ⟨[⟨s.t, ev, x⟩], rfl, ?_⟩
  unfold Now.emit
  dsimp only
  cases h : tell ⟨s.t, ev, x⟩ o with
  | ok o' => exact .inl ⟨o', by show (tell _ o).andThen _ = _; rw [h]; rfl, rfl⟩
  | err e o' => exact .inr ⟨[], _, [], o, e, o', rfl, rfl, h, by simp [St.emit]⟩

/-- The tree changes first. -/
theorem after {s s' : St} (h : s'.log = s.log) {o : σ} {r : Res St} {q : Res (Now σ)} (hi : Interleaves tell s' o r q) :
    Interleaves tell s o r q := by
  unfold Interleaves at hi ⊢
  rw [h] at hi
  exact hi

theorem told_told (s : St) (o : σ) (ev ev' : Ev) (x y : Id) :
    Interleaves tell s o (.ok ((s.emit ev x).emit ev' y)) ((Now.emit tell ⟨s, o⟩ ev x).andThen fun w => w.emit tell ev' y) :=
  (told s o ev x).andThen (f := fun s => .ok (s.emit ev' y)) fun s' o' => told s' o' ev' y

theorem forEach {α : Type} {f : α → St → Res St} {g : α → Now σ → Res (Now σ)}
    (h : ∀ a s o, Interleaves tell s o (f a s) (g a ⟨s, o⟩)) (l : List α) (s : St) (o : σ) :
    Interleaves tell s o (Res.forEach f l s) (Res.forEach g l ⟨s, o⟩) := by
  induction l generalizing s o with
  | nil => exact quiet rfl
  | cons a l ih => exact (h a s o).andThen fun s' o' => ih s' o'

end Spec.Interleaves

open Spec.Interleaves

theorem Now.newRelationship_interleaves (s : St) (o : σ) (p c : Id) :
    Interleaves tell s o (Larch.newRelationship s p c) (Now.newRelationship (Now.quietly tell) ⟨s, o⟩ p c) := by
  unfold Larch.newRelationship Now.newRelationship
  dsimp only [Now.mapTree]
  split
  · exact quiet rfl
  split
  · exact quiet rfl
  cases Tree.isCircular _ p c with
  | none => exact quiet rfl
  | some b =>
    cases b with
    | true =>
      dsimp only
      cases Tree.destroy _ p c with
      | none => exact quiet rfl
      | some t2 => exact quiet rfl
    | false =>
      dsimp only
      cases Tree.create _ p c with
      | none => exact quiet rfl
      | some t2 => exact after (s' := ⟨_, s.log⟩) rfl (told_told _ o _ _ _ _)

theorem Now.rootAddChild_interleaves (s : St) (o : σ) (c : Id) :
    Interleaves tell s o (Larch.rootAddChild s c) (Now.rootAddChild (Now.quietly tell) ⟨s, o⟩ c) := by
  unfold Larch.rootAddChild Now.rootAddChild
  dsimp only [Now.mapTree]
  split
  · split
    · cases s.t.node? c with
      | none => exact quiet rfl
      | some child =>
        dsimp only
        split
        · exact after (s' := s.mapTree _) rfl (Now.newRelationship_interleaves _ o _ _)
        · exact quiet rfl
    · exact quiet rfl
  · exact quiet rfl

theorem Now.breakRelationship_interleaves (s : St) (o : σ) (p c : Id) :
    Interleaves tell s o (Larch.breakRelationship s p c) (Now.breakRelationship (Now.quietly tell) ⟨s, o⟩ p c) := by
  unfold Larch.breakRelationship Now.breakRelationship
  dsimp only [Now.mapTree]
  split
  · exact quiet rfl
  split
  · exact quiet rfl
  cases Tree.destroy _ p c with
  | none => exact quiet rfl
  | some t2 =>
    refine Interleaves.andThen ?_ fun s' o' => told_told s' o' _ _ _ _
    show Interleaves tell s o (if t2.getParents c = [] then _ else _) (if t2.getParents c = [] then _ else _)
    split
    · exact after (s' := ⟨t2, s.log⟩) rfl (Now.rootAddChild_interleaves _ o _)
    · exact quiet rfl

theorem Now.addNode_interleaves (s : St) (o : σ) (nd : Node) (p : Id) :
    Interleaves tell s o (Larch.addNode s nd p) (Now.addNode (Now.quietly tell) ⟨s, o⟩ nd p) := by
  unfold Larch.addNode Now.addNode
  dsimp only [Now.mapTree]
  split
  · exact quiet rfl
  cases (insertNode s.t nd).pending.foldl (addPendingStep nd.id) (some (insertNode s.t nd, true)) with
  | none => exact quiet rfl
  | some q =>
    obtain ⟨t2, toRoot⟩ := q
    dsimp only
    by_cases hp : p = .none
    · simp only [hp, if_true]
      cases toRoot
      · exact after (s' := ⟨_, s.log⟩) rfl (told _ o _ _)
      · exact after (s' := ⟨_, s.log⟩) rfl (told _ o _ _)
    · simp only [hp, if_false]
      cases t2.isCircular p nd.id with
      | none => exact quiet rfl
      | some b =>
        cases b with
        | true => exact quiet rfl
        | false =>
          dsimp only
          by_cases hh : t2.has p = true
          · simp only [hh, if_true]
            cases t2.create p nd.id with
            | none => exact quiet rfl
            | some t3 => exact after (s' := ⟨_, s.log⟩) rfl (told _ o _ _)
          · simp only [hh]
            cases toRoot
            · exact after (s' := ⟨_, s.log⟩) rfl (told _ o _ _)
            · exact after (s' := ⟨_, s.log⟩) rfl (told _ o _ _)

theorem Now.removeParentsLoop_interleaves (f i : Nat) (s : St) (o : σ) (x : Id) :
    Interleaves tell s o (Larch.removeParentsLoop f i s x) (Now.removeParentsLoop (Now.quietly tell) f i ⟨s, o⟩ x) := by
  induction f generalizing i s o with
  | zero => exact quiet rfl
  | succ f ih =>
    rw [Larch.removeParentsLoop, Now.removeParentsLoop]
    dsimp only [Now.mapTree]
    cases (s.t.rawParents x)[i]? with
    | none => exact quiet rfl
    | some p =>
    dsimp only
    cases s.t.destroy p x with
    | none => exact quiet rfl
    | some t' =>
      exact (after (s' := ⟨t', s.log⟩) rfl (told _ o _ _)).andThen (f := fun s => Larch.removeParentsLoop f (i + 1) s x)
        (g := fun w => Now.removeParentsLoop (Now.quietly tell) f (i + 1) w x) fun s' o' => ih (i + 1) s' o'

theorem Now.orphanChild_interleaves (x c : Id) (s : St) (o : σ) :
    Interleaves tell s o (Larch.orphanChild x c s) (Now.orphanChild (Now.quietly tell) x c ⟨s, o⟩) := by
  unfold Larch.orphanChild Now.orphanChild
  dsimp only [Now.mapTree]
  cases s.t.destroy x c with
  | none => exact quiet rfl
  | some t' =>
    refine (after (s' := ⟨t', s.log⟩) rfl (told _ o _ _)).andThen
      (f := fun s1 => .ok (if s1.t.rawParents c = [] then s1.mapTree (fun t => t.updRoot (fun l => l ++ [c])) else s1)) fun s' o' => ?_
    dsimp only
    split
    · exact quiet rfl
    · exact quiet rfl

theorem Now.removeNode_interleaves (f : Nat) (s : St) (o : σ) (x : Id) (b : Bool) :
    Interleaves tell s o (Larch.removeNode f s x b) (Now.removeNode (Now.quietly tell) 0 f ⟨s, o⟩ x b) := by
  induction f generalizing s o x b with
  | zero => exact quiet rfl
  | succ f ih =>
    rw [Larch.removeNode, Now.removeNode]
    dsimp only [Now.mapTree]
    split
    · exact quiet rfl
    · refine (after (s' := s.mapTree _) rfl (Now.removeParentsLoop_interleaves _ _ _ o _)).andThen fun s2 o2 => ?_
      refine (Interleaves.forEach (fun c s o => ?_) _ s2 o2).andThen fun s3 o3 => ?_
      · cases b
        · exact Now.orphanChild_interleaves x c s o
        · exact ih s o c true
      · dsimp only
        split
        · exact after (s' := s3.mapTree _) rfl (told _ o3 _ _)
        · exact quiet rfl

theorem Now.modifyNode_interleaves (s : St) (o : σ) (x : Id) :
    Interleaves tell s o (Larch.modifyNode s x) (Now.modifyNode (Now.quietly tell) ⟨s, o⟩ x) := by
  unfold Larch.modifyNode Now.modifyNode
  dsimp only
  split
  · exact told s o _ _
  · exact quiet rfl

theorem Now.nodeAddParent_interleaves (s : St) (o : σ) (x p : Id) :
    Interleaves tell s o (Larch.nodeAddParent s x p) (Now.nodeAddParent (Now.quietly tell) ⟨s, o⟩ x p) := by
  unfold Larch.nodeAddParent Now.nodeAddParent
  dsimp only [Now.mapTree]
  cases s.t.node? x with
  | none => exact quiet rfl
  | some nd =>
    dsimp only
    split
    · cases s.t.node? p with
      | none => exact quiet rfl
      | some par =>
        dsimp only
        split
        · exact Now.newRelationship_interleaves s o _ _
        · exact quiet rfl
    · exact quiet rfl

theorem Now.nodeRemoveParent_interleaves (s : St) (o : σ) (x p : Id) :
    Interleaves tell s o (Larch.nodeRemoveParent s x p) (Now.nodeRemoveParent (Now.quietly tell) ⟨s, o⟩ x p) := by
  unfold Larch.nodeRemoveParent Now.nodeRemoveParent
  dsimp only [Now.mapTree]
  cases s.t.node? x with
  | none => exact quiet rfl
  | some nd =>
    dsimp only
    split
    · exact after (s' := s.mapTree _) rfl (Now.breakRelationship_interleaves _ o _ _)
    · exact quiet rfl

/-- The loop of `set_parent` and what follows. -/
theorem Now.setParentLoop_interleaves (f i : Nat) (s : St) (o : σ) (x p : Id) (flag : Bool) {k : Bool → St → Res St}
    {k' : Bool → Now σ → Res (Now σ)} (hk : ∀ b s o, Interleaves tell s o (k b s) (k' b ⟨s, o⟩)) :
    Interleaves tell s o
      (match Larch.setParentLoop f i s x p flag with
        | .err e (s', _) => .err e s'
        | .ok (s', flag) => k flag s')
      (match Now.setParentLoop (Now.quietly tell) f i ⟨s, o⟩ x p flag with
        | .err e (w', _) => .err e w'
        | .ok (w', flag) => k' flag w') := by
  induction f generalizing i s o flag with
  | zero => exact hk flag s o
  | succ f ih =>
    rw [Larch.setParentLoop, Now.setParentLoop]
    dsimp only
    cases (s.t.rawParents x)[i]? with
    | none => exact hk flag s o
    | some q =>
      dsimp only
      by_cases hq : q ≠ p
      · simp only [hq, if_true, ne_eq, not_false_eq_true]
        have := (Now.nodeRemoveParent_interleaves (tell := tell) s o x q).andThen
          (f := fun s' => match Larch.setParentLoop f (i + 1) s' x p flag with
            | .err e (s', _) => .err e s'
            | .ok (s', flag) => k flag s')
          (g := fun w => match Now.setParentLoop (Now.quietly tell) f (i + 1) w x p flag with
            | .err e (w', _) => .err e w'
            | .ok (w', flag) => k' flag w') fun s' o' => ih (i + 1) s' o' flag
        revert this
        cases Larch.nodeRemoveParent s x q <;> cases Now.nodeRemoveParent (Now.quietly tell) ⟨s, o⟩ x q <;> exact fun h => h
      · simp only [hq, if_false]
        exact ih (i + 1) s o true

theorem Now.nodeSetParent_interleaves (s : St) (o : σ) (x p : Id) :
    Interleaves tell s o (Larch.nodeSetParent s x p) (Now.nodeSetParent (Now.quietly tell) ⟨s, o⟩ x p) := by
  unfold Larch.nodeSetParent Now.nodeSetParent
  dsimp only [Now.mapTree]
  cases s.t.node? x with
  | none => exact quiet rfl
  | some nd =>
    dsimp only
    split
    · cases s.t.node? p with
      | none =>
        refine (Interleaves.forEach (fun q s o => Now.breakRelationship_interleaves s o q x) _ s o).andThen fun s' o' => ?_
        exact quiet rfl
      | some par =>
        dsimp only
        split
        · exact Now.setParentLoop_interleaves _ _ s o x p false
            (k := fun flag s' => if !p.falsy && !flag then Larch.nodeAddParent s' x p else .ok s')
            (k' := fun flag w' => if !p.falsy && !flag then Now.nodeAddParent (Now.quietly tell) w' x p else .ok w') fun b s o => by
              split
              · exact Now.nodeAddParent_interleaves s o x p
              · exact quiet rfl
        · exact quiet rfl
    · exact quiet rfl

theorem Now.nodeAddChild_interleaves (s : St) (o : σ) (x c : Id) :
    Interleaves tell s o (Larch.nodeAddChild s x c) (Now.nodeAddChild (Now.quietly tell) ⟨s, o⟩ x c) := by
  unfold Larch.nodeAddChild Now.nodeAddChild
  dsimp only [Now.mapTree]
  cases s.t.node? x with
  | none => exact quiet rfl
  | some nd =>
    dsimp only
    split
    · split
      · cases s.t.node? c with
        | none => exact quiet rfl
        | some child =>
          dsimp only
          split
          · exact after (s' := s.mapTree _) rfl (Now.newRelationship_interleaves _ o _ _)
          · exact quiet rfl
      · exact quiet rfl
    · exact quiet rfl

theorem Now.nodeSetParentsEnabled_interleaves (s : St) (o : σ) (x : Id) (b : Bool) :
    Interleaves tell s o (Larch.nodeSetParentsEnabled s x b) (Now.nodeSetParentsEnabled (Now.quietly tell) ⟨s, o⟩ x b) := by
  unfold Larch.nodeSetParentsEnabled Now.nodeSetParentsEnabled
  dsimp only [Now.mapTree]
  cases s.t.node? x with
  | none => exact quiet rfl
  | some nd =>
    refine Interleaves.andThen ?_ fun s' o' => ?_
    · cases b
      · exact Interleaves.forEach (fun q s o => Now.nodeRemoveParent_interleaves s o x q) _ s o
      · exact quiet rfl
    · exact quiet rfl

theorem Now.nodeSetChildrenEnabled_interleaves (s : St) (o : σ) (x : Id) (b : Bool) :
    Interleaves tell s o (Larch.nodeSetChildrenEnabled s x b) (Now.nodeSetChildrenEnabled (Now.quietly tell) ⟨s, o⟩ x b) := by
  unfold Larch.nodeSetChildrenEnabled Now.nodeSetChildrenEnabled
  dsimp only [Now.mapTree]
  cases s.t.node? x with
  | none => exact quiet rfl
  | some nd =>
    refine Interleaves.andThen ?_ fun s' o' => ?_
    · cases b
      · exact Interleaves.forEach (fun q s o => Now.breakRelationship_interleaves s o x q) _ s o
      · exact quiet rfl
    · exact quiet rfl

theorem Now.step_interleaves (s : St) (o : σ) (op : Op) : Interleaves tell s o (Larch.step s op) (Now.step (Now.quietly tell) ⟨s, o⟩ op) := by
  cases op with
  | addNode nd p => exact Now.addNode_interleaves s o nd p
  | delNode x r => exact Now.removeNode_interleaves _ s o x r
  | refreshNode x => exact Now.modifyNode_interleaves s o x
  | moveNode x p =>
    show Interleaves tell s o (Larch.moveNode s x p) (Now.moveNode (Now.quietly tell) ⟨s, o⟩ x p)
    unfold Larch.moveNode Now.moveNode
    dsimp only
    split
    · exact Now.nodeSetParent_interleaves s o x p
    · exact quiet rfl
  | addParent x p =>
    show Interleaves tell s o (Larch.treeAddParent s x p) (Now.treeAddParent (Now.quietly tell) ⟨s, o⟩ x p)
    unfold Larch.treeAddParent Now.treeAddParent
    dsimp only
    split
    · exact Now.nodeAddParent_interleaves s o x p
    · exact quiet rfl
  | setParent x p => exact Now.nodeSetParent_interleaves s o x p
  | removeParent x p => exact Now.nodeRemoveParent_interleaves s o x p
  | addChild x c => exact Now.nodeAddChild_interleaves s o x c
  | setParentsEnabled x b => exact Now.nodeSetParentsEnabled_interleaves s o x b
  | setChildrenEnabled x b => exact Now.nodeSetChildrenEnabled_interleaves s o x b
  | newRelationship p c => exact Now.newRelationship_interleaves s o p c
  | breakRelationship p c => exact Now.breakRelationship_interleaves s o p c

end Larch
