import Verif.Proofs.ObjectsMove

/-!
# The methods of objects, in a tree and out of it
-/

namespace Larch

open Spec

namespace World

variable {w : World} {i : Nat} {own : Nat → Prop}

/-! ### Objects in the tree -/

theorem Same.at? {w' : World} (h : Same w i own w') (x : Id) : w'.at? i x = w.at? i x := by
  unfold World.at?; rw [h.dict]

/-- The object that the tree `i` has under the name `x` is at `a`. -/
structure Live (w : World) (i : Nat) (x : Id) (a : Nat) : Prop where
  at_ : w.at? i x = some a
  ex : a < w.objs.length
  name : (w.obj a).id = x
  link : w.treeOf a = some i

theorem Good.live (g : Good w i own) {x : Id} {a : Nat} (h : w.at? i x = some a) : Live w i x a :=
  have := g.sep.here i x a (mem_of_at? h)
  ⟨h, this.1, this.2.1, this.2.2⟩

theorem Live.node {x : Id} {a : Nat} (h : Live w i x a) : (w.st i).t.node? x = some (w.obj a) :=
  (node?_seen w i x).trans (node?_of_at? h.at_)

theorem Live.same {w' : World} {x : Id} {a : Nat} (h : Live w i x a) (g : Good w i own) (hs : Same w i own w') : Live w' i x a :=
  (g.same hs).live ((hs.at? x).trans h.at_)

theorem addParent_live (g : Good w i own) {x : Id} {a : Nat} (h : Live w i x a) (p : Id) :
    Does w i own (w.addParent a p) (nodeAddParent (w.st i) x p) := by
  unfold addParent nodeAddParent
  rw [h.node]
  dsimp only
  rw [h.name]
  split
  · rw [h.link, show (w.st i).t.node? p = w.node? i p from node?_seen w i p]
    dsimp only
    cases w.node? i p with
    | none => exact .of_ok (st_updPending g.ex _) (same_updPending _ _ _ _)
    | some par =>
      dsimp only
      split
      · exact newRelationship_does g p x
      · exact .here
  · exact .here

theorem removeParent_live (g : Good w i own) {x : Id} {a : Nat} (h : Live w i x a) (p : Id) :
    Does w i own (w.removeParent a p) (nodeRemoveParent (w.st i) x p) := by
  unfold removeParent nodeRemoveParent
  rw [h.node]
  dsimp only
  rw [h.name]
  split
  · rw [h.link]
    dsimp only
    have s1 : Same w i own (w.updObj a fun nd => { nd with parents := nd.parents.erase p }) :=
      same_updObj_in h.at_ _ (fun _ => rfl) (fun _ => rfl)
    rw [← st_updObj_in g.sep h.at_]
    exact (breakRelationship_does (g.same s1) p x).after s1
  · exact .here

theorem setParentLoop_live (f k : Nat) (g : Good w i own) {x : Id} {a : Nat} (h : Live w i x a) (p : Id) (flag : Bool) :
    (setParentLoop a f k w p flag).map (fun q => (q.1.st i, q.2)) = Larch.setParentLoop f k (w.st i) x p flag ∧
    Same w i own (setParentLoop a f k w p flag).state.1 := by
  induction f generalizing k w flag with
  | zero => exact ⟨rfl, .refl _ _ _⟩
  | succ f ih =>
    unfold setParentLoop Larch.setParentLoop
    rw [Tree.rawParents_of_node h.node]
    cases hk : (w.obj a).parents[k]? with
    | none => exact ⟨rfl, .refl _ _ _⟩
    | some q =>
      dsimp only
      by_cases hq : q = p
      · rw [if_neg (by simp [hq]), if_neg (by simp [hq])]
        exact ih (k + 1) g h true
      · rw [if_pos hq, if_pos hq]
        obtain ⟨he, hs⟩ := removeParent_live g h q
        rw [← he]
        cases hr : w.removeParent a q with
        | err e w' => rw [hr] at hs; exact ⟨rfl, hs⟩
        | ok w' =>
          rw [hr] at hs
          obtain ⟨h1, h2⟩ := ih (k + 1) (g.same hs) (h.same g hs) flag
          exact ⟨h1, hs.trans h2⟩

theorem setParent_live (g : Good w i own) {x : Id} {a : Nat} (h : Live w i x a) (p : Id) :
    Does w i own (w.setParent a p) (nodeSetParent (w.st i) x p) := by
  unfold setParent nodeSetParent
  rw [h.node]
  dsimp only
  rw [h.name]
  split
  · rw [h.link, show (w.st i).t.node? p = w.node? i p from node?_seen w i p]
    dsimp only
    cases w.node? i p with
    | none =>
      dsimp only
      rw [getParents_live g h.at_]
      exact (Does.forEach _ g fun q w' g' _ => breakRelationship_does g' q x).andThen g fun w' g' _ =>
        .of_ok (st_updPending g'.ex _) (same_updPending _ _ _ _)
    | some par =>
      dsimp only
      split
      · obtain ⟨he, hs⟩ := setParentLoop_live (w.obj a).parents.length 0 g h p false
        rw [← he]
        cases hr : setParentLoop a (w.obj a).parents.length 0 w p false with
        | err e q => rw [hr] at hs; exact ⟨rfl, hs⟩
        | ok q =>
          rw [hr] at hs
          refine Does.after hs ?_
          obtain ⟨w', flag⟩ := q
          dsimp only [Res.map]
          split
          · exact addParent_live (g.same hs) (h.same g hs) p
          · exact .here
      · exact .here
  · exact .here

theorem addChild_live (g : Good w i own) {x : Id} {a : Nat} (h : Live w i x a) (c : Id) :
    Does w i own (w.addChild a c) (nodeAddChild (w.st i) x c) := by
  unfold addChild nodeAddChild
  rw [h.node]
  dsimp only
  rw [h.name]
  split
  · split
    · rw [h.link, show (w.st i).t.node? c = w.node? i c from node?_seen w i c]
      dsimp only
      cases w.node? i c with
      | none => exact .of_ok (st_updPending g.ex _) (same_updPending _ _ _ _)
      | some child =>
        dsimp only
        split
        · have s1 : Same w i own (w.updObj a fun nd => { nd with children := nd.children ++ [c] }) :=
            same_updObj_in h.at_ _ (fun _ => rfl) (fun _ => rfl)
          rw [← st_updObj_in g.sep h.at_]
          exact (newRelationship_does (g.same s1) x c).after s1
        · exact .here
    · exact .here
  · exact .here

theorem setParentsEnabled_live (g : Good w i own) {x : Id} {a : Nat} (h : Live w i x a) (b : Bool) :
    Does w i own (w.setParentsEnabled a b) (nodeSetParentsEnabled (w.st i) x b) := by
  unfold setParentsEnabled nodeSetParentsEnabled
  rw [h.node]
  dsimp only
  refine Does.andThen g ?_ fun w' g' hs => ?_
  · split
    · exact .here
    · rw [getParents_live g h.at_]
      exact Does.forEach _ g fun q w' g' hs => removeParent_live g' (h.same g hs) q
  · have h' := h.same g hs
    exact .of_ok (st_updObj_in g'.sep h'.at_ _) (same_updObj_in h'.at_ _ (fun _ => rfl) (fun _ => rfl))

theorem setChildrenEnabled_live (g : Good w i own) {x : Id} {a : Nat} (h : Live w i x a) (b : Bool) :
    Does w i own (w.setChildrenEnabled a b) (nodeSetChildrenEnabled (w.st i) x b) := by
  unfold setChildrenEnabled nodeSetChildrenEnabled
  rw [h.node]
  dsimp only
  refine Does.andThen g ?_ fun w' g' hs => ?_
  · split
    · exact .here
    · rw [h.link]
      dsimp only
      rw [getChildren_live g h.at_]
      refine Does.forEach _ g fun q w' g' hs => ?_
      rw [(h.same g hs).name]
      exact breakRelationship_does g' x q
  · have h' := h.same g hs
    exact .of_ok (st_updObj_in g'.sep h'.at_ _) (same_updObj_in h'.at_ _ (fun _ => rfl) (fun _ => rfl))

theorem modified_live (g : Good w i own) {x : Id} {a : Nat} (h : Live w i x a) :
    Does w i own (w.modified a) (Larch.modifyNode (w.st i) x) := by
  unfold modified
  rw [h.link, h.name]
  exact modifyNode_does g x

/-- A method of an object in a tree is the edit of that tree. -/
theorem call_live (g : Good w i own) {x : Id} {a : Nat} (h : Live w i x a) (c : Call) :
    Does w i own (w.call a c) (Larch.step (w.st i) (Spec.Call.op x c)) := by
  cases c with
  | addParent p =>
    have hh : (w.st i).t.has x = true := (Tree.has_iff _ _).2 ⟨_, h.node⟩
    show Does w i own _ (treeAddParent (w.st i) x p)
    unfold treeAddParent
    rw [hh]
    exact addParent_live g h p
  | setParent p => exact setParent_live g h p
  | removeParent p => exact removeParent_live g h p
  | addChild c => exact addChild_live g h c
  | setParentsEnabled b => exact setParentsEnabled_live g h b
  | setChildrenEnabled b => exact setChildrenEnabled_live g h b
  | modified => exact modified_live g h

/-! ### Objects that have left the tree -/

/-- The object at `a` refers to the tree `i`, and is in no tree. -/
structure Gone (w : World) (i : Nat) (a : Nat) : Prop where
  link : w.treeOf a = some i
  ex : a < w.objs.length
  free : ∀ x, (x, a) ∉ (w.tree i).nodes.entries

/-- The method of an object that has left the tree does what `Dead.call` does. -/
structure DoesOut (w : World) (i a : Nat) (r : Res World) (k : Res (St × Node)) : Prop where
  eq : r.map (fun w' => (w'.st i, w'.obj a)) = k
  same : Same w i (· = a) r.state

variable {a : Nat}

theorem Good.nobody (g : Good w i own) : Good w i nobody := ⟨g.sep, g.ex, fun _ h => h.elim⟩

theorem Gone.good (h : Gone w i a) (g : Good w i nobody) : Good w i (· = a) := ⟨g.sep, g.ex, fun b hb => by rw [hb]; exact h.link⟩

theorem Gone.same {w' : World} (h : Gone w i a) (hs : Same w i own w') : Gone w' i a :=
  ⟨(hs.link a).trans h.link, hs.objsLen ▸ h.ex, by rw [hs.dict]; exact h.free⟩

theorem Does.out {r : Res World} {s : Res St} (h : Does w i World.nobody r s) (ha : Gone w i a) :
    DoesOut w i a r (s.map fun s => (s, w.obj a)) := by
  refine ⟨?_, h.same.mono fun _ hh => hh.elim⟩
  have := h.same.out a id ha.free
  rw [← h.eq, Res.map_map]
  cases r with
  | ok w' => simp only [Res.map]; rw [show w'.obj a = w.obj a from this]
  | err e w' => simp only [Res.map]; rw [show w'.obj a = w.obj a from this]

theorem DoesOut.of_ok {w' : World} {s : St} {nd : Node} (h : w'.st i = s) (hn : w'.obj a = nd) (hs : Same w i (· = a) w') :
    DoesOut w i a (.ok w') (.ok (s, nd)) := ⟨by rw [← h, ← hn]; rfl, hs⟩

theorem DoesOut.here : DoesOut w i a (.ok w) (.ok (w.st i, w.obj a)) := .of_ok rfl rfl (.refl _ _ _)

theorem DoesOut.after {w' : World} {r : Res World} {k : Res (St × Node)} (hs : Same w i (· = a) w') (h : DoesOut w' i a r k) :
    DoesOut w i a r k := ⟨h.eq, hs.trans h.same⟩

theorem DoesOut.andThen {r : Res World} {k : Res (St × Node)} {f : World → Res World} {q : St × Node → Res (St × Node)}
    (g : Good w i World.nobody) (ha : Gone w i a) (h : DoesOut w i a r k)
    (hf : ∀ w', Good w' i World.nobody → Gone w' i a → Same w i (· = a) w' → DoesOut w' i a (f w') (q (w'.st i, w'.obj a))) :
    DoesOut w i a (r.andThen f) (k.andThen q) := by
  obtain ⟨rfl, hs⟩ := h
  cases r with
  | ok w' => exact (hf w' ((ha.good g).same hs).nobody (ha.same hs) hs).after hs
  | err e w' => exact ⟨rfl, hs⟩

theorem DoesOut.forEach {α : Type} {f : α → World → Res World} {q : α → St × Node → Res (St × Node)} (l : List α)
    (g : Good w i World.nobody) (ha : Gone w i a)
    (hf : ∀ y w', Good w' i World.nobody → Gone w' i a → DoesOut w' i a (f y w') (q y (w'.st i, w'.obj a))) :
    DoesOut w i a (Res.forEach f l w) (Res.forEach q l (w.st i, w.obj a)) := by
  induction l generalizing w with
  | nil => exact .here
  | cons y l ih => exact (hf y w g ha).andThen g ha fun w' g' ha' _ => ih g' ha'

theorem st_updObj_gone (ha : Gone w i a) (f : Node → Node) : (w.updObj a f).st i = w.st i := st_updObj_out ha.free f

theorem obj_updObj_gone (ha : Gone w i a) (f : Node → Node) : (w.updObj a f).obj a = f (w.obj a) := by
  rw [obj_updObj, if_pos ⟨rfl, ha.ex⟩]

theorem same_updObj_gone (f : Node → Node) (hid : ∀ nd, (f nd).id = nd.id) (hfl : ∀ nd, (f nd).hasTree = nd.hasTree) :
    Same w i (· = a) (w.updObj a f) := same_updObj_own (own := (· = a)) rfl f hid hfl

theorem getParents_gone (g : Good w i World.nobody) (ha : Gone w i a) : w.getParents a = (w.st i).t.parentsOf (w.obj a) := by
  unfold getParents Tree.parentsOf
  rw [ha.link, (g.sep.flag a i ha.link).1]
  simp only [Bool.and_true]
  split
  · exact List.filter_congr fun y _ => (has_seen w i y).symm
  · rfl

theorem getChildren_gone (g : Good w i World.nobody) (ha : Gone w i a) : w.getChildren a = (w.st i).t.childrenOf (w.obj a) := by
  unfold getChildren Tree.childrenOf
  rw [ha.link, (g.sep.flag a i ha.link).1]
  simp only [Bool.and_true]
  split
  · exact List.filter_congr fun y _ => (has_seen w i y).symm
  · rfl

theorem addParent_gone (g : Good w i World.nobody) (ha : Gone w i a) (p : Id) :
    DoesOut w i a (w.addParent a p) (Dead.addParent (w.st i) (w.obj a) p) := by
  unfold addParent Dead.addParent
  dsimp only
  split
  · rw [ha.link, show (w.st i).t.node? p = w.node? i p from node?_seen w i p]
    dsimp only
    cases w.node? i p with
    | none => exact (Does.of_ok (st_updPending g.ex _) (same_updPending _ _ _ _)).out ha
    | some par =>
      dsimp only
      split
      · exact (newRelationship_does g p _).out ha
      · exact .here
  · exact .here

theorem removeParent_gone (g : Good w i World.nobody) (ha : Gone w i a) (p : Id) :
    DoesOut w i a (w.removeParent a p) (Dead.removeParent (w.st i) (w.obj a) p) := by
  unfold removeParent Dead.removeParent
  dsimp only
  split
  · rw [ha.link]
    dsimp only
    have s1 : Same w i (· = a) (w.updObj a fun nd => { nd with parents := nd.parents.erase p }) :=
      same_updObj_gone _ (fun _ => rfl) (fun _ => rfl)
    have g1 := ((ha.good g).same s1).nobody
    have h := (breakRelationship_does g1 p (w.obj a).id).out (ha.same s1)
    rw [st_updObj_gone ha, obj_updObj_gone ha] at h
    exact h.after s1
  · exact .here

theorem setParentLoop_gone (f k : Nat) (g : Good w i World.nobody) (ha : Gone w i a) (p : Id) (flag : Bool) :
    (setParentLoop a f k w p flag).map (fun q => ((q.1.st i, q.1.obj a), q.2)) =
      Dead.setParentLoop f k (w.st i) (w.obj a) p flag ∧
    Same w i (· = a) (setParentLoop a f k w p flag).state.1 := by
  induction f generalizing k w flag with
  | zero => exact ⟨rfl, .refl _ _ _⟩
  | succ f ih =>
    unfold setParentLoop Dead.setParentLoop
    cases hk : (w.obj a).parents[k]? with
    | none => exact ⟨rfl, .refl _ _ _⟩
    | some q =>
      dsimp only
      by_cases hq : q = p
      · rw [if_neg (by simp [hq]), if_neg (by simp [hq])]
        exact ih (k + 1) g ha true
      · rw [if_pos hq, if_pos hq]
        obtain ⟨he, hs⟩ := removeParent_gone g ha q
        rw [← he]
        cases hr : w.removeParent a q with
        | err e w' => rw [hr] at hs; exact ⟨rfl, hs⟩
        | ok w' =>
          rw [hr] at hs
          obtain ⟨h1, h2⟩ := ih (k + 1) ((ha.good g).same hs).nobody (ha.same hs) flag
          exact ⟨h1, hs.trans h2⟩

theorem setParent_gone (g : Good w i World.nobody) (ha : Gone w i a) (p : Id) :
    DoesOut w i a (w.setParent a p) (Dead.setParent (w.st i) (w.obj a) p) := by
  unfold setParent Dead.setParent
  dsimp only
  split
  · rw [ha.link, show (w.st i).t.node? p = w.node? i p from node?_seen w i p]
    dsimp only
    cases w.node? i p with
    | none =>
      dsimp only
      rw [getParents_gone g ha]
      refine Does.out (Does.andThen g (Does.forEach _ g fun q w' g' _ => breakRelationship_does g' q _) fun w' g' _ => ?_) ha
      exact .of_ok (st_updPending g'.ex _) (same_updPending _ _ _ _)
    | some par =>
      dsimp only
      split
      · obtain ⟨he, hs⟩ := setParentLoop_gone (w.obj a).parents.length 0 g ha p false
        rw [← he]
        cases hr : setParentLoop a (w.obj a).parents.length 0 w p false with
        | err e q => rw [hr] at hs; exact ⟨rfl, hs⟩
        | ok q =>
          rw [hr] at hs
          refine DoesOut.after hs ?_
          obtain ⟨w', flag⟩ := q
          dsimp only [Res.map]
          split
          · exact addParent_gone ((ha.good g).same hs).nobody (ha.same hs) p
          · exact .here
      · exact .here
  · exact .here

theorem addChild_gone (g : Good w i World.nobody) (ha : Gone w i a) (c : Id) :
    DoesOut w i a (w.addChild a c) (Dead.addChild (w.st i) (w.obj a) c) := by
  unfold addChild Dead.addChild
  dsimp only
  split
  · split
    · rw [ha.link, show (w.st i).t.node? c = w.node? i c from node?_seen w i c]
      dsimp only
      cases w.node? i c with
      | none => exact (Does.of_ok (st_updPending g.ex _) (same_updPending _ _ _ _)).out ha
      | some child =>
        dsimp only
        split
        · have s1 : Same w i (· = a) (w.updObj a fun nd => { nd with children := nd.children ++ [c] }) :=
            same_updObj_gone _ (fun _ => rfl) (fun _ => rfl)
          have g1 := ((ha.good g).same s1).nobody
          have h := (newRelationship_does g1 (w.obj a).id c).out (ha.same s1)
          rw [st_updObj_gone ha, obj_updObj_gone ha] at h
          exact h.after s1
        · exact .here
    · exact .here
  · exact .here

theorem setParentsEnabled_gone (g : Good w i World.nobody) (ha : Gone w i a) (b : Bool) :
    DoesOut w i a (w.setParentsEnabled a b) (Dead.setParentsEnabled (w.st i) (w.obj a) b) := by
  unfold setParentsEnabled Dead.setParentsEnabled
  dsimp only
  refine DoesOut.andThen g ha ?_ fun w' g' ha' _ => ?_
  · split
    · exact .here
    · rw [getParents_gone g ha]
      exact DoesOut.forEach _ g ha fun q w' g' ha' => removeParent_gone g' ha' q
  · exact .of_ok (st_updObj_gone ha' _) (obj_updObj_gone ha' _) (same_updObj_gone _ (fun _ => rfl) (fun _ => rfl))

theorem setChildrenEnabled_gone (g : Good w i World.nobody) (ha : Gone w i a) (b : Bool) :
    DoesOut w i a (w.setChildrenEnabled a b) (Dead.setChildrenEnabled (w.st i) (w.obj a) b) := by
  unfold setChildrenEnabled Dead.setChildrenEnabled
  dsimp only
  have h1 : Does w i World.nobody (if b = true then .ok w else match w.treeOf a with
      | none => .ok w
      | some i => Res.forEach (fun c (w : World) => w.breakRelationship i (w.obj a).id c) (w.getChildren a) w)
      (if b = true then .ok (w.st i) else
        Res.forEach (fun c s => Larch.breakRelationship s (w.obj a).id c) ((w.st i).t.childrenOf (w.obj a)) (w.st i)) := by
    split
    · exact .here
    · rw [ha.link]
      dsimp only
      rw [getChildren_gone g ha]
      refine Does.forEach _ g fun q w' g' hs => ?_
      rw [hs.name a]
      exact breakRelationship_does g' _ q
  have h2 := (h1.out ha).andThen (f := fun w => .ok (w.updObj a fun nd => { nd with childrenEnabled := b }))
    (q := fun k => .ok (k.1, { k.2 with childrenEnabled := b })) g ha fun w' g' ha' _ =>
      .of_ok (st_updObj_gone ha' _) (obj_updObj_gone ha' _) (same_updObj_gone _ (fun _ => rfl) (fun _ => rfl))
  exact h2

theorem modified_gone (g : Good w i World.nobody) (ha : Gone w i a) :
    DoesOut w i a (w.modified a) (Dead.modified (w.st i) (w.obj a)) := by
  unfold modified Dead.modified
  rw [ha.link]
  exact (modifyNode_does g _).out ha

theorem call_gone (g : Good w i World.nobody) (ha : Gone w i a) (c : Call) :
    DoesOut w i a (w.call a c) (Dead.call (w.st i) (w.obj a) c) := by
  cases c with
  | addParent p => exact addParent_gone g ha p
  | setParent p => exact setParent_gone g ha p
  | removeParent p => exact removeParent_gone g ha p
  | addChild c => exact addChild_gone g ha c
  | setParentsEnabled b => exact setParentsEnabled_gone g ha b
  | setChildrenEnabled b => exact setChildrenEnabled_gone g ha b
  | modified => exact modified_gone g ha

end World
end Larch
