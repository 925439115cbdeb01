import Verif.Model.Objects
import Verif.Spec.Objects
import Verif.Proofs.TreeBasic

/-!
# One tree of several: what the program does with the objects of a tree is what `Model/Tree.lean` and `Model/Kept.lean` say
-/

namespace Larch

open Spec

theorem Res.map_map {α β γ : Type} (f : α → β) (g : β → γ) (r : Res α) : (r.map f).map g = r.map (fun a => g (f a)) := by
  cases r <;> rfl

theorem Res.state_map {α β : Type} (f : α → β) (r : Res α) : (r.map f).state = f r.state := by cases r <;> rfl

namespace World

/-! ### Reading -/

theorem obj_updObj (w : World) (a : Nat) (f : Node → Node) (b : Nat) :
    (w.updObj a f).obj b = if b = a ∧ a < w.objs.length then f (w.obj a) else w.obj b := by
  unfold obj updObj
  simp only [List.getElem?_modify]
  by_cases h : b = a
  · subst h
    by_cases hl : b < w.objs.length
    · simp [hl]
    · have : w.objs[b]? = none := by simpa using hl
      simp [hl]
  · have h' : ¬ a = b := fun e => h e.symm
    simp [h, h']

@[simp] theorem treeOf_updObj (w : World) (a : Nat) (f : Node → Node) (b : Nat) : (w.updObj a f).treeOf b = w.treeOf b := by
  unfold treeOf updObj
  simp only [List.getElem?_modify]
  by_cases h : a = b
  · subst h
    cases w.objs[a]? <;> simp
  · simp [h]

@[simp] theorem tree_updObj (w : World) (a : Nat) (f : Node → Node) (i : Nat) : (w.updObj a f).tree i = w.tree i := rfl
@[simp] theorem at?_updObj (w : World) (a : Nat) (f : Node → Node) (i : Nat) (x : Id) : (w.updObj a f).at? i x = w.at? i x := rfl
@[simp] theorem has_updObj (w : World) (a : Nat) (f : Node → Node) (i : Nat) (x : Id) : (w.updObj a f).has i x = w.has i x := rfl
@[simp] theorem objsLen_updObj (w : World) (a : Nat) (f : Node → Node) : (w.updObj a f).objs.length = w.objs.length := by
  simp [updObj]
@[simp] theorem treesLen_updObj (w : World) (a : Nat) (f : Node → Node) : (w.updObj a f).trees.length = w.trees.length := rfl

theorem tree_updTree (w : World) (i : Nat) (f : OTree → OTree) (j : Nat) :
    (w.updTree i f).tree j = if j = i ∧ i < w.trees.length then f (w.tree i) else w.tree j := by
  unfold tree updTree
  simp only [List.getElem?_modify]
  by_cases h : j = i
  · subst h
    by_cases hl : j < w.trees.length
    · simp [hl]
    · have : w.trees[j]? = none := by simpa using hl
      simp [hl]
  · have h' : ¬ i = j := fun e => h e.symm
    simp [h, h']

@[simp] theorem obj_updTree (w : World) (i : Nat) (f : OTree → OTree) (a : Nat) : (w.updTree i f).obj a = w.obj a := rfl
@[simp] theorem treeOf_updTree (w : World) (i : Nat) (f : OTree → OTree) (a : Nat) : (w.updTree i f).treeOf a = w.treeOf a := rfl
@[simp] theorem treesLen_updTree (w : World) (i : Nat) (f : OTree → OTree) : (w.updTree i f).trees.length = w.trees.length := by
  simp [updTree]

theorem lookup_map {α β : Type} (g : α → β) (l : List (Id × α)) (x : Id) :
    Dict.lookup (l.map fun e => (e.1, g e.2)) x = (Dict.lookup l x).map g := by
  induction l with
  | nil => rfl
  | cons e l ih =>
    simp only [List.map_cons, Dict.lookup]
    split
    · rfl
    · exact ih

theorem node?_seen (w : World) (i : Nat) (x : Id) : (w.seen i).node? x = w.node? i x := lookup_map _ _ _

theorem has_seen (w : World) (i : Nat) (x : Id) : (w.seen i).has x = w.has i x := by
  have h := node?_seen w i x
  rw [Tree.has_eq, h]
  unfold node? at? has Dict.has
  cases (w.tree i).nodes.get? x <;> rfl

theorem rawParents_seen (w : World) (i : Nat) (x : Id) : (w.seen i).rawParents x = w.rawParents i x := by
  unfold Tree.rawParents rawParents; rw [node?_seen]

theorem rawChildren_seen (w : World) (i : Nat) (x : Id) : (w.seen i).rawChildren x = w.rawChildren i x := by
  unfold Tree.rawChildren rawChildren; rw [node?_seen]

theorem circLoop_seen (w : World) (i : Nat) (c : Id) (f : Nat) (q : List Id) :
    (w.seen i).circLoop c f q = w.circLoop i c f q := by
  induction f generalizing q with
  | zero => cases q <;> rfl
  | succ f ih =>
    cases q with
    | nil => rfl
    | cons x q =>
      simp only [Tree.circLoop, circLoop, node?_seen, ih]
      split
      · rfl
      · cases w.node? i x <;> rfl

theorem isCircular_seen (w : World) (i : Nat) (p c : Id) : (w.seen i).isCircular p c = w.isCircular i p c :=
  circLoop_seen _ _ _ _ _

theorem has_of_at? {w : World} {i : Nat} {x : Id} {a : Nat} (h : w.at? i x = some a) : w.has i x = true := by
  unfold has Dict.has; unfold at? at h; rw [h]; rfl

theorem at?_of_has {w : World} {i : Nat} {x : Id} (h : w.has i x = true) : ∃ a, w.at? i x = some a :=
  Option.isSome_iff_exists.1 h

theorem at?_none {w : World} {i : Nat} {x : Id} (h : w.has i x = false) : w.at? i x = none := by
  cases e : w.at? i x with
  | none => rfl
  | some a => rw [has_of_at? e] at h; cases h

theorem node?_of_at? {w : World} {i : Nat} {x : Id} {a : Nat} (h : w.at? i x = some a) : w.node? i x = some (w.obj a) := by
  unfold node?; rw [h]; rfl

/-! ### The invariant -/

/-- Every tree holds, under their names, objects that refer to it. -/
structure Sep (w : World) : Prop where
  here : ∀ i x a, (x, a) ∈ (w.tree i).nodes.entries → a < w.objs.length ∧ (w.obj a).id = x ∧ w.treeOf a = some i
  keys : ∀ i, (w.tree i).nodes.keys.Nodup
  flag : ∀ a i, w.treeOf a = some i → (w.obj a).hasTree = true ∧ i < w.trees.length
  made : ∀ a, a < w.objs.length → w.treeOf a = none → Made (w.obj a)

theorem mem_of_at? {w : World} {i : Nat} {x : Id} {a : Nat} (h : w.at? i x = some a) : (x, a) ∈ (w.tree i).nodes.entries :=
  Dict.mem_of_get? h

theorem lookup_of_mem {α : Type} {l : List (Id × α)} (hn : (l.map (·.1)).Nodup) {x : Id} {v : α} (h : (x, v) ∈ l) :
    Dict.lookup l x = some v := by
  induction l with
  | nil => cases h
  | cons e l ih =>
    rw [List.map_cons, List.nodup_cons] at hn
    rcases List.mem_cons.1 h with rfl | h
    · simp [Dict.lookup]
    · have : e.1 ≠ x := fun e' => hn.1 (e' ▸ List.mem_map_of_mem (f := (·.1)) h)
      simp only [Dict.lookup, this, if_false]
      exact ih hn.2 h

theorem Sep.at?_of_mem {w : World} (h : Sep w) {i : Nat} {x : Id} {a : Nat} (hm : (x, a) ∈ (w.tree i).nodes.entries) :
    w.at? i x = some a := lookup_of_mem (h.keys i) hm

theorem seen_updObj_in {w : World} (h : Sep w) {i : Nat} {x : Id} {a : Nat} (hx : w.at? i x = some a) (f : Node → Node) :
    (w.updObj a f).seen i = (w.seen i).updNode x f := by
  have key : ∀ l : List (Id × Nat), (l.map (·.1)).Nodup → (∀ e ∈ l, e.2 = a → e.1 = x) → Dict.lookup l x = some a →
      l.map (fun e => (e.1, (w.updObj a f).obj e.2)) = Dict.insert (l.map fun e => (e.1, w.obj e.2)) x (f (w.obj a)) := by
    have hlen := (h.here i x a (mem_of_at? hx)).1
    have hout : ∀ l : List (Id × Nat), (∀ e ∈ l, e.2 ≠ a) →
        l.map (fun e => (e.1, (w.updObj a f).obj e.2)) = l.map fun e => (e.1, w.obj e.2) := by
      intro l hl
      refine List.map_congr_left fun e he => ?_
      rw [obj_updObj, if_neg (fun hh => hl e he hh.1)]
    intro l hn hl hk
    induction l with
    | nil => cases hk
    | cons e l ih =>
      rw [List.map_cons, List.nodup_cons] at hn
      simp only [Dict.lookup] at hk
      simp only [List.map_cons, Dict.insert]
      by_cases he : e.1 = x
      · rw [if_pos he] at hk
        have hk := Option.some.inj hk
        rw [if_pos he, hk, obj_updObj, if_pos ⟨rfl, hlen⟩, he]
        congr 1
        refine hout l fun e' he' h2 => hn.1 ?_
        rw [he, ← hl e' (List.mem_cons_of_mem _ he') h2]
        exact List.mem_map_of_mem he'
      · rw [if_neg he] at hk ⊢
        rw [ih hn.2 (fun e' he' => hl e' (List.mem_cons_of_mem _ he')) hk]
        congr 2
        rw [obj_updObj, if_neg]
        exact fun hh => he (hl e List.mem_cons_self hh.1)
  have hg : (w.seen i).nodes.get? x = some (w.obj a) := by
    have := node?_seen w i x
    rw [node?_of_at? hx] at this
    exact this
  have := key (w.tree i).nodes.entries (h.keys i) (fun e he h2 => by
    have := (h.here i e.1 e.2 he).2.1
    have h' := (h.here i x a (mem_of_at? hx)).2.1
    rw [← this, h2, h']) hx
  unfold Tree.updNode Dict.modify
  rw [hg]
  unfold seen
  simp only [tree_updObj, Dict.set]
  rw [this]

theorem seen_updObj_out {w : World} {j : Nat} {a : Nat} (hx : ∀ x, (x, a) ∉ (w.tree j).nodes.entries) (f : Node → Node) :
    (w.updObj a f).seen j = w.seen j := by
  unfold seen
  simp only [tree_updObj]
  congr 2
  refine List.map_congr_left fun e he => ?_
  rw [obj_updObj, if_neg]
  rintro ⟨h1, -⟩
  exact hx e.1 (h1 ▸ he)

/-! ### What a call on one tree leaves alone -/

/-- Between `w` and `w'` only the tree `i`, the objects in it and the objects `own` have changed; nothing entered or left a tree. -/
structure Same (w : World) (i : Nat) (own : Nat → Prop) (w' : World) : Prop where
  treesLen : w'.trees.length = w.trees.length
  objsLen : w'.objs.length = w.objs.length
  dict : (w'.tree i).nodes = (w.tree i).nodes
  other : ∀ j, j ≠ i → w'.tree j = w.tree j
  link : ∀ a, w'.treeOf a = w.treeOf a
  name : ∀ a, (w'.obj a).id = (w.obj a).id
  flag : ∀ a, (w'.obj a).hasTree = (w.obj a).hasTree
  out : ∀ a, ¬ own a → (∀ x, (x, a) ∉ (w.tree i).nodes.entries) → w'.obj a = w.obj a

theorem Same.refl (w : World) (i : Nat) (own : Nat → Prop) : Same w i own w :=
  ⟨rfl, rfl, rfl, fun _ _ => rfl, fun _ => rfl, fun _ => rfl, fun _ => rfl, fun _ _ _ => rfl⟩

theorem Same.trans {w w' w'' : World} {i : Nat} {own : Nat → Prop} (h : Same w i own w') (h' : Same w' i own w'') :
    Same w i own w'' :=
  ⟨h'.treesLen.trans h.treesLen, h'.objsLen.trans h.objsLen, h'.dict.trans h.dict, fun j hj => (h'.other j hj).trans (h.other j hj),
    fun a => (h'.link a).trans (h.link a), fun a => (h'.name a).trans (h.name a), fun a => (h'.flag a).trans (h.flag a),
    fun a ho ha => (h'.out a ho (by rw [h.dict]; exact ha)).trans (h.out a ho ha)⟩

theorem Same.mono {w w' : World} {i : Nat} {own own' : Nat → Prop} (h : Same w i own w') (ho : ∀ a, own a → own' a) :
    Same w i own' w' :=
  ⟨h.treesLen, h.objsLen, h.dict, h.other, h.link, h.name, h.flag, fun a hn ha => h.out a (fun h' => hn (ho a h')) ha⟩

/-- The tree at `i` exists, the trees are separate, and the objects `own` are not in a tree and refer to the tree `i`. -/
structure Good (w : World) (i : Nat) (own : Nat → Prop) : Prop where
  sep : Sep w
  ex : i < w.trees.length
  mine : ∀ a, own a → w.treeOf a = some i

theorem Same.tree_eq {w w' : World} {i : Nat} {own : Nat → Prop} (h : Same w i own w') (j : Nat) :
    (w'.tree j).nodes = (w.tree j).nodes := by
  by_cases hj : j = i
  · subst hj; exact h.dict
  · rw [h.other j hj]

theorem Good.same {w w' : World} {i : Nat} {own : Nat → Prop} (g : Good w i own) (h : Same w i own w') : Good w' i own := by
  refine ⟨⟨fun j x a hm => ?_, fun j => ?_, fun a j ht => ?_, fun a hl ht => ?_⟩, h.treesLen ▸ g.ex, fun a ha => ?_⟩
  · rw [h.tree_eq] at hm
    have := g.sep.here j x a hm
    exact ⟨h.objsLen ▸ this.1, (h.name a).trans this.2.1, (h.link a).trans this.2.2⟩
  · rw [h.tree_eq]; exact g.sep.keys j
  · rw [h.link] at ht
    have := g.sep.flag a j ht
    exact ⟨(h.flag a).trans this.1, h.treesLen ▸ this.2⟩
  · rw [h.link] at ht
    rw [h.out a (fun ho => by rw [g.mine a ho] at ht; cases ht) (fun x hm => by rw [(g.sep.here i x a hm).2.2] at ht; cases ht)]
    exact g.sep.made a (h.objsLen ▸ hl) ht
  · rw [h.link]; exact g.mine a ha

/-- The other trees look as before. -/
theorem Good.others {w w' : World} {i : Nat} {own : Nat → Prop} (g : Good w i own) (h : Same w i own w') {j : Nat} (hj : j ≠ i) :
    w'.st j = w.st j := by
  unfold st seen
  rw [h.other j hj]
  congr 3
  refine List.map_congr_left fun e he => ?_
  have h1 := (g.sep.here j e.1 e.2 he).2.2
  rw [h.out e.2 (fun ho => hj ?_) (fun x hm => hj ?_)]
  · rw [g.mine _ ho] at h1; exact (Option.some.inj h1).symm
  · rw [(g.sep.here i x e.2 hm).2.2] at h1; exact (Option.some.inj h1).symm

/-! ### The small steps -/

theorem same_updTree (w : World) (i : Nat) (own : Nat → Prop) (f : OTree → OTree) (hf : ∀ t, (f t).nodes = t.nodes) :
    Same w i own (w.updTree i f) := by
  refine ⟨by simp, rfl, ?_, fun j hj => ?_, fun _ => rfl, fun _ => rfl, fun _ => rfl, fun _ _ _ => rfl⟩
  · rw [tree_updTree]; split
    · exact hf _
    · rfl
  · rw [tree_updTree, if_neg (fun hh => hj hh.1)]

theorem same_updObj_in {w : World} {i : Nat} {own : Nat → Prop} {x : Id} {a : Nat} (hx : w.at? i x = some a)
    (f : Node → Node) (hid : ∀ nd, (f nd).id = nd.id) (hfl : ∀ nd, (f nd).hasTree = nd.hasTree) : Same w i own (w.updObj a f) := by
  refine ⟨rfl, by simp, rfl, fun _ _ => rfl, fun _ => by simp, fun b => ?_, fun b => ?_, fun b _ hb => ?_⟩
  · rw [obj_updObj]; split
    · rename_i h; rw [hid, h.1]
    · rfl
  · rw [obj_updObj]; split
    · rename_i h; rw [hfl, h.1]
    · rfl
  · rw [obj_updObj, if_neg]
    rintro ⟨rfl, -⟩
    exact hb x (mem_of_at? hx)

theorem same_updObj_own {w : World} {i : Nat} {own : Nat → Prop} {a : Nat} (ho : own a)
    (f : Node → Node) (hid : ∀ nd, (f nd).id = nd.id) (hfl : ∀ nd, (f nd).hasTree = nd.hasTree) : Same w i own (w.updObj a f) := by
  refine ⟨rfl, by simp, rfl, fun _ _ => rfl, fun _ => by simp, fun b => ?_, fun b => ?_, fun b hb _ => ?_⟩
  · rw [obj_updObj]; split
    · rename_i h; rw [hid, h.1]
    · rfl
  · rw [obj_updObj]; split
    · rename_i h; rw [hfl, h.1]
    · rfl
  · rw [obj_updObj, if_neg]
    rintro ⟨rfl, -⟩
    exact hb ho

theorem st_updPending {w : World} {i : Nat} (hi : i < w.trees.length) (f : List (Id × Id) → List (Id × Id)) :
    (w.updPending i f).st i = (w.st i).mapTree fun t => { t with pending := f t.pending } := by
  unfold updPending st seen St.mapTree
  simp only [tree_updTree, hi, and_self, if_true, obj_updTree]

theorem st_updRoot {w : World} {i : Nat} (hi : i < w.trees.length) (f : List Id → List Id) :
    (w.updRoot i f).st i = (w.st i).mapTree fun t => t.updRoot f := by
  unfold updRoot st seen St.mapTree Tree.updRoot
  simp only [tree_updTree, hi, and_self, if_true, obj_updTree]

theorem st_emit {w : World} {i : Nat} (hi : i < w.trees.length) (ev : Ev) (x : Id) :
    (w.emit i ev x).st i = (w.st i).emit ev x := by
  unfold emit st seen St.emit
  simp only [tree_updTree, hi, and_self, if_true, obj_updTree]

theorem st_updObj_in {w : World} (h : Sep w) {i : Nat} {x : Id} {a : Nat} (hx : w.at? i x = some a) (f : Node → Node) :
    (w.updObj a f).st i = (w.st i).mapTree fun t => t.updNode x f := by
  unfold st
  rw [seen_updObj_in h hx f]
  rfl

theorem st_updObj_out {w : World} {j : Nat} {a : Nat} (hx : ∀ x, (x, a) ∉ (w.tree j).nodes.entries) (f : Node → Node) :
    (w.updObj a f).st j = w.st j := by
  unfold st
  rw [seen_updObj_out hx f]
  rfl

theorem same_updPending (w : World) (i : Nat) (own : Nat → Prop) (f : List (Id × Id) → List (Id × Id)) :
    Same w i own (w.updPending i f) := same_updTree _ _ _ _ fun _ => rfl

theorem same_updRoot (w : World) (i : Nat) (own : Nat → Prop) (f : List Id → List Id) : Same w i own (w.updRoot i f) :=
  same_updTree _ _ _ _ fun _ => rfl

theorem same_emit (w : World) (i : Nat) (own : Nat → Prop) (ev : Ev) (x : Id) : Same w i own (w.emit i ev x) :=
  same_updTree _ _ _ _ fun _ => rfl

/-- The call does to the tree `i` what the call of the other model does to it. -/
structure Does (w : World) (i : Nat) (own : Nat → Prop) (r : Res World) (s : Res St) : Prop where
  eq : r.map (fun w' => w'.st i) = s
  same : Same w i own r.state

variable {w : World} {i : Nat} {own : Nat → Prop}

theorem Does.of_ok {w' : World} {s : St} (h : w'.st i = s) (hs : Same w i own w') : Does w i own (.ok w') (.ok s) :=
  ⟨by rw [← h]; rfl, hs⟩

theorem Does.of_err {w' : World} {s : St} {e : Err} (h : w'.st i = s) (hs : Same w i own w') :
    Does w i own (.err e w') (.err e s) := ⟨by rw [← h]; rfl, hs⟩

theorem Does.here : Does w i own (.ok w) (.ok (w.st i)) := .of_ok rfl (.refl _ _ _)

/-- A call after a change that is not seen as a call of its own. -/
theorem Does.after {w' : World} {r : Res World} {s : Res St} (hs : Same w i own w') (h : Does w' i own r s) : Does w i own r s :=
  ⟨h.eq, hs.trans h.same⟩

theorem Does.andThen {r : Res World} {s : Res St} {f : World → Res World} {k : St → Res St} (g : Good w i own)
    (h : Does w i own r s) (hf : ∀ w', Good w' i own → Same w i own w' → Does w' i own (f w') (k (w'.st i))) :
    Does w i own (r.andThen f) (s.andThen k) := by
  obtain ⟨rfl, hs⟩ := h
  cases r with
  | ok w' => exact (hf w' (g.same hs) hs).after hs
  | err e w' => exact ⟨rfl, hs⟩

theorem Does.forEach {α : Type} {f : α → World → Res World} {k : α → St → Res St} (l : List α) (g : Good w i own)
    (hf : ∀ a w', Good w' i own → Same w i own w' → Does w' i own (f a w') (k a (w'.st i))) :
    Does w i own (Res.forEach f l w) (Res.forEach k l (w.st i)) := by
  have key : ∀ (l : List α) (w' : World), Good w' i own → Same w i own w' →
      Does w' i own (Res.forEach f l w') (Res.forEach k l (w'.st i)) := by
    intro l
    induction l with
    | nil => intro w' _ _; exact .here
    | cons a l ih =>
      intro w' g' hs
      exact (hf a w' g' hs).andThen g' fun w'' g'' hs' => ih w'' g'' (hs.trans hs')
  exact key l w g (.refl _ _ _)

/-! ### `MainTree` -/

theorem create_none {p c : Id} (h : w.create i p c = none) : (w.seen i).create p c = none := by
  unfold create at h
  unfold Tree.create
  rw [if_neg]
  rintro ⟨hp, hc⟩
  rw [has_seen] at hp hc
  obtain ⟨a, ha⟩ := at?_of_has hp
  obtain ⟨b, hb⟩ := at?_of_has hc
  rw [ha, hb] at h
  cases h

theorem destroy_none {p c : Id} (h : w.destroy i p c = none) : (w.seen i).destroy p c = none := by
  unfold destroy at h
  unfold Tree.destroy
  rw [if_neg]
  rintro ⟨hp, hc⟩
  rw [has_seen] at hp hc
  obtain ⟨a, ha⟩ := at?_of_has hp
  obtain ⟨b, hb⟩ := at?_of_has hc
  rw [ha, hb] at h
  cases h

/-- `w'` is `w` with the tree `i` looking like `t`, no one having been told. -/
structure Turned (w : World) (i : Nat) (own : Nat → Prop) (t : Tree) (w' : World) : Prop where
  eq : w'.st i = { w.st i with t := t }
  same : Same w i own w'

theorem create_some (g : Good w i own) {p c : Id} {w' : World} (h : w.create i p c = some w') :
    ∃ t, (w.seen i).create p c = some t ∧ Turned w i own t w' := by
  unfold create at h
  cases ha : w.at? i p with
  | none => rw [ha] at h; cases h
  | some a =>
    cases hb : w.at? i c with
    | none => rw [ha, hb] at h; cases h
    | some b =>
      rw [ha, hb] at h
      have h := (Option.some.inj h).symm
      subst h
      have s1 : Same w i own (w.updObj a fun nd => { nd with children := appendNew nd.children c }) :=
        same_updObj_in ha _ (fun _ => rfl) (fun _ => rfl)
      have g1 := g.same s1
      have hb1 : (w.updObj a fun nd => { nd with children := appendNew nd.children c }).at? i c = some b := hb
      have s2 := same_updObj_in (own := own) hb1 (fun nd => { nd with parents := appendNew nd.parents p }) (fun _ => rfl) (fun _ => rfl)
      have g2 := g1.same s2
      refine ⟨_, if_pos ⟨by rw [has_seen]; exact has_of_at? ha, by rw [has_seen]; exact has_of_at? hb⟩, ?_,
        (s1.trans s2).trans (same_updRoot _ _ _ _)⟩
      rw [st_updRoot g2.ex, st_updObj_in g1.sep hb1, st_updObj_in g.sep ha]
      rfl

theorem destroy_some (g : Good w i own) {p c : Id} {w' : World} (h : w.destroy i p c = some w') :
    ∃ t, (w.seen i).destroy p c = some t ∧ Turned w i own t w' := by
  unfold destroy at h
  cases ha : w.at? i p with
  | none => rw [ha] at h; cases h
  | some a =>
    cases hb : w.at? i c with
    | none => rw [ha, hb] at h; cases h
    | some b =>
      rw [ha, hb] at h
      have h := (Option.some.inj h).symm
      subst h
      have s1 : Same w i own (w.updObj a fun nd => { nd with children := nd.children.erase c }) :=
        same_updObj_in ha _ (fun _ => rfl) (fun _ => rfl)
      have g1 := g.same s1
      have hb1 : (w.updObj a fun nd => { nd with children := nd.children.erase c }).at? i c = some b := hb
      have s2 := same_updObj_in (own := own) hb1 (fun nd => { nd with parents := nd.parents.erase p }) (fun _ => rfl) (fun _ => rfl)
      refine ⟨_, if_pos ⟨by rw [has_seen]; exact has_of_at? ha, by rw [has_seen]; exact has_of_at? hb⟩, ?_, s1.trans s2⟩
      rw [st_updObj_in g1.sep hb1, st_updObj_in g.sep ha]
      rfl

theorem seen_of_st {s : St} (h : w.st i = s) : w.seen i = s.t := by rw [← h]; rfl

theorem newRelationship_does (g : Good w i own) (p c : Id) :
    Does w i own (w.newRelationship i p c) (Larch.newRelationship (w.st i) p c) := by
  have s1 := same_updPending w i own fun l => l.erase (p, c)
  have g1 := g.same s1
  have e1 := st_updPending g.ex fun l => l.erase (p, c)
  unfold newRelationship Larch.newRelationship
  dsimp only
  rw [← e1]
  generalize w.updPending i (fun l => l.erase (p, c)) = w1 at s1 g1
  refine Does.after s1 ?_
  split
  · exact .here
  · have hh : ∀ x, w1.has i x = (w1.st i).t.has x := fun x => (has_seen w1 i x).symm
    rw [hh, hh]
    split
    · exact .of_ok (st_updPending g1.ex _) (same_updPending _ _ _ _)
    · have hc : w1.isCircular i p c = (w1.st i).t.isCircular p c := (isCircular_seen w1 i p c).symm
      rw [hc]
      cases (w1.st i).t.isCircular p c with
      | none => exact .of_err rfl (.refl _ _ _)
      | some b =>
        cases b with
        | true =>
          dsimp only
          cases h : w1.destroy i p c with
          | none =>
            have := destroy_none h
            rw [show (w1.st i).t = w1.seen i from rfl, this]
            exact .of_err rfl (.refl _ _ _)
          | some w2 =>
            obtain ⟨t, ht, hm⟩ := destroy_some g1 h
            rw [show (w1.st i).t = w1.seen i from rfl, ht]
            exact .of_err hm.eq hm.same
        | false =>
          dsimp only
          cases h : w1.create i p c with
          | none =>
            have := create_none h
            rw [show (w1.st i).t = w1.seen i from rfl, this]
            exact .of_err rfl (.refl _ _ _)
          | some w2 =>
            obtain ⟨t, ht, hm⟩ := create_some g1 h
            rw [show (w1.st i).t = w1.seen i from rfl, ht]
            have g2 := g1.same hm.same
            have s3 := same_updRoot w2 i own fun l => l.erase c
            have g3 := g2.same s3
            have s4 := same_emit (w2.updRoot i fun l => l.erase c) i own .modified p
            have g4 := g3.same s4
            refine .of_ok ?_ (((hm.same.trans s3).trans s4).trans (same_emit _ _ _ _ _))
            rw [st_emit g4.ex, st_emit g3.ex, st_updRoot g2.ex, hm.eq]
            rfl

theorem rootAddChild_does (g : Good w i own) (c : Id) : Does w i own (w.rootAddChild i c) (Larch.rootAddChild (w.st i) c) := by
  unfold rootAddChild Larch.rootAddChild
  rw [show (w.st i).t.root = (w.tree i).root from rfl]
  split
  · split
    · rw [show (w.st i).t.node? c = w.node? i c from node?_seen w i c]
      cases w.node? i c with
      | none => exact .of_ok (st_updPending g.ex _) (same_updPending _ _ _ _)
      | some child =>
        dsimp only
        split
        · have s1 := same_updRoot w i own fun l => l ++ [c]
          refine Does.after s1 ?_
          rw [← st_updRoot g.ex]
          exact newRelationship_does (g.same s1) _ _
        · exact .here
    · exact .here
  · exact .here

theorem getParents_live (g : Good w i own) {x : Id} {a : Nat} (h : w.at? i x = some a) : w.getParents a = (w.seen i).getParents x := by
  have h1 := (g.sep.here i x a (mem_of_at? h)).2.2
  unfold getParents Tree.getParents Tree.parentsOf
  rw [h1, node?_seen, node?_of_at? h]
  simp only [Option.map_some, Option.getD_some, (g.sep.flag a i h1).1, Bool.and_true]
  split
  · exact List.filter_congr fun y _ => (has_seen w i y).symm
  · rfl

theorem getChildren_live (g : Good w i own) {x : Id} {a : Nat} (h : w.at? i x = some a) :
    w.getChildren a = (w.seen i).getChildren x := by
  have h1 := (g.sep.here i x a (mem_of_at? h)).2.2
  unfold getChildren Tree.getChildren Tree.childrenOf
  rw [h1, node?_seen, node?_of_at? h]
  simp only [Option.map_some, Option.getD_some, (g.sep.flag a i h1).1, Bool.and_true]
  split
  · exact List.filter_congr fun y _ => (has_seen w i y).symm
  · rfl

theorem getParents_at (g : Good w i own) (c : Id) : ((w.at? i c).map w.getParents).getD [] = (w.st i).t.getParents c := by
  show _ = (w.seen i).getParents c
  cases h : w.at? i c with
  | none =>
    have : (w.seen i).node? c = none := by rw [node?_seen]; unfold node?; rw [h]; rfl
    unfold Tree.getParents
    rw [this]; rfl
  | some a => exact getParents_live g h

theorem breakRelationship_does (g : Good w i own) (p c : Id) :
    Does w i own (w.breakRelationship i p c) (Larch.breakRelationship (w.st i) p c) := by
  have s1 := same_updPending w i own fun l => dropPending l p c
  have g1 := g.same s1
  have e1 := st_updPending g.ex fun l => dropPending l p c
  unfold breakRelationship Larch.breakRelationship
  dsimp only
  rw [← e1]
  generalize w.updPending i (fun l => dropPending l p c) = w1 at s1 g1
  refine Does.after s1 ?_
  split
  · exact .here
  · have hh : ∀ x, w1.has i x = (w1.st i).t.has x := fun x => (has_seen w1 i x).symm
    rw [hh, hh]
    split
    · exact .here
    · cases h : w1.destroy i p c with
      | none =>
        have := destroy_none h
        rw [show (w1.st i).t = w1.seen i from rfl, this]
        exact .of_err rfl (.refl _ _ _)
      | some w2 =>
        obtain ⟨t, ht, hm⟩ := destroy_some g1 h
        rw [show (w1.st i).t = w1.seen i from rfl, ht]
        have g2 := g1.same hm.same
        show Does w1 i own _ ((fun s2 : St => (if s2.t.getParents c = [] then Larch.rootAddChild s2 c else .ok s2).andThen
          fun s3 => .ok ((s3.emit .modified p).emit .modified c)) { w1.st i with t := t })
        rw [← hm.eq]
        dsimp only
        rw [getParents_at g2]
        refine Does.after hm.same (Does.andThen g2 ?_ fun w3 g3 _ => ?_)
        · split
          · exact rootAddChild_does g2 c
          · exact .here
        · have s4 := same_emit w3 i own .modified p
          refine .of_ok ?_ (s4.trans (same_emit _ _ _ _ _))
          rw [st_emit (g3.same s4).ex, st_emit g3.ex]

theorem modifyNode_does (g : Good w i own) (x : Id) : Does w i own (w.modifyNode i x) (Larch.modifyNode (w.st i) x) := by
  unfold modifyNode Larch.modifyNode
  rw [show w.has i x = (w.st i).t.has x from (has_seen w i x).symm]
  split
  · exact .of_ok (st_emit g.ex _ _) (same_emit _ _ _ _ _)
  · exact .here

end World
end Larch
