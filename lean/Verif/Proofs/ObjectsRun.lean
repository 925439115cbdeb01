import Verif.Proofs.ObjectsCalls

/-!
# What a deed does to each of the trees
-/

namespace Larch

open Spec

namespace World

variable {w : World} {i : Nat}

/-! ### Objects that have not been added yet -/

theorem made_bare {nd : Node} (h : Spec.Made nd) : nd.parents = [] ∧ nd.hasTree = false := by
  induction h with
  | new x p =>
    unfold Node.new
    split
    · exact ⟨rfl, rfl⟩
    · unfold Node.detachedAddParent; split <;> exact ⟨rfl, rfl⟩
  | addParent p _ ih => unfold Node.detachedAddParent; split <;> exact ih
  | setParent p _ ih => unfold Node.detachedSetParent; split <;> exact ih
  | addChild c _ ih => unfold Node.detachedAddChild; split <;> exact ih
  | setParentsEnabled b _ ih => exact ih
  | setChildrenEnabled b _ ih => exact ih

theorem modify_self {α : Type} (l : List α) (a : Nat) {f : α → α} (h : ∀ x, l[a]? = some x → f x = x) : l.modify a f = l := by
  apply List.ext_getElem?
  intro b
  rw [List.getElem?_modify]
  by_cases hb : a = b
  · subst hb
    cases e : l[a]? with
    | none => simp
    | some x => simp [h x e]
  · simp [hb]

theorem updObj_self (w : World) (a : Nat) {f : Node → Node} (h : f (w.obj a) = w.obj a) : w.updObj a f = w := by
  unfold updObj
  rw [modify_self]
  intro o ho
  have : w.obj a = o.core := by unfold obj; rw [ho]; rfl
  rw [this] at h
  rw [h]

/-- The method of an object that has not been added yet changes that object only, and it could still be newly made. -/
theorem call_new {a : Nat} (h : Sep w) (ha : a < w.objs.length) (ht : w.treeOf a = none) (c : Call) :
    ∃ f, w.call a c = .ok (w.updObj a f) ∧ Spec.Made (f (w.obj a)) := by
  have hm := h.made a ha ht
  have hb := made_bare hm
  have keep : ∃ f, (Res.ok w : Res World) = .ok (w.updObj a f) ∧ Spec.Made (f (w.obj a)) :=
    ⟨id, by rw [updObj_self w a rfl], hm⟩
  cases c with
  | addParent p =>
    show ∃ f, w.addParent a p = _ ∧ _
    unfold addParent
    dsimp only
    split
    · rename_i hc
      rw [ht]
      refine ⟨_, rfl, ?_⟩
      have := hm.addParent p
      unfold Node.detachedAddParent at this
      rwa [if_pos hc] at this
    · exact keep
  | setParent p =>
    show ∃ f, w.setParent a p = _ ∧ _
    unfold setParent
    dsimp only
    split
    · rename_i hc
      rw [ht]
      refine ⟨_, rfl, ?_⟩
      have := hm.setParent p
      unfold Node.detachedSetParent at this
      rwa [if_pos hc] at this
    · exact keep
  | removeParent p =>
    show ∃ f, w.removeParent a p = _ ∧ _
    unfold removeParent
    dsimp only
    rw [if_neg (by rw [hb.1]; simp)]
    exact keep
  | addChild c =>
    show ∃ f, w.addChild a c = _ ∧ _
    unfold addChild
    dsimp only
    split
    · rename_i h1
      split
      · rename_i h2
        rw [ht]
        refine ⟨_, rfl, ?_⟩
        have := hm.addChild c
        unfold Node.detachedAddChild at this
        rwa [if_pos ⟨h1.1, h1.2, h2⟩] at this
      · exact keep
    · exact keep
  | setParentsEnabled b =>
    refine ⟨fun nd => { nd with parentsEnabled := b }, ?_, hm.setParentsEnabled b⟩
    show w.setParentsEnabled a b = _
    unfold setParentsEnabled getParents
    rw [ht]
    cases b <;> rfl
  | setChildrenEnabled b =>
    refine ⟨fun nd => { nd with childrenEnabled := b }, ?_, hm.setChildrenEnabled b⟩
    show w.setChildrenEnabled a b = _
    unfold setChildrenEnabled
    rw [ht]
    cases b <;> rfl
  | modified =>
    show ∃ f, w.modified a = _ ∧ _
    unfold modified
    rw [ht]
    exact keep

/-! ### The deeds, one tree at a time -/

/-- No object has left the tree `i`, and those that had left before and have not gone elsewhere are as they were. -/
def Keeps (w : World) (i : Nat) (w' : World) : Prop := ∀ a, Gone w' i a → Gone w i a ∧ w'.obj a = w.obj a

/-- What a deed can be for the tree `i`. `u`: it uses an object that has left a tree; `v`: it adds an object that has left another
tree. -/
inductive Effect (w : World) (i : Nat) (u v : Prop) (r : Res World) : Prop
  | rest (eq : r = .ok w) : Effect w i u v r
  | edit (op : Op) (hd : ∀ x b, op ≠ .delNode x b)
      (hn : ∀ nd p, op = .addNode nd p → Spec.Made nd ∨ (u ∧ v ∧ nd.hasTree = true ∧ (w.st i).t.has nd.id = false))
      (eq : r.map (fun w' => w'.st i) = Larch.step (w.st i) op) (keep : Keeps w i r.state) : Effect w i u v r
  | drop (x : Id) (b : Bool) (eq : ∀ kept, Drops w i kept r (removeKeep (removeFuel (w.st i).t) (w.st i, kept) x b)) : Effect w i u v r
  | again (a : Nat) (p : Id) (hu : u) (ha : Gone w i a) (hx : (w.st i).t.has (w.obj a).id = false)
      (eq : r.map (fun w' => w'.st i) = Larch.addNode (w.st i) (w.obj a) p) (keep : Keeps w i r.state)
      (left : ¬ Gone r.state i a) : Effect w i u v r
  | out (a : Nat) (c : Call) (hu : u) (ha : Gone w i a) (eq : DoesOut w i a r (Dead.call (w.st i) (w.obj a) c)) : Effect w i u v r

/-- What a deed does to the trees: to one of them something, to the others nothing; and the trees stay separate. -/
structure Outcome (w : World) (j : Option Nat) (u v : Prop) (r : Res World) : Prop where
  sep : Sep r.state
  len : w.trees.length ≤ r.state.trees.length
  here : ∀ i, j = some i → Effect w i u v r
  there : ∀ i, j ≠ some i → r.state.st i = w.st i ∧ Keeps w i r.state

theorem Keeps.refl : Keeps w i w := fun _ h => ⟨h, rfl⟩

theorem Outcome.nothing (h : Sep w) (j : Option Nat) {u v : Prop} : Outcome w j u v (.ok w) :=
  ⟨h, Nat.le_refl _, fun _ _ => .rest rfl, fun _ _ => ⟨rfl, .refl⟩⟩

theorem Same.keeps {own : Nat → Prop} {j : Nat} {w' : World} (hs : Same w j own w') (h : Sep w)
    (ho : ∀ a, own a → w.treeOf a = some j) (hij : i ≠ j ∨ ∀ a, ¬ own a) : Keeps w i w' := by
  intro a ha
  have hl : w.treeOf a = some i := (hs.link a).symm.trans ha.link
  have hg : Gone w i a := ⟨hl, hs.objsLen ▸ ha.ex, by have := ha.free; rw [hs.tree_eq] at this; exact this⟩
  refine ⟨hg, hs.out a (fun hoa => ?_) (fun x hm => ?_)⟩
  · rcases hij with hij | hno
    · rw [ho a hoa] at hl; exact hij (Option.some.inj hl).symm
    · exact hno a hoa
  · by_cases e : i = j
    · subst e; exact hg.free x hm
    · rw [(h.here j x a hm).2.2] at hl; exact e (Option.some.inj hl).symm

theorem Does.outcome {j : Nat} {u v : Prop} {r : Res World} {op : Op} (g : Good w j nobody) (hd : ∀ x b, op ≠ .delNode x b)
    (hn : ∀ nd p, op ≠ .addNode nd p) (h : Does w j nobody r (Larch.step (w.st j) op)) : Outcome w (some j) u v r := by
  refine ⟨(g.same h.same).sep, by rw [h.same.treesLen], fun i hi => ?_, fun i hi => ?_⟩
  · obtain rfl := Option.some.inj hi
    exact .edit op hd (fun nd p e => absurd e (hn nd p)) h.eq (h.same.keeps g.sep (fun _ hh => hh.elim) (.inr fun _ hh => hh))
  · have hij : i ≠ j := fun e => hi (by rw [e])
    exact ⟨g.others h.same hij, h.same.keeps g.sep (fun _ hh => hh.elim) (.inl hij)⟩

theorem call_op_ne (x : Id) (c : Call) : (∀ y b, Spec.Call.op x c ≠ .delNode y b) ∧ ∀ nd p, Spec.Call.op x c ≠ .addNode nd p := by
  cases c <;> exact ⟨fun _ _ => by simp [Spec.Call.op], fun _ _ => by simp [Spec.Call.op]⟩

theorem DoesOut.outcome {j a : Nat} {u v : Prop} (hu : u) {r : Res World} {c : Call} (g : Good w j nobody) (ha : Gone w j a)
    (h : DoesOut w j a r (Dead.call (w.st j) (w.obj a) c)) : Outcome w (some j) u v r := by
  have g' := ha.good g
  refine ⟨(g'.same h.same).sep, by rw [h.same.treesLen], fun i hi => ?_, fun i hi => ?_⟩
  · obtain rfl := Option.some.inj hi
    exact .out a c hu ha h
  · have hij : i ≠ j := fun e => hi (by rw [e])
    exact ⟨g'.others h.same hij, h.same.keeps g.sep g'.mine (.inl hij)⟩

theorem Drops.outcome {j : Nat} {u v : Prop} {r : Res World} {x : Id} {b : Bool} (g : Good w j nobody)
    (h : ∀ kept, Drops w j kept r (removeKeep (removeFuel (w.st j).t) (w.st j, kept) x b)) : Outcome w (some j) u v r := by
  obtain ⟨gone, -, hl⟩ := h []
  refine ⟨(g.lost hl).sep, by rw [hl.treesLen], fun i hi => ?_, fun i hi => ?_⟩
  · obtain rfl := Option.some.inj hi
    exact .drop x b h
  · have hij : i ≠ j := fun e => hi (by rw [e])
    refine ⟨g.others_lost hl hij, fun a ha => ?_⟩
    have hlk : w.treeOf a = some i := (hl.link a).symm.trans ha.link
    refine ⟨⟨hlk, hl.objsLen ▸ ha.ex, by have := ha.free; rw [hl.other i hij] at this; exact this⟩, hl.out a fun x hm => hij ?_⟩
    rw [(g.sep.here j x a hm).2.2] at hlk
    exact (Option.some.inj hlk).symm

theorem Sep.good (h : Sep w) {j : Nat} (hj : j < w.trees.length) : Good w j nobody := ⟨h, hj, fun _ hh => hh.elim⟩

theorem addNode_outcome {j a : Nat} (g : Good w j nobody) (ha : a < w.objs.length) (ho : ∀ k x, w.at? k x = some a → k = j) (p : Id) :
    Outcome w (some j) (Spec.UsesRemoved w (.addNode j a p)) (Spec.Moves w (.addNode j a p)) (w.addNode j a p) := by
  by_cases hx : w.has j (w.obj a).id = true
  · have : w.addNode j a p = .ok w := by unfold addNode; dsimp only; rw [if_pos hx]
    rw [this]
    exact .nothing g.sep _
  · have hx : w.has j (w.obj a).id = false := by simpa using hx
    have hf : Free w a := by
      intro k x hm
      have hat := g.sep.at?_of_mem hm
      obtain rfl := ho k x hat
      have hl := g.live hat
      rw [← hl.name, ] at hat
      rw [has_of_at? hat] at hx
      cases hx
    obtain ⟨he, hs, g1⟩ := addNode_does g ha hf hx p
    have hen := (enter_entered g ha).same hx hs
    have hx' : (w.st j).t.has (w.obj a).id = false := (has_seen _ _ _).trans hx
    have hkeep : ∀ i, Keeps w i (w.addNode j a p).state := by
      intro i b hb
      have hba : b ≠ a := by
        rintro rfl
        have h1 := hb.link
        rw [hen.linked] at h1
        obtain rfl := Option.some.inj h1
        refine hb.free (w.obj b).id ?_
        rw [hen.dict]
        exact Dict.mem_of_get? (by simp)
      have hlk : w.treeOf b = some i := (hen.link b hba).symm.trans hb.link
      have hfr : ∀ x, (x, b) ∉ (w.tree i).nodes.entries := by
        intro x hm
        by_cases hij : i = j
        · subst hij
          refine hb.free x ?_
          rw [hen.dict]
          have h1 := g.sep.at?_of_mem hm
          have hne : x ≠ (w.obj a).id := by
            rintro rfl
            rw [has_of_at? h1] at hx; cases hx
          exact Dict.mem_of_get? (by rw [Dict.get?_set, if_neg hne]; exact h1)
        · refine hb.free x ?_
          rw [hen.other i hij]; exact hm
      refine ⟨⟨hlk, hen.objsLen ▸ hb.ex, hfr⟩, hen.out b hba fun x hm => ?_⟩
      by_cases hij : i = j
      · subst hij; exact hfr x hm
      · rw [(g.sep.here j x b hm).2.2] at hlk
        exact hij (Option.some.inj hlk).symm
    refine ⟨(g1.same hs).sep, by rw [hen.treesLen], fun i hi => ?_, fun i hi => ?_⟩
    · obtain rfl := Option.some.inj hi
      by_cases hl : w.treeOf a = some j
      · refine .again a p ⟨j, hl, fun x hx => hf j x (mem_of_at? hx)⟩ ⟨hl, ha, hf j⟩ hx' he (hkeep j) fun hgone => ?_
        refine hgone.free (w.obj a).id ?_
        rw [hen.dict]
        exact Dict.mem_of_get? (by simp)
      · refine .edit (.addNode (w.obj a) p) (fun _ _ => by simp) (fun nd q e => ?_) he (hkeep j)
        cases e
        cases ht : w.treeOf a with
        | none => exact .inl (g.sep.made a ha ht)
        | some k => exact .inr ⟨⟨k, ht, fun x hx => hf k x (mem_of_at? hx)⟩, ⟨k, ht, fun e => hl (by rw [ht, e])⟩, (g.sep.flag a k ht).1, hx'⟩
    · have hij : i ≠ j := fun e => hi (by rw [e])
      exact ⟨hen.others g hf hij, hkeep i⟩

theorem tree_old {j : Nat} (t : OTree) (hj : j < w.trees.length) :
    ({ w with trees := w.trees ++ [t] } : World).tree j = w.tree j := by
  unfold tree
  rw [List.getElem?_append_left hj]

theorem tree_append (j : Nat) : ({ w with trees := w.trees ++ [OTree.init] } : World).tree j = w.tree j := by
  by_cases hj : j < w.trees.length
  · exact tree_old _ hj
  · unfold tree
    dsimp only
    have h1 : w.trees[j]? = none := by simpa using hj
    rw [h1, List.getElem?_append_right (by omega)]
    cases h : j - w.trees.length with
    | zero => rfl
    | succ n => rfl

theorem newTree_outcome (h : Sep w) {u v : Prop} : Outcome w none u v (.ok { w with trees := w.trees ++ [OTree.init] }) := by
  refine ⟨⟨fun j x a hm => ?_, fun j => ?_, fun a j ht => ?_, fun a hl ht => h.made a hl ht⟩, by simp, (fun _ hi => nomatch hi),
    fun i _ => ⟨?_, fun a ha => ⟨⟨ha.link, ha.ex, ?_⟩, rfl⟩⟩⟩
  · rw [Res.state_ok, tree_append] at hm
    exact h.here j x a hm
  · rw [Res.state_ok, tree_append]; exact h.keys j
  · have := h.flag a j ht
    exact ⟨this.1, by simp; omega⟩
  · unfold st seen
    rw [Res.state_ok, tree_append]
    rfl
  · have := ha.free
    rwa [Res.state_ok, tree_append] at this

theorem obj_append {a : Nat} (o : NodeObj) (ha : a < w.objs.length) :
    ({ w with objs := w.objs ++ [o] } : World).obj a = w.obj a ∧ ({ w with objs := w.objs ++ [o] } : World).treeOf a = w.treeOf a := by
  unfold obj treeOf
  rw [List.getElem?_append_left ha]
  exact ⟨rfl, rfl⟩

theorem treeOf_ex {a j : Nat} (h : w.treeOf a = some j) : a < w.objs.length := by
  by_contra hc
  unfold treeOf at h
  rw [show w.objs[a]? = none by simpa using hc] at h
  cases h

theorem make_outcome (h : Sep w) (x p : Id) {u v : Prop} : Outcome w none u v (.ok { w with objs := w.objs ++ [⟨Node.new x p, none⟩] }) := by
  have hlast : ∀ a, ¬ a < w.objs.length → a < (w.objs ++ [(⟨Node.new x p, none⟩ : NodeObj)]).length → a = w.objs.length := by
    intro a h1 h2
    simp at h2; omega
  have hnone : ({ w with objs := w.objs ++ [(⟨Node.new x p, none⟩ : NodeObj)] } : World).treeOf w.objs.length = none := by
    simp [treeOf]
  have hback : ∀ a j, ({ w with objs := w.objs ++ [(⟨Node.new x p, none⟩ : NodeObj)] } : World).treeOf a = some j → a < w.objs.length := by
    intro a j ht
    by_contra hc
    have := hlast a hc (treeOf_ex ht)
    subst this
    rw [hnone] at ht; cases ht
  refine ⟨⟨fun j y a hm => ?_, fun j => h.keys j, fun a j ht => ?_, fun a hl ht => ?_⟩, Nat.le_refl _, (fun _ hi => nomatch hi),
    fun i _ => ⟨?_, fun a ha => ?_⟩⟩
  · have := h.here j y a hm
    have ho := obj_append ⟨Node.new x p, none⟩ this.1
    exact ⟨by simp; omega, by rw [Res.state_ok, ho.1]; exact this.2.1, by rw [Res.state_ok, ho.2]; exact this.2.2⟩
  · have ho := obj_append ⟨Node.new x p, none⟩ (hback a j ht)
    rw [Res.state_ok, ho.2] at ht
    rw [Res.state_ok, ho.1]
    exact h.flag a j ht
  · by_cases hc : a < w.objs.length
    · have ho := obj_append ⟨Node.new x p, none⟩ hc
      rw [Res.state_ok, ho.2] at ht
      rw [Res.state_ok, ho.1]
      exact h.made a hc ht
    · have := hlast a hc hl
      subst this
      have : ({ w with objs := w.objs ++ [(⟨Node.new x p, none⟩ : NodeObj)] } : World).obj w.objs.length = Node.new x p := by
        simp [obj]
      rw [Res.state_ok, this]
      exact .new x p
  · unfold st seen
    rw [Res.state_ok, show ({ w with objs := w.objs ++ [(⟨Node.new x p, none⟩ : NodeObj)] } : World).tree i = w.tree i from rfl]
    congr 3
    refine List.map_congr_left fun e he => ?_
    rw [(obj_append _ (h.here i e.1 e.2 he).1).1]
  · have hl := hback a i ha.link
    have ho := obj_append ⟨Node.new x p, none⟩ hl
    exact ⟨⟨ho.2.symm.trans ha.link, hl, ha.free⟩, ho.1⟩

theorem call_outcome (h : Sep w) {a : Nat} (ha : a < w.objs.length) (c : Call) {u v : Prop}
    (hu : ∀ j, w.treeOf a = some j → (∀ x, w.at? j x ≠ some a) → u) : Outcome w (w.treeOf a) u v (w.call a c) := by
  cases ht : w.treeOf a with
  | none =>
    obtain ⟨f, e, hm⟩ := call_new h ha ht c
    rw [e]
    have hob : ∀ b, b ≠ a → (w.updObj a f).obj b = w.obj b := fun b hb => by rw [obj_updObj, if_neg (fun hh => hb hh.1)]
    have hne : ∀ b k, w.treeOf b = some k → b ≠ a := by
      rintro b k hb rfl
      rw [ht] at hb; cases hb
    refine ⟨⟨fun j x b hm => ?_, fun j => h.keys j, fun b j hb => ?_, fun b hl hb => ?_⟩, Nat.le_refl _, (fun _ hi => nomatch hi),
      fun i _ => ⟨?_, fun b hb => ?_⟩⟩
    · have := h.here j x b hm
      exact ⟨by simpa using this.1, by rw [Res.state_ok, hob b (hne b j this.2.2)]; exact this.2.1, by simpa using this.2.2⟩
    · rw [Res.state_ok, treeOf_updObj] at hb
      rw [Res.state_ok, hob b (hne b j hb)]
      exact h.flag b j hb
    · rw [Res.state_ok, treeOf_updObj] at hb
      rw [Res.state_ok, objsLen_updObj] at hl
      by_cases hba : b = a
      · subst hba
        rw [Res.state_ok, obj_updObj, if_pos ⟨rfl, ha⟩]
        exact hm
      · rw [Res.state_ok, hob b hba]
        exact h.made b hl hb
    · exact st_updObj_out (fun x hm => hne a i (h.here i x a hm).2.2 rfl) f
    · have hl : w.treeOf b = some i := by have := hb.link; rwa [Res.state_ok, treeOf_updObj] at this
      exact ⟨⟨hl, by simpa using hb.ex, hb.free⟩, hob b (hne b i hl)⟩
  | some j =>
    have hj := (h.flag a j ht).2
    have g := h.good hj
    by_cases hm : ∃ x, (x, a) ∈ (w.tree j).nodes.entries
    · obtain ⟨x, hm⟩ := hm
      have hl := g.live (h.at?_of_mem hm)
      have hne := call_op_ne x c
      exact (call_live g hl c).outcome g hne.1 hne.2
    · have hg : Gone w j a := ⟨ht, ha, fun x hx => hm ⟨x, hx⟩⟩
      exact (call_gone g hg c).outcome (hu j ht fun x hx => hm ⟨x, mem_of_at? hx⟩) g hg

theorem step_outcome (h : Sep w) (d : WorldAct) (ho : OneTree w d) : Outcome w (about w d) (Spec.UsesRemoved w d) (Spec.Moves w d) (w.step d) := by
  have tree : ∀ j {u v : Prop} (r : Res World), (j < w.trees.length → Outcome w (some j) u v r) →
      Outcome w (some j) u v (w.withTree j r) := by
    intro j u v r hr
    unfold withTree
    split
    · rename_i hj; exact hr hj
    · exact .nothing h _
  cases d with
  | newTree => exact newTree_outcome h
  | make x p => exact make_outcome h x p
  | addNode j a p =>
    show Outcome w (some j) _ _ (if a < w.objs.length then w.withTree j (w.addNode j a p) else .ok w)
    split
    · rename_i ha
      exact tree j _ fun hj => addNode_outcome (h.good hj) ha ho p
    · exact .nothing h _
  | delNode j x b => exact tree j _ fun hj => Drops.outcome (h.good hj) fun kept => removeNode_drops _ (h.good hj) kept x b
  | refreshNode j x =>
    exact tree j _ fun hj => (modifyNode_does (h.good hj) x).outcome (op := .refreshNode x) (h.good hj) (by simp) (by simp)
  | moveNode j x p =>
    show Outcome w (some j) _ _ (match w.at? j x with | none => .ok w | some a => w.setParent a p)
    cases hat : w.at? j x with
    | none => exact .nothing h _
    | some a =>
      have hl := (h.here j x a (mem_of_at? hat))
      have := call_outcome h hl.1 (.setParent p) (u := False) (v := False) fun k hk hne => hne x (by
        rw [hl.2.2] at hk; rw [← Option.some.inj hk]; exact hat)
      rw [hl.2.2] at this
      exact this
  | addParent j x p =>
    show Outcome w (some j) _ _ (match w.at? j x with | none => .ok w | some a => w.addParent a p)
    cases hat : w.at? j x with
    | none => exact .nothing h _
    | some a =>
      have hl := (h.here j x a (mem_of_at? hat))
      have := call_outcome h hl.1 (.addParent p) (u := False) (v := False) fun k hk hne => hne x (by
        rw [hl.2.2] at hk; rw [← Option.some.inj hk]; exact hat)
      rw [hl.2.2] at this
      exact this
  | newRelationship j p c =>
    exact tree j _ fun hj => (newRelationship_does (h.good hj) p c).outcome (op := .newRelationship p c) (h.good hj) (by simp) (by simp)
  | breakRelationship j p c =>
    exact tree j _ fun hj => (breakRelationship_does (h.good hj) p c).outcome (op := .breakRelationship p c) (h.good hj) (by simp) (by simp)
  | call a c =>
    show Outcome w (w.treeOf a) _ _ (if a < w.objs.length then w.call a c else .ok w)
    split
    · rename_i ha; exact call_outcome h ha c fun j hj hne => ⟨j, hj, hne⟩
    · exact .nothing h _

/-! ### The tree and its removed objects as in `Model/Kept.lean` -/

/-- `h` is the tree `i`, with the objects that have left it; `pos` tells which object is where in that list. An object that has gone
to another tree since is still in the list, but is not looked at any more. -/
structure Mirror (w : World) (i : Nat) (h : Home) (pos : Nat → Option Nat) : Prop where
  st : w.st i = h.s
  slot : ∀ k a, pos k = some a → Gone w i a ∧ h.kept[k]? = some (w.obj a)
  all : ∀ a, Gone w i a → ∃ k, pos k = some a
  inj : ∀ k k' a, pos k = some a → pos k' = some a → k = k'

/-- Objects that are no longer out of the tree are not looked at any more. -/
theorem Mirror.keep {h : Home} {pos : Nat → Option Nat} {w' : World} {s : St} (m : Mirror w i h pos) (hs : w'.st i = s)
    (hk : Keeps w i w') : ∃ pos', Mirror w' i ⟨s, h.kept⟩ pos' := by
  classical
  refine ⟨fun k => (pos k).filter fun a => decide (Gone w' i a), hs, fun k a e => ?_, fun a ha => ?_, fun k k' a e e' => ?_⟩
  · obtain ⟨e1, e2⟩ := Option.filter_eq_some_iff.1 e
    have hg : Gone w' i a := by simpa using e2
    exact ⟨hg, by rw [(hk a hg).2]; exact (m.slot k a e1).2⟩
  · obtain ⟨k, hk'⟩ := m.all a (hk a ha).1
    exact ⟨k, Option.filter_eq_some_iff.2 ⟨hk', by simpa using ha⟩⟩
  · exact m.inj k k' a (Option.filter_eq_some_iff.1 e).1 (Option.filter_eq_some_iff.1 e').1

/-- Every deed is, for each tree, nothing or a deed of `Model/Kept.lean`. -/
theorem Mirror.effect {h : Home} {pos : Nat → Option Nat} {r : Res World} {u v : Prop} (hw : Sep w) (m : Mirror w i h pos)
    (e : Effect w i u v r) :
    r = .ok w ∨
    ∃ d, (∀ nd p, d = .edit (.addNode nd p) → Spec.Made nd ∨ (v ∧ nd.hasTree = true ∧ h.s.t.has nd.id = false)) ∧
      (h.step d).map Home.s = r.map (fun w' => w'.st i) ∧ ∃ pos', Mirror r.state i (h.step d).state pos' := by
  cases e with
  | rest eq => exact .inl eq
  | edit op hd hn eq keep =>
    have hstep : h.step (.edit op) = (Larch.step h.s op).map fun s => ⟨s, h.kept⟩ := by
      cases op with
      | delNode x b => exact absurd rfl (hd x b)
      | _ => rfl
    refine .inr ⟨.edit op, fun nd p e => ?_, ?_, ?_⟩
    · cases e
      rcases hn nd p rfl with h1 | ⟨-, h2, h3, h4⟩
      · exact .inl h1
      · exact .inr ⟨h2, h3, by rwa [m.st] at h4⟩
    · rw [hstep, Res.map_map, eq, m.st]
      cases Larch.step h.s op <;> rfl
    · rw [hstep, ← m.st, ← eq, Res.map_map, Res.state_map]
      exact m.keep rfl keep
  | drop x b eq =>
    obtain ⟨gone, e, hl⟩ := eq h.kept
    rw [m.st] at e
    have hstep : h.step (.edit (.delNode x b)) = r.map fun w' => ⟨w'.st i, h.kept ++ gone.map w'.obj⟩ := by
      show (removeKeep (removeFuel h.s.t) (h.s, h.kept) x b).map _ = _
      rw [e, Res.map_map]
    refine .inr ⟨.edit (.delNode x b), fun nd p e => (by cases e), ?_, ?_⟩
    · rw [hstep, Res.map_map]
    · rw [hstep, Res.state_map]
      have hold : ∀ k a, pos k = some a → k < h.kept.length := fun k a hk =>
        (List.getElem?_eq_some_iff.1 (m.slot k a hk).2).1
      have hgone : ∀ a ∈ gone, ¬ Gone w i a := by
        intro a ha hg
        obtain ⟨x, hx⟩ := hl.were a ha
        exact hg.free x hx
      refine ⟨fun k => if k < h.kept.length then pos k else gone[k - h.kept.length]?, rfl, fun k a e => ?_, fun a ha => ?_,
        fun k k' a e e' => ?_⟩
      · split at e
        · rename_i hk
          obtain ⟨hg, hkept⟩ := m.slot k a e
          refine ⟨⟨(hl.link a).trans hg.link, hl.objsLen ▸ hg.ex, fun x hm => hg.free x (hl.mem.1 hm).1⟩, ?_⟩
          rw [List.getElem?_append_left hk, hl.out a hg.free]
          exact hkept
        · rename_i hk
          have ha : a ∈ gone := List.mem_of_getElem? e
          obtain ⟨x, hx⟩ := hl.were a ha
          have hlive := hw.here i x a hx
          refine ⟨⟨?_, ?_, fun y hm => (hl.mem.1 hm).2 ha⟩, ?_⟩
          · rw [hl.link]; exact hlive.2.2
          · rw [hl.objsLen]; exact hlive.1
          · rw [List.getElem?_append_right (by omega), List.getElem?_map, e]; rfl
      · by_cases hg : a ∈ gone
        · obtain ⟨n, hn⟩ := List.getElem?_of_mem hg
          exact ⟨h.kept.length + n, by rw [if_neg (by omega), Nat.add_sub_cancel_left]; exact hn⟩
        · have hg' : Gone w i a := ⟨(hl.link a).symm.trans ha.link, hl.objsLen ▸ ha.ex, fun x hm => ha.free x (hl.mem.2 ⟨hm, hg⟩)⟩
          obtain ⟨k, hk⟩ := m.all a hg'
          exact ⟨k, by rw [if_pos (hold k a hk)]; exact hk⟩
      · split at e
        · split at e'
          · exact m.inj k k' a e e'
          · exact absurd (m.slot k a e).1 (hgone a (List.mem_of_getElem? e'))
        · split at e'
          · exact absurd (m.slot k' a e').1 (hgone a (List.mem_of_getElem? e))
          · rename_i h1 h2
            have := (List.getElem?_inj (List.getElem?_eq_some_iff.1 e).1 hl.once).1 (e.trans e'.symm)
            omega
  | again a p hu ha hx eq keep left =>
    obtain ⟨k, hk⟩ := m.all a ha
    have hkept := (m.slot k a hk).2
    rw [m.st] at hx eq
    have hstep : h.step (.again k p) = (Larch.addNode h.s (w.obj a) p).map fun s => ⟨s, h.kept.eraseIdx k⟩ := by
      show (match h.kept[k]? with
        | none => Res.ok h
        | some nd => if h.s.t.has nd.id then Res.ok h else (Larch.addNode h.s nd p).map fun s => (⟨s, h.kept.eraseIdx k⟩ : Home)) = _
      rw [hkept]
      dsimp only
      rw [hx]
      rfl
    refine .inr ⟨.again k p, fun nd p e => (by cases e), ?_, ?_⟩
    · rw [hstep, Res.map_map, eq]
      cases Larch.addNode h.s (w.obj a) p <;> rfl
    · rw [hstep, ← eq, Res.map_map, Res.state_map]
      classical
      refine ⟨fun n => (pos (if n < k then n else n + 1)).filter fun b => decide (Gone r.state i b), rfl, fun n b e => ?_,
        fun b hb => ?_, fun n n' b e e' => ?_⟩
      · obtain ⟨e1, e2⟩ := Option.filter_eq_some_iff.1 e
        have hg : Gone r.state i b := by simpa using e2
        refine ⟨hg, ?_⟩
        rw [(keep b hg).2, List.getElem?_eraseIdx, ← (m.slot _ b e1).2]
        split <;> rfl
      · obtain ⟨k1, hk1⟩ := m.all b (keep b hb).1
        have hne : k1 ≠ k := by
          rintro rfl
          rw [hk] at hk1
          obtain rfl := Option.some.inj hk1
          exact left hb
        refine ⟨if k1 < k then k1 else k1 - 1, Option.filter_eq_some_iff.2 ⟨?_, by simpa using hb⟩⟩
        rw [← hk1]
        congr 1
        by_cases hlt : k1 < k
        · rw [if_pos hlt, if_pos hlt]
        · rw [if_neg hlt, if_neg (by omega)]; omega
      · have := m.inj _ _ b (Option.filter_eq_some_iff.1 e).1 (Option.filter_eq_some_iff.1 e').1
        split at this <;> split at this <;> omega
  | out a c hu ha eq =>
    obtain ⟨k, hk⟩ := m.all a ha
    have hkept := (m.slot k a hk).2
    have hstep : h.step (.call k c) = r.map fun w' => ⟨w'.st i, h.kept.set k (w'.obj a)⟩ := by
      show (match h.kept[k]? with
        | none => Res.ok h
        | some nd => (Dead.call h.s nd c).map fun (a : St × Node) => (⟨a.1, h.kept.set k a.2⟩ : Home)) = _
      rw [hkept]
      dsimp only
      rw [← m.st, ← eq.eq, Res.map_map]
    refine .inr ⟨.call k c, fun nd p e => (by cases e), ?_, ?_⟩
    · rw [hstep, Res.map_map]
    · rw [hstep, Res.state_map]
      have hlt : k < h.kept.length := (List.getElem?_eq_some_iff.1 hkept).1
      refine ⟨pos, rfl, fun k' b e => ?_, fun b hb => ?_, m.inj⟩
      · obtain ⟨hg, hb⟩ := m.slot k' b e
        refine ⟨hg.same eq.same, ?_⟩
        by_cases hkk : k' = k
        · subst hkk
          rw [hk] at e
          obtain rfl := Option.some.inj e
          simp [hlt]
        · have hba : b ≠ a := fun e' => hkk (m.inj k' k b e (e' ▸ hk))
          dsimp only
          rw [List.getElem?_set_ne (fun e' => hkk e'.symm), eq.same.out b hba hg.free]
          exact hb
      · refine m.all b ⟨(eq.same.link b).symm.trans hb.link, eq.same.objsLen ▸ hb.ex, ?_⟩
        have := hb.free
        rwa [eq.same.dict] at this

end World
end Larch
