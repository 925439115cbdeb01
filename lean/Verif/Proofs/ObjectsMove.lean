import Verif.Proofs.Objects

/-!
# Objects that enter a tree and leave it
-/

namespace Larch

open Spec

namespace World

/-- No object outside the tree changes. -/
abbrev nobody : Nat → Prop := fun _ => False

variable {w : World} {i : Nat} {own : Nat → Prop}

/-! ### `_remove_node` -/

/-- Between `w` and `w'` the objects `gone` have left the tree `i`; otherwise only that tree and the objects that were in it have
changed. -/
structure Lost (w : World) (i : Nat) (gone : List Nat) (w' : World) : Prop where
  treesLen : w'.trees.length = w.trees.length
  objsLen : w'.objs.length = w.objs.length
  dict : (w'.tree i).nodes.entries = (w.tree i).nodes.entries.filter fun e => decide (e.2 ∉ gone)
  other : ∀ j, j ≠ i → w'.tree j = w.tree j
  link : ∀ a, w'.treeOf a = w.treeOf a
  name : ∀ a, (w'.obj a).id = (w.obj a).id
  flag : ∀ a, (w'.obj a).hasTree = (w.obj a).hasTree
  out : ∀ a, (∀ x, (x, a) ∉ (w.tree i).nodes.entries) → w'.obj a = w.obj a
  were : ∀ a ∈ gone, ∃ x, (x, a) ∈ (w.tree i).nodes.entries
  once : gone.Nodup

theorem Same.lost {w' : World} (h : Same w i nobody w') : Lost w i [] w' :=
  ⟨h.treesLen, h.objsLen, by rw [h.dict]; simp, h.other, h.link, h.name, h.flag, fun a ha => h.out a id ha,
    by simp, List.nodup_nil⟩

theorem Lost.mem {w' : World} {gone : List Nat} (h : Lost w i gone w') {x : Id} {a : Nat} :
    (x, a) ∈ (w'.tree i).nodes.entries ↔ (x, a) ∈ (w.tree i).nodes.entries ∧ a ∉ gone := by
  rw [h.dict]; simp

theorem Lost.trans {w' w'' : World} {gone gone' : List Nat} (h : Lost w i gone w') (h' : Lost w' i gone' w'') :
    Lost w i (gone ++ gone') w'' := by
  refine ⟨h'.treesLen.trans h.treesLen, h'.objsLen.trans h.objsLen, ?_, fun j hj => (h'.other j hj).trans (h.other j hj),
    fun a => (h'.link a).trans (h.link a), fun a => (h'.name a).trans (h.name a), fun a => (h'.flag a).trans (h.flag a),
    fun a ha => (h'.out a fun x hm => ha x (h.mem.1 hm).1).trans (h.out a ha), fun a ha => ?_, ?_⟩
  · rw [h'.dict, h.dict, List.filter_filter]
    refine List.filter_congr fun e _ => ?_
    by_cases h1 : e.2 ∈ gone <;> by_cases h2 : e.2 ∈ gone' <;> simp [h1, h2]
  · rcases List.mem_append.1 ha with ha | ha
    · exact h.were a ha
    · obtain ⟨x, hx⟩ := h'.were a ha
      exact ⟨x, (h.mem.1 hx).1⟩
  · refine List.nodup_append.2 ⟨h.once, h'.once, fun a ha b hb e => ?_⟩
    subst e
    obtain ⟨x, hx⟩ := h'.were a hb
    exact (h.mem.1 hx).2 ha

theorem Good.lost {w' : World} {gone : List Nat} (g : Good w i nobody) (h : Lost w i gone w') : Good w' i nobody := by
  have hm : ∀ j x a, (x, a) ∈ (w'.tree j).nodes.entries → (x, a) ∈ (w.tree j).nodes.entries := by
    intro j x a hm
    by_cases hj : j = i
    · subst hj; exact (h.mem.1 hm).1
    · rwa [h.other j hj] at hm
  refine ⟨⟨fun j x a hm' => ?_, fun j => ?_, fun a j ht => ?_, fun a hl ht => ?_⟩, h.treesLen ▸ g.ex, fun a ha => ha.elim⟩
  · have := g.sep.here j x a (hm j x a hm')
    exact ⟨h.objsLen ▸ this.1, (h.name a).trans this.2.1, (h.link a).trans this.2.2⟩
  · by_cases hj : j = i
    · subst hj
      have := g.sep.keys j
      unfold Dict.keys at this ⊢
      rw [h.dict]
      exact this.sublist (List.filter_sublist.map _)
    · rw [h.other j hj]; exact g.sep.keys j
  · rw [h.link] at ht
    have := g.sep.flag a j ht
    exact ⟨(h.flag a).trans this.1, h.treesLen ▸ this.2⟩
  · rw [h.link] at ht
    rw [h.out a (fun x hm => by rw [(g.sep.here i x a hm).2.2] at ht; cases ht)]
    exact g.sep.made a (h.objsLen ▸ hl) ht

/-- The other trees look as before. -/
theorem Good.others_lost {w' : World} {gone : List Nat} (g : Good w i nobody) (h : Lost w i gone w') {j : Nat} (hj : j ≠ i) :
    w'.st j = w.st j := by
  unfold st seen
  rw [h.other j hj]
  congr 3
  refine List.map_congr_left fun e he => ?_
  have h1 := (g.sep.here j e.1 e.2 he).2.2
  rw [h.out e.2 (fun x hm => hj ?_)]
  rw [(g.sep.here i x e.2 hm).2.2] at h1; exact (Option.some.inj h1).symm

/-- The removal does to the tree what the removal of the other model does, and the objects that leave are the ones listed there. -/
def Drops (w : World) (i : Nat) (kept : List Node) (r : Res World) (k : Res (St × List Node)) : Prop :=
  ∃ gone, k = r.map (fun w' => (w'.st i, kept ++ gone.map w'.obj)) ∧ Lost w i gone r.state

theorem Does.drops {r : Res World} {s : Res St} (h : Does w i nobody r s) (kept : List Node) :
    Drops w i kept r (s.map fun s => (s, kept)) := by
  refine ⟨[], ?_, h.same.lost⟩
  rw [← h.eq, Res.map_map]
  simp

theorem Drops.andThen {kept : List Node} {r : Res World} {k : Res (St × List Node)} {f : World → Res World}
    {q : St × List Node → Res (St × List Node)} (g : Good w i nobody) (h : Drops w i kept r k)
    (hf : ∀ w' l, Good w' i nobody → Drops w' i l (f w') (q (w'.st i, l))) : Drops w i kept (r.andThen f) (k.andThen q) := by
  obtain ⟨gone, rfl, hl⟩ := h
  cases r with
  | err e w' => exact ⟨gone, rfl, hl⟩
  | ok w' =>
    obtain ⟨gone', e, hl'⟩ := hf w' (kept ++ gone.map w'.obj) (g.lost hl)
    refine ⟨gone ++ gone', ?_, hl.trans hl'⟩
    show q _ = _
    rw [e]
    show (f w').map _ = (f w').map _
    have hobj : gone.map (f w').state.obj = gone.map w'.obj :=
      List.map_congr_left fun a ha => hl'.out a fun x hm => (hl.mem.1 hm).2 ha
    cases hfw : f w' with
    | ok w'' =>
      rw [hfw] at hobj
      simp only [Res.map, Res.state_ok, List.map_append, List.append_assoc] at hobj ⊢
      rw [hobj]
    | err e w'' =>
      rw [hfw] at hobj
      simp only [Res.map, Res.state_err, List.map_append, List.append_assoc] at hobj ⊢
      rw [hobj]

theorem Drops.after {w' : World} {kept : List Node} {r : Res World} {k : Res (St × List Node)} (hs : Same w i nobody w')
    (h : Drops w' i kept r k) : Drops w i kept r k := by
  obtain ⟨gone, e, hl⟩ := h
  exact ⟨gone, e, by simpa using hs.lost.trans hl⟩

theorem Drops.forEach {α : Type} {f : α → World → Res World} {q : α → St × List Node → Res (St × List Node)} (l : List α)
    (g : Good w i nobody) (kept : List Node)
    (hf : ∀ a w' l, Good w' i nobody → Drops w' i l (f a w') (q a (w'.st i, l))) :
    Drops w i kept (Res.forEach f l w) (Res.forEach q l (w.st i, kept)) := by
  induction l generalizing w kept with
  | nil => exact ⟨[], by simp [Res.forEach, Res.map], (Same.refl _ _ _).lost⟩
  | cons a l ih => exact (hf a w kept g).andThen g fun w' l' g' => ih g' l'

theorem removeParentsLoop_does (f k : Nat) (g : Good w i own) (x : Id) :
    Does w i own (removeParentsLoop i f k w x) (Larch.removeParentsLoop f k (w.st i) x) := by
  induction f generalizing k w with
  | zero => exact .here
  | succ f ih =>
    unfold removeParentsLoop Larch.removeParentsLoop
    rw [show (w.st i).t.rawParents x = w.rawParents i x from rawParents_seen w i x]
    cases (w.rawParents i x)[k]? with
    | none => exact .here
    | some p =>
      dsimp only
      cases h : w.destroy i p x with
      | none =>
        rw [show (w.st i).t.destroy p x = none from destroy_none h]
        exact .of_err rfl (.refl _ _ _)
      | some w1 =>
        obtain ⟨t, ht, hm⟩ := destroy_some g h
        rw [show (w.st i).t.destroy p x = some t from ht]
        dsimp only
        have g1 := g.same hm.same
        have s2 := same_emit w1 i own .modified p
        have := ih (k + 1) (g1.same s2)
        rw [st_emit g1.ex, hm.eq] at this
        exact (this.after s2).after hm.same

theorem orphanChild_does (g : Good w i own) (x c : Id) :
    Does w i own (orphanChild i x c w) (Larch.orphanChild x c (w.st i)) := by
  unfold orphanChild Larch.orphanChild
  cases h : w.destroy i x c with
  | none =>
    rw [show (w.st i).t.destroy x c = none from destroy_none h]
    exact .of_err rfl (.refl _ _ _)
  | some w1 =>
    obtain ⟨t, ht, hm⟩ := destroy_some g h
    rw [show (w.st i).t.destroy x c = some t from ht]
    have g1 := g.same hm.same
    have s2 := same_emit w1 i own .modified c
    have g2 := g1.same s2
    show Does w i own _ ((fun s1 : St => .ok (if s1.t.rawParents c = [] then s1.mapTree (fun t => t.updRoot (fun l => l ++ [c])) else s1))
      (({ w.st i with t := t } : St).emit .modified c))
    rw [← hm.eq, ← st_emit g1.ex]
    dsimp only
    generalize w1.emit i .modified c = w2 at s2 g2
    rw [show (w2.st i).t.rawParents c = w2.rawParents i c from rawParents_seen w2 i c]
    refine Does.after (hm.same.trans s2) ?_
    split
    · exact .of_ok (st_updRoot g2.ex _) (same_updRoot _ _ _ _)
    · exact .here

theorem removeNode_drops (f : Nat) (g : Good w i nobody) (kept : List Node) (x : Id) (r : Bool) :
    Drops w i kept (removeNode i f w x r) (removeKeep f (w.st i, kept) x r) := by
  induction f generalizing w kept x r with
  | zero => exact (Does.of_err (e := .diverge) rfl (.refl w i nobody)).drops kept
  | succ f ih =>
    unfold removeNode removeKeep
    dsimp only
    rw [show (w.st i).t.has x = w.has i x from has_seen w i x]
    split
    · exact Does.here.drops kept
    · have s1 := same_updPending w i nobody fun l => dropPendingOf l x
      have g1 := g.same s1
      rw [← st_updPending g.ex fun l => dropPendingOf l x]
      generalize w.updPending i (fun l => dropPendingOf l x) = w1 at s1 g1
      refine Drops.after s1 ?_
      rw [show (w1.st i).t.rawParents x = w1.rawParents i x from rawParents_seen w1 i x]
      refine Drops.andThen g1 ((removeParentsLoop_does _ 0 g1 x).drops kept) fun w2 l2 g2 => ?_
      dsimp only
      rw [show (w2.st i).t.rawChildren x = w2.rawChildren i x from rawChildren_seen w2 i x]
      refine Drops.andThen g2 (Drops.forEach _ g2 l2 fun c w' l g' => ?_) fun w3 l3 g3 => ?_
      · split
        · exact ih g' l c true
        · exact (orphanChild_does g' x c).drops l
      · have s4 := same_updRoot w3 i nobody fun l => l.erase x
        have g4 := g3.same s4
        dsimp only
        rw [show (w3.st i).t.node? x = w3.node? i x from node?_seen w3 i x]
        cases hx : w3.at? i x with
        | none =>
          have hh : w3.has i x = false := by
            cases h : w3.has i x with
            | false => rfl
            | true => obtain ⟨a, ha⟩ := at?_of_has h; rw [ha] at hx; cases hx
          have hn : w3.node? i x = none := by unfold node?; rw [hx]; rfl
          rw [hn, hh]
          exact (Does.of_err (st_updRoot g3.ex _) s4).drops l3
        | some a =>
          rw [node?_of_at? hx, if_pos (has_of_at? hx)]
          dsimp only
          have hx4 : (w3.updRoot i fun l => l.erase x).at? i x = some a := by
            unfold at?; rw [s4.dict]; exact hx
          have e4 := st_updRoot g3.ex fun l => l.erase x
          have ho4 : (w3.updRoot i fun l => l.erase x).obj a = w3.obj a := rfl
          generalize w3.updRoot i (fun l => l.erase x) = w4 at s4 g4 hx4 e4 ho4
          have hin := mem_of_at? hx4
          refine Drops.after s4 ⟨[a], ?_, ?_⟩
          · simp only [Res.map]
            congr 2
            · have h5 : (w4.updTree i fun t => { t with nodes := t.nodes.del x }).st i =
                  (w4.st i).mapTree fun t => { t with nodes := t.nodes.del x } := by
                unfold st seen St.mapTree
                simp only [tree_updTree, g4.ex, and_self, if_true, obj_updTree]
                congr 3
                simp [Dict.del, List.filter_map, Function.comp_def]
              rw [st_emit (by simpa using g4.ex), h5, e4]
              rfl
            · simp [emit, ho4]
          · refine ⟨by simp [emit], rfl, ?_, fun j hj => ?_, fun _ => rfl, fun _ => rfl, fun _ => rfl, fun _ _ => rfl,
              fun b hb => ⟨x, by simpa [List.mem_singleton.1 hb] using hin⟩, by simp⟩
            · simp only [Res.state_ok, emit, tree_updTree, treesLen_updTree, g4.ex, and_self, if_true, Dict.del]
              refine List.filter_congr fun e he => ?_
              have h1 := g4.sep.here i e.1 e.2 he
              have h2 := g4.sep.here i x a hin
              have : e.1 = x ↔ e.2 = a := by
                constructor
                · intro h
                  have h3 := g4.sep.at?_of_mem (show (x, e.2) ∈ (w4.tree i).nodes.entries by rw [← h]; exact he)
                  rw [hx4] at h3
                  exact (Option.some.inj h3).symm
                · intro h
                  rw [← h1.2.1, h, h2.2.1]
              simp [this]
            · simp only [Res.state_ok, emit]
              rw [tree_updTree, if_neg (fun hh => hj hh.1), tree_updTree, if_neg (fun hh => hj hh.1)]

/-! ### `_add_node` -/

/-- The object at `a` is in none of the trees. -/
def Free (w : World) (a : Nat) : Prop := ∀ j x, (x, a) ∉ (w.tree j).nodes.entries

/-- What entering a tree leaves alone. -/
structure Entered (w : World) (i a : Nat) (w' : World) : Prop where
  treesLen : w'.trees.length = w.trees.length
  objsLen : w'.objs.length = w.objs.length
  dict : (w'.tree i).nodes = (w.tree i).nodes.set (w.obj a).id a
  other : ∀ j, j ≠ i → w'.tree j = w.tree j
  linked : w'.treeOf a = some i
  link : ∀ b, b ≠ a → w'.treeOf b = w.treeOf b
  named : (w'.obj a).id = (w.obj a).id
  flagged : (w'.obj a).hasTree = true
  out : ∀ b, b ≠ a → (∀ x, (x, b) ∉ (w.tree i).nodes.entries) → w'.obj b = w.obj b

theorem mem_insert {α : Type} {l : List (Id × α)} {x : Id} {v : α} {e : Id × α} (h : e ∈ Dict.insert l x v) : e ∈ l ∨ e = (x, v) := by
  induction l with
  | nil => exact .inr (List.mem_singleton.1 h)
  | cons e' l ih =>
    simp only [Dict.insert] at h
    split at h
    · rcases List.mem_cons.1 h with h | h
      · exact .inr h
      · exact .inl (List.mem_cons_of_mem _ h)
    · rcases List.mem_cons.1 h with h | h
      · exact .inl (h ▸ List.mem_cons_self)
      · rcases ih h with h | h
        · exact .inl (List.mem_cons_of_mem _ h)
        · exact .inr h

theorem Entered.same {a : Nat} {w' w'' : World} (h : Entered w i a w') (hx : w.has i (w.obj a).id = false) (hs : Same w' i nobody w'') :
    Entered w i a w'' := by
  refine ⟨hs.treesLen.trans h.treesLen, hs.objsLen.trans h.objsLen, hs.dict.trans h.dict,
    fun j hj => (hs.other j hj).trans (h.other j hj), (hs.link a).trans h.linked, fun b hb => (hs.link b).trans (h.link b hb),
    (hs.name a).trans h.named, (hs.flag a).trans h.flagged, fun b hb hb' => (hs.out b id fun x hm => ?_).trans (h.out b hb hb')⟩
  rw [h.dict] at hm
  rcases mem_insert hm with hm | hm
  · exact hb' x hm
  · exact hb (Prod.mk.inj hm).2

theorem enter_entered (g : Good w i nobody) {a : Nat} (ha : a < w.objs.length) : Entered w i a (w.enter i a) := by
  refine ⟨by simp [enter], by simp [enter, updTree], ?_, fun j hj => ?_, ?_, fun b hb => ?_, ?_, ?_, fun b hb _ => ?_⟩
  · unfold enter
    rw [tree_updTree, if_pos ⟨rfl, g.ex⟩]
    rfl
  · unfold enter
    rw [tree_updTree, if_neg (fun hh => hj hh.1)]
    rfl
  · simp [enter, treeOf, updTree, ha]
  · have hb' : ¬ a = b := fun e => hb e.symm
    simp [enter, treeOf, updTree, List.getElem?_modify, hb']
  · simp [enter, obj, updTree, ha]
  · simp [enter, obj, updTree, ha]
  · have hb' : ¬ a = b := fun e => hb e.symm
    simp [enter, obj, updTree, List.getElem?_modify, hb']

theorem insert_new {α : Type} {l : List (Id × α)} {x : Id} (h : Dict.lookup l x = none) (v : α) : Dict.insert l x v = l ++ [(x, v)] := by
  induction l with
  | nil => rfl
  | cons e l ih =>
    simp only [Dict.lookup] at h
    split at h
    · cases h
    · rename_i hne
      simp only [Dict.insert, hne, if_false, List.cons_append]
      rw [ih h]

theorem st_enter (g : Good w i nobody) {a : Nat} (ha : a < w.objs.length) (hx : w.has i (w.obj a).id = false) (hf : Free w a) :
    (w.enter i a).st i = { w.st i with t := insertNode (w.st i).t (w.obj a) } := by
  have e := enter_entered g ha
  have hobj : ∀ b, b ≠ a → (w.enter i a).obj b = w.obj b := by
    intro b hb
    have hb' : ¬ a = b := fun e => hb e.symm
    simp [enter, obj, updTree, List.getElem?_modify, hb']
  have hoa : (w.enter i a).obj a = { w.obj a with hasTree := true, pending := [] } := by
    simp [enter, obj, updTree, ha]
  have ht : (w.enter i a).tree i = { w.tree i with
      pending := mergePending (w.tree i).pending (w.obj a).pending, nodes := (w.tree i).nodes.set (w.obj a).id a } := by
    unfold enter
    rw [tree_updTree, if_pos ⟨rfl, g.ex⟩]
    rfl
  have hl : Dict.lookup (w.tree i).nodes.entries (w.obj a).id = none := at?_none hx
  unfold st seen insertNode
  rw [ht]
  simp only [Dict.set]
  congr 3
  rw [insert_new hl, insert_new (by rw [lookup_map, hl]; rfl), List.map_append]
  congr 1
  · refine List.map_congr_left fun b hb => ?_
    rw [hobj]
    rintro rfl
    exact hf i b.1 hb
  · simp [hoa]

theorem Entered.good {a : Nat} {w' : World} (g : Good w i nobody) (hx : w.has i (w.obj a).id = false) (ha : a < w.objs.length)
    (hf : Free w a) (hother : ∀ b, b ≠ a → w'.obj b = w.obj b) (h : Entered w i a w') : Good w' i nobody := by
  refine ⟨⟨fun j x b hm => ?_, fun j => ?_, fun b j ht => ?_, fun b hl ht => ?_⟩, h.treesLen ▸ g.ex, fun a ha => ha.elim⟩
  · have old : (x, b) ∈ (w.tree j).nodes.entries → b < w'.objs.length ∧ (w'.obj b).id = x ∧ w'.treeOf b = some j := by
      intro hm
      have hb : b ≠ a := fun e => hf j x (e ▸ hm)
      have := g.sep.here j x b hm
      exact ⟨h.objsLen ▸ this.1, by rw [hother b hb]; exact this.2.1, (h.link b hb).trans this.2.2⟩
    by_cases hj : j = i
    · subst hj
      rw [h.dict] at hm
      rcases mem_insert hm with hm | hm
      · exact old hm
      · obtain ⟨rfl, rfl⟩ := Prod.mk.inj hm
        exact ⟨h.objsLen ▸ ha, h.named, h.linked⟩
    · rw [h.other j hj] at hm
      exact old hm
  · by_cases hj : j = i
    · subst hj
      rw [h.dict, Dict.keys_set, if_neg (by rw [show (w.tree j).nodes.has (w.obj a).id = false from hx]; simp)]
      refine List.nodup_append.2 ⟨g.sep.keys j, by simp, fun k hk k' hk' e => ?_⟩
      rw [List.mem_singleton] at hk'
      subst e; subst hk'
      rw [Dict.mem_keys] at hk
      rw [show (w.tree j).nodes.has (w.obj a).id = false from hx] at hk
      cases hk
    · rw [h.other j hj]; exact g.sep.keys j
  · by_cases hb : b = a
    · subst hb
      rw [h.linked] at ht
      obtain rfl := Option.some.inj ht
      exact ⟨h.flagged, h.treesLen ▸ g.ex⟩
    · rw [h.link b hb] at ht
      have := g.sep.flag b j ht
      rw [hother b hb]
      exact ⟨this.1, h.treesLen ▸ this.2⟩
  · by_cases hb : b = a
    · subst hb
      rw [h.linked] at ht; cases ht
    · rw [h.link b hb] at ht
      rw [hother b hb]
      exact g.sep.made b (h.objsLen ▸ hl) ht

/-- The other trees look as before. -/
theorem Entered.others {a : Nat} {w' : World} (g : Good w i nobody) (hf : Free w a) (h : Entered w i a w') {j : Nat} (hj : j ≠ i) :
    w'.st j = w.st j := by
  unfold st seen
  rw [h.other j hj]
  congr 3
  refine List.map_congr_left fun e he => ?_
  have h1 := (g.sep.here j e.1 e.2 he).2.2
  rw [h.out e.2 (fun e' => hf j e.1 (e' ▸ he)) (fun x hm => hj ?_)]
  rw [(g.sep.here i x e.2 hm).2.2] at h1; exact (Option.some.inj h1).symm

/-- A pass of the loop over the pending relations and its counterpart. -/
structure Passes (w : World) (i : Nat) (own : Nat → Prop) (o : Option (World × Bool)) (t : Option (Tree × Bool)) : Prop where
  eq : o.map (fun q => (q.1.seen i, q.2)) = t
  same : ∀ q, o = some q → Turned w i own (q.1.seen i) q.1

theorem Passes.here (b : Bool) : Passes w i own (some (w, b)) (some (w.seen i, b)) :=
  ⟨rfl, fun q hq => by cases hq; exact ⟨rfl, .refl _ _ _⟩⟩

theorem Passes.none : Passes w i own none none := ⟨rfl, fun _ h => nomatch h⟩

theorem Turned.trans {w' w'' : World} {t t' : Tree} (h : Turned w i own t w') (h' : Turned w' i own t' w'') : Turned w i own t' w'' :=
  ⟨by rw [h'.eq, h.eq], h.same.trans h'.same⟩

theorem turned_pending (g : Good w i own) (f : List (Id × Id) → List (Id × Id)) :
    Turned w i own { w.seen i with pending := f (w.seen i).pending } (w.updPending i f) :=
  ⟨st_updPending g.ex f, same_updPending _ _ _ _⟩

theorem Turned.seen {w' : World} {t : Tree} (h : Turned w i own t w') : w'.seen i = t := by
  have := congrArg St.t h.eq
  exact this

theorem Turned.passes {w' : World} {t : Tree} (h : Turned w i own t w') (b : Bool) : Passes w i own (some (w', b)) (some (t, b)) := by
  refine ⟨by simp [h.seen], fun q hq => ?_⟩
  cases hq
  rw [h.seen]
  exact h

theorem create_passes (g : Good w i own) (p c : Id) (r : Id × Id) (b : Bool) :
    Passes w i own ((w.create i p c).map fun w' => (w'.updPending i fun l => l.erase r, b))
      (((w.seen i).create p c).map fun t' => ({ t' with pending := t'.pending.erase r }, b)) := by
  cases h : w.create i p c with
  | none => rw [create_none h]; exact .none
  | some w' =>
    obtain ⟨t, ht, hm⟩ := create_some g h
    rw [ht]
    have h2 := turned_pending (g.same hm.same) fun l => l.erase r
    rw [hm.seen] at h2
    exact (hm.trans h2).passes b

theorem Passes.bind {o : Option (World × Bool)} {t : Option (Tree × Bool)} {f : World × Bool → Option (World × Bool)}
    {k : Tree × Bool → Option (Tree × Bool)} (g : Good w i own) (h : Passes w i own o t)
    (hf : ∀ w' b, Good w' i own → Passes w' i own (f (w', b)) (k (w'.seen i, b))) : Passes w i own (o.bind f) (t.bind k) := by
  obtain ⟨rfl, hs⟩ := h
  cases o with
  | none => exact .none
  | some q =>
    have h1 := hs q rfl
    have h2 := hf q.1 q.2 (g.same h1.same)
    exact ⟨h2.eq, fun q' hq' => h1.trans (h2.same q' hq')⟩

theorem addPendingStep_passes (g : Good w i own) (x : Id) {o : Option (World × Bool)} {t : Option (Tree × Bool)}
    (h : Passes w i own o t) (r : Id × Id) : Passes w i own (addPendingStep i x o r) (Larch.addPendingStep x t r) := by
  unfold addPendingStep Larch.addPendingStep
  refine h.bind g fun w1 b1 g1 => ?_
  dsimp only
  refine Passes.bind g1 ?_ fun w2 b2 g2 => ?_
  · rw [has_seen]
    split
    · rw [isCircular_seen]
      cases w1.isCircular i r.1 x with
      | none => exact .none
      | some c =>
        cases c with
        | false => exact create_passes g1 _ _ _ _
        | true => exact (turned_pending g1 _).passes _
    · exact .here _
  · dsimp only
    rw [has_seen]
    split
    · rw [isCircular_seen]
      cases w2.isCircular i x r.2 with
      | none => exact .none
      | some c =>
        cases c with
        | false => exact create_passes g2 _ _ _ _
        | true => exact (turned_pending g2 _).passes _
    · exact .here _

theorem foldl_passes (g : Good w i own) (x : Id) (l : List (Id × Id)) {o : Option (World × Bool)} {t : Option (Tree × Bool)}
    (h : Passes w i own o t) : Passes w i own (l.foldl (addPendingStep i x) o) (l.foldl (Larch.addPendingStep x) t) := by
  induction l generalizing o t with
  | nil => exact h
  | cons r l ih => exact ih (addPendingStep_passes g x h r)

/-- `add_node` with an object that is in no tree does to the tree what `addNode` does with the record. -/
theorem addNode_does (g : Good w i nobody) {a : Nat} (ha : a < w.objs.length) (hf : Free w a) (hx : w.has i (w.obj a).id = false)
    (parent : Id) :
    (w.addNode i a parent).map (fun w' => w'.st i) = Larch.addNode (w.st i) (w.obj a) parent ∧
    Same (w.enter i a) i nobody (w.addNode i a parent).state ∧ Good (w.enter i a) i nobody := by
  have hen := enter_entered g ha
  have hst := st_enter g ha hx hf
  have g1 : Good (w.enter i a) i nobody := hen.good g hx ha hf fun b hb => by
    have hb' : ¬ a = b := fun e => hb e.symm
    simp [enter, obj, updTree, hb']
  suffices h : Does (w.enter i a) i nobody (w.addNode i a parent) (Larch.addNode (w.st i) (w.obj a) parent) from
    ⟨h.eq, h.same, g1⟩
  unfold addNode Larch.addNode
  dsimp only
  rw [show (w.st i).t.has (w.obj a).id = w.has i (w.obj a).id from has_seen _ _ _, hx]
  simp only [Bool.false_eq_true, if_false]
  have hseen : (w.enter i a).seen i = insertNode (w.st i).t (w.obj a) := congrArg St.t hst
  have hpend : (insertNode (w.st i).t (w.obj a)).pending = ((w.enter i a).tree i).pending := by rw [← hseen]; rfl
  have hlog : (w.st i).log = ((w.enter i a).st i).log := by rw [hst]
  rw [hpend, ← hseen, hlog]
  generalize w.enter i a = w1 at *
  have hp := foldl_passes g1 (w.obj a).id (w1.tree i).pending (Passes.here true)
  have heq := hp.eq
  cases ho : (w1.tree i).pending.foldl (addPendingStep i (w.obj a).id) (some (w1, true)) with
  | none =>
    rw [ho] at heq
    rw [← heq]
    exact .of_err rfl (.refl _ _ _)
  | some q =>
    obtain ⟨w2, b2⟩ := q
    have h2 := hp.same _ ho
    rw [ho] at heq
    rw [← heq]
    dsimp only [Option.map_some]
    have g2 := g1.same h2.same
    rw [show (⟨w2.seen i, (w1.st i).log⟩ : St) = w2.st i from h2.eq.symm]
    refine Does.after h2.same ?_
    have fin : ∀ (w3 : World) (b : Bool), Good w3 i nobody →
        Does w3 i nobody (.ok ((if b = true then w3.updRoot i fun l => l ++ [(w.obj a).id] else w3).emit i .added (w.obj a).id))
          (.ok ((if b = true then (w3.st i).mapTree (fun t => t.updRoot fun l => l ++ [(w.obj a).id]) else w3.st i).emit .added
            (w.obj a).id)) := by
      intro w3 b g3
      cases b with
      | true =>
        have s4 := same_updRoot w3 i nobody fun l => l ++ [(w.obj a).id]
        refine .of_ok ?_ (s4.trans (same_emit _ _ _ _ _))
        rw [if_pos rfl, st_emit (g3.same s4).ex, st_updRoot g3.ex]
        rfl
      | false => exact .of_ok (st_emit g3.ex _ _) (same_emit _ _ _ _ _)
    by_cases hpa : parent = .none
    · rw [if_pos hpa, if_pos hpa]
      exact fin w2 b2 g2
    · rw [if_neg hpa, if_neg hpa, isCircular_seen, has_seen]
      cases w2.isCircular i parent (w.obj a).id with
      | none => exact .of_err rfl (.refl _ _ _)
      | some c =>
        cases c with
        | true => exact .of_err rfl (.refl _ _ _)
        | false =>
          dsimp only
          by_cases hh : w2.has i parent = true
          · rw [if_pos hh, if_pos hh]
            cases hc : w2.create i parent (w.obj a).id with
            | none =>
              rw [create_none hc]
              exact .of_err rfl (.refl _ _ _)
            | some w3 =>
              obtain ⟨t, ht, hm⟩ := create_some g2 hc
              have := fin w3 false (g2.same hm.same)
              rw [hm.eq] at this
              have hl2 : (w2.st i).log = (w1.st i).log := by
                have := congrArg St.log h2.eq
                exact this
              dsimp only at this ⊢
              rw [ht]
              rw [hl2] at this
              exact this.after hm.same
          · rw [if_neg hh, if_neg hh]
            have s3 := same_updPending w2 i nobody fun l => l ++ [(parent, (w.obj a).id)]
            have := fin _ b2 (g2.same s3)
            rw [st_updPending g2.ex] at this
            exact this.after s3

end World
end Larch
