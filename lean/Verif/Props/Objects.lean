import Verif.Proofs.ObjectsRun
import Verif.Props.Kept

/-!
# C78: several trees

Node objects in memory, any number of trees (`Model/Objects.lean`).
-/

namespace Larch

open Spec

namespace World

variable {w : World} {i : Nat}

theorem run_append (w : World) (ds ds' : List WorldAct) : w.run (ds ++ ds') = (w.run ds).run ds' := by
  induction ds generalizing w with
  | nil => rfl
  | cons d ds ih => exact ih _

theorem init_sep : Sep World.init := by
  have ht : ∀ i, World.init.tree i = OTree.init := fun i => by simp [tree, World.init]
  have ho : ∀ a, World.init.treeOf a = none := fun a => by simp [treeOf, World.init]
  refine ⟨fun i x a hm => ?_, fun i => ?_, fun a i h => ?_, fun a h => ?_⟩
  · rw [ht] at hm; cases hm
  · rw [ht]; exact List.nodup_nil
  · rw [ho] at h; cases h
  · exact absurd h (Nat.not_lt_zero a)

theorem Sep.run {w : World} (h : Sep w) {ds : List WorldAct} (hl : AlongWorld OneTree w ds) : Sep (w.run ds) := by
  induction ds generalizing w with
  | nil => exact h
  | cons d ds ih => exact ih (step_outcome h d hl.1).sep hl.2

theorem alongWorld_append {ok : World → WorldAct → Prop} {w : World} {ds ds' : List WorldAct} :
    AlongWorld ok w (ds ++ ds') ↔ AlongWorld ok w ds ∧ AlongWorld ok (w.run ds) ds' := by
  induction ds generalizing w with
  | nil => simp [AlongWorld, World.run]
  | cons d ds ih =>
    simp only [List.cons_append, AlongWorld, World.run, ih, and_assoc]

theorem alongWorld_mono {ok ok' : World → WorldAct → Prop} (hm : ∀ w d, ok w d → ok' w d) {w : World} {ds : List WorldAct}
    (h : AlongWorld ok w ds) : AlongWorld ok' w ds := by
  induction ds generalizing w with
  | nil => trivial
  | cons d ds ih => exact ⟨hm _ _ h.1, ih h.2⟩

theorem gone_iff {a : Nat} (h : Sep w) : Gone w i a ↔ Removed w i a :=
  ⟨fun g => ⟨g.ex, g.link, fun x hx => g.free x (mem_of_at? hx)⟩, fun r => ⟨r.refers, r.ex, fun x hm => r.out x (h.at?_of_mem hm)⟩⟩

theorem home_run_append (h : Home) (ds ds' : List Deed) : h.run (ds ++ ds') = (h.run ds).run ds' := by
  induction ds generalizing h with
  | nil => rfl
  | cons d ds ih => exact ih _

/-- What was added is newly made, or it was in another tree before. -/
def FromElsewhere (moved : Prop) (hs : List Deed) : Prop :=
  ∀ nd p, Deed.edit (.addNode nd p) ∈ hs → Spec.Made nd ∨ (moved ∧ nd.hasTree = true)

theorem mirrors {moved : Prop} (hw : Sep w) {ds : List WorldAct} (hl : AlongWorld OneTree w ds)
    (hm : AlongWorld (fun w d => Moves w d → moved) w ds) (h : ∀ i, ∃ hs pos, FromElsewhere moved hs ∧ Mirror w i (Home.init.run hs) pos) :
    ∀ i, ∃ hs pos, FromElsewhere moved hs ∧ Mirror (w.run ds) i (Home.init.run hs) pos := by
  induction ds generalizing w with
  | nil => exact h
  | cons d ds ih =>
    have o := step_outcome hw d hl.1
    refine ih o.sep hl.2 hm.2 fun i => ?_
    obtain ⟨hs, pos, hf, m⟩ := h i
    by_cases ha : about w d = some i
    · rcases m.effect hw (o.here i ha) with e | ⟨e, he, -, pos', m'⟩
      · rw [e]; exact ⟨hs, pos, hf, m⟩
      · refine ⟨hs ++ [e], pos', fun nd p hmem => ?_, by rw [home_run_append]; exact m'⟩
        rcases List.mem_append.1 hmem with h1 | h1
        · exact hf nd p h1
        · rcases he nd p (List.mem_singleton.1 h1).symm with h2 | ⟨h2, h3, -⟩
          · exact .inl h2
          · exact .inr ⟨hm.1 h2, h3⟩
    · obtain ⟨e, k⟩ := o.there i ha
      obtain ⟨pos', m'⟩ := m.keep (e.trans m.st) k
      exact ⟨hs, pos', hf, m'⟩

theorem init_mirrors {moved : Prop} (i : Nat) : ∃ hs pos, FromElsewhere moved hs ∧ Mirror World.init i (Home.init.run hs) pos := by
  refine ⟨[], fun _ => none, fun _ _ h => (nomatch h), ?_, fun _ _ e => (nomatch e), fun a ha => ?_, fun _ _ _ e => (nomatch e)⟩
  · show World.init.st i = St.init
    unfold st seen
    rw [show World.init.tree i = OTree.init by simp [tree, World.init]]
    rfl
  · exact absurd ha.ex (Nat.not_lt_zero a)

/-! ### Deeds that are edits -/

theorem editAbout_about {d : WorldAct} {j : Nat} {op : Op} (h : editAbout w d = some (j, op)) : about w d = some j ∧ j < w.trees.length := by
  have on : ∀ {k : Nat} {o : Op}, (if k < w.trees.length then some (k, o) else none) = some (j, op) → k = j ∧ j < w.trees.length := by
    intro k o h
    split at h
    · cases h; exact ⟨rfl, ‹_›⟩
    · cases h
  cases d with
  | newTree => cases h
  | make x p => cases h
  | addNode k a p =>
    unfold editAbout at h
    dsimp only at h
    split at h
    · exact ⟨congrArg some (on h).1, (on h).2⟩
    · cases h
  | call a c =>
    unfold editAbout at h
    dsimp only at h
    obtain ⟨k, hk, h⟩ := Option.bind_eq_some_iff.1 h
    exact ⟨hk.trans (congrArg some (on h).1), (on h).2⟩
  | _ => exact ⟨congrArg some (on h).1, (on h).2⟩

/-- A plain deed that is an edit of a tree does to it what the edit does. -/
theorem step_edit (h : Sep w) {d : WorldAct} (hp : PlainDeed w d) {op : Op} (he : editAbout w d = some (i, op)) :
    (w.step d).map (fun w' => w'.st i) = Larch.step (w.st i) op := by
  obtain ⟨ha, hi⟩ := editAbout_about he
  have g := h.good hi
  have wt : ∀ r, w.withTree i r = r := fun r => by unfold withTree; rw [if_pos hi]
  have on : ∀ {o : Op}, (if i < w.trees.length then some (i, o) else none) = some (i, op) → op = o := by
    intro o h
    rw [if_pos hi] at h
    exact (congrArg Prod.snd (Option.some.inj h)).symm
  cases d with
  | newTree => cases he
  | make x p => cases he
  | addNode k a p =>
    obtain rfl : k = i := Option.some.inj ha
    unfold editAbout at he
    dsimp only at he
    by_cases hal' : a < w.objs.length ∧ w.treeOf a ≠ some k
    · have hal := hal'.1
      rw [if_pos hal'] at he
      obtain rfl := on he
      show (if a < w.objs.length then w.withTree k (w.addNode k a p) else .ok w).map _ = Larch.addNode _ _ _
      rw [if_pos hal, wt]
      by_cases hx : w.has k (w.obj a).id = true
      · have h1 : w.addNode k a p = .ok w := by unfold addNode; dsimp only; rw [if_pos hx]
        rw [h1]
        unfold Larch.addNode
        dsimp only
        rw [show (w.st k).t.has (w.obj a).id = true from (has_seen _ _ _).trans hx, if_pos rfl]
        rfl
      · have hx : w.has k (w.obj a).id = false := by simpa using hx
        refine (addNode_does g hal (fun j x hm => ?_) hx p).1
        have hat := h.at?_of_mem hm
        obtain rfl := hp.1 j x hat
        have hl := g.live hat
        rw [← hl.name] at hat
        rw [has_of_at? hat] at hx
        cases hx
    · rw [if_neg hal'] at he; cases he
  | delNode k x r =>
    obtain rfl : k = i := Option.some.inj ha
    obtain rfl := on he
    show (w.withTree k (removeNode k (removeFuel (w.seen k)) w x r)).map _ = Larch.removeNode (removeFuel (w.st k).t) (w.st k) x r
    rw [wt]
    obtain ⟨gone, e, -⟩ := removeNode_drops (removeFuel (w.seen k)) g [] x r
    rw [← removeKeep_fst _ (w.st k, []) x r]
    refine Eq.trans ?_ (congrArg (Res.map Prod.fst) e).symm
    rw [Res.map_map]
  | refreshNode k x =>
    obtain rfl : k = i := Option.some.inj ha
    obtain rfl := on he
    show (w.withTree k _).map _ = _
    rw [wt]
    exact (modifyNode_does g x).eq
  | moveNode k x p =>
    obtain rfl : k = i := Option.some.inj ha
    obtain rfl := on he
    show (match w.at? k x with | none => Res.ok w | some a => w.setParent a p).map _ = Larch.moveNode (w.st k) x p
    unfold Larch.moveNode
    rw [show (w.st k).t.has x = w.has k x from has_seen _ _ _]
    cases hat : w.at? k x with
    | none =>
      rw [show w.has k x = false by
        by_contra hc
        obtain ⟨a, ha⟩ := at?_of_has (by simpa using hc)
        rw [hat] at ha; cases ha]
      rfl
    | some a =>
      rw [has_of_at? hat]
      exact (setParent_live g (g.live hat) p).eq
  | addParent k x p =>
    obtain rfl : k = i := Option.some.inj ha
    obtain rfl := on he
    show (match w.at? k x with | none => Res.ok w | some a => w.addParent a p).map _ = treeAddParent (w.st k) x p
    unfold treeAddParent
    rw [show (w.st k).t.has x = w.has k x from has_seen _ _ _]
    cases hat : w.at? k x with
    | none =>
      rw [show w.has k x = false by
        by_contra hc
        obtain ⟨a, ha⟩ := at?_of_has (by simpa using hc)
        rw [hat] at ha; cases ha]
      rfl
    | some a =>
      rw [has_of_at? hat]
      exact (addParent_live g (g.live hat) p).eq
  | newRelationship k p c =>
    obtain rfl : k = i := Option.some.inj ha
    obtain rfl := on he
    show (w.withTree k _).map _ = _
    rw [wt]
    exact (newRelationship_does g p c).eq
  | breakRelationship k p c =>
    obtain rfl : k = i := Option.some.inj ha
    obtain rfl := on he
    show (w.withTree k _).map _ = _
    rw [wt]
    exact (breakRelationship_does g p c).eq
  | call a c =>
    have hk : w.treeOf a = some i := ha
    unfold editAbout at he
    dsimp only at he
    rw [hk] at he
    obtain rfl := on he
    show (if a < w.objs.length then w.call a c else .ok w).map _ = _
    rw [if_pos (treeOf_ex hk)]
    by_cases hm : ∃ x, w.at? i x = some a
    · obtain ⟨x, hx⟩ := hm
      have hl := g.live hx
      rw [hl.name]
      exact (call_live g hl c).eq
    · exact absurd ⟨i, hk, fun x hx => hm ⟨x, hx⟩⟩ hp.2

/-- Nothing happens to a tree that the deed is not an edit of. -/
theorem step_other (h : Sep w) {d : WorldAct} (hp : PlainDeed w d) (he : ∀ op, editAbout w d ≠ some (i, op)) : (w.step d).state.st i = w.st i := by
  by_cases ha : about w d = some i
  · have key : (w.step d) = .ok w := by
      have on : ∀ {o : Op}, (∀ op, (if i < w.trees.length then some (i, o) else none) ≠ some (i, op)) → ¬ i < w.trees.length := by
        intro o h1 h2
        exact h1 o (if_pos h2)
      have wt : ¬ i < w.trees.length → ∀ r, w.withTree i r = .ok w := fun hi r => by unfold withTree; rw [if_neg hi]
      have hat : ¬ i < w.trees.length → ∀ x, w.at? i x = none := by
        intro hi x
        cases e : w.at? i x with
        | none => rfl
        | some a => exact absurd (h.flag a i (h.here i x a (mem_of_at? e)).2.2).2 hi
      cases d with
      | newTree => cases ha
      | make x p => cases ha
      | addNode k a p =>
        obtain rfl : k = i := Option.some.inj ha
        unfold editAbout at he
        dsimp only at he
        show (if a < w.objs.length then w.withTree k (w.addNode k a p) else .ok w) = _
        by_cases hal : a < w.objs.length
        · rw [if_pos hal]
          by_cases hk : w.treeOf a = some k
          · unfold withTree
            split
            · by_cases hm : ∃ x, w.at? k x = some a
              · obtain ⟨x, hx⟩ := hm
                have hl := (h.good (h.flag a k hk).2).live hx
                unfold addNode
                dsimp only
                rw [hl.name, has_of_at? hx, if_pos rfl]
              · exact absurd ⟨k, hk, fun x hx => hm ⟨x, hx⟩⟩ hp.2
            · rfl
          · rw [if_pos ⟨hal, hk⟩] at he
            exact wt (on he) _
        · rw [if_neg hal]
      | moveNode k x p =>
        obtain rfl : k = i := Option.some.inj ha
        show (match w.at? k x with | none => Res.ok w | some a => w.setParent a p) = _
        rw [hat (on he)]
      | addParent k x p =>
        obtain rfl : k = i := Option.some.inj ha
        show (match w.at? k x with | none => Res.ok w | some a => w.addParent a p) = _
        rw [hat (on he)]
      | call a c =>
        have hk : w.treeOf a = some i := ha
        unfold editAbout at he
        dsimp only at he
        rw [hk] at he
        exact absurd (h.flag a i hk).2 (on he)
      | delNode k x r => obtain rfl : k = i := Option.some.inj ha; exact wt (on he) _
      | refreshNode k x => obtain rfl : k = i := Option.some.inj ha; exact wt (on he) _
      | newRelationship k p c => obtain rfl : k = i := Option.some.inj ha; exact wt (on he) _
      | breakRelationship k p c => obtain rfl : k = i := Option.some.inj ha; exact wt (on he) _
    rw [key]; rfl
  · exact ((step_outcome h d hp.1).there i ha).1

theorem run_edits (h : Sep w) {ds : List WorldAct} (hp : AlongWorld PlainDeed w ds) : (w.run ds).st i = runOps (w.st i) (editsAbout i w ds) := by
  induction ds generalizing w with
  | nil => rfl
  | cons d ds ih =>
    have hih := ih (step_outcome h d hp.1.1).sep hp.2
    show ((w.step d).state.run ds).st i = _
    rw [hih]
    rw [editsAbout]
    cases he : editAbout w d with
    | none =>
      dsimp only
      rw [step_other h hp.1 (i := i) fun op e => by rw [he] at e; cases e]
    | some q =>
      obtain ⟨j, op⟩ := q
      dsimp only
      by_cases hj : j = i
      · subst hj
        rw [if_pos rfl]
        show _ = runOps (Larch.step (w.st j) op).state _
        rw [← step_edit h hp.1 he, Res.state_map]
      · rw [if_neg hj, step_other h hp.1 (i := i) fun op' e => hj (by rw [he] at e; cases e; rfl)]

theorem edits_along (h : Sep w) {ds : List WorldAct} (hp : AlongWorld CarefulWorld w ds) :
    Along Careful (w.st i) (editsAbout i w ds) := by
  induction ds generalizing w with
  | nil => trivial
  | cons d ds ih =>
    have hih := ih (step_outcome h d hp.1.1.1).sep hp.2
    rw [editsAbout]
    cases he : editAbout w d with
    | none =>
      dsimp only
      rw [step_other h hp.1.1 (i := i) fun op e => by rw [he] at e; cases e] at hih
      exact hih
    | some q =>
      obtain ⟨j, op⟩ := q
      dsimp only
      by_cases hj : j = i
      · subst hj
        rw [if_pos rfl]
        refine ⟨hp.1.2 j op he, ?_⟩
        rw [← step_edit h hp.1.1 he, Res.state_map]
        exact hih
      · rw [if_neg hj]
        rw [step_other h hp.1.1 (i := i) fun op' e => hj (by rw [he] at e; cases e; rfl)] at hih
        exact hih

theorem edits_new (h : Sep w) {ds : List WorldAct} (hp : AlongWorld PlainDeed w ds) : NewNodes (editsAbout i w ds) := by
  induction ds generalizing w with
  | nil => intro nd p hm; cases hm
  | cons d ds ih =>
    have hih := ih (step_outcome h d hp.1.1).sep hp.2
    rw [editsAbout]
    cases he : editAbout w d with
    | none => exact hih
    | some q =>
      obtain ⟨j, op⟩ := q
      dsimp only
      split
      · intro nd p hm
        rcases List.mem_cons.1 hm with rfl | hm
        · cases d with
          | addNode k a q =>
            unfold editAbout at he
            dsimp only at he
            by_cases hal : a < w.objs.length ∧ w.treeOf a ≠ some k
            · rw [if_pos hal] at he
              split at he
              · cases he
                cases ht : w.treeOf a with
                | none => exact h.made a hal.1 ht
                | some l =>
                  by_cases hm : ∃ x, w.at? l x = some a
                  · obtain ⟨x, hx⟩ := hm
                    exact absurd (by rw [ht, hp.1.1 l x hx]) hal.2
                  · exact absurd ⟨l, ht, fun x hx => hm ⟨x, hx⟩⟩ hp.1.2
              · cases he
            · rw [if_neg hal] at he; cases he
          | call a c =>
            unfold editAbout at he
            dsimp only at he
            obtain ⟨k, -, h2⟩ := Option.bind_eq_some_iff.1 he
            split at h2
            · exact absurd (congrArg Prod.snd (Option.some.inj h2)) ((call_op_ne _ c).2 nd p)
            · cases h2
          | newTree => cases he
          | make => cases he
          | _ =>
            unfold editAbout at he
            dsimp only at he
            split at he <;> cases he
        · exact hih nd p hm
      · exact hih

end World

open World

/-! ### The claims -/

/-- C78: as long as no object is handed to a tree while it is in another, what is done to a tree, or to an object that refers to it,
changes no other tree: neither nodes, relations, top level and pending relations nor the notifications sent. -/
theorem C78_others_partial (ds : List WorldAct) (hl : AlongWorld OneTree World.init ds) (d : WorldAct) (hd : OneTree (World.init.run ds) d)
    (i : Nat) (ha : about (World.init.run ds) d ≠ some i) :
    ((World.init.run ds).step d).state.st i = (World.init.run ds).st i :=
  ((step_outcome (init_sep.run hl) d hd).there i ha).1

/-- C78: nobody shares objects: each node object is under its own name in at most one tree, the one it refers to. -/
theorem C78_separate_partial (ds : List WorldAct) (hl : AlongWorld OneTree World.init ds) (i j : Nat) (x y : Id) (a : Nat)
    (hx : (World.init.run ds).at? i x = some a) :
    ((World.init.run ds).obj a).id = x ∧ (World.init.run ds).treeOf a = some i ∧
      ((World.init.run ds).at? j y = some a → j = i ∧ y = x) := by
  have h := init_sep.run hl
  have h1 := h.here i x a (mem_of_at? hx)
  refine ⟨h1.2.1, h1.2.2, fun hy => ?_⟩
  have h2 := h.here j y a (mem_of_at? hy)
  exact ⟨Option.some.inj (h2.2.2.symm.trans h1.2.2), h2.2.1.symm.trans h1.2.1⟩

/-- C78: each of the trees is what `Model/Kept.lean` describes, for a sequence of deeds done to this tree alone: the objects that have
left it are among those it keeps there. If no object goes from one tree to another, then every node that is added is newly made, as
the theorems about a single tree ask for. -/
theorem C78_trees_partial (ds : List WorldAct) (hl : AlongWorld OneTree World.init ds) (i : Nat) :
    ∃ hs : List Deed, (Home.init.run hs).s = (World.init.run ds).st i ∧
      (∀ a, Removed (World.init.run ds) i a → (World.init.run ds).obj a ∈ (Home.init.run hs).kept) ∧
      (∀ nd p, Deed.edit (.addNode nd p) ∈ hs → Made nd ∨ nd.hasTree = true) ∧
      (AlongWorld (fun w d => ¬ Moves w d) World.init ds → NewHome hs) := by
  have hsep := init_sep.run hl
  have key : ∀ moved : Prop, AlongWorld (fun w d => Moves w d → moved) World.init ds →
      ∃ hs : List Deed, (Home.init.run hs).s = (World.init.run ds).st i ∧
      (∀ a, Removed (World.init.run ds) i a → (World.init.run ds).obj a ∈ (Home.init.run hs).kept) ∧ FromElsewhere moved hs := by
    intro moved hm
    obtain ⟨hs, pos, hf, m⟩ := mirrors init_sep hl hm init_mirrors i
    refine ⟨hs, m.st.symm, fun a ha => ?_, hf⟩
    obtain ⟨k, hk⟩ := m.all a ((gone_iff hsep).2 ha)
    exact List.mem_of_getElem? (m.slot k a hk).2
  by_cases hm : AlongWorld (fun w d => ¬ Moves w d) World.init ds
  · obtain ⟨hs, h1, h2, h3⟩ := key False hm
    have h4 : NewHome hs := fun nd p hmem => (h3 nd p hmem).resolve_right (fun h => h.1)
    exact ⟨hs, h1, h2, fun nd p hmem => .inl (h4 nd p hmem), fun _ => h4⟩
  · obtain ⟨hs, h1, h2, h3⟩ := key True (alongWorld_mono (fun _ _ _ => fun _ => trivial) hl)
    exact ⟨hs, h1, h2, fun nd p hmem => (h3 nd p hmem).imp_right And.right, fun h => absurd h hm⟩

/-- C78: and the next thing that is done to the tree, or to an object that refers to it, is nothing or such a deed: with the same
effect on the tree, and raising the same exception if it raises one. -/
theorem C78_next_partial (ds : List WorldAct) (hl : AlongWorld OneTree World.init ds) (d : WorldAct) (hd : OneTree (World.init.run ds) d)
    (i : Nat) (ha : about (World.init.run ds) d = some i) :
    ∃ hs : List Deed, (Home.init.run hs).s = (World.init.run ds).st i ∧
      ((World.init.run ds).step d = .ok (World.init.run ds) ∨
       ∃ e, ((Home.init.run hs).step e).map Home.s = ((World.init.run ds).step d).map (fun w => w.st i)) := by
  have hsep := init_sep.run hl
  obtain ⟨hs, pos, -, m⟩ := mirrors (moved := True) init_sep hl (alongWorld_mono (fun _ _ _ => fun _ => trivial) hl) init_mirrors i
  refine ⟨hs, m.st.symm, ?_⟩
  rcases m.effect hsep ((step_outcome hsep d hd).here i ha) with e | ⟨e, -, he, -⟩
  · exact .inl e
  · exact .inr ⟨e, he⟩

/-- C78: if moreover objects that have left a tree are not used any more, then each tree is what `Model/Tree.lean` describes, for
those edits of the sequence that are about this tree. So everything that is proved about one tree holds for each of several. -/
theorem C78_history_partial (ds : List WorldAct) (hp : AlongWorld PlainDeed World.init ds) (i : Nat) :
    (World.init.run ds).st i = runOps St.init (editsAbout i World.init ds) ∧ NewNodes (editsAbout i World.init ds) := by
  have h0 : World.init.st i = St.init := by
    unfold st seen
    rw [show World.init.tree i = OTree.init by simp [tree, World.init]]
    rfl
  exact ⟨by rw [run_edits init_sep hp, h0], edits_new init_sep hp⟩

/-- C78: the next edit does what it does in `Model/Tree.lean`, exceptions included. -/
theorem C78_edit_partial (ds : List WorldAct) (hp : AlongWorld PlainDeed World.init ds) (d : WorldAct) (hd : PlainDeed (World.init.run ds) d)
    (i : Nat) (op : Op) (he : editAbout (World.init.run ds) d = some (i, op)) :
    ((World.init.run ds).step d).map (fun w => w.st i) = step ((World.init.run ds).st i) op :=
  step_edit (init_sep.run (alongWorld_mono (fun _ _ h => h.1) hp)) hd he

/-- C78: so with careful edits the relations of every tree agree, there is no cycle, and the top level is right. -/
theorem C78_careful_partial (ds : List WorldAct) (hp : AlongWorld CarefulWorld World.init ds) (i : Nat) :
    Along Careful St.init (editsAbout i World.init ds) ∧ Agree ((World.init.run ds).seen i) ∧ NoCycle ((World.init.run ds).seen i) ∧
      TopLevel ((World.init.run ds).seen i) ∧ ∀ x, ((World.init.run ds).seen i).has x = true → FromRoot ((World.init.run ds).seen i) x := by
  have h0 : World.init.st i = St.init := by
    unfold st seen
    rw [show World.init.tree i = OTree.init by simp [tree, World.init]]
    rfl
  have hl : Along Careful St.init (editsAbout i World.init ds) := by
    have := edits_along (i := i) init_sep hp
    rwa [h0] at this
  have he := (C78_history_partial ds (alongWorld_mono (fun _ _ h => h.1) hp) i).1
  have hw := (runOps_careful _ St.init init_good init_noDangling hl).1
  rw [← he] at hw
  exact ⟨hl, hw.wf.agree, hw.wf.upInv.noCycle, hw.topLevel, hw.fromRoot⟩

/-! ### Concrete cases -/

namespace World

/-- A check that implies `OneTree`. -/
def oneCheck (w : World) : WorldAct → Bool
  | .addNode i a _ =>
    match w.treeOf a with
    | none => true
    | some j => j = i || w.at? j (w.obj a).id ≠ some a
  | _ => true

/-- A check that implies `PlainDeed`. -/
def plainCheck (w : World) (d : WorldAct) : Bool :=
  w.oneCheck d &&
  match d with
  | .addNode _ a _ | .call a _ =>
    match w.treeOf a with
    | none => true
    | some j => w.at? j (w.obj a).id = some a
  | _ => true

/-- A check that implies `CarefulWorld`. -/
def carefulCheck (w : World) (d : WorldAct) : Bool :=
  w.plainCheck d &&
  match d with
  | .addNode i a p => w.treeOf a = some i || (!(w.obj a).id.falsy && (w.obj a).id ≠ rootId &&
      (insertNode (w.st i).t (w.obj a)).allEnabled && (Larch.addNode (w.st i) (w.obj a) p).isOk)
  | .delNode i x r => !r && ((w.st i).t.getParents x).length ≤ 1
  | .newRelationship i _ _ => (w.st i).t.allEnabled
  | _ => true

/-- The check along a sequence. -/
def checks (f : World → WorldAct → Bool) : World → List WorldAct → Bool
  | _, [] => true
  | w, d :: ds => f w d && checks f (w.step d).state ds

theorem oneCheck_spec (h : Sep w) {d : WorldAct} (hc : w.oneCheck d = true) : OneTree w d := by
  cases d with
  | addNode i a p =>
    intro j x hx
    have hl := h.here j x a (mem_of_at? hx)
    unfold oneCheck at hc
    dsimp only at hc
    rw [hl.2.2] at hc
    simp only [ne_eq, decide_not, Bool.or_eq_true, decide_eq_true_eq, Bool.not_eq_true', decide_eq_false_iff_not] at hc
    rw [hl.2.1] at hc
    exact hc.resolve_right fun hn => hn hx
  | _ => trivial

theorem plainCheck_spec (h : Sep w) {d : WorldAct} (hc : w.plainCheck d = true) : PlainDeed w d := by
  unfold plainCheck at hc
  rw [Bool.and_eq_true] at hc
  refine ⟨oneCheck_spec h hc.1, fun hu => ?_⟩
  have hc := hc.2
  cases d with
  | addNode i a p =>
    obtain ⟨j, hj, hn⟩ := hu
    dsimp only at hc
    rw [hj] at hc
    exact hn _ (by simpa using hc)
  | call a c =>
    obtain ⟨j, hj, hn⟩ := hu
    dsimp only at hc
    rw [hj] at hc
    exact hn _ (by simpa using hc)
  | _ => exact hu

theorem carefulCheck_spec (h : Sep w) {d : WorldAct} (hc : w.carefulCheck d = true) : CarefulWorld w d := by
  unfold carefulCheck at hc
  rw [Bool.and_eq_true] at hc
  have hp := plainCheck_spec h hc.1
  refine ⟨hp, fun i op he => ?_⟩
  have hc := hc.2
  cases d with
  | newTree => cases he
  | make => cases he
  | addNode j a p =>
    have hm := edits_new (i := i) (ds := [.addNode j a p]) h ⟨hp, trivial⟩
    rw [editsAbout, he] at hm
    dsimp only at hm hc
    rw [if_pos rfl] at hm
    unfold editAbout at he
    dsimp only at he
    split at he
    · rename_i hal
      split at he
      · cases he
        refine careful_add (hm _ p (List.mem_cons_self ..)) ?_
        simp only [Bool.or_eq_true, decide_eq_true_eq] at hc
        have hc := hc.resolve_left hal.2
        simp only [Bool.and_eq_true, Bool.not_eq_true', decide_eq_true_eq] at hc
        exact ⟨hc.1.1.1, hc.1.1.2, hc.1.2, hc.2⟩
      · cases he
    · cases he
  | delNode j x r =>
    unfold editAbout at he
    dsimp only at he
    split at he
    · cases he
      simp only [Bool.and_eq_true, Bool.not_eq_true', decide_eq_true_eq] at hc
      obtain ⟨rfl, hc2⟩ := hc
      exact hc2
    · cases he
  | newRelationship j p c =>
    unfold editAbout at he
    dsimp only at he
    split at he
    · cases he
      exact Tree.allEnabled_accept hc p c
    · cases he
  | call a c =>
    unfold editAbout at he
    dsimp only at he
    obtain ⟨j, -, he⟩ := Option.bind_eq_some_iff.1 he
    split at he
    · cases he
      cases c <;> trivial
    · cases he
  | _ =>
    unfold editAbout at he
    dsimp only at he
    split at he
    · cases he; trivial
    · cases he

theorem checks_spec {f : World → WorldAct → Bool} {ok : World → WorldAct → Prop} (hok : ∀ {w} {d}, Sep w → f w d = true → ok w d)
    (hone : ∀ {w} {d}, Sep w → f w d = true → OneTree w d) (h : Sep w) {ds : List WorldAct} (hc : checks f w ds = true) :
    AlongWorld ok w ds := by
  induction ds generalizing w with
  | nil => trivial
  | cons d ds ih =>
    rw [checks, Bool.and_eq_true] at hc
    exact ⟨hok h hc.1, ih (step_outcome h d (hone h hc.1)).sep hc.2⟩

theorem oneChecks {ds : List WorldAct} (h : checks oneCheck World.init ds = true) : AlongWorld OneTree World.init ds :=
  checks_spec (fun h hc => oneCheck_spec h hc) (fun h hc => oneCheck_spec h hc) init_sep h

theorem plainChecks {ds : List WorldAct} (h : checks plainCheck World.init ds = true) : AlongWorld PlainDeed World.init ds :=
  checks_spec (fun h hc => plainCheck_spec h hc) (fun h hc => (plainCheck_spec h hc).1) init_sep h

theorem carefulChecks {ds : List WorldAct} (h : checks carefulCheck World.init ds = true) : AlongWorld CarefulWorld World.init ds :=
  checks_spec (fun h hc => carefulCheck_spec h hc) (fun h hc => (carefulCheck_spec h hc).1.1) init_sep h

end World

/-- Two trees with a node of the same name in each (objects 0 and 1), and a child in the second tree (object 2), which asks for a
parent before it is added. -/
def twoTrees : List WorldAct :=
  [ .newTree, .newTree,
    .make (.str 1) .none, .make (.str 1) .none, .make (.str 2) .none,
    .addNode 0 0 .none, .addNode 1 1 .none,
    .call 2 (.addParent (.str 1)),
    .addNode 1 2 .none ]

/-- In `twoTrees` only the second tree has the child. Its node `1` is removed, that of the first tree stays. -/
example : ((World.init.run twoTrees).seen 0).getChildren (.str 1) = [] ∧
    ((World.init.run twoTrees).seen 1).getChildren (.str 1) = [.str 2] ∧
    ((World.init.run twoTrees).step (.delNode 1 (.str 1) false)).state.st 0 = (World.init.run twoTrees).st 0 ∧
    (((World.init.run twoTrees).step (.delNode 1 (.str 1) false)).state.seen 1).rootChildren = [.str 2] :=
  ⟨by decide, by decide, C78_others_partial twoTrees (oneChecks (by decide)) (.delNode 1 (.str 1) false) trivial 0 (by simp [about]), by decide⟩

example : ((World.init.run twoTrees).obj 1).id = .str 1 ∧ (World.init.run twoTrees).treeOf 1 = some 1 ∧
    ((World.init.run twoTrees).at? 0 (.str 1) = some 1 → 0 = 1 ∧ Id.str 1 = .str 1) :=
  C78_separate_partial twoTrees (oneChecks (by decide)) 1 0 (.str 1) (.str 1) 1 (by decide)

/-- The node `1` of the second tree is removed. The first tree refuses its object, because it has a node of that name. The object is
given a child, and added to the second tree again. -/
def backAgain : List WorldAct :=
  twoTrees ++ [.delNode 1 (.str 1) false, .addNode 0 1 .none, .call 1 (.addChild (.str 2)), .addNode 1 1 .none]

example : checks oneCheck World.init backAgain = true := by decide

example : ∃ hs : List Deed, (Home.init.run hs).s = (World.init.run backAgain).st 1 ∧
    (∀ a, Removed (World.init.run backAgain) 1 a → (World.init.run backAgain).obj a ∈ (Home.init.run hs).kept) ∧
    (∀ nd p, Deed.edit (.addNode nd p) ∈ hs → Made nd ∨ nd.hasTree = true) ∧
    (AlongWorld (fun w d => ¬ Moves w d) World.init backAgain → NewHome hs) :=
  C78_trees_partial backAgain (oneChecks (by decide)) 1

example : ∃ hs : List Deed, (Home.init.run hs).s = (World.init.run backAgain).st 1 ∧
    ((World.init.run backAgain).step (.call 2 (.removeParent (.str 1))) = .ok (World.init.run backAgain) ∨
     ∃ e, ((Home.init.run hs).step e).map Home.s =
       ((World.init.run backAgain).step (.call 2 (.removeParent (.str 1)))).map (fun w => w.st 1)) :=
  C78_next_partial backAgain (oneChecks (by decide)) (.call 2 (.removeParent (.str 1))) trivial 1 (by decide)

/-- Both trees of `twoTrees`, and the edits of each. -/
example : (World.init.run twoTrees).st 1 = runOps St.init
      [.addNode (Node.new (.str 1) .none) .none,
       .addNode { Node.new (.str 2) .none with pending := [(.str 1, .str 2)] } .none] ∧
    (World.init.run twoTrees).st 0 = runOps St.init [.addNode (Node.new (.str 1) .none) .none] :=
  ⟨(C78_history_partial twoTrees (plainChecks (by decide)) 1).1, (C78_history_partial twoTrees (plainChecks (by decide)) 0).1⟩

example : ((World.init.run twoTrees).step (.call 1 (.setParent (.str 2)))).map (fun w => w.st 1) =
    step ((World.init.run twoTrees).st 1) (.setParent (.str 1) (.str 2)) :=
  C78_edit_partial twoTrees (plainChecks (by decide)) _
    (plainCheck_spec (init_sep.run (oneChecks (by decide))) (by decide)) 1 _ (by decide)

example : ((World.init.run twoTrees).step (.call 1 (.setParent (.str 2)))).isOk = false := by decide

example : Agree ((World.init.run twoTrees).seen 1) ∧ TopLevel ((World.init.run twoTrees).seen 0) :=
  ⟨(C78_careful_partial twoTrees (carefulChecks (by decide)) 1).2.1, (C78_careful_partial twoTrees (carefulChecks (by decide)) 0).2.2.2.1⟩

/-! ### An object in two trees -/

/-- No call of the sequence raises. -/
def WorldQuiet : World → List WorldAct → Bool := checks fun w d => (w.step d).isOk

/-- The object of node `1` of the first tree is added to the second one as well, below node `2` there. -/
def sharedActs : List WorldAct :=
  [ .newTree, .newTree, .make (.str 1) .none, .make (.str 2) .none, .addNode 0 0 .none, .addNode 1 1 .none ]

/-- The second tree accepts an object that is in the first tree (`tree.py:157-168` looks only at its own nodes). The first tree,
about which nothing was done, then has a node at the top level with a parent that it does not have, and can no longer remove it:
`del_node` raises a `KeyError`. -/
theorem C78_refuted_shared : WorldQuiet World.init (sharedActs ++ [.addNode 1 0 (.str 2)]) = true ∧
    (let w := World.init.run sharedActs
     let w' := World.init.run (sharedActs ++ [.addNode 1 0 (.str 2)])
     about w (.addNode 1 0 (.str 2)) = some 1 ∧
     (w.obj 0).parents = [] ∧ w.at? 0 (.str 1) = some 0 ∧ (w.step (.delNode 0 (.str 1) false)).isOk = true ∧
     (w'.obj 0).parents = [.str 2] ∧ w'.at? 0 (.str 1) = some 0 ∧ w'.has 0 (.str 2) = false ∧
     ∃ s, w'.step (.delNode 0 (.str 1) false) = .err .keyError s) := by
  refine ⟨by decide, by decide, by decide, by decide, by decide, by decide, by decide, by decide, ?_⟩
  exact ⟨_, rfl⟩

/-- A node with two parents is removed from the first tree, its object added to the second one, which gets a node with the name of
the second parent later. No object is in two trees, and no call raises. -/
def movedActs : List WorldAct :=
  [ .newTree, .newTree, .make (.str 1) .none, .make (.str 2) .none, .make (.str 3) .none, .make (.str 2) .none,
    .addNode 0 0 .none, .addNode 0 1 .none, .addNode 0 2 (.str 1), .call 2 (.addParent (.str 2)),
    .delNode 0 (.str 3) false, .addNode 1 2 .none, .addNode 1 3 .none ]

/-- The object brings a parent of the first tree along, because the removal leaves one (`tree.py:238-240`): in the second tree
node `3` is at the top level and has the parent `2`, which knows nothing of it. -/
theorem C78_refuted_moved : AlongWorld OneTree World.init movedActs ∧ WorldQuiet World.init movedActs = true ∧
    ¬ TopLevel ((World.init.run movedActs).seen 1) ∧ ¬ Agree ((World.init.run movedActs).seen 1) := by
  refine ⟨oneChecks (by decide), by decide, fun h => ?_, fun h => ?_⟩
  · exact ((h.exact (.str 3)).1 (by decide)).2 (.str 2) (by decide)
  · exact absurd ((h.mirror (.str 2) (.str 3)).2 (by decide)) (by decide)

end Larch
