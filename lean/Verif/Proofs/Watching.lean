import Verif.Proofs.KeepsRem
import Verif.Proofs.KeepsGood
import Verif.Proofs.ViewEdits
import Verif.Proofs.SpecTree
import Verif.Spec.Watching

/-!
# Following the tree through its notifications
-/

namespace Larch

open Graph Spec

theorem heard_append (R : Id → Id → Prop) (l l' : List Note) : heard R (l ++ l') = heard (heard R l) l' := by
  induction l generalizing R with
  | nil => rfl
  | cons n l ih => exact ih _

/-- The table of an observer is right for all nodes outside `X`, and all trees it saw were consistent. -/
def Following (L : List Note) (R0 : Id → Id → Prop) (X : Id → Prop) (s : St) : Prop :=
  ∃ l, s.log = L ++ l ∧ (∀ n ∈ l, WF n.snap) ∧ (∀ p c, heard R0 l p c → s.t.has p = true ∧ s.t.has c = true) ∧
    ∀ p c, ¬ X p → ¬ X c → (heard R0 l p c ↔ p ∈ s.t.rawParents c)

variable {L : List Note} {R0 : Id → Id → Prop}

theorem Following.note {X Y : Id → Prop} {s : St} (h : Following L R0 Y s) {t' : Tree} (hw : WF t') {n : Id} (ev : Ev)
    (hhas : ∀ y, y ≠ n → s.t.has y = true → t'.has y = true)
    (hr : ∀ a b, a ≠ n → b ≠ n → ¬ X a → ¬ X b → ¬ Y a ∧ ¬ Y b ∧ (a ∈ t'.rawParents b ↔ a ∈ s.t.rawParents b)) :
    Following L R0 X ((⟨t', s.log⟩ : St).emit ev n) := by
  obtain ⟨l, h1, h2, h3, h4⟩ := h
  have key : ∀ p c, heard R0 (l ++ [⟨t', ev, n⟩]) p c ↔
      (p ≠ n ∧ c ≠ n ∧ heard R0 l p c) ∨ ((p = n ∨ c = n) ∧ p ∈ t'.rawParents c) := by
    intro p c
    rw [heard_append]
    show reread _ _ p c ↔ _
    unfold reread
    dsimp only
    rw [hw.isParent, hw.isChild]
    tauto
  refine ⟨l ++ [⟨t', ev, n⟩], ?_, ?_, ?_, ?_⟩
  · show s.log ++ [_] = _
    rw [h1, List.append_assoc]
  · intro m hm
    rcases List.mem_append.1 hm with hm | hm
    · exact h2 m hm
    · rw [List.mem_singleton.1 hm]; exact hw
  · intro p c hpc
    show t'.has p = true ∧ t'.has c = true
    rcases (key p c).1 hpc with ⟨e1, e2, e3⟩ | ⟨-, e⟩
    · exact ⟨hhas p e1 (h3 p c e3).1, hhas c e2 (h3 p c e3).2⟩
    · exact ⟨hw.has_parent e, Tree.has_of_mem_rawParents e⟩
  · intro p c hp hc
    rw [key]
    show _ ↔ p ∈ t'.rawParents c
    by_cases e : p = n ∨ c = n
    · constructor
      · rintro (⟨e1, e2, -⟩ | ⟨-, h⟩)
        · rcases e with e | e
          · exact absurd e e1
          · exact absurd e e2
        · exact h
      · intro h; exact Or.inr ⟨e, h⟩
    · push Not at e
      obtain ⟨g1, g2, g3⟩ := hr p c e.1 e.2 hp hc
      rw [g3, ← h4 p c g1 g2]
      constructor
      · rintro (h | ⟨h, -⟩)
        · exact h.2.2
        · rcases h with h | h
          · exact absurd h e.1
          · exact absurd h e.2
      · intro h; exact Or.inl ⟨e.1, e.2, h⟩

theorem following_rem : KeepsRem (fun _ => True) (Following L R0) where
  same := by
    rintro X s s' ⟨l, h1, h2, h3, h4⟩ hn hl
    refine ⟨l, by rw [hl]; exact h1, h2, ?_, ?_⟩
    · intro p c h
      have := h3 p c h
      unfold Tree.has at this ⊢; rw [hn]; exact this
    · intro p c hp hc
      rw [h4 p c hp hc]
      unfold Tree.rawParents Tree.node?; rw [hn]
  weaken := by
    rintro X Y s ⟨l, h1, h2, h3, h4⟩ hXY
    exact ⟨l, h1, h2, h3, fun p c hp hc => h4 p c (fun h => hp (hXY _ h)) (fun h => hc (hXY _ h))⟩
  cut := by
    intro X s p c n t' h _ hd hw hX _ _
    obtain ⟨-, -, e⟩ := Tree.destroy_eq_some hd
    refine h.note hw _ (fun y _ hy => by rw [e.has]; exact hy) ?_
    intro a b _ _ ha hb
    refine ⟨ha, hb, ?_⟩
    rw [e.parents]
    split
    · rename_i hbc
      subst hbc
      have hap : a ≠ p := by
        rintro rfl
        rcases hX with hX | hX
        · exact ha hX
        · exact hb hX
      rw [List.mem_erase_of_ne hap]
    · rfl
  del := by
    intro X Y s x h hw hx hno _ hY
    refine h.note (hw.dropNode fun c _ => hno c) _ ?_ ?_
    · intro y hy h1; rw [dropNode_has]; simp [hy, h1]
    · intro a b ha hb hXa hXb
      refine ⟨?_, ?_, ?_⟩
      · intro h1; rcases hY a h1 with h2 | h2
        · exact ha h2
        · exact hXa h2
      · intro h1; rcases hY b h1 with h2 | h2
        · exact hb h2
        · exact hXb h2
      · rw [dropNode_rawParents, if_neg hb]

theorem following_good : KeepsGood (fun _ _ => True) (fun _ _ => True) (Following L R0 fun _ => False) where
  same := by
    rintro s s' ⟨l, h1, h2, h3, h4⟩ hl hh hp _
    refine ⟨l, by rw [hl]; exact h1, h2, ?_, ?_⟩
    · intro p c h; rw [hh, hh]; exact h3 p c h
    · intro p c hp' hc; rw [hp]; exact h4 p c hp' hc
  link := by
    intro s p c t' h _ hcr _ hg _
    obtain ⟨-, -, e⟩ := Tree.create_eq_some hcr
    refine Following.note (h.note hg.wf _ (fun y _ hy => by rw [e.has]; exact hy) ?_) hg.wf _ (fun y _ hy => hy)
      (fun a b _ _ ha hb => ⟨ha, hb, Iff.rfl⟩)
    intro a b ha _ h1 h2
    refine ⟨h1, h2, ?_⟩
    rw [e.parents]
    split
    · rename_i hbc; rw [mem_appendNew, hbc]; simp [ha]
    · rfl
  cut := by
    intro s p c t' h _ _ _ _ e hg _
    refine Following.note (h.note hg.wf _ (fun y _ hy => by rw [e.has]; exact hy) ?_) hg.wf _ (fun y _ hy => hy)
      (fun a b _ _ ha hb => ⟨ha, hb, Iff.rfl⟩)
    intro a b ha _ h1 h2
    refine ⟨h1, h2, ?_⟩
    rw [e.parents]
    split
    · rename_i hbc; rw [hbc, List.mem_erase_of_ne ha]
    · rfl
  modified := by
    intro s h hg x _
    exact h.note hg.wf _ (fun y _ hy => hy) (fun a b _ _ ha hb => ⟨ha, hb, Iff.rfl⟩)

theorem step_following {s : St} (h : Good s.t) (hn : NoDangling s.t) (op : Op) (hc : Careful s op)
    (hf : Following L R0 (fun _ => False) s) : Following L R0 (fun _ => False) (step s op).state := by
  have ht := hc.tidy h hn
  have hs := ht.safe h hn
  by_cases hl : op.isLocal = true
  · exact step_keepsGood following_good h op hl hs (fun _ _ _ => trivial) (fun _ _ _ => trivial) hf
  · cases op with
    | addNode nd p =>
      have hg := step_good h (.addNode nd p) hs
      show Following L R0 _ (addNode s nd p).state
      replace hg : Good (addNode s nd p).state.t := hg
      cases hx : s.t.has nd.id with
      | true => rw [addNode_existing hx]; exact hf
      | false =>
        obtain ⟨hfr, h2⟩ := hs
        rw [hx] at h2
        obtain h2 | ⟨-, -, -, hok⟩ := h2
        · cases h2
        · cases hr : addNode s nd p with
          | err a s' => rw [hr] at hok; cases hok
          | ok s' =>
            rw [hr] at hg
            obtain ⟨t', e, ha⟩ := addNode_arrived h hfr hx hr
            have e' : s' = (⟨t', s.log⟩ : St).emit .added nd.id := e
            subst e'
            refine hf.note hg.wf _ (fun y _ hy => by show t'.has y = true; rw [ha.has]; simp [hy]) ?_
            intro a b h1 h2 h3 h4
            exact ⟨h3, h4, ha.parents b a h2 h1⟩
    | delNode x r =>
      show Following L R0 _ (removeNode (removeFuel s.t) s x r).state
      cases r with
      | true => exact removeNode_remRecursive following_rem h.wf x trivial ⟨fun _ _ _ _ => trivial, fun _ _ => .inl fun _ _ => trivial⟩ hf
      | false =>
        by_cases hx : s.t.has x = true
        · unfold removeFuel
          exact removeNode_remOrphan following_rem h hx (fun c hc => hn x c hc) trivial (.inl fun _ _ => trivial) _ hf
        · unfold removeFuel removeNode; rw [if_pos (by simp [hx])]; exact hf
    | _ => exact absurd rfl hl

theorem runOps_following (ops : List Op) (s : St) (h : Good s.t) (hn : NoDangling s.t) (hc : Along Careful s ops)
    (hf : Following L R0 (fun _ => False) s) : Following L R0 (fun _ => False) (runOps s ops) := by
  induction ops generalizing s with
  | nil => exact hf
  | cons op ops ih =>
    have htd := hc.1.tidy h hn
    exact ih _ (step_good h op (htd.safe h hn)) (step_noDangling h hn op htd) hc.2 (step_following h hn op hc.1 hf)

end Larch
