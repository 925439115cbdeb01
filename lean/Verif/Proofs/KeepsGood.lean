import Verif.Proofs.History
import Verif.Proofs.Keeps

/-!
# Properties of tree and log that survive the announced edits of a consistent tree

Like `Proofs/Keeps.lean`, but only consistent trees are considered, and the steps are whole edits with their
notifications.
-/

namespace Larch

open Graph

theorem mem_getParents_has {t : Tree} {x p : Id} (h : p ∈ t.getParents x) : t.has p = true := by
  unfold Tree.getParents at h
  cases hn : t.node? x with
  | none => rw [hn] at h; cases h
  | some nd =>
    rw [hn] at h
    simp only [Option.map_some, Option.getD_some, Tree.parentsOf] at h
    split at h
    · exact (List.mem_filter.1 h).2
    · cases h

/-- `P` survives the edits of relations on consistent trees, as long as only relations in `L` are made and only those in
`M` are broken. -/
structure KeepsGood (L M : Id → Id → Prop) (P : St → Prop) : Prop where
  same : ∀ {s s' : St}, P s → s'.log = s.log → (∀ y, s'.t.has y = s.t.has y) → s'.t.rawParents = s.t.rawParents →
    Good s'.t → P s'
  link : ∀ {s : St} {p c : Id} {t' : Tree}, P s → Good s.t → s.t.create p c = some t' → ¬ ReachEq s.t.rawParents p c →
    Good t' → L p c → P (((⟨t', s.log⟩ : St).emit .modified p).emit .modified c)
  cut : ∀ {s : St} {p c : Id} {t' : Tree}, P s → Good s.t → s.t.has p = true → s.t.has c = true → p ≠ c →
    BreakEffect s.t t' p c → Good t' → M p c → P (((⟨t', s.log⟩ : St).emit .modified p).emit .modified c)
  modified : ∀ {s : St}, P s → Good s.t → ∀ {x}, s.t.has x = true → P (s.emit .modified x)

variable {L M : Id → Id → Prop} {P : St → Prop}

theorem newRelationship_keepsGood (K : KeepsGood L M P) {s : St} (h : Good s.t) (p c : Id) (hC : L p c) (hl : s.t.Linkable p c) (hp : P s) :
    P (newRelationship s p c).state := by
  have hg := newRelationship_good h p c hl
  by_cases h1 : p.falsy = true ∨ c.falsy = true ∨ p = c
  · rw [newRelationship_skip s h1] at hg ⊢
    exact K.same hp rfl (fun _ => rfl) rfl hg
  · push Not at h1
    have hp1 : p.falsy = false := by simpa using h1.1
    have hc1 : c.falsy = false := by simpa using h1.2.1
    by_cases h2 : s.t.has p = true ∧ s.t.has c = true
    · by_cases hre : ReachEq s.t.rawParents p c
      · rw [newRelationship_refused h.wf h.pend h1.2.2 h2.1 h2.2 hre]; exact hp
      · obtain ⟨t', ht', e⟩ := newRelationship_linked h.wf h.root h.pend h2.1 h2.2 hre
        rw [e]
        exact K.link hp h ht' hre (h.create ht' hre hl) hC
    · rw [newRelationship_later s hp1 hc1 h1.2.2 h2] at hg ⊢
      exact K.same hp rfl (fun _ => rfl) rfl hg

theorem breakRelationship_keepsGood (K : KeepsGood L M P) {s : St} (h : Good s.t) (p c : Id) (hC : M p c) (hp : P s) :
    P (breakRelationship s p c).state := by
  by_cases h1 : p.falsy = true ∨ c.falsy = true ∨ p = c ∨ s.t.has p = false ∨ s.t.has c = false
  · obtain ⟨s', e, hg⟩ := breakRelationship_good h p c
    rw [breakRelationship_skip s h1] at e ⊢
    cases e
    exact K.same hp rfl (fun _ => rfl) rfl hg
  · push Not at h1
    have a1 : s.t.has p = true := by simpa using h1.2.2.2.1
    have a2 : s.t.has c = true := by simpa using h1.2.2.2.2
    obtain ⟨t', e, hg, ef⟩ := breakRelationship_spec h a1 a2 h1.2.2.1
    rw [e]
    exact K.cut hp h a1 a2 h1.2.2.1 ef hg hC

theorem nodeAddParent_keepsGood (K : KeepsGood L M P) {s : St} (h : Good s.t) (x p : Id) (hC : L p x) (hp : P s) :
    P (nodeAddParent s x p).state := by
  have hg := nodeAddParent_good h x p
  unfold nodeAddParent at hg ⊢
  split
  · exact hp
  · rename_i nd hnd
    rw [hnd] at hg
    dsimp only at hg
    split
    · rename_i hcond
      rw [if_pos hcond] at hg
      split
      · rename_i hpn
        rw [hpn] at hg
        exact K.same hp rfl (fun _ => rfl) rfl hg
      · rename_i par hpar
        split
        · rename_i hce
          exact newRelationship_keepsGood K h p x hC (WF.linkable_flags hpar hnd hce hcond.2.1) hp
        · exact hp
    · exact hp

theorem nodeRemoveParent_keepsGood (K : KeepsGood L M P) {s : St} (h : Good s.t) (x p : Id) (hC : M p x) (hp : P s) :
    P (nodeRemoveParent s x p).state := by
  cases hnd : s.t.node? x with
  | none => unfold nodeRemoveParent; rw [hnd]; exact hp
  | some nd =>
    by_cases hm : p ∈ s.t.rawParents x
    · rw [nodeRemoveParent_eq h hm]; exact breakRelationship_keepsGood K h p x hC hp
    · rw [nodeRemoveParent_noop hnd hm]; exact hp

theorem setParentLoop_keepsGood (K : KeepsGood L M P) (f i : Nat) (s : St) (x p : Id) (flag : Bool) (hC : ∀ q, q ≠ p → M q x) (h : Good s.t) (hp : P s) :
    P (setParentLoop f i s x p flag).state.1 := by
  induction f generalizing i s flag with
  | zero => exact hp
  | succ f ih =>
    unfold setParentLoop
    split
    · exact hp
    · split
      · rename_i q _ hq
        have h1 := (nodeRemoveParent_good h x q).1
        have h2 := nodeRemoveParent_keepsGood K h x q (hC q hq) hp
        split
        · rename_i heq; rw [heq] at h2; exact h2
        · rename_i heq; rw [heq] at h1 h2; exact ih _ _ _ h1 h2
      · exact ih _ _ _ h hp

theorem forEach_break_keepsGood (K : KeepsGood L M P) (l : List Id) (mk : Id → Id × Id) (s : St) (hC : ∀ q ∈ l, M (mk q).1 (mk q).2) (h : Good s.t) (hp : P s) :
    P (Res.forEach (fun q s => breakRelationship s (mk q).1 (mk q).2) l s).state := by
  induction l generalizing s with
  | nil => exact hp
  | cons q l ih =>
    obtain ⟨s1, e, hg⟩ := breakRelationship_good h (mk q).1 (mk q).2
    have h1 := breakRelationship_keepsGood K h (mk q).1 (mk q).2 (hC q (by simp)) hp
    unfold Res.forEach
    rw [e] at h1 ⊢
    exact ih s1 (fun q hq => hC q (by simp [hq])) hg h1

theorem forEach_remove_keepsGood (K : KeepsGood L M P) (l : List Id) (x : Id) (hC : ∀ q, M q x) (s : St) (h : Good s.t) (hx : s.t.has x = true)
    (hp : P s) : P (Res.forEach (fun p s => nodeRemoveParent s x p) l s).state := by
  induction l generalizing s with
  | nil => exact hp
  | cons q l ih =>
    obtain ⟨s1, e, hg, hh, -, -⟩ := forEach_removeParent x [q] s h hx
    unfold Res.forEach at e
    have h1 := nodeRemoveParent_keepsGood K h x q (hC q) hp
    unfold Res.forEach
    cases hr : nodeRemoveParent s x q with
    | ok s2 =>
      rw [hr] at e h1
      cases e
      exact ih s1 hg ((hh x).trans hx) h1
    | err a s2 => rw [hr] at h1; exact h1

theorem nodeSetParent_keepsGood (K : KeepsGood L M P) {s : St} (h : Good s.t) (x p : Id) (hL : L p x) (hC : ∀ q, q ≠ p → M q x) (hp : P s) :
    P (nodeSetParent s x p).state := by
  have hg := nodeSetParent_good h x p
  unfold nodeSetParent at hg ⊢
  split
  · exact hp
  · rename_i nd hnd
    rw [hnd] at hg
    dsimp only at hg
    split
    · rename_i hcond
      rw [if_pos hcond] at hg
      split
      · rename_i hpn
        rw [hpn] at hg
        obtain ⟨s', e, hg'⟩ := forEach_break_good (s.t.getParents x) (fun q => (q, x)) s h
        have h1 := forEach_break_keepsGood K (s.t.getParents x) (fun q => (q, x)) s (fun q hq => hC q (by
            rintro rfl
            have := mem_getParents_has hq
            rw [Tree.has_eq, hpn] at this; cases this)) h hp
        dsimp only at e h1
        rw [e] at h1
        dsimp only at hg
        rw [e] at hg ⊢
        exact K.same h1 rfl (fun _ => rfl) rfl hg
      · split
        · have h1 := setParentLoop_good nd.parents.length 0 s x p false h
          have h2 := setParentLoop_keepsGood K nd.parents.length 0 s x p false hC h hp
          split
          · rename_i heq; rw [heq] at h2; exact h2
          · rename_i heq; rw [heq] at h1 h2
            split
            · exact nodeAddParent_keepsGood K h1 x p hL h2
            · exact h2
        · exact hp
    · exact hp

theorem nodeAddChild_keepsGood (K : KeepsGood L M P) {s : St} (h : Good s.t) (x c : Id) (hC : L x c) (hp : P s) :
    P (nodeAddChild s x c).state := by
  cases hnd : s.t.node? x with
  | none => unfold nodeAddChild; rw [hnd]; exact hp
  | some nd =>
    by_cases h1 : nd.childrenEnabled = true ∧ c ≠ x
    · by_cases h2 : c ∉ nd.children
      · cases hc : s.t.node? c with
        | none =>
          have hg := nodeAddChild_good h x c
          unfold nodeAddChild at hg ⊢
          rw [hnd] at hg ⊢; dsimp only at hg ⊢; rw [if_pos h1, if_pos h2, hc] at hg ⊢
          exact K.same hp rfl (fun _ => rfl) rfl hg
        | some child =>
          by_cases h3 : child.parentsEnabled = true
          · rw [nodeAddChild_eq h hnd hc h1.1 h1.2 h2 h3]
            exact newRelationship_keepsGood K h x c hC (WF.linkable_flags hnd hc h1.1 h3) hp
          · unfold nodeAddChild; rw [hnd]; dsimp only; rw [if_pos h1, if_pos h2, hc]; dsimp only
            rw [if_neg h3]; exact hp
      · unfold nodeAddChild; rw [hnd]; dsimp only; rw [if_pos h1, if_neg h2]; exact hp
    · unfold nodeAddChild; rw [hnd]; dsimp only; rw [if_neg h1]; exact hp

theorem nodeSetParentsEnabled_keepsGood (K : KeepsGood L M P) {s : St} (h : Good s.t) (x : Id) (b : Bool) (hC : ∀ q, M q x) (hp : P s) :
    P (nodeSetParentsEnabled s x b).state := by
  have hg := nodeSetParentsEnabled_good h x b
  unfold nodeSetParentsEnabled at hg ⊢
  split
  · exact hp
  · rename_i nd hnd
    rw [hnd] at hg
    dsimp only at hg ⊢
    have h1 : P (if b = true then Res.ok s else Res.forEach (fun p s => nodeRemoveParent s x p) (s.t.getParents x) s).state := by
      split
      · exact hp
      · exact forEach_remove_keepsGood K _ x hC s h (has_of_some hnd) hp
    generalize (if b = true then Res.ok s else Res.forEach (fun p s => nodeRemoveParent s x p) (s.t.getParents x) s) = r at h1 hg ⊢
    cases r with
    | ok s' =>
      obtain ⟨rp, -⟩ := updNode_flags_raw s'.t x (fun nd => { nd with parentsEnabled := b }) (fun _ => rfl) (fun _ => rfl)
      exact K.same h1 rfl (fun y => Tree.has_updNode _ _ _ _) rp hg
    | err e s' => exact h1

theorem nodeSetChildrenEnabled_keepsGood (K : KeepsGood L M P) {s : St} (h : Good s.t) (x : Id) (b : Bool)
    (hC : ∀ c, M x c) (hp : P s) :
    P (nodeSetChildrenEnabled s x b).state := by
  have hg := nodeSetChildrenEnabled_good h x b
  unfold nodeSetChildrenEnabled at hg ⊢
  split
  · exact hp
  · rename_i nd hnd
    rw [hnd] at hg
    dsimp only at hg ⊢
    have h1 : P (if b = true then Res.ok s else Res.forEach (fun c s => breakRelationship s x c) (s.t.getChildren x) s).state := by
      split
      · exact hp
      · exact forEach_break_keepsGood K _ (fun c => (x, c)) s (fun c _ => hC c) h hp
    generalize (if b = true then Res.ok s else Res.forEach (fun c s => breakRelationship s x c) (s.t.getChildren x) s) = r at h1 hg ⊢
    cases r with
    | ok s' =>
      obtain ⟨rp, -⟩ := updNode_flags_raw s'.t x (fun nd => { nd with childrenEnabled := b }) (fun _ => rfl) (fun _ => rfl)
      exact K.same h1 rfl (fun y => Tree.has_updNode _ _ _ _) rp hg
    | err e s' => exact h1

/-- The relations that an edit of relations may make. -/
def Op.links : Op → Id → Id → Prop
  | .moveNode x p, q, y | .addParent x p, q, y | .setParent x p, q, y => q = p ∧ y = x
  | .addChild x c, q, y | .newRelationship x c, q, y => q = x ∧ y = c
  | _, _, _ => False

/-- The relations that an edit of relations may break. -/
def Op.cuts : Op → Id → Id → Prop
  | .moveNode x p, q, y | .setParent x p, q, y => q ≠ p ∧ y = x
  | .removeParent x p, q, y => q = p ∧ y = x
  | .breakRelationship p c, q, y => q = p ∧ y = c
  | .setParentsEnabled x _, _, y => y = x
  | .setChildrenEnabled x _, q, _ => q = x
  | _, _, _ => False

/-- Edits other than adding and deleting nodes. -/
theorem step_keepsGood (K : KeepsGood L M P) {s : St} (h : Good s.t) (op : Op) (hl : op.isLocal = true) (hs : Safe s op)
    (hL : ∀ p c, op.links p c → L p c) (hM : ∀ p c, op.cuts p c → M p c) (hp : P s) : P (step s op).state := by
  cases op with
  | addNode nd p => cases hl
  | delNode x r => cases hl
  | refreshNode x =>
    show P (modifyNode s x).state
    unfold modifyNode; split
    · rename_i hx; exact K.modified hp h hx.2
    · exact hp
  | moveNode x p =>
    show P (moveNode s x p).state
    unfold moveNode; split
    · exact nodeSetParent_keepsGood K h x p (hL p x ⟨rfl, rfl⟩) (fun q hq => hM q x ⟨hq, rfl⟩) hp
    · exact hp
  | addParent x p =>
    show P (treeAddParent s x p).state
    unfold treeAddParent; split
    · exact nodeAddParent_keepsGood K h x p (hL p x ⟨rfl, rfl⟩) hp
    · exact hp
  | setParent x p => exact nodeSetParent_keepsGood K h x p (hL p x ⟨rfl, rfl⟩) (fun q hq => hM q x ⟨hq, rfl⟩) hp
  | removeParent x p => exact nodeRemoveParent_keepsGood K h x p (hM p x ⟨rfl, rfl⟩) hp
  | addChild x c => exact nodeAddChild_keepsGood K h x c (hL x c ⟨rfl, rfl⟩) hp
  | setParentsEnabled x b => exact nodeSetParentsEnabled_keepsGood K h x b (fun q => hM q x rfl) hp
  | setChildrenEnabled x b => exact nodeSetChildrenEnabled_keepsGood K h x b (fun c => hM x c rfl) hp
  | newRelationship p c => exact newRelationship_keepsGood K h p c (hL p c ⟨rfl, rfl⟩) hs hp
  | breakRelationship p c => exact breakRelationship_keepsGood K h p c (hM p c ⟨rfl, rfl⟩) hp

end Larch
