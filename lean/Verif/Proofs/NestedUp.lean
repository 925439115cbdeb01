import Verif.Proofs.Nested
import Verif.Proofs.UpInv

/-!
# Whatever observers do, no cycle arises
-/

namespace Larch

open Spec Graph

variable {σ : Type} {tell : Ev → Id → Now σ → Res (Now σ)}

/-- The parents in the tree have no cycle. -/
abbrev UpNow (w : Now σ) : Prop := UpInv w.s.t

/-- The observers may be told of anything. -/
def TellsUp (tell : Ev → Id → Now σ → Res (Now σ)) : Prop := ∀ ev x w, UpNow w → UpNow (tell ev x w).state

theorem Sends.up (hT : TellsUp tell) {w : Now σ} {r : Res St} {q : Res (Now σ)} (h : Sends tell w r q) (hr : UpInv r.state.t) : UpNow q.state := by
  rcases h with ⟨-, rfl⟩ | ⟨t', ev, x, rfl, rfl⟩ | ⟨t', p, c, rfl, rfl⟩
  · cases r <;> exact hr
  · exact hT _ _ _ hr
  · exact andThen_inv UpNow _ _ (hT _ _ _ hr) fun w _ hw => hT _ _ _ hw

theorem Now.newRelationship_up (hT : TellsUp tell) (w : Now σ) (p c : Id) (h : UpNow w) : UpNow (Now.newRelationship tell w p c).state :=
  (Now.newRelationship_sends w p c).up hT (newRelationship_upInv w.s p c h)

theorem Now.rootAddChild_up (hT : TellsUp tell) (w : Now σ) (c : Id) (h : UpNow w) : UpNow (Now.rootAddChild tell w c).state := by
  unfold Now.rootAddChild
  split
  · split
    · split
      · exact UpInv.congr h (fun _ => rfl)
      · split
        · exact Now.newRelationship_up hT _ _ _ (UpInv.congr h (fun _ => rfl))
        · exact h
    · exact h
  · exact h

theorem Now.breakRelationship_up (hT : TellsUp tell) (w : Now σ) (p c : Id) (h : UpNow w) : UpNow (Now.breakRelationship tell w p c).state := by
  have h1 : UpNow (w.mapTree fun t => { t with pending := dropPending t.pending p c }) := UpInv.congr h (fun _ => rfl)
  unfold Now.breakRelationship
  generalize (w.mapTree fun t => { t with pending := dropPending t.pending p c }) = w1 at h1 ⊢
  dsimp only
  split
  · exact h1
  · split
    · exact h1
    · split
      · exact h1
      · rename_i t2 hd
        have h2 : UpNow (w1.mapTree fun _ => t2) := UpInv.destroy h1 hd
        refine andThen_inv UpNow _ _ ?_ fun w3 _ h3 => andThen_inv UpNow _ _ (hT _ _ _ h3) fun w4 _ h4 => hT _ _ _ h4
        split
        · exact Now.rootAddChild_up hT _ c h2
        · exact h2

theorem Now.nodeRemoveParent_up (hT : TellsUp tell) (w : Now σ) (x p : Id) (h : UpNow w) : UpNow (Now.nodeRemoveParent tell w x p).state := by
  unfold Now.nodeRemoveParent
  split
  · exact h
  · split
    · exact Now.breakRelationship_up hT _ _ _ (UpInv.updNode h x _ (fun _ _ hq => List.mem_of_mem_erase hq))
    · exact h

theorem Now.setParentLoop_up (hT : TellsUp tell) (f i : Nat) (w : Now σ) (x p : Id) (flag : Bool) (h : UpNow w) :
    UpNow (Now.setParentLoop tell f i w x p flag).state.1 := by
  induction f generalizing i w flag with
  | zero => exact h
  | succ f ih =>
    unfold Now.setParentLoop
    split
    · exact h
    · split
      · rename_i q _ _
        have := Now.nodeRemoveParent_up hT w x q h
        split
        · rename_i heq; rw [heq] at this; exact this
        · rename_i heq; rw [heq] at this; exact ih _ _ _ this
      · exact ih _ _ _ h

theorem Now.nodeAddParent_up (hT : TellsUp tell) (w : Now σ) (x p : Id) (h : UpNow w) : UpNow (Now.nodeAddParent tell w x p).state :=
  (Now.nodeAddParent_sends w x p).up hT (nodeAddParent_upInv w.s x p h)

theorem Now.nodeSetParent_up (hT : TellsUp tell) (w : Now σ) (x p : Id) (more : Nat) (h : UpNow w) :
    UpNow (Now.nodeSetParent tell w x p more).state := by
  unfold Now.nodeSetParent
  split
  · exact h
  · split
    · split
      · refine andThen_inv UpNow _ _ ?_ fun w' _ h' => UpInv.congr h' (fun _ => rfl)
        exact forEach_inv UpNow _ _ (fun q _ w hw => Now.breakRelationship_up hT w q x hw) w h
      · split
        · rename_i nd _ _ _ _ _ _
          have := Now.setParentLoop_up hT (nd.parents.length + more) 0 w x p false h
          split
          · rename_i heq; rw [heq] at this; exact this
          · rename_i heq; rw [heq] at this
            split
            · exact Now.nodeAddParent_up hT _ _ _ this
            · exact this
        · exact h
    · exact h

theorem Now.nodeSetParentsEnabled_up (hT : TellsUp tell) (w : Now σ) (x : Id) (b : Bool) (h : UpNow w) :
    UpNow (Now.nodeSetParentsEnabled tell w x b).state := by
  unfold Now.nodeSetParentsEnabled
  split
  · exact h
  · refine andThen_inv UpNow _ _ ?_ fun w' _ h' => UpInv.updNode h' x _ (fun _ _ hq => hq)
    split
    · exact h
    · exact forEach_inv UpNow _ _ (fun p _ w hw => Now.nodeRemoveParent_up hT w x p hw) w h

theorem Now.nodeSetChildrenEnabled_up (hT : TellsUp tell) (w : Now σ) (x : Id) (b : Bool) (h : UpNow w) :
    UpNow (Now.nodeSetChildrenEnabled tell w x b).state := by
  unfold Now.nodeSetChildrenEnabled
  split
  · exact h
  · refine andThen_inv UpNow _ _ ?_ fun w' _ h' => UpInv.updNode h' x _ (fun _ _ hq => hq)
    split
    · exact h
    · exact forEach_inv UpNow _ _ (fun p _ w hw => Now.breakRelationship_up hT w x p hw) w h

theorem Now.removeParentsLoop_up (hT : TellsUp tell) (f i : Nat) (w : Now σ) (x : Id) (h : UpNow w) :
    UpNow (Now.removeParentsLoop tell f i w x).state := by
  induction f generalizing i w with
  | zero => exact h
  | succ f ih =>
    unfold Now.removeParentsLoop
    split
    · exact h
    · split
      · exact h
      · rename_i t' hd
        exact andThen_inv UpNow _ _ (hT _ _ _ (UpInv.destroy h hd)) fun w' _ h' => ih _ _ h'

theorem Now.orphanChild_up (hT : TellsUp tell) (x c : Id) (w : Now σ) (h : UpNow w) : UpNow (Now.orphanChild tell x c w).state := by
  unfold Now.orphanChild
  split
  · exact h
  · rename_i t' hd
    refine andThen_inv UpNow _ _ (hT _ _ _ (UpInv.destroy h hd)) fun w' _ h' => ?_
    show UpNow (if _ then _ else _)
    split
    · exact UpInv.congr h' (fun _ => rfl)
    · exact h'

theorem Now.removeNode_up (hT : TellsUp tell) (more f : Nat) (w : Now σ) (x : Id) (rec : Bool) (h : UpNow w) :
    UpNow (Now.removeNode tell more f w x rec).state := by
  induction f generalizing w x rec with
  | zero => exact h
  | succ f ih =>
    unfold Now.removeNode
    split
    · exact h
    · refine andThen_inv UpNow _ _ ?_ ?_
      · exact Now.removeParentsLoop_up hT _ _ _ _ (UpInv.congr h (fun _ => rfl))
      · intro s2 _ h2
        refine andThen_inv UpNow _ _ ?_ ?_
        · refine forEach_inv UpNow _ _ ?_ _ h2
          intro c _ s hs
          split
          · exact ih _ _ _ hs
          · exact Now.orphanChild_up hT _ _ _ hs
        · intro s3 _ h3
          split
          · refine hT _ _ _ ?_
            exact UpInv.congr (UpInv.delNode h3 x) (fun _ => rfl)
          · exact UpInv.congr h3 (fun _ => rfl)

theorem Now.step_up (hT : TellsUp tell) (w : Now σ) (op : Op) (more : Nat) (hf : NewNode w.s op) (h : UpNow w) :
    UpNow (Now.step tell w op more).state := by
  cases op with
  | addNode nd p => exact (Now.addNode_sends w nd p).up hT (addNode_upInv w.s nd p hf.fresh.parents h)
  | delNode x r => exact Now.removeNode_up hT more _ w x r h
  | refreshNode x => exact (Now.modifyNode_sends w x).up hT (modifyNode_upInv w.s x h)
  | moveNode x p =>
    show UpNow (Now.moveNode tell w x p more).state
    unfold Now.moveNode; split
    · exact Now.nodeSetParent_up hT w x p more h
    · exact h
  | addParent x p =>
    show UpNow (Now.treeAddParent tell w x p).state
    unfold Now.treeAddParent; split
    · exact Now.nodeAddParent_up hT w x p h
    · exact h
  | setParent x p => exact Now.nodeSetParent_up hT w x p more h
  | removeParent x p => exact Now.nodeRemoveParent_up hT w x p h
  | addChild x c => exact (Now.nodeAddChild_sends w x c).up hT (nodeAddChild_upInv w.s x c h)
  | setParentsEnabled x b => exact Now.nodeSetParentsEnabled_up hT w x b h
  | setChildrenEnabled x b => exact Now.nodeSetChildrenEnabled_up hT w x b h
  | newRelationship p c => exact Now.newRelationship_up hT w p c h
  | breakRelationship p c => exact Now.breakRelationship_up hT w p c h

theorem run_up {edit : Now σ → Op → Res (Now σ)} (he : ∀ w op, NewNode w.s op → UpNow w → UpNow (edit w op).state) :
    ∀ (p : Prog σ) (w : Now σ), Polite (fun _ => True) NewNode p w → UpNow w → UpNow (Now.run edit p w).state
  | .done _, _, _, h => h
  | .raise _ _, _, _, h => h
  | .edit o op next, w, hp, h => run_up he (next (edit ⟨w.s, o⟩ op)) _ (hp.2 _ trivial) (he ⟨w.s, o⟩ op hp.1 h)

theorem told_up {obs : List (Watcher σ)} {more : Nat} (hobs : ∀ ob ∈ obs, PoliteWatcher (fun _ => True) NewNode ob) :
    ∀ n, TellsUp (Now.told obs more n)
  | 0 => fun _ _ _ h => h
  | n + 1 => fun ev x w h => by
    refine forEach_inv UpNow _ obs (fun ob hob w' h' => ?_) (⟨w.s.emit ev x, w.o⟩ : Now σ) h
    exact run_up (fun w op ho hw => Now.step_up (told_up hobs n) w op more ho hw) _ _ (hobs ob hob ev x w' trivial) h'

end Larch
