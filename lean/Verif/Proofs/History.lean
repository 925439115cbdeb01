import Verif.Proofs.Remove
import Verif.Spec.Tree

/-!
# Consistency along whole histories
-/

namespace Larch

open Graph

/-- The node is named by a non-empty string other than `'root'`. -/
def GoodId (x : Id) : Prop := x.falsy = false ∧ x ≠ rootId

/-- No children list mentions a node that does not exist. -/
def NoDangling (t : Tree) : Prop := ∀ p c, c ∈ t.rawChildren p → t.has c = true

/-- The conditions under which an edit keeps the tree consistent.
* `add_node`: a newly made node; if the id is not in use, it is a proper id that is not left over in
  some children list, the relations it brings to life respect the `*_enabled` flags, and the call
  does not raise.
* `del_node`: the call does not raise.
* `new_relationship`: respects the flags (the node methods check them by themselves). -/
def Safe (s : St) : Op → Prop
  | .addNode nd parent => FreshNode nd ∧ (s.t.has nd.id = true ∨
      (GoodId nd.id ∧ (∀ q, nd.id ∉ s.t.rawChildren q) ∧ AddLinkable s.t nd parent ∧
        (addNode s nd parent).isOk = true))
  | .delNode x r => (removeNode (removeFuel s.t) s x r).isOk = true
  | .newRelationship p c => s.t.Linkable p c
  | _ => True

theorem step_good {s : St} (h : Good s.t) (op : Op) (hs : Safe s op) : Good (step s op).state.t := by
  cases op with
  | addNode nd p =>
    obtain ⟨hf, hx | ⟨hid, hd, hl, hok⟩⟩ := hs
    · show Good (addNode s nd p).state.t
      rw [addNode_existing hx]; exact h
    · by_cases hx : s.t.has nd.id = true
      · show Good (addNode s nd p).state.t
        rw [addNode_existing hx]; exact h
      · exact addNode_good h hf (by simpa using hx) hid hd hl hok
  | delNode x r => exact removeNode_good h x r hs
  | refreshNode x =>
    show Good (modifyNode s x).state.t
    unfold modifyNode; split <;> exact h
  | moveNode x p =>
    show Good (moveNode s x p).state.t
    unfold moveNode; split
    · exact nodeSetParent_good h x p
    · exact h
  | addParent x p =>
    show Good (treeAddParent s x p).state.t
    unfold treeAddParent; split
    · exact nodeAddParent_good h x p
    · exact h
  | setParent x p => exact nodeSetParent_good h x p
  | removeParent x p => exact (nodeRemoveParent_good h x p).1
  | addChild x c => exact nodeAddChild_good h x c
  | setParentsEnabled x b => exact nodeSetParentsEnabled_good h x b
  | setChildrenEnabled x b => exact nodeSetChildrenEnabled_good h x b
  | newRelationship p c => exact newRelationship_good h p c hs
  | breakRelationship p c =>
    obtain ⟨s', e, hg⟩ := breakRelationship_good h p c
    show Good (breakRelationship s p c).state.t
    rw [e]; exact hg

theorem init_node? (x : Id) : Tree.init.node? x = none := rfl

theorem init_good : Good Tree.init := by
  refine ⟨?_, ?_, ?_⟩
  · constructor
    · exact List.nodup_nil
    · intro x nd h; cases h
    · intro x h; cases h
    · rfl
    · rfl
    · rfl
    · intro p c h; cases h
    · intro p c h; cases h
    · intro x; exact List.nodup_nil
    · intro x; exact List.nodup_nil
    · exact init_upInv.acyclic
    · intro x nd h; cases h
    · intro x nd h; cases h
  · refine ⟨List.nodup_nil, fun x => ?_⟩
    constructor
    · intro h; cases h
    · rintro ⟨h, -⟩; cases h
  · intro p c h; cases h

theorem runOps_good (ops : List Op) (s : St) (h : Good s.t) (hs : Spec.Along Safe s ops) :
    Good (runOps s ops).t := by
  induction ops generalizing s with
  | nil => exact h
  | cons op ops ih => exact ih _ (step_good h op hs.1) hs.2

/-! ### Tidy histories: no dangling children -/

/-- A stricter condition on removals: the removed node has at most one parent, and a node removed
recursively has no descendant with a parent outside. -/
def Tidy (s : St) : Op → Prop
  | .addNode nd parent => FreshNode nd ∧ (s.t.has nd.id = true ∨
      (GoodId nd.id ∧ AddLinkable s.t nd parent ∧ (addNode s nd parent).isOk = true))
  | .delNode x false => (s.t.getParents x).length ≤ 1
  | .delNode x true => (s.t.getParents x).length ≤ 1 ∧
      ∀ y, Reach s.t.rawChildren x y → ∀ p ∈ s.t.getParents y, ReachEq s.t.rawChildren x p
  | .newRelationship p c => s.t.Linkable p c
  | _ => True

theorem Tidy.safe {s : St} (h : Good s.t) (hn : NoDangling s.t) {op : Op} (ht : Tidy s op) : Safe s op := by
  cases op with
  | addNode nd p =>
    obtain ⟨hf, hx | ⟨hid, hl, hok⟩⟩ := ht
    · exact ⟨hf, Or.inl hx⟩
    · by_cases hx : s.t.has nd.id = true
      · exact ⟨hf, Or.inl hx⟩
      · refine ⟨hf, Or.inr ⟨hid, ?_, hl, hok⟩⟩
        intro q hq; exact hx (hn q _ hq)
  | delNode x r =>
    cases r with
    | true =>
      obtain ⟨s', e, -⟩ := removeNode_recursive h.wf x
      show (removeNode (removeFuel s.t) s x true).isOk = true
      rw [e]; rfl
    | false =>
      show (removeNode (removeFuel s.t) s x false).isOk = true
      by_cases hx : s.t.has x = true
      · obtain ⟨s', e, -⟩ := removeNode_orphan h hx (fun c hc => hn x c hc) s.t.nodes.entries.length
        unfold removeFuel; rw [e]; rfl
      · unfold removeFuel removeNode; rw [if_pos (by simp [hx])]; rfl
  | newRelationship p c => exact ht
  | refreshNode x => trivial
  | moveNode x p => trivial
  | addParent x p => trivial
  | setParent x p => trivial
  | removeParent x p => trivial
  | addChild x c => trivial
  | setParentsEnabled x b => trivial
  | setChildrenEnabled x b => trivial
  | breakRelationship p c => trivial

end Larch
