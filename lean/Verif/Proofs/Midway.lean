import Verif.Proofs.KeepsGood
import Verif.Proofs.Tidy
import Verif.Proofs.ViewEdits

/-!
# The trees that observers see in the middle of edits other than removals
-/

namespace Larch

open Graph Spec

/-- All trees that observers have seen since `L` were consistent, and so is the tree. -/
def GoodSince (L : List Note) (s : St) : Prop := Good s.t ∧ ∃ l, s.log = L ++ l ∧ ∀ n ∈ l, Good n.snap

theorem GoodSince.note {L : List Note} {s : St} (h : GoodSince L s) {t' : Tree} (hg : Good t') (ev : Ev) (n : Id) :
    GoodSince L ((⟨t', s.log⟩ : St).emit ev n) := by
  obtain ⟨-, l, h1, h2⟩ := h
  refine ⟨hg, l ++ [⟨t', ev, n⟩], ?_, ?_⟩
  · show s.log ++ [_] = _
    rw [h1, List.append_assoc]
  · intro m hm
    rcases List.mem_append.1 hm with hm | hm
    · exact h2 m hm
    · rw [List.mem_singleton.1 hm]; exact hg

theorem goodSince_good {L : List Note} : KeepsGood (fun _ _ => True) (fun _ _ => True) (GoodSince L) where
  same := by
    rintro s s' ⟨-, l, h1, h2⟩ hl - - hg
    exact ⟨hg, l, by rw [hl]; exact h1, h2⟩
  link := by
    intro s p c t' h _ _ _ hg _
    exact GoodSince.note (h.note hg _ _) hg _ _
  cut := by
    intro s p c t' h _ _ _ _ _ hg _
    exact GoodSince.note (h.note hg _ _) hg _ _
  modified := by
    intro s h hg x _
    exact h.note hg _ _

theorem step_goodSince {s : St} (h : Good s.t) (hn : NoDangling s.t) (op : Op) (hc : Careful s op)
    (hd : ∀ x r, op ≠ .delNode x r) {L : List Note} (hf : GoodSince L s) : GoodSince L (step s op).state := by
  have hs := (hc.tidy h hn).safe h hn
  by_cases hl : op.isLocal = true
  · exact step_keepsGood goodSince_good h op hl hs (fun _ _ _ => trivial) (fun _ _ _ => trivial) hf
  · cases op with
    | addNode nd p =>
      have hg := step_good h (.addNode nd p) hs
      show GoodSince L (addNode s nd p).state
      replace hg : Good (addNode s nd p).state.t := hg
      cases hx : s.t.has nd.id with
      | true => rw [addNode_existing hx]; exact hf
      | false =>
        obtain ⟨hfr, h2⟩ := hs
        rw [hx] at h2
        obtain h2 | ⟨-, -, -, hok⟩ := h2
        · cases h2
        · cases hr : addNode s nd p with
          | err a s' => rw [hr] at hok; cases hok
          | ok s' =>
            rw [hr] at hg
            obtain ⟨t', e, ha⟩ := addNode_arrived h hfr hx hr
            have e' : s' = (⟨t', s.log⟩ : St).emit .added nd.id := e
            subst e'
            exact hf.note hg _ _
    | delNode x r => exact absurd rfl (hd x r)
    | _ => exact absurd rfl hl

/-- In all trees that observers have seen since `L`, and in the tree, no children list mentions a missing node, and observers heard only of
nodes that are there. -/
def TidySince (L : List Note) (s : St) : Prop :=
  NoDangling s.t ∧ ∃ l, s.log = L ++ l ∧ ∀ n ∈ l, NoDangling n.snap ∧ n.snap.has n.nid = true

theorem tidySince_keeps {L : List Note} : Keeps (TidySince L) where
  nodes := fun h hn hl => ⟨noDangling_keeps.nodes h.1 hn hl, by rw [hl]; exact h.2⟩
  create := fun h hc hi => ⟨noDangling_keeps.create h.1 hc hi, h.2⟩
  destroy := fun h hc => ⟨noDangling_keeps.destroy h.1 hc, h.2⟩
  eraseParent := fun h x p => ⟨noDangling_keeps.eraseParent h.1 x p, h.2⟩
  appendChild := fun h x c hc => ⟨noDangling_keeps.appendChild h.1 x c hc, h.2⟩
  setParentsEnabled := fun h x b => ⟨noDangling_keeps.setParentsEnabled h.1 x b, h.2⟩
  setChildrenEnabled := fun h x b => ⟨noDangling_keeps.setChildrenEnabled h.1 x b, h.2⟩
  modified := by
    rintro s ⟨h, l, h1, h2⟩ x hx
    refine ⟨h, l ++ [⟨s.t, .modified, x⟩], by show s.log ++ [_] = _; rw [h1, List.append_assoc], fun n hn => ?_⟩
    rcases List.mem_append.1 hn with hn | hn
    · exact h2 n hn
    · rw [List.mem_singleton.1 hn]; exact ⟨h, hx⟩

theorem step_tidySince {s : St} (h : Good s.t) (hn : NoDangling s.t) (op : Op) (hc : Careful s op)
    (hd : ∀ x r, op ≠ .delNode x r) {L : List Note} (hf : TidySince L s) : TidySince L (step s op).state := by
  have ht := hc.tidy h hn
  by_cases hl : op.isLocal = true
  · exact step_keeps tidySince_keeps s op hl hf
  · cases op with
    | addNode nd p =>
      have hg := step_noDangling h hn (.addNode nd p) ht
      have hs := ht.safe h hn
      show TidySince L (addNode s nd p).state
      replace hg : NoDangling (addNode s nd p).state.t := hg
      cases hx : s.t.has nd.id with
      | true => rw [addNode_existing hx]; exact hf
      | false =>
        obtain ⟨hfr, h2⟩ := hs
        rw [hx] at h2
        obtain h2 | ⟨-, -, -, hok⟩ := h2
        · cases h2
        · cases hr : addNode s nd p with
          | err a s' => rw [hr] at hok; cases hok
          | ok s' =>
            rw [hr] at hg
            obtain ⟨t', e, ha⟩ := addNode_arrived h hfr hx hr
            have e' : s' = (⟨t', s.log⟩ : St).emit .added nd.id := e
            subst e'
            obtain ⟨-, l, h1, h2⟩ := hf
            refine ⟨hg, l ++ [⟨t', .added, nd.id⟩], by show s.log ++ [_] = _; rw [h1, List.append_assoc], fun n hn => ?_⟩
            rcases List.mem_append.1 hn with hn | hn
            · exact h2 n hn
            · rw [List.mem_singleton.1 hn]; exact ⟨hg, by show t'.has nd.id = true; rw [ha.has]; simp⟩
    | delNode x r => exact absurd rfl (hd x r)
    | _ => exact absurd rfl hl

end Larch
