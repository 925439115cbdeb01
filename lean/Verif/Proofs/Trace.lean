import Verif.Proofs.Notes

/-! # The notifications of one edit, one after the other -/

namespace Larch

/-- From the node set `T` the notifications lead to the node set `T'`, and each of them agrees with the tree at its
moment. -/
def Trace : (Id → Bool) → List Note → (Id → Bool) → Prop
  | T, [], T' => ∀ x, T' x = T x
  | T, n :: l, T' =>
    (∀ y, y ≠ n.nid → n.snap.has y = T y) ∧
    (n.ev = .modified → n.snap.has n.nid = true ∧ T n.nid = true) ∧
    (n.ev = .added → n.snap.has n.nid = true) ∧
    (n.ev = .deleted → n.snap.has n.nid = false) ∧ Trace n.snap.has l T'

theorem Trace.congr {T T' T2 : Id → Bool} {l : List Note} (h : Trace T l T') (e : ∀ x, T2 x = T' x) : Trace T l T2 := by
  induction l generalizing T with
  | nil => intro x; rw [e]; exact h x
  | cons n l ih => exact ⟨h.1, h.2.1, h.2.2.1, h.2.2.2.1, ih h.2.2.2.2⟩

theorem Trace.snoc {T T' : Id → Bool} {l : List Note} (h : Trace T l T') (n : Note)
    (h1 : ∀ y, y ≠ n.nid → n.snap.has y = T' y) (h2 : n.ev = .modified → n.snap.has n.nid = true ∧ T' n.nid = true)
    (h3 : n.ev = .added → n.snap.has n.nid = true) (h4 : n.ev = .deleted → n.snap.has n.nid = false) :
    Trace T (l ++ [n]) n.snap.has := by
  induction l generalizing T with
  | nil =>
    refine ⟨fun y hy => (h1 y hy).trans (h y), fun e => ⟨(h2 e).1, ?_⟩, h3, h4, fun _ => rfl⟩
    rw [← h]; exact (h2 e).2
  | cons m l ih => exact ⟨h.1, h.2.1, h.2.2.1, h.2.2.2.1, ih h.2.2.2.2⟩

/-- Since the state `s0` the log has grown by a trace. -/
def Traced (s0 s : St) : Prop := ∃ l, s.log = s0.log ++ l ∧ Trace s0.t.has l s.t.has

theorem Traced.congr {s0 s s' : St} (h : Traced s0 s) (hn : ∀ y, s'.t.has y = s.t.has y) (hl : s'.log = s.log) :
    Traced s0 s' := by
  obtain ⟨l, e, ht⟩ := h
  exact ⟨l, hl.trans e, ht.congr hn⟩

theorem Traced.refl (s : St) : Traced s s := ⟨[], by simp, fun _ => rfl⟩

theorem Traced.note {s0 s : St} (h : Traced s0 s) (t' : Tree) (ev : Ev) (x : Id)
    (h1 : ∀ y, y ≠ x → t'.has y = s.t.has y) (h2 : ev = .modified → t'.has x = true ∧ s.t.has x = true)
    (h3 : ev = .added → t'.has x = true) (h4 : ev = .deleted → t'.has x = false) :
    Traced s0 ((⟨t', s.log⟩ : St).emit ev x) := by
  obtain ⟨l, e, ht⟩ := h
  refine ⟨l ++ [⟨t', ev, x⟩], ?_, ht.snoc ⟨t', ev, x⟩ h1 h2 h3 h4⟩
  show s.log ++ [_] = _
  rw [e, List.append_assoc]

theorem traced_keeps (s0 : St) : Keeps (Traced s0) where
  nodes := fun h hn hl => h.congr (fun y => by unfold Tree.has; rw [hn]) hl
  create := fun {s p c t'} h hc _ => h.congr (s' := { s with t := t' }) (Tree.create_eq_some hc).2.2.has rfl
  destroy := fun {s p c t'} h hc => h.congr (s' := { s with t := t' }) (Tree.destroy_eq_some hc).2.2.has rfl
  eraseParent := fun h _ _ => h.congr (fun _ => Tree.has_updNode _ _ _ _) rfl
  appendChild := fun h _ _ _ => h.congr (fun _ => Tree.has_updNode _ _ _ _) rfl
  setParentsEnabled := fun h _ _ => h.congr (fun _ => Tree.has_updNode _ _ _ _) rfl
  setChildrenEnabled := fun h _ _ => h.congr (fun _ => Tree.has_updNode _ _ _ _) rfl
  modified := fun {s} h {n} hn => h.note s.t .modified n (fun _ _ => rfl) (fun _ => ⟨hn, hn⟩) (fun e => by cases e)
    (fun e => by cases e)

/-- An edit other than an `add_node` that raises is fully announced. -/
theorem step_traced (s : St) (op : Op) (hok : ∀ nd p, op = .addNode nd p → (step s op).isOk = true) :
    Traced s (step s op).state := by
  have h := Traced.refl s
  by_cases hl : op.isLocal = true
  · exact step_keeps (traced_keeps s) s op hl h
  · cases op with
    | addNode nd p =>
      have hok := hok nd p rfl
      show Traced s (addNode s nd p).state
      by_cases hx : s.t.has nd.id = true
      · rw [addNode_existing hx]; exact h
      · change (addNode s nd p).isOk = true at hok
        cases hr : addNode s nd p with
        | err e s' => rw [hr] at hok; cases hok
        | ok s' =>
          obtain ⟨t', rfl, ht⟩ := addNode_ok (by simpa using hx) hr
          refine h.note t' .added nd.id (fun y hy => ?_) (fun e => by cases e) (fun _ => ?_) (fun e => by cases e)
          · rw [ht]; simp [hy]
          · rw [ht]; simp
    | delNode x r =>
      refine removeNode_keeps (traced_keeps s).cuts (fun s' x h _ => ?_) _ s x r h
      have hh : ∀ y, ({ s'.t with nodes := s'.t.nodes.del x } : Tree).has y = (decide (y ≠ x) && s'.t.has y) := by
        intro y; unfold Tree.has; simp only [Dict.has_del]
      refine h.note { s'.t with nodes := s'.t.nodes.del x } .deleted x (fun y hy => ?_) (fun e => by cases e)
        (fun e => by cases e) (fun _ => ?_)
      · rw [hh]; simp [hy]
      · rw [hh]; simp
    | _ => exact absurd rfl hl

end Larch
