import Verif.Props.Undo
import Verif.Spec.Loading

/-!
# C88: a hierarchy is loaded in the order given
-/

namespace Larch

open Graph Spec

/-- No waiting relation is made if the ends that wait are no nodes. -/
theorem fold_never {t : Tree} (ht : ∀ y, t.has y = true → ¬ Never y) {x : Id} (hx : ¬ Never x) (b : Bool) :
    ∀ l : List (Id × Id), (∀ r ∈ l, Never r.1) → l.foldl (addPendingStep x) (some (t, b)) = some (t, b) := by
  intro l
  induction l with
  | nil => intro _; rfl
  | cons r l ih =>
    intro hl
    have hr := hl r (by simp)
    have h1 : t.has r.1 = false := by
      cases hh : t.has r.1 with
      | false => rfl
      | true => exact absurd hr (ht _ hh)
    have h2 : r.1 ≠ x := fun e => hx (e ▸ hr)
    have : addPendingStep x (some (t, b)) r = some (t, b) := by simp [addPendingStep, h1, h2]
    rw [List.foldl_cons, this]
    exact ih fun r hr => hl r (by simp [hr])

theorem Hier.kids {s : St} (h : Hier s) (y : Id) : s.t.getChildren y = s.t.rawChildren y := by
  rw [h.good.1.wf.getChildren_eq, List.filter_eq_self]
  exact fun c hc => h.good.2 y c hc

theorem Hier.tops {s : St} (h : Hier s) : s.t.rootChildren = s.t.root.children := by
  have hg := h.good.1
  unfold Tree.rootChildren Tree.childrenOf
  rw [hg.wf.rootKids, hg.wf.rootTree, if_pos (by rfl), List.filter_eq_self]
  intro x hx; exact ((hg.root.mem x).1 hx).1

theorem Hier.last {s s' : St} (h : Hier s) (h' : Hier s') {x p : Id} (hx : s.t.has x = false) (hnx : ¬ Never x)
    (hp : p = .none ∨ s.t.has p = true) (e : addNode s (Node.new x .none) p = .ok s') : ComesLast s.t s'.t x p := by
  obtain ⟨hg, hn⟩ := h.good
  have hid : (Node.new x .none).id = x := rfl
  have hpe : (Node.new x .none).pending = [] := rfl
  have hch : (Node.new x .none).children = [] := rfl
  have hraw : s.t.rawChildren x = [] := by
    unfold Tree.rawChildren
    rw [(Tree.has_false_iff _ _).1 hx]; rfl
  generalize Node.new x .none = nd at *
  have hins : ∀ y, (insertNode s.t nd).rawChildren y = s.t.rawChildren y := by
    intro y
    rw [rawChildren_insertNode, hid, hch]
    split
    · rename_i hy; rw [hy, hraw]
    · rfl
  have hhas : ∀ y, (insertNode s.t nd).has y = true → ¬ Never y := by
    intro y hy
    rw [has_insertNode, hid] at hy
    simp only [Bool.or_eq_true, decide_eq_true_eq] at hy
    rcases hy with rfl | hy
    · exact hnx
    · exact hg.never hy
  have hfold := fold_never hhas (x := x) hnx true (insertNode s.t nd).pending (fun r hr => by
    have hr : r ∈ mergePending s.t.pending nd.pending := hr
    rw [hpe] at hr
    exact (h.idle r hr).1)
  have hroot : (insertNode s.t nd).root = s.t.root := rfl
  unfold addNode at e
  rw [hid, if_neg (by rw [hx]; simp)] at e
  dsimp only at e
  rw [hfold] at e
  dsimp only at e
  by_cases hpn : p = .none
  · rw [if_pos hpn] at e
    dsimp only at e
    rw [if_pos rfl] at e
    cases e
    refine ⟨fun y => ?_, ?_⟩
    · rw [h'.kids, h.kids, if_neg (fun hh => hh.1 hpn)]
      exact hins y
    · rw [h'.tops, h.tops, if_pos hpn]; rfl
  · have hph := hp.resolve_left hpn
    have hpx : p ≠ x := by rintro rfl; rw [hph] at hx; cases hx
    have hph' : (insertNode s.t nd).has p = true := by rw [has_insertNode, hph]; simp
    rw [if_neg hpn] at e
    cases hci : (insertNode s.t nd).isCircular p x with
    | none => rw [hci] at e; cases e
    | some b =>
      rw [hci] at e
      cases b with
      | true => cases e
      | false =>
        dsimp only at e
        rw [if_pos hph'] at e
        cases hcr : (insertNode s.t nd).create p x with
        | none => rw [hcr] at e; cases e
        | some t3 =>
          rw [hcr] at e
          dsimp only at e
          rw [if_neg (by simp)] at e
          have ef := (Tree.create_eq_some hcr).2.2
          cases e
          refine ⟨fun y => ?_, ?_⟩
          · rw [h'.kids, h.kids]
            show t3.rawChildren y = _
            rw [ef.children]
            by_cases hy : y = p
            · rw [if_pos hy, if_pos ⟨hpn, hy⟩, hins, hy]
              unfold appendNew
              rw [if_neg]
              intro hm
              rw [hn p x hm] at hx; cases hx
            · rw [if_neg hy, if_neg (fun hh => hy hh.2), hins]
          · rw [h'.tops, h.tops, if_neg hpn]
            show t3.root.children = _
            rw [ef.root, hroot]
            refine List.erase_of_not_mem fun hm => ?_
            rw [((hg.root.mem x).1 hm).1] at hx; cases hx

/-- C88: a new node of a hierarchy comes last among its siblings, and the order of the others stays. -/
theorem C88_last (ops : List Op) (hp : Along (fun s op => HierarchyEdit s.t op) St.init ops) (x p : Id)
    (hx : (runOps St.init ops).t.has x = false) (hf : x.falsy = false) (hr : x ≠ rootId) (hro : ∀ name, x ≠ rootOf name)
    (hp' : p = .none ∨ (runOps St.init ops).t.has p = true) :
    ∃ s', step (runOps St.init ops) (.addNode (Node.new x .none) p) = .ok s' ∧ ComesLast (runOps St.init ops).t s'.t x p := by
  obtain ⟨-, h⟩ := Hier.init.run ops hp
  obtain ⟨s', e, -⟩ := C86_add ops hp x .none p hx hf hr hro (.inl rfl) hp' (.inl rfl)
  have h2 := (h.step (.addNode (Node.new x .none) p) ⟨x, .none, rfl, hf, hr, hro, .inl rfl, hp', .inl rfl⟩).2
  rw [e] at h2
  exact ⟨s', e, h.last h2 hx (by rintro (hh | hh); · rw [hf] at hh; cases hh
                                 · exact hr hh) hp' e⟩

/-- 5 comes after 2 and 4. -/
example : ∃ s', step (runOps St.init (hierOps.take 4)) (.addNode (.new (.str 5) .none) (.str 1)) = .ok s' ∧
    ComesLast (runOps St.init (hierOps.take 4)).t s'.t (.str 5) (.str 1) ∧ s'.t.getChildren (.str 1) = [.str 2, .str 4, .str 5] := by
  obtain ⟨s', e, h⟩ := C88_last _ hierOps_four (.str 5) (.str 1) (by decide) (by decide) (by decide)
    (fun name => small_not_root (p' := .none) (by decide) _ _ rfl name) (by decide)
  refine ⟨s', e, h, ?_⟩
  rw [h.children, if_pos (by decide)]; decide

/-- C88: a program that adds nodes one after the other, parents first, uses the tree as a hierarchy; no call raises, and in the end every
node is below its parent, with siblings in the order in which they were added. -/
theorem C88_load (l : List (Id × Id)) (hl : Listed l) :
    Along (fun s op => HierarchyEdit s.t op) St.init (loadOps l) ∧ NoRaise St.init (loadOps l) ∧ Loaded (runOps St.init (loadOps l)).t l := by
  induction l using List.reverseRecOn with
  | nil =>
    refine ⟨trivial, trivial, fun y => ⟨fun hy => ?_, fun hy => ?_⟩, fun r hr => ?_, fun p _ => rfl, rfl⟩
    · have hy : Tree.init.has y = true := hy
      cases hy
    · cases hy
    · cases hr
  | append_singleton l r ih =>
    obtain ⟨x, p⟩ := r
    obtain ⟨ha, hnr, hL⟩ := ih fun l1 y q l2 e => hl l1 y q (l2 ++ [(x, p)]) (by rw [e]; simp)
    obtain ⟨hf, hr, hro, hx, hp⟩ := hl l x p [] rfl
    have hx' : (runOps St.init (loadOps l)).t.has x = false := by
      rw [← Bool.not_eq_true, hL.nodes]; exact hx
    have hp' : p = .none ∨ (runOps St.init (loadOps l)).t.has p = true := by rw [hL.nodes]; exact hp
    have eo : loadOps (l ++ [(x, p)]) = loadOps l ++ [.addNode (Node.new x .none) p] := by simp [loadOps]
    obtain ⟨ha', ea⟩ := hier_after ha (op := .addNode (Node.new x .none) p) ⟨x, .none, rfl, hf, hr, hro, .inl rfl, hp', .inl rfl⟩
    obtain ⟨s', e, hA⟩ := C86_add _ ha x .none p hx' hf hr hro (.inl rfl) hp' (.inl rfl)
    obtain ⟨s2, e2, hC⟩ := C88_last _ ha x p hx' hf hr hro hp'
    rw [e] at e2; cases e2
    rw [eo]
    refine ⟨ha', ?_, ?_⟩
    · exact along_append hnr ⟨(by rw [e]; rfl : (step _ _).isOk = true), trivial⟩
    rw [ea, e]
    show Loaded s'.t _
    refine ⟨fun y => ?_, fun r hr => ?_, fun q hq => ?_, ?_⟩
    · rw [hA.nodes, hL.nodes]; simp
    · rcases List.mem_append.1 hr with hr | hr
      · have : r.1 ≠ x := fun hh => hx (hh ▸ List.mem_map_of_mem hr)
        rw [hA.others _ this]; exact hL.parents r hr
      · rw [List.mem_singleton.1 hr]
        rw [hA.place, if_pos rfl]
    · rw [hC.children, hL.children q hq]
      unfold listedBelow
      rw [List.filter_append, List.map_append]
      by_cases hqp : q = p
      · rw [if_pos ⟨hqp ▸ hq, hqp⟩]; simp [hqp]
      · rw [if_neg (fun hh => hqp hh.2)]; simp [Ne.symm hqp]
    · rw [hC.top, hL.top]
      unfold listedBelow
      rw [List.filter_append, List.map_append]
      by_cases hpn : p = .none
      · rw [if_pos hpn]; simp [hpn]
      · rw [if_neg hpn]; simp [hpn]

/-- Six nodes; 4 and 6 are at the top level, 1 and 3 are below 4. -/
def loadList : List (Id × Id) :=
  [(.str 4, .none), (.str 1, .str 4), (.str 2, .str 1), (.str 6, .none), (.str 3, .str 4), (.str 5, .str 1)]

theorem listed_of {l : List (Id × Id)} (h : ∀ k < l.length, ∃ i q, l[k]? = some (.str i, q) ∧ i < 1000 ∧ (Id.str i).falsy = false ∧
    Id.str i ≠ rootId ∧ .str i ∉ (l.take k).map Prod.fst ∧ (q = .none ∨ q ∈ (l.take k).map Prod.fst)) : Listed l := by
  intro l1 x p l2 e
  obtain ⟨i, q, h1, h2, h3, h4, h5, h6⟩ := h l1.length (by rw [e]; simp)
  rw [e] at h1 h5 h6
  simp only [le_refl, List.getElem?_append_right, Nat.sub_self, List.getElem?_cons_zero, Option.some.injEq,
    Prod.mk.injEq] at h1
  obtain ⟨rfl, rfl⟩ := h1
  rw [List.take_left'] at h5 h6
  · exact ⟨h3, h4, fun name => small_not_root (p' := .none) h2 _ _ rfl name, h5, h6⟩
  · rfl
  · rfl

theorem loadList_listed : Listed loadList := by
  refine listed_of fun k hk => ?_
  have hk : k < 6 := hk
  match k, hk with
  | 0, _ => exact ⟨4, .none, by decide⟩
  | 1, _ => exact ⟨1, .str 4, by decide⟩
  | 2, _ => exact ⟨2, .str 1, by decide⟩
  | 3, _ => exact ⟨6, .none, by decide⟩
  | 4, _ => exact ⟨3, .str 4, by decide⟩
  | 5, _ => exact ⟨5, .str 1, by decide⟩

example : (runOps St.init (loadOps loadList)).t.getChildren (.str 4) = [.str 1, .str 3] ∧
    (runOps St.init (loadOps loadList)).t.rootChildren = [.str 4, .str 6] := by
  obtain ⟨-, -, h⟩ := C88_load loadList loadList_listed
  exact ⟨by rw [h.children _ (by decide)]; decide, by rw [h.top]; decide⟩

end Larch
