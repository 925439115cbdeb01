import Verif.Model.Tree
import Verif.Lib.Dict
import Verif.Lib.Graph

/-! Effects of the primitive tree mutations on what can be observed of a tree. -/

namespace Larch
namespace Tree

theorem has_eq (t : Tree) (x : Id) : t.has x = (t.node? x).isSome := rfl

theorem has_iff (t : Tree) (x : Id) : t.has x = true ↔ ∃ nd, t.node? x = some nd := Dict.has_iff _ _

theorem has_false_iff (t : Tree) (x : Id) : t.has x = false ↔ t.node? x = none := by
  rw [has_eq]; cases t.node? x <;> simp

theorem rawParents_of_node {t : Tree} {x : Id} {nd : Node} (h : t.node? x = some nd) :
    t.rawParents x = nd.parents := by simp [rawParents, h]

theorem rawChildren_of_node {t : Tree} {x : Id} {nd : Node} (h : t.node? x = some nd) :
    t.rawChildren x = nd.children := by simp [rawChildren, h]

theorem rawParents_of_absent {t : Tree} {x : Id} (h : t.has x = false) : t.rawParents x = [] := by
  rw [has_false_iff] at h; simp [rawParents, h]

theorem rawChildren_of_absent {t : Tree} {x : Id} (h : t.has x = false) : t.rawChildren x = [] := by
  rw [has_false_iff] at h; simp [rawChildren, h]

theorem has_of_mem_rawParents {t : Tree} {x p : Id} (h : p ∈ t.rawParents x) : t.has x = true := by
  by_contra hx
  rw [rawParents_of_absent (by simpa using hx)] at h
  simp at h

theorem has_of_mem_rawChildren {t : Tree} {x c : Id} (h : c ∈ t.rawChildren x) : t.has x = true := by
  by_contra hx
  rw [rawChildren_of_absent (by simpa using hx)] at h
  simp at h

/-! ### `updNode`, `updRoot`, `pending` -/

@[simp] theorem node?_updNode (t : Tree) (x : Id) (f : Node → Node) (y : Id) :
    (t.updNode x f).node? y = if y = x then (t.node? x).map f else t.node? y := Dict.get?_modify _ _ _ _

@[simp] theorem has_updNode (t : Tree) (x : Id) (f : Node → Node) (y : Id) :
    (t.updNode x f).has y = t.has y := Dict.has_modify _ _ _ _

@[simp] theorem keys_updNode (t : Tree) (x : Id) (f : Node → Node) :
    (t.updNode x f).nodes.keys = t.nodes.keys := Dict.keys_modify _ _ _

@[simp] theorem pending_updNode (t : Tree) (x : Id) (f : Node → Node) :
    (t.updNode x f).pending = t.pending := rfl

@[simp] theorem root_updNode (t : Tree) (x : Id) (f : Node → Node) :
    (t.updNode x f).root = t.root := rfl

@[simp] theorem node?_updRoot (t : Tree) (f : List Id → List Id) (y : Id) :
    (t.updRoot f).node? y = t.node? y := rfl
@[simp] theorem has_updRoot (t : Tree) (f : List Id → List Id) (y : Id) :
    (t.updRoot f).has y = t.has y := rfl
@[simp] theorem keys_updRoot (t : Tree) (f : List Id → List Id) :
    (t.updRoot f).nodes = t.nodes := rfl
@[simp] theorem pending_updRoot (t : Tree) (f : List Id → List Id) :
    (t.updRoot f).pending = t.pending := rfl
@[simp] theorem rootChildren_updRoot (t : Tree) (f : List Id → List Id) :
    (t.updRoot f).root.children = f t.root.children := rfl
@[simp] theorem rawParents_updRoot (t : Tree) (f : List Id → List Id) (y : Id) :
    (t.updRoot f).rawParents y = t.rawParents y := rfl
@[simp] theorem rawChildren_updRoot (t : Tree) (f : List Id → List Id) (y : Id) :
    (t.updRoot f).rawChildren y = t.rawChildren y := rfl

@[simp] theorem node?_pending (t : Tree) (l : List (Id × Id)) (y : Id) :
    ({ t with pending := l } : Tree).node? y = t.node? y := rfl
@[simp] theorem has_pending (t : Tree) (l : List (Id × Id)) (y : Id) :
    ({ t with pending := l } : Tree).has y = t.has y := rfl
@[simp] theorem rawParents_pending (t : Tree) (l : List (Id × Id)) (y : Id) :
    ({ t with pending := l } : Tree).rawParents y = t.rawParents y := rfl
@[simp] theorem rawChildren_pending (t : Tree) (l : List (Id × Id)) (y : Id) :
    ({ t with pending := l } : Tree).rawChildren y = t.rawChildren y := rfl

/-- What `create` and `destroy` never change on a node. -/
def attrs (nd : Node) : Id × Bool × Bool × Bool × List (Id × Id) :=
  (nd.id, nd.parentsEnabled, nd.childrenEnabled, nd.hasTree, nd.pending)

/-- The unchanging attributes of the node stored under `x`. -/
def nodeAttrs (t : Tree) (x : Id) : Option (Id × Bool × Bool × Bool × List (Id × Id)) :=
  (t.node? x).map attrs

theorem nodeAttrs_updNode (t : Tree) (x : Id) (f : Node → Node) (hf : ∀ nd, attrs (f nd) = attrs nd)
    (y : Id) : (t.updNode x f).nodeAttrs y = t.nodeAttrs y := by
  unfold nodeAttrs
  rw [node?_updNode]
  by_cases h : y = x
  · subst h
    rw [if_pos rfl]
    cases t.node? y <;> simp [hf]
  · rw [if_neg h]

theorem rawParents_updChildren (t : Tree) (x : Id) (g : List Id → List Id) (y : Id) :
    (t.updNode x (fun nd => { nd with children := g nd.children })).rawParents y = t.rawParents y := by
  unfold rawParents
  rw [node?_updNode]
  by_cases h : y = x
  · subst h; rw [if_pos rfl]; cases t.node? y <;> simp
  · rw [if_neg h]

theorem rawChildren_updParents (t : Tree) (x : Id) (g : List Id → List Id) (y : Id) :
    (t.updNode x (fun nd => { nd with parents := g nd.parents })).rawChildren y = t.rawChildren y := by
  unfold rawChildren
  rw [node?_updNode]
  by_cases h : y = x
  · subst h; rw [if_pos rfl]; cases t.node? y <;> simp
  · rw [if_neg h]

theorem rawChildren_updChildren (t : Tree) (x : Id) (g : List Id → List Id) (hx : t.has x = true)
    (y : Id) : (t.updNode x (fun nd => { nd with children := g nd.children })).rawChildren y =
      if y = x then g (t.rawChildren x) else t.rawChildren y := by
  obtain ⟨nd, hnd⟩ := (has_iff t x).1 hx
  unfold rawChildren
  rw [node?_updNode]
  by_cases h : y = x
  · subst h; simp [hnd]
  · simp [h]

theorem rawParents_updParents (t : Tree) (x : Id) (g : List Id → List Id) (hx : t.has x = true)
    (y : Id) : (t.updNode x (fun nd => { nd with parents := g nd.parents })).rawParents y =
      if y = x then g (t.rawParents x) else t.rawParents y := by
  obtain ⟨nd, hnd⟩ := (has_iff t x).1 hx
  unfold rawParents
  rw [node?_updNode]
  by_cases h : y = x
  · subst h; simp [hnd]
  · simp [h]

/-! ### `create` and `destroy` -/

/-- The observable effect of `create`. -/
structure CreateEffect (t t' : Tree) (p c : Id) : Prop where
  has : ∀ y, t'.has y = t.has y
  keys : t'.nodes.keys = t.nodes.keys
  attrs : ∀ y, t'.nodeAttrs y = t.nodeAttrs y
  parents : ∀ y, t'.rawParents y = if y = c then appendNew (t.rawParents c) p else t.rawParents y
  children : ∀ y, t'.rawChildren y = if y = p then appendNew (t.rawChildren p) c else t.rawChildren y
  pending : t'.pending = t.pending
  root : t'.root = { t.root with children := t.root.children.erase c }

theorem create_spec {t : Tree} {p c : Id} (hp : t.has p = true) (hc : t.has c = true) :
    ∃ t', t.create p c = some t' ∧ CreateEffect t t' p c := by
  refine ⟨_, by unfold create; rw [if_pos ⟨hp, hc⟩], ?_⟩
  constructor
  · intro y; simp
  · simp
  · intro y
    show ((t.updNode p _).updNode c _).nodeAttrs y = _
    rw [nodeAttrs_updNode, nodeAttrs_updNode] <;> intro nd <;> rfl
  · intro y
    rw [rawParents_updRoot,
      rawParents_updParents _ c (fun l => appendNew l p) (by simpa using hc),
      rawParents_updChildren _ p (fun l => appendNew l c),
      rawParents_updChildren _ p (fun l => appendNew l c)]
  · intro y
    rw [rawChildren_updRoot, rawChildren_updParents _ c (fun l => appendNew l p),
      rawChildren_updChildren _ p (fun l => appendNew l c) hp]
  · rfl
  · rfl

theorem create_eq_some {t t' : Tree} {p c : Id} (h : t.create p c = some t') :
    t.has p = true ∧ t.has c = true ∧ CreateEffect t t' p c := by
  by_cases hh : t.has p = true ∧ t.has c = true
  · obtain ⟨t'', h1, h2⟩ := create_spec hh.1 hh.2
    rw [h1] at h; cases h
    exact ⟨hh.1, hh.2, h2⟩
  · unfold create at h; rw [if_neg hh] at h; cases h

/-- The observable effect of `destroy`. -/
structure DestroyEffect (t t' : Tree) (p c : Id) : Prop where
  has : ∀ y, t'.has y = t.has y
  keys : t'.nodes.keys = t.nodes.keys
  attrs : ∀ y, t'.nodeAttrs y = t.nodeAttrs y
  parents : ∀ y, t'.rawParents y = if y = c then (t.rawParents c).erase p else t.rawParents y
  children : ∀ y, t'.rawChildren y = if y = p then (t.rawChildren p).erase c else t.rawChildren y
  pending : t'.pending = t.pending
  root : t'.root = t.root

theorem destroy_spec {t : Tree} {p c : Id} (hp : t.has p = true) (hc : t.has c = true) :
    ∃ t', t.destroy p c = some t' ∧ DestroyEffect t t' p c := by
  refine ⟨_, by unfold destroy; rw [if_pos ⟨hp, hc⟩], ?_⟩
  constructor
  · intro y; simp
  · simp
  · intro y
    show ((t.updNode p _).updNode c _).nodeAttrs y = _
    rw [nodeAttrs_updNode, nodeAttrs_updNode] <;> intro nd <;> rfl
  · intro y
    rw [rawParents_updParents _ c (fun l => l.erase p) (by simpa using hc),
      rawParents_updChildren _ p (fun l => l.erase c),
      rawParents_updChildren _ p (fun l => l.erase c)]
  · intro y
    rw [rawChildren_updParents _ c (fun l => l.erase p),
      rawChildren_updChildren _ p (fun l => l.erase c) hp]
  · rfl
  · rfl

theorem destroy_eq_some {t t' : Tree} {p c : Id} (h : t.destroy p c = some t') :
    t.has p = true ∧ t.has c = true ∧ DestroyEffect t t' p c := by
  by_cases hh : t.has p = true ∧ t.has c = true
  · obtain ⟨t'', h1, h2⟩ := destroy_spec hh.1 hh.2
    rw [h1] at h; cases h
    exact ⟨hh.1, hh.2, h2⟩
  · unfold destroy at h; rw [if_neg hh] at h; cases h

/-! ### The circularity test -/

theorem upWalks_eq (t : Tree) (d : Nat) (x : Id) : t.upWalks d x = Graph.walks t.rawParents d x := by
  induction d generalizing x with
  | zero => rfl
  | succ d ih =>
    rw [upWalks, Graph.walks]
    congr 2
    exact List.map_congr_left (fun y _ => ih y)

theorem rawParents_keys (t : Tree) (x : Id) (h : t.rawParents x ≠ []) : x ∈ t.nodes.keys := by
  rw [Dict.mem_keys]
  by_contra hx
  exact h (rawParents_of_absent (Bool.eq_false_iff.2 hx))

theorem rawChildren_keys (t : Tree) (x : Id) (h : t.rawChildren x ≠ []) : x ∈ t.nodes.keys := by
  rw [Dict.mem_keys]
  by_contra hx
  exact h (rawChildren_of_absent (Bool.eq_false_iff.2 hx))

theorem circLoop_correct (t : Tree) (c : Id) (W : Id → Nat)
    (hW : ∀ x, W x = 1 + ((t.rawParents x).map W).sum) :
    ∀ f q, (q.map W).sum ≤ f →
      ∃ b, t.circLoop c f q = some b ∧ (b = true ↔ ∃ x ∈ q, Graph.ReachEq t.rawParents x c) := by
  intro f
  induction f with
  | zero =>
    intro q hq
    cases q with
    | nil => exact ⟨false, rfl, by simp⟩
    | cons x q =>
      simp only [List.map_cons, List.sum_cons] at hq
      have := hW x; omega
  | succ f ih =>
    intro q hq
    cases q with
    | nil => exact ⟨false, rfl, by simp⟩
    | cons x q =>
      simp only [List.map_cons, List.sum_cons] at hq
      have hx := hW x
      unfold circLoop
      by_cases hxc : x = c
      · rw [if_pos hxc]
        exact ⟨true, rfl, by simp only [true_iff]; exact ⟨x, by simp, Or.inl hxc⟩⟩
      · rw [if_neg hxc]
        cases hn : t.node? x with
        | none =>
          have hr : t.rawParents x = [] := by simp [rawParents, hn]
          obtain ⟨b, hb, hiff⟩ := ih q (by omega)
          refine ⟨b, hb, hiff.trans ?_⟩
          constructor
          · rintro ⟨y, hy, h⟩; exact ⟨y, List.mem_cons_of_mem _ hy, h⟩
          · rintro ⟨y, hy, h⟩
            rcases List.mem_cons.1 hy with rfl | hy
            · rcases h with h | h
              · exact absurd h hxc
              · obtain ⟨z, hz, _⟩ := (Graph.reach_iff _ _ _).1 h
                rw [hr] at hz; simp at hz
            · exact ⟨y, hy, h⟩
        | some nd =>
          have hr : t.rawParents x = nd.parents := rawParents_of_node hn
          obtain ⟨b, hb, hiff⟩ := ih (q ++ nd.parents) (by
            rw [List.map_append, List.sum_append, ← hr]; omega)
          refine ⟨b, hb, hiff.trans ?_⟩
          constructor
          · rintro ⟨y, hy, h⟩
            rcases List.mem_append.1 hy with hy | hy
            · exact ⟨y, List.mem_cons_of_mem _ hy, h⟩
            · exact ⟨x, by simp, Graph.ReachEq.head (by rw [hr]; exact hy) h⟩
          · rintro ⟨y, hy, h⟩
            rcases List.mem_cons.1 hy with rfl | hy
            · rcases h with h | h
              · exact absurd h hxc
              · obtain ⟨z, hz, hzc⟩ := (Graph.reach_iff _ _ _).1 h
                exact ⟨z, List.mem_append.2 (Or.inr (hr ▸ hz)), hzc⟩
            · exact ⟨y, List.mem_append.2 (Or.inl hy), h⟩

/-- On an acyclic parent relation the circularity test ends, and it is exact. -/
theorem isCircular_correct (t : Tree) (hac : Graph.Acyclic t.rawParents) (p c : Id) :
    ∃ b, t.isCircular p c = some b ∧ (b = true ↔ Graph.ReachEq t.rawParents p c) := by
  obtain ⟨ht, hle, hlt⟩ := Graph.exists_height t.rawParents t.nodes.keys t.rawParents_keys hac
  have hW : ∀ x, t.upWalks (t.nodes.entries.length + 2) x =
      1 + ((t.rawParents x).map (t.upWalks (t.nodes.entries.length + 2))).sum := by
    intro x
    have := Graph.walks_eq t.rawParents ht hlt (t.nodes.entries.length + 2) x
      (by have := hle x; rw [Dict.keys_length] at this; omega)
    rw [upWalks_eq, this]
    congr 2
    exact List.map_congr_left (fun y _ => (upWalks_eq t _ y).symm)
  obtain ⟨b, hb, hiff⟩ := circLoop_correct t c _ hW (t.upWalks (t.nodes.entries.length + 2) p) [p] (by simp)
  exact ⟨b, hb, hiff.trans (by simp)⟩

theorem isCircular_true {t : Tree} (hac : Graph.Acyclic t.rawParents) {p c : Id}
    (h : Graph.ReachEq t.rawParents p c) : t.isCircular p c = some true := by
  obtain ⟨b, hb, hiff⟩ := isCircular_correct t hac p c
  rw [hb, hiff.2 h]

theorem isCircular_false {t : Tree} (hac : Graph.Acyclic t.rawParents) {p c : Id}
    (h : ¬ Graph.ReachEq t.rawParents p c) : t.isCircular p c = some false := by
  obtain ⟨b, hb, hiff⟩ := isCircular_correct t hac p c
  rw [hb]; congr
  cases b with
  | false => rfl
  | true => exact absurd (hiff.1 rfl) h

end Tree
end Larch
