import Verif.Spec.Reading
import Verif.Proofs.SpecTree

/-! # Paths and siblings -/

namespace Larch

open Graph Spec

theorem collect_ok {α β : Type} {f : α → Except Err (List β)} {g : α → List β} :
    ∀ l : List α, (∀ x ∈ l, f x = .ok (g x)) → Tree.collect f l = .ok (l.flatMap g) := by
  intro l
  induction l with
  | nil => intro _; rfl
  | cons x l ih =>
    intro h
    rw [Tree.collect, h x (by simp), ih (fun y hy => h y (by simp [hy]))]
    rfl

theorem Spec.IsPathTo.ne_nil {t : Tree} {l : List Id} {x : Id} (h : IsPathTo t l x) : l ≠ [] := by
  rintro rfl; cases h.ends

theorem WF.isPathTo_top {t : Tree} (h : WF t) {x : Id} (hx : t.has x = true) (hp : t.rawParents x = []) (l : List Id) :
    IsPathTo t l x ↔ l = [x] := by
  constructor
  · intro hl
    rcases List.eq_nil_or_concat l with rfl | ⟨l', y, rfl⟩
    · exact absurd rfl hl.ne_nil
    · have hy : y = x := by simpa using hl.ends
      subst hy
      rcases List.eq_nil_or_concat l' with rfl | ⟨l'', z, rfl⟩
      · rfl
      · have h1 := hl.chain
        rw [List.concat_eq_append, List.isChain_append] at h1
        have h2 := h1.2.2 z (by simp) y (by simp)
        rw [h.isChild, hp] at h2; cases h2
  · rintro rfl
    refine ⟨by simp, rfl, ?_⟩
    intro y hy
    simp at hy; subst hy
    refine ⟨hx, fun p hpp => ?_⟩
    rw [h.isParent, hp] at hpp; cases hpp

theorem WF.isPathTo_step {t : Tree} (h : WF t) {x : Id} (hp : t.rawParents x ≠ []) (l : List Id) :
    IsPathTo t l x ↔ ∃ p ∈ t.rawParents x, ∃ l', IsPathTo t l' p ∧ l = l' ++ [x] := by
  constructor
  · intro hl
    rcases List.eq_nil_or_concat l with rfl | ⟨l', y, rfl⟩
    · exact absurd rfl hl.ne_nil
    · have hy : y = x := by simpa using hl.ends
      subst hy
      rcases List.eq_nil_or_concat l' with rfl | ⟨l'', z, rfl⟩
      · obtain ⟨p, hpm⟩ := List.exists_mem_of_ne_nil _ hp
        exact absurd ((h.isParent _ _).2 hpm) ((hl.starts y rfl).2 p)
      · have h1 := hl.chain
        rw [List.concat_eq_append, List.isChain_append] at h1
        have h2 := h1.2.2 z (by simp) y (by simp)
        rw [h.isChild] at h2
        refine ⟨z, h2, l''.concat z, ⟨h1.1, by simp, fun w hw => hl.starts w ?_⟩, by simp⟩
        rw [List.concat_eq_append, List.head?_append, hw]; rfl
  · rintro ⟨p, hpm, l', hl', rfl⟩
    refine ⟨?_, by simp, fun w hw => hl'.starts w ?_⟩
    · rw [List.isChain_append]
      refine ⟨hl'.chain, by simp, ?_⟩
      intro a ha b hb
      rw [hl'.ends] at ha
      simp at ha hb; subst ha; subst hb
      exact (h.isChild _ _).2 hpm
    · cases l' with
      | nil => exact absurd rfl hl'.ne_nil
      | cons a l' => simpa using hw

theorem WF.pathsFuel_spec {t : Tree} (h : WF t) (ht : Id → Nat) (hlt : ∀ x y, y ∈ t.rawParents x → ht y < ht x) :
    ∀ (f : Nat) (x : Id), ht x < f → t.has x = true →
      ∃ ps, t.pathsFuel f x = .ok ps ∧ ps.Nodup ∧ ∀ l, l ∈ ps ↔ IsPathTo t l x := by
  intro f
  induction f with
  | zero => intro x hx; omega
  | succ f ih =>
    intro x hx hh
    obtain ⟨h1, h2⟩ := h.ids x hh
    obtain ⟨nd, hn⟩ : ∃ nd, t.node? x = some nd := by
      rw [Tree.has_eq] at hh; exact Option.isSome_iff_exists.1 hh
    have hraw : t.rawParents x = nd.parents := by unfold Tree.rawParents; rw [hn]; rfl
    have hps : t.parentsOf nd = nd.parents := by
      have := h.getParents_eq x
      unfold Tree.getParents at this
      rw [hn, hraw] at this
      exact this
    rw [Tree.pathsFuel]
    have hc : ¬ ((x.falsy || decide (x = rootId)) = true) := by simp [h1, h2]
    rw [if_neg hc, hn]
    dsimp only
    by_cases hpar : nd.parents = []
    · have : Tree.nodeHasParent nd = false := by simp [Tree.nodeHasParent, hpar]
      rw [this]
      refine ⟨_, rfl, by simp, fun l => ?_⟩
      rw [h.isPathTo_top hh (hraw.trans hpar)]
      simp
    · have hen : nd.parentsEnabled = true := by
        by_contra hne
        exact hpar (h.flagP x nd hn (by simpa using hne))
      have : Tree.nodeHasParent nd = true := by
        simp only [Tree.nodeHasParent, hen, Bool.true_and]
        cases hq : nd.parents with
        | nil => exact absurd hq hpar
        | cons _ _ => rfl
      rw [this, if_pos rfl, hps]
      have hex : ∀ p ∈ nd.parents, ∃ ps, t.pathsFuel f p = .ok ps ∧ ps.Nodup ∧ ∀ l, l ∈ ps ↔ IsPathTo t l p := by
        intro p hp
        rw [← hraw] at hp
        exact ih p (by have := hlt x p hp; omega) (h.has_parent hp)
      classical
      let g : Id → List (List Id) := fun p => if hp : p ∈ nd.parents then (hex p hp).choose else []
      have hg : ∀ p (hp : p ∈ nd.parents), t.pathsFuel f p = .ok (g p) ∧ (g p).Nodup ∧ ∀ l, l ∈ g p ↔ IsPathTo t l p := by
        intro p hp
        have := (hex p hp).choose_spec
        simp only [g, dif_pos hp]; exact this
      rw [collect_ok (g := fun p => (g p).map (· ++ [x])) nd.parents (by
        intro p hp; rw [(hg p hp).1])]
      refine ⟨_, rfl, ?_, fun l => ?_⟩
      · rw [List.nodup_flatMap]
        refine ⟨fun p hp => ?_, ?_⟩
        · exact ((hg p hp).2.1).map (fun a b hab => by simpa using hab)
        · have hnd : nd.parents.Nodup := hraw ▸ h.ndP x
          refine List.Pairwise.imp_of_mem ?_ hnd
          intro p q hp hq hne l hl1 hl2
          simp only [List.mem_map] at hl1 hl2
          obtain ⟨a, ha, rfl⟩ := hl1
          obtain ⟨b, hb, hab⟩ := hl2
          have : b = a := by simpa using hab
          subst this
          have e1 := (((hg p hp).2.2 _).1 ha).ends
          have e2 := (((hg q hq).2.2 _).1 hb).ends
          rw [e1] at e2
          exact hne (by simpa using e2)
      · rw [h.isPathTo_step (by rw [hraw]; exact hpar), hraw]
        simp only [List.mem_flatMap, List.mem_map]
        constructor
        · rintro ⟨p, hp, a, ha, rfl⟩; exact ⟨p, hp, a, ((hg p hp).2.2 a).1 ha, rfl⟩
        · rintro ⟨p, hp, a, ha, rfl⟩; exact ⟨p, hp, a, ((hg p hp).2.2 a).2 ha, rfl⟩

theorem WF.getPaths_spec {t : Tree} (h : WF t) {x : Id} (hx : t.has x = true) :
    ∃ ps, t.getPaths x = .ok ps ∧ ps.Nodup ∧ ∀ l, l ∈ ps ↔ IsPathTo t l x := by
  obtain ⟨ht, hb, hlt⟩ := exists_height t.rawParents t.nodes.keys t.rawParents_keys h.acyclic
  refine h.pathsFuel_spec ht hlt _ x ?_ hx
  have := hb x
  have e : t.nodes.keys.length = t.nodes.entries.length := by simp [Dict.keys]
  omega

/-- `next_node` inside a children list. -/
theorem nextNode_in {t : Tree} {x parent : Id} {nd par : Node} {parid : Id} (hx : x ≠ .none)
    (h1 : t.getNode x = .ok nd) (h2 : (if parent ∈ t.parentsOf nd then parent else (t.parentsOf nd).headD rootId) = parid)
    (h3 : t.getNode parid = .ok par) (hen : par.childrenEnabled = true) (hcs : t.childrenOf par = par.children)
    {l l' : List Id} (hl : par.children = l ++ x :: l') (hnd : par.children.Nodup) :
    t.nextNode x parent = .ok l'.head? := by
  unfold Tree.nextNode
  rw [if_neg hx, h1]
  dsimp only
  rw [h2, h3]
  dsimp only
  have hxl : x ∉ l := by
    rw [hl] at hnd
    have := List.nodup_append.1 hnd
    intro hm
    exact this.2.2 x hm x (by simp) rfl
  have hidx : par.children.idxOf x = l.length := by
    rw [hl, List.idxOf_append_of_notMem hxl]; simp
  have hci : Tree.childIndex par x = some l.length := by
    unfold Tree.childIndex
    rw [if_pos ⟨hen, by rw [hl]; simp⟩, hidx]
  rw [hci, hcs]
  dsimp only
  unfold Tree.nthChild
  rw [hl]
  cases l' with
  | nil => simp
  | cons y l' => simp [Except.map]

/-- Following `next_node` from `x` walks through the rest of the list. -/
theorem visits_of_next {t : Tree} {parent : Id} (cs : List Id)
    (hnext : ∀ l x l', cs = l ++ x :: l' → t.nextNode x parent = .ok l'.head?) :
    ∀ (l' : List Id) (l : List Id) (x : Id), cs = l ++ x :: l' → Visits t parent x (x :: l') := by
  intro l'
  induction l' with
  | nil => intro l x h; exact Visits.last (hnext l x [] h)
  | cons y l' ih =>
    intro l x h
    exact Visits.more (hnext l x _ h) (ih (l ++ [x]) y (by rw [h]; simp))

end Larch
