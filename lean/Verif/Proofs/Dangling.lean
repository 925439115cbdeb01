import Verif.Proofs.ViewVanish

/-!
# Updates of a view in which a deleted node is still mentioned

While a node is deleted from a view, its parents are updated one by one, and the later ones still mention it among their
children. Here the same update is run on the view without these mentions, and the two runs are compared.
-/

namespace Larch

open Spec Graph

/-- The entry without the child `x`. -/
def VNode.sans (x : Id) (n : VNode) : VNode := { n with children := n.children.filter fun c => decide (c ≠ x) }

/-- The view without the child `x`. -/
def View.sans (x : Id) (v : View) : View := { v with nodes := ⟨v.nodes.entries.map fun e => (e.1, e.2.sans x)⟩ }

/-- `w` is `u` without the mentions of `x`, which has no entry. -/
structure Sans (x : Id) (u w : View) : Prop where
  keys : w.nodes.keys = u.nodes.keys
  get : ∀ y, w.nodes.get? y = (u.nodes.get? y).map (VNode.sans x)
  out : w.out = u.out
  gone : u.has x = false

theorem lookup_mapped {α β : Type} (f : α → β) (x : Id) : ∀ l : List (Id × α),
    Dict.lookup (l.map fun e => (e.1, f e.2)) x = (Dict.lookup l x).map f
  | [] => rfl
  | (k, v) :: l => by
    rw [List.map_cons, Dict.lookup, Dict.lookup, lookup_mapped f x l]
    dsimp only
    split <;> rfl

theorem View.sans_sans {x : Id} {u : View} (h : u.has x = false) : Sans x u (u.sans x) := by
  refine ⟨?_, fun y => lookup_mapped _ _ _, rfl, h⟩
  unfold View.sans Dict.keys
  dsimp only
  rw [List.map_map]
  rfl

namespace Sans

variable {x : Id} {u w : View}

theorem has (h : Sans x u w) (y : Id) : w.has y = u.has y := by
  unfold View.has Dict.has
  rw [h.get]
  cases u.nodes.get? y <;> rfl

theorem hasEq (h : Sans x u w) : w.has = u.has := funext h.has

theorem pars (h : Sans x u w) (y : Id) : w.pars y = u.pars y := by
  unfold View.pars
  rw [h.get]
  cases u.nodes.get? y <;> rfl

theorem kids (h : Sans x u w) (y : Id) : w.kids y = (u.kids y).filter fun c => decide (c ≠ x) := by
  unfold View.kids
  rw [h.get]
  cases u.nodes.get? y <;> rfl

theorem mem_kids (h : Sans x u w) {c : Id} (hc : c ≠ x) (y : Id) : c ∈ w.kids y ↔ c ∈ u.kids y := by
  rw [h.kids, List.mem_filter]; simp [hc]

theorem length (h : Sans x u w) : w.nodes.entries.length = u.nodes.entries.length := by
  rw [← Dict.keys_length, ← Dict.keys_length, h.keys]

theorem ne (h : Sans x u w) {y : Id} (hy : u.has y = true) : y ≠ x := by
  rintro rfl; rw [h.gone] at hy; cases hy

theorem kids_eq (h : Sans x u w) {y : Id} (hy : x ∉ u.kids y) : w.kids y = u.kids y := by
  rw [h.kids, List.filter_eq_self]
  intro c hc
  simp only [decide_eq_true_eq]
  rintro rfl; exact hy hc

theorem send (h : Sans x u w) (ev : SigEv) (y : Id) (ps : List (List Id)) : Sans x (u.send ev y ps) (w.send ev y ps) :=
  ⟨h.keys, h.get, by unfold View.send; dsimp only; rw [h.out], h.gone⟩

theorem pathsFuel (h : Sans x u w) (root : Id) : ∀ (f : Nat) (y : Id), w.pathsFuel root f y = u.pathsFuel root f y
  | 0, _ => rfl
  | f + 1, y => by
    rw [View.pathsFuel, View.pathsFuel]
    by_cases hy : y = root ∨ u.has y = false
    · rw [if_pos (by rw [h.has]; exact hy), if_pos hy]
    · rw [if_neg (by rw [h.has]; exact hy), if_neg hy, h.pars]
      have hyx : y ≠ x := by rintro rfl; exact hy (Or.inr h.gone)
      congr 1
      funext p
      simp only [h.has, h.mem_kids hyx, pathsFuel h root f p]

theorem paths (h : Sans x u w) (root y : Id) : w.paths root y = u.paths root y := by
  unfold View.paths
  rw [h.length, h.pathsFuel]

theorem setPars (h : Sans x u w) (y : Id) (L : List Id) :
    Sans x (u.upd y fun n => { n with parents := L }) (w.upd y fun n => { n with parents := L }) := by
  refine ⟨by rw [View.keys_upd, View.keys_upd, h.keys], fun z => ?_, h.out, by rw [View.has_upd]; exact h.gone⟩
  rw [View.get_upd, View.get_upd, h.get, h.get]
  by_cases hz : z = y
  · rw [if_pos hz, if_pos hz]; cases u.nodes.get? y <;> rfl
  · rw [if_neg hz, if_neg hz]

/-- A change of a children list that has nothing to do with `x`. -/
theorem setKids (h : Sans x u w) (y : Id) (g : List Id → List Id)
    (hg : ∀ l, (g l).filter (fun c => decide (c ≠ x)) = g (l.filter fun c => decide (c ≠ x))) :
    Sans x (u.upd y fun n => { n with children := g n.children }) (w.upd y fun n => { n with children := g n.children }) := by
  refine ⟨by rw [View.keys_upd, View.keys_upd, h.keys], fun z => ?_, h.out, by rw [View.has_upd]; exact h.gone⟩
  rw [View.get_upd, View.get_upd, h.get, h.get]
  by_cases hz : z = y
  · rw [if_pos hz, if_pos hz]
    cases u.nodes.get? y with
    | none => rfl
    | some n =>
      simp only [Option.map_some]
      unfold VNode.sans
      dsimp only
      rw [hg]
  · rw [if_neg hz, if_neg hz]

theorem filter_erase {x c : Id} (hc : c ≠ x) : ∀ l : List Id,
    (l.erase c).filter (fun a => decide (a ≠ x)) = (l.filter fun a => decide (a ≠ x)).erase c
  | [] => rfl
  | a :: l => by
    by_cases hac : a = c
    · subst hac
      rw [List.erase_cons_head, List.filter_cons_of_pos (by simpa using hc), List.erase_cons_head]
    · rw [List.erase_cons_tail (by simpa using hac)]
      by_cases hax : a = x
      · rw [List.filter_cons_of_neg (by simpa using hax), List.filter_cons_of_neg (by simpa using hax), filter_erase hc l]
      · rw [List.filter_cons_of_pos (by simpa using hax), List.filter_cons_of_pos (by simpa using hax),
          List.erase_cons_tail (by simpa using hac), filter_erase hc l]

theorem count_erase_ne {x c : Id} (hc : c ≠ x) (l : List Id) : (l.erase c).count x = l.count x :=
  List.count_erase_of_ne (Ne.symm hc)

/-- `self.nodes[p]['children'].remove(c)` in both. -/
theorem dropKid (h : Sans x u w) {p c : Id} (hc : c ≠ x) {w1 : View} (he : w.dropKid p c = .ok w1) :
    ∃ u1, u.dropKid p c = .ok u1 ∧ Sans x u1 w1 ∧ (∀ q, (u1.kids q).count x = (u.kids q).count x) ∧
      ∀ q, ∀ a ∈ u1.kids q, a ∈ u.kids q := by
  unfold View.dropKid at he
  rw [h.get] at he
  cases hn : u.nodes.get? p with
  | none => rw [hn] at he; cases he
  | some n =>
    rw [hn] at he
    simp only [Option.map_some] at he
    split at he
    · rename_i hm
      cases he
      have hm' : c ∈ n.children := by
        have := (List.mem_filter.1 hm).1
        exact this
      refine ⟨u.upd p fun n => { n with children := n.children.erase c }, ?_, h.setKids p (fun l => l.erase c) (filter_erase hc), ?_, ?_⟩
      · unfold View.dropKid; rw [hn]; dsimp only; rw [if_pos hm']
      · intro q
        rw [View.kids_updKids u p (fun l => l.erase c) ((Dict.has_iff _ _).2 ⟨n, hn⟩)]
        by_cases hq : q = p
        · rw [if_pos hq, hq]; exact count_erase_ne hc _
        · rw [if_neg hq]
      · intro q a
        rw [View.kids_updKids u p (fun l => l.erase c) ((Dict.has_iff _ _).2 ⟨n, hn⟩)]
        by_cases hq : q = p
        · rw [if_pos hq, hq]; exact List.mem_of_mem_erase
        · rw [if_neg hq]; exact id
    · cases he

/-- `self.nodes[p]['children'].append(c)` in both. -/
theorem addKid (h : Sans x u w) {p c : Id} (hc : c ≠ x) (hp : u.has p = true) :
    Sans x (u.upd p fun n => { n with children := n.children ++ [c] }) (w.upd p fun n => { n with children := n.children ++ [c] }) ∧
      ∀ q, ((u.upd p fun n => { n with children := n.children ++ [c] }).kids q).count x = (u.kids q).count x := by
  refine ⟨h.setKids p (fun l => l ++ [c]) (fun l => by rw [List.filter_append]; simp [hc]), fun q => ?_⟩
  rw [View.kids_updKids u p (fun l => l ++ [c]) hp]
  by_cases hq : q = p
  · rw [if_pos hq, hq, List.count_append]; simp [hc]
  · rw [if_neg hq]

/-- A set of nodes that is closed under children and does not mention `x`. -/
structure Free (x : Id) (u : View) (S : Id → Prop) : Prop where
  not : ∀ z, S z → x ∉ u.kids z
  down : ∀ z, S z → ∀ c ∈ u.kids z, S c

theorem downWalks (h : Sans x u w) {S : Id → Prop} (hS : Free x u S) : ∀ (f : Nat) (y : Id), S y → w.downWalks f y = u.downWalks f y
  | 0, _, _ => rfl
  | f + 1, y, hy => by
    rw [View.downWalks, View.downWalks, h.kids_eq (hS.not y hy)]
    congr 2
    exact List.map_congr_left fun c hc => downWalks h hS f c (hS.down y hy c hc)

theorem walksBelow (h : Sans x u w) {S : Id → Prop} (hS : Free x u S) {y : Id} (hy : S y) : w.walksBelow y = u.walksBelow y := by
  unfold View.walksBelow
  rw [h.length, h.downWalks hS _ _ hy]

theorem get_free (h : Sans x u w) {S : Id → Prop} (hS : Free x u S) {y : Id} (hy : S y) : w.nodes.get? y = u.nodes.get? y := by
  rw [h.get]
  cases hn : u.nodes.get? y with
  | none => rfl
  | some n =>
    have := hS.not y hy
    rw [View.kids_of_get hn] at this
    simp only [Option.map_some, VNode.sans]
    rw [List.filter_eq_self.2 (by
      intro c hc
      simp only [decide_eq_true_eq]
      rintro rfl; exact this hc)]

theorem Free.send {S : Id → Prop} (hS : Free x u S) (ev : SigEv) (y : Id) (ps : List (List Id)) : Free x (u.send ev y ps) S := ⟨hS.not, hS.down⟩

theorem removeLoop {starts : List (List Id)} {S : Id → Prop} : ∀ (f : Nat) (u w : View) (q : List (Id × List Id × Bool)),
    Sans x u w → Free x u S → (∀ e ∈ q, S e.1) → ∀ w1, View.removeLoop starts f w q = .ok w1 →
    ∃ u1, View.removeLoop starts f u q = .ok u1 ∧ Sans x u1 w1 ∧ u1.nodes = u.nodes
  | f, u, w, [], h, _, _, w1, he => by
    have : w1 = w := by cases f <;> (rw [View.removeLoop] at he; cases he; rfl)
    subst this
    exact ⟨u, by cases f <;> rw [View.removeLoop], h, rfl⟩
  | 0, u, w, _ :: _, _, _, _, w1, he => by rw [View.removeLoop] at he; cases he
  | f + 1, u, w, (y, rel, first) :: q, h, hS, hq, w1, he => by
    have hy : S y := hq _ List.mem_cons_self
    rw [View.removeLoop] at he
    rw [View.removeLoop]
    cases first with
    | true =>
      rw [if_pos rfl] at he ⊢
      rw [h.get_free hS hy] at he
      cases hn : u.nodes.get? y with
      | none => rw [hn] at he; cases he
      | some n =>
        rw [hn] at he
        refine removeLoop f u w _ h hS ?_ w1 he
        intro e hm
        rcases List.mem_append.1 hm with hm | hm
        · rw [List.mem_reverse, List.mem_map] at hm
          obtain ⟨c, hc, rfl⟩ := hm
          exact hS.down y hy c (by rw [View.kids_of_get hn]; exact hc)
        · rcases List.mem_cons.1 hm with rfl | hm
          · exact hy
          · exact hq e (List.mem_cons_of_mem _ hm)
    | false =>
      rw [if_neg (by simp)] at he ⊢
      obtain ⟨u1, a1, a2, a3⟩ := removeLoop f (u.send .deleted y (starts.map (· ++ rel))) _ q (h.send _ _ _) (hS.send _ _ _)
        (fun e hm => hq e (List.mem_cons_of_mem _ hm)) w1 he
      exact ⟨u1, a1, a2, a3⟩

theorem sendRemove (h : Sans x u w) {S : Id → Prop} (hS : Free x u S) {root y p : Id} (hy : S y) {w1 : View}
    (he : w.sendRemove root y p = .ok w1) : ∃ u1, u.sendRemove root y p = .ok u1 ∧ Sans x u1 w1 ∧ u1.nodes = u.nodes := by
  unfold View.sendRemove at he ⊢
  rw [h.paths] at he
  cases hp : u.paths root p with
  | error e => rw [hp] at he; cases he
  | ok ps =>
    rw [hp] at he
    dsimp only at he ⊢
    rw [h.walksBelow hS hy] at he
    exact removeLoop _ u w _ h hS (by simpa using hy) w1 he

theorem addLoop {starts : List (List Id)} {S : Id → Prop} : ∀ (f : Nat) (u w : View) (q : List (Id × List Id)),
    Sans x u w → Free x u S → (∀ e ∈ q, S e.1) → ∀ w1, View.addLoop starts f w q = .ok w1 →
    ∃ u1, View.addLoop starts f u q = .ok u1 ∧ Sans x u1 w1 ∧ u1.nodes = u.nodes
  | f, u, w, [], h, _, _, w1, he => by
    have : w1 = w := by cases f <;> (rw [View.addLoop] at he; cases he; rfl)
    subst this
    exact ⟨u, by cases f <;> rw [View.addLoop], h, rfl⟩
  | 0, u, w, _ :: _, _, _, _, w1, he => by rw [View.addLoop] at he; cases he
  | f + 1, u, w, (y, rel) :: q, h, hS, hq, w1, he => by
    have hy : S y := hq _ List.mem_cons_self
    rw [View.addLoop] at he
    rw [View.addLoop]
    rw [h.get_free hS hy] at he
    cases hn : u.nodes.get? y with
    | none => rw [hn] at he; cases he
    | some n =>
      rw [hn] at he
      dsimp only at he ⊢
      obtain ⟨u1, a1, a2, a3⟩ := addLoop f (u.send .added y (starts.map (· ++ rel))) _ _ (h.send _ _ _) (hS.send _ _ _) (by
        intro e hm
        rcases List.mem_append.1 hm with hm | hm
        · exact hq e (List.mem_cons_of_mem _ hm)
        · rw [List.mem_map] at hm
          obtain ⟨c, hc, rfl⟩ := hm
          exact hS.down y hy c (by rw [View.kids_of_get hn]; exact hc)) w1 he
      exact ⟨u1, a1, a2, a3⟩

theorem sendAdd (h : Sans x u w) {S : Id → Prop} (hS : Free x u S) {root y p : Id} (hy : S y) {w1 : View}
    (he : w.sendAdd root y p = .ok w1) : ∃ u1, u.sendAdd root y p = .ok u1 ∧ Sans x u1 w1 ∧ u1.nodes = u.nodes := by
  unfold View.sendAdd at he ⊢
  rw [h.paths] at he
  cases hp : u.paths root p with
  | error e => rw [hp] at he; cases he
  | ok ps =>
    rw [hp] at he
    dsimp only at he ⊢
    rw [h.walksBelow hS hy] at he
    exact addLoop _ u w _ h hS (by simpa using hy) w1 he

end Sans

end Larch
