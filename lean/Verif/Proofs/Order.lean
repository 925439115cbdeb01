import Verif.Spec.Order
import Verif.Proofs.ViewRead
import Verif.Proofs.TreeModel
import Verif.Props.DragDrop

/-!
# Siblings are announced in the order of the view
-/

namespace Larch

open Spec
open scoped List

/-- Two lists without repetition and with the same members are the same if no two members are swapped. -/
theorem eq_of_not_swapped : ∀ {K L : List Id}, K.Nodup → L.Nodup → (∀ x, x ∈ L ↔ x ∈ K) →
    L.Pairwise (fun a b => ¬ [b, a] <+ K) → L = K
  | [], L, _, _, hm, _ => List.eq_nil_iff_forall_not_mem.2 fun x hx => absurd ((hm x).1 hx) (by simp)
  | k :: K, L, hK, hL, hm, hp => by
    rw [List.nodup_cons] at hK
    cases L with
    | nil => exact absurd ((hm k).2 (by simp)) (by simp)
    | cons a L =>
      rw [List.nodup_cons] at hL
      rw [List.pairwise_cons] at hp
      have hak : a = k := by
        by_contra hne
        have hkL : k ∈ L := by
          rcases List.mem_cons.1 ((hm k).2 (by simp)) with h | h
          · exact absurd h.symm hne
          · exact h
        have haK : a ∈ K := by
          rcases List.mem_cons.1 ((hm a).1 (by simp)) with h | h
          · exact absurd h hne
          · exact h
        exact hp.1 k hkL (List.Sublist.cons_cons k (List.singleton_sublist.2 haK))
      subst hak
      rw [eq_of_not_swapped hK.2 hL.2 (fun x => ?_) (hp.2.imp fun h h' => h (h'.cons _))]
      constructor
      · intro hx
        rcases List.mem_cons.1 ((hm x).1 (List.mem_cons_of_mem _ hx)) with rfl | h
        · exact absurd hx hL.1
        · exact h
      · intro hx
        rcases List.mem_cons.1 ((hm x).2 (List.mem_cons_of_mem _ hx)) with rfl | h
        · exact absurd hx hK.1
        · exact h

theorem snoc_of_some {l r : List Id} {x : Id} (h : (if l.dropLast = r then l.getLast? else none) = some x) : l = r ++ [x] := by
  split at h
  · next e =>
    obtain ⟨s, rfl⟩ := List.getLast?_eq_some_iff.1 h
    rw [← e, List.dropLast_concat]
  · cases h

theorem mem_seenBelow {rows : List (List Id)} {r : List Id} {x : Id} : x ∈ seenBelow rows r ↔ r ++ [x] ∈ rows := by
  unfold seenBelow
  rw [List.mem_filterMap]
  constructor
  · rintro ⟨l, hl, h⟩
    rw [← snoc_of_some h]
    exact List.mem_reverse.1 hl
  · intro h
    exact ⟨_, List.mem_reverse.2 h, by rw [List.dropLast_concat, if_pos rfl, List.getLast?_concat]⟩

theorem seenBelow_nodup {rows : List (List Id)} (h : rows.Nodup) (r : List Id) : (seenBelow rows r).Nodup := by
  unfold seenBelow
  refine (List.nodup_reverse.2 h).filterMap fun l l' x hx hx' => ?_
  rw [snoc_of_some hx, snoc_of_some hx']

/-- The rows of an observer below a row are the children of its node. -/
theorem seenBelow_eq {ft : FT} {rows : List (List Id)} (hK : ∀ x, (ft.view.kids x).Nodup) (hn : rows.Nodup)
    (hm : ∀ l, l ∈ rows ↔ IsRow ft l) (ho : InOrder (ft.view.under ft.root) rows) {r : List Id} (hr : r = [] ∨ r ∈ rows) :
    seenBelow rows r = ft.view.kids (r.getLast?.getD ft.root) := by
  refine eq_of_not_swapped (hK _) (seenBelow_nodup hn r) (fun x => ?_) ?_
  · rw [mem_seenBelow, hm, isRow_snoc]
    rw [hm] at hr
    exact ⟨fun h => h.2, fun h => ⟨hr, h⟩⟩
  · unfold seenBelow
    rw [List.pairwise_filterMap, List.pairwise_reverse]
    refine ho.imp fun {new old} h a ha b hb => ?_
    exact h r a b (snoc_of_some ha) (snoc_of_some hb)

theorem allChildren_of_has {ft : FT} {x : Id} (h : ft.view.has (ft.orRoot x) = true) :
    ft.allChildren x = .ok (ft.view.kids (ft.orRoot x)) := by
  obtain ⟨n, hn⟩ := View.get_of_has h
  unfold FT.allChildren
  rw [hn, View.kids_of_get hn]

theorem nthChild_of_has {ft : FT} {x : Id} (h : ft.view.has x = true) (n : Nat) (c : Id) :
    ft.nthChild x n = .ok c ↔ (ft.view.kids x)[n]? = some c := by
  obtain ⟨m, hm⟩ := View.get_of_has h
  unfold FT.nthChild
  rw [hm, View.kids_of_get hm]
  dsimp only
  cases h : m.children[n]? with
  | none => simp
  | some d => simp

theorem isRow_has {ft : FT} (h : ViewOK ft) {r : List Id} {x : Id} (hr : IsRow ft (r ++ [x])) : ft.view.has x = true :=
  h.shown _ _ ((isRow_snoc ft r x).1 hr).2

theorem sameOrder_of {ft : FT} {rows : List (List Id)} (h : ViewOK ft) (hn : rows.Nodup)
    (hm : ∀ l, l ∈ rows ↔ IsRow ft l) (ho : InOrder (ft.view.under ft.root) rows) : SameOrder ft rows := by
  have hb := @seenBelow_eq ft rows h.children_once hn hm ho
  have hroot : ft.orRoot .none = ft.root := if_pos rfl
  refine ⟨?_, ?_, ?_, ?_⟩
  · rw [allChildren_of_has (by rw [hroot]; exact h.root), hroot, hb (Or.inl rfl)]; rfl
  · intro r x hr hx
    have e : ft.orRoot x = x := if_neg hx
    rw [allChildren_of_has (by rw [e]; exact isRow_has h ((hm _).1 hr)), e, hb (Or.inr hr), List.getLast?_concat]; rfl
  · intro n c
    rw [nthChild_of_has h.root, hb (Or.inl rfl)]; rfl
  · intro r x n c hr
    rw [nthChild_of_has (isRow_has h ((hm _).1 hr)), hb (Or.inr hr), List.getLast?_concat]; rfl

/-- The rows of the store below a row, when the rows of the store are those of the observer in the same order. -/
theorem TInv.storeBelow {m : TM} {rows : List (List Id)} {P : Nat → List Id} (h : TInv m rows P) {p : Option Nat}
    (hp : ∀ a, p = some a → ∃ q ∈ m.rows, q.addr = a) : storeBelow m.rows p = seenBelow rows (above P p).reverse := by
  unfold Spec.storeBelow seenBelow
  rw [← h.order, List.filterMap_map, ← List.filterMap_eq_map, List.filterMap_filter]
  refine List.filterMap_congr fun r hr => ?_
  have hpath : (P r.addr).reverse = (above P r.parent).reverse ++ [r.nid] := by rw [h.path r hr, List.reverse_cons]
  have hiff : r.parent = p ↔ (above P r.parent).reverse = (above P p).reverse := by
    constructor
    · intro e; rw [e]
    · intro e
      have e := List.reverse_injective e
      cases hrp : r.parent with
      | none =>
        cases p with
        | none => rfl
        | some a =>
          obtain ⟨q, hq, rfl⟩ := hp a rfl
          rw [hrp] at e
          have := h.path q hq
          rw [show above P (some q.addr) = P q.addr from rfl, this] at e
          cases e
      | some b =>
        obtain ⟨s, hs, rfl⟩ := h.live r hr b hrp
        rw [hrp] at e
        cases p with
        | none =>
          have := h.path s hs
          rw [show above P (some s.addr) = P s.addr from rfl, this] at e
          cases e
        | some a =>
          obtain ⟨q, hq, rfl⟩ := hp a rfl
          rw [h.inj s hs q hq e]
  show (if decide (r.parent = p) = true then some r.nid else none) =
    if (P r.addr).reverse.dropLast = (above P p).reverse then (P r.addr).reverse.getLast? else none
  simp only [hpath, List.dropLast_concat, List.getLast?_concat, ← hiff, decide_eq_true_eq]

theorem storeOrder_of {ft : FT} {rows : List (List Id)} {m : TM} {P : Nat → List Id} (hi : TInv m rows P) (h : SameOrder ft rows) :
    StoreOrder ft m.rows := by
  refine ⟨?_, fun r hr hn => ?_⟩
  · rw [hi.storeBelow (p := none) (fun a e => by cases e)]
    exact h.top
  · rw [hi.storeBelow (p := some r.addr) (fun a e => ⟨r, hr, by cases e; rfl⟩)]
    have e : (above P (some r.addr)).reverse = (above P r.parent).reverse ++ [r.nid] := by
      rw [show above P (some r.addr) = P r.addr from rfl, hi.path r hr, List.reverse_cons]
    rw [e]
    refine h.children _ _ ?_ hn
    rw [hi.img]
    exact ⟨r, hr, by rw [← e, List.reverse_reverse]; rfl⟩

end Larch
