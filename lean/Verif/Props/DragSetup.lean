import Verif.Spec.DragSetup
import Verif.Props.DragDrop
import Verif.Props.Emit

/-!
# C71: setting up drag and drop
-/

namespace Larch

open Spec

variable {S F V : Type}

namespace Dnd

theorem run_snoc (cs : List (DndCall S F)) (c : DndCall S F) (d : Dnd S F) : run (cs ++ [c]) d = ((run cs d).call c).state := by
  unfold run
  rw [List.foldl_append]
  rfl

theorem lastName_name (cs : List (DndCall S F)) (s : Option S) : lastName (cs ++ [.name s]) = s := by
  unfold lastName
  rw [List.filterMap_append]
  simp

theorem lastName_external (cs : List (DndCall S F)) (s : S) (f : F) : lastName (cs ++ [.external s f]) = lastName cs := by
  unfold lastName
  rw [List.filterMap_append]
  simp

theorem registered_name (cs : List (DndCall S F)) (s : Option S) : registered (cs ++ [.name s]) = registered cs := by
  unfold registered
  rw [List.filterMap_append]
  simp

theorem registered_external (cs : List (DndCall S F)) (s : S) (f : F) : registered (cs ++ [.external s f]) = registered cs ++ [(s, f)] := by
  unfold registered
  rw [List.filterMap_append]
  simp

theorem namings_name (cs : List (DndCall S F)) (s : Option S) : namings (cs ++ [.name s]) = namings cs + if s.isSome then 1 else 0 := by
  unfold namings
  rw [List.filter_append, List.length_append]
  cases s <;> rfl

theorem namings_external (cs : List (DndCall S F)) (s : S) (f : F) : namings (cs ++ [.external s f]) = namings cs := by
  unfold namings
  rw [List.filter_append, List.length_append]
  rfl

/-- The list that GTK should have. -/
def full (s : S) (l : List (S × F)) : List (S × Bool × Nat) :=
  (s, true, 0) :: ((List.range' 1 l.length).zip l).map fun t => (t.2.1, false, t.1)

theorem run_all (cs : List (DndCall S F)) : (run cs {}).name = lastName cs ∧ (run cs {}).externals = (List.range' 1 (registered cs).length).zip (registered cs) ∧
    (run cs {}).handlers = namings cs ∧ ∀ s, lastName cs = some s → (run cs {}).offered = full s (registered cs) := by
  induction cs using List.reverseRecOn with
  | nil => exact ⟨rfl, rfl, rfl, fun s h => by cases h⟩
  | append_singleton cs c ih =>
    obtain ⟨h1, h2, h3, h4⟩ := ih
    rw [run_snoc]
    cases c with
    | name s =>
      rw [lastName_name, registered_name, namings_name]
      unfold call init
      cases s with
      | none => exact ⟨rfl, h2, h3, fun s h => by cases h⟩
      | some s =>
        refine ⟨rfl, h2, congrArg (· + 1) h3, fun s' h => ?_⟩
        cases h
        show (s, true, 0) :: (run cs {}).externals.map _ = _
        rw [h2]
        rfl
    | external s f =>
      rw [lastName_external, registered_external, namings_external]
      have hadd : (run cs {}).externals.add (s, f) =
          (List.range' 1 (registered cs ++ [(s, f)]).length).zip (registered cs ++ [(s, f)]) := by
        rw [h2, ← targets_numbered, ← targets_numbered, List.foldl_append]
        rfl
      unfold call init
      dsimp only
      rw [h1]
      cases hn : lastName cs with
      | none => exact ⟨rfl, hadd, h3, fun s h => by cases h⟩
      | some s' =>
        refine ⟨rfl, hadd, h3, fun s'' h => ?_⟩
        cases h
        show (s', true, 0) :: ((run cs {}).externals.add (s, f)).map _ = _
        rw [hadd]
        rfl

theorem zip_find {β : Type} (l : List β) (k : Nat) (b : β) (hk : l[k]? = some b) :
    ((List.range' 1 l.length).zip l).find? (fun t => decide (t.1 = k + 1)) = some (k + 1, b) := by
  obtain ⟨hk1, hk2⟩ := List.getElem?_eq_some_iff.1 hk
  have hm : (k + 1, b) ∈ (List.range' 1 l.length).zip l := by
    rw [List.mem_iff_getElem]
    refine ⟨k, by simpa using hk1, ?_⟩
    rw [List.getElem_zip, List.getElem_range', hk2]
    congr 1
    omega
  cases e : ((List.range' 1 l.length).zip l).find? (fun t => decide (t.1 = k + 1)) with
  | none =>
    have := List.find?_eq_none.1 e (k + 1, b) hm
    simp at this
  | some t =>
    have h1 := List.mem_of_find?_eq_some e
    have h2 : t.1 = k + 1 := by simpa using List.find?_some e
    obtain ⟨j, hj, hjt⟩ := List.mem_iff_getElem.1 h1
    rw [List.getElem_zip, List.getElem_range'] at hjt
    have h3 : 1 + 1 * j = k + 1 := by rw [← hjt] at h2; exact h2
    have : j = k := by omega
    subst this
    rw [← hjt, hk2]
    congr 2

theorem find_name [DecidableEq S] : ∀ (l : List (S × F)) (i k : Nat) (s : S) (f : F), (l.map Prod.fst).Nodup → l[k]? = some (s, f) →
    (((List.range' i l.length).zip l).map fun t => ((t.2.1, false, t.1) : S × Bool × Nat)).find? (fun t => decide (t.1 = s)) = some (s, false, i + k) := by
  intro l
  induction l with
  | nil => intro i k s f _ h; simp at h
  | cons p l ih =>
    intro i k s f hnd h
    rw [List.map_cons, List.nodup_cons] at hnd
    rw [List.length_cons, List.range'_succ, List.zip_cons_cons, List.map_cons, List.find?_cons]
    cases k with
    | zero => cases h; simp
    | succ k =>
      rw [List.getElem?_cons_succ] at h
      have hne : ¬ p.1 = s := by
        rintro rfl
        exact hnd.1 (List.mem_map.2 ⟨_, List.mem_of_getElem? h, rfl⟩)
      dsimp only
      rw [decide_eq_false hne]
      have := ih (i + 1) k s f hnd.2 h
      rw [this, show i + 1 + k = i + (k + 1) by omega]

end Dnd

open Dnd

/-- **C71**, which calls raise: exactly those after which the widget has no name of its own. -/
theorem C71_raises (cs : List (DndCall S F)) (c : DndCall S F) : (((run cs {}).call c).isOk = true ↔ lastName (cs ++ [c]) ≠ none) := by
  obtain ⟨h1, -⟩ := run_all cs
  cases c with
  | name s =>
    rw [lastName_name]
    unfold call init
    cases s <;> simp [Res.isOk, Res.andThen]
  | external s f =>
    rw [lastName_external, ← h1]
    unfold call init
    dsimp only
    cases (run cs {}).name <;> simp [Res.isOk]

/-- **C71** (partial): whatever is called in whatever order, if the last name is no empty string, GTK accepts rows of the widget itself, and each registered
source under a number of its own, which leads to the function registered for it; and it accepts nothing else.

Missing: the same name registered twice (`C71_refuted_again`). -/
theorem C71_sources_partial [DecidableEq S] (cs : List (DndCall S F)) (n : S) (hn : lastName cs = some n)
    (hnd : (n :: (registered cs).map Prod.fst).Nodup) :
    (run cs {}).info n = some 0 ∧
    (∀ s f, (s, f) ∈ registered cs → ∃ k, k ≠ 0 ∧ (run cs {}).info s = some k ∧ (run cs {}).function k = some f) ∧
    (∀ s s' k, (run cs {}).info s = some k → (run cs {}).info s' = some k → s = s') ∧
    ∀ s, s ≠ n → (∀ f, (s, f) ∉ registered cs) → (run cs {}).info s = none := by
  obtain ⟨-, h2, -, h4⟩ := run_all cs
  rw [List.nodup_cons] at hnd
  have hoff := h4 n hn
  have hkey : ∀ k s f, (registered cs)[k]? = some (s, f) → (run cs {}).info s = some (k + 1) ∧ (run cs {}).function (k + 1) = some f := by
    intro k s f hk
    have hne : ¬ n = s := by
      rintro rfl
      exact hnd.1 (List.mem_map.2 ⟨_, List.mem_of_getElem? hk, rfl⟩)
    constructor
    · unfold info
      rw [hoff]
      unfold full
      rw [List.find?_cons]
      dsimp only
      rw [decide_eq_false hne]
      dsimp only
      rw [find_name _ 1 k s f hnd.2 hk, Nat.add_comm]
      rfl
    · unfold function
      rw [h2, zip_find _ k _ hk]
      rfl
  have h0 : (run cs {}).info n = some 0 := by
    unfold info
    rw [hoff]
    unfold full
    rw [List.find?_cons]
    simp
  have hnone : ∀ s, s ≠ n → (∀ f, (s, f) ∉ registered cs) → (run cs {}).info s = none := by
    intro s hs hf
    unfold info
    rw [hoff, Option.map_eq_none_iff, List.find?_eq_none]
    intro t ht
    unfold full at ht
    rcases List.mem_cons.1 ht with rfl | ht
    · simpa using Ne.symm hs
    · obtain ⟨⟨k, s', f⟩, hm, rfl⟩ := List.mem_map.1 ht
      have := (List.of_mem_zip hm).2
      simp only [decide_eq_true_eq]
      rintro rfl
      exact hf f this
  have hcase : ∀ s k, (run cs {}).info s = some k → (s = n ∧ k = 0) ∨ ∃ f j, (registered cs)[j]? = some (s, f) ∧ k = j + 1 := by
    intro s k hk
    by_cases hs : s = n
    · subst hs
      rw [h0] at hk
      cases hk
      exact Or.inl ⟨rfl, rfl⟩
    · by_cases hf : ∃ f, (s, f) ∈ registered cs
      · obtain ⟨f, hf⟩ := hf
        obtain ⟨j, hj, e⟩ := List.mem_iff_getElem.1 hf
        have hj' : (registered cs)[j]? = some (s, f) := by rw [List.getElem?_eq_getElem hj, e]
        rw [(hkey j s f hj').1] at hk
        cases hk
        exact Or.inr ⟨f, j, hj', rfl⟩
      · rw [hnone s hs fun f hh => hf ⟨f, hh⟩] at hk
        cases hk
  refine ⟨h0, ?_, ?_, hnone⟩
  · intro s f hf
    obtain ⟨j, hj, e⟩ := List.mem_iff_getElem.1 hf
    exact ⟨j + 1, by omega, hkey j s f (by rw [List.getElem?_eq_getElem hj, e])⟩
  · intro s s' k hk hk'
    rcases hcase s k hk with ⟨rfl, rfl⟩ | ⟨f, j, hj, rfl⟩
    · rcases hcase s' 0 hk' with ⟨rfl, -⟩ | ⟨f, j, hj, h⟩
      · rfl
      · omega
    · rcases hcase s' _ hk' with ⟨-, h⟩ | ⟨f', j', hj', h⟩
      · omega
      · have : j' = j := by omega
        subst this
        rw [hj] at hj'
        cases hj'
        rfl

theorem text_read {O : GtkOrder} {rows : List GRow} {selected : List Nat} {text : List (List Nat)} (h : SentAs O rows selected text) :
    text.filterMap (fun p => Widget.descend O rows none p) = selected := by
  rcases h with ⟨rfl, rfl⟩ | ⟨-, h⟩
  · rfl
  · induction h with
    | nil => rfl
    | cons h1 _ ih => rw [List.filterMap_cons, leads_descend h1]; dsimp only; rw [ih]

/-- **C71** (partial): a name was given once, with whatever calls around it; then the rows that are dragged, sent as strings and read again, are dropped once, and
what happens is what C50 is about.

Missing: a name that is given twice (`C71_refuted_twice`). -/
theorem C71_drop_partial (cs : List (DndCall S F)) (h : namings cs = 1) (diff : List Id → List Id → List Id) (O : GtkOrder) (alloc : Nat → Nat)
    (w : Screen V) (selected : List Nat) (text : List (List Nat)) (ht : SentAs O w.tm.rows selected text) (at_ : Option (Nat × DropPos)) :
    w.received diff O alloc text at_ (run cs {}).handlers = w.drop diff O alloc selected at_ := by
  rw [(run_all cs).2.2.1, h]
  show w.dropText diff O alloc text at_ = _
  unfold Screen.dropText Screen.drop
  rw [text_read ht, wire_rows]

/-- Every selection can be sent. -/
theorem C71_sendable {O : GtkOrder} {order : List GRow → Option Nat → List Nat} (hO : GtkOrdered O order) (rows : List GRow) (sel : List GRow)
    (h : ∀ r ∈ sel, ∃ l, RowPath rows r.addr l) : ∃ text, SentAs O rows (sel.map GRow.addr) text := by
  by_cases hne : sel = []
  · subst hne; exact ⟨[[]], Or.inl ⟨rfl, rfl⟩⟩
  · suffices H : ∃ text, List.Forall₂ (fun a p => Leads O rows p a) (sel.map GRow.addr) text by
      obtain ⟨text, H⟩ := H
      exact ⟨text, Or.inr ⟨by simpa using hne, H⟩⟩
    clear hne
    induction sel with
    | nil => exact ⟨[], .nil⟩
    | cons r sel ih =>
      obtain ⟨text, H⟩ := ih fun r hr => h r (by simp [hr])
      obtain ⟨l, hl⟩ := h r (by simp)
      obtain ⟨p, hp, -⟩ := C59_reachable hO hl
      exact ⟨p :: text, .cons hp H⟩

/-- A source is registered before the name is given: the first call raises, and yet the source is accepted in the end. -/
def dndCalls : List (DndCall Nat Nat) := [.external 5 50, .name (some 1), .external 6 60]

example : ((run [] {}).call (dndCalls.headD (.name none))).isOk = false ∧ (run dndCalls {}).info 1 = some 0 ∧
    (∃ k, k ≠ 0 ∧ (run dndCalls {}).info 5 = some k ∧ (run dndCalls {}).function k = some 50) ∧ (run dndCalls {}).info 7 = none :=
  let h := C71_sources_partial dndCalls 1 rfl (by decide)
  ⟨rfl, h.1, h.2.1 5 50 (by decide), h.2.2.2 7 (by decide) (fun f => by simp [dndCalls, registered])⟩

example : (((run dndCalls {}).call (.external 7 70)).isOk = true ∧ lastName (dndCalls ++ [.external 7 70]) = some 1) ∧
    ((run dndCalls {}).call (.name none)).isOk = false :=
  ⟨⟨(C71_raises dndCalls (.external 7 70)).2 (by decide), rfl⟩, rfl⟩

example : SentAs byInsertion (dropScreen id).tm.rows [1] [[0, 0]] ∧ (dropScreen id).received someDiff byInsertion id [[0, 0]] none (run dndCalls {}).handlers =
    (dropScreen id).drop someDiff byInsertion id [1] none ∧
    ((dropScreen id).drop someDiff byInsertion id [1] none).app.s.t.getParents (.str 3) = [.str 1] := by
  have h : SentAs byInsertion (dropScreen id).tm.rows [1] [[0, 0]] :=
    Or.inr ⟨by decide, .cons (.under (path := [0]) (p := 0) (.top (by decide)) (by decide)) .nil⟩
  exact ⟨h, C71_drop_partial dndCalls rfl _ _ _ _ _ _ h none, by decide⟩

/-- **A name that is given twice drops twice**: 2 and 3 are below 1; 2 is dragged to the empty space below the rows. The second handler reads
the position of 2 again, where 3 is by then, and 3 is moved as well. -/
theorem C71_refuted_twice : ∃ (cs : List (DndCall Nat Nat)) (w : Screen Nat) (text : List (List Nat)),
    (∀ k, ((run (cs.take k) {}).call (cs[k]?.getD (.name (some 1)))).isOk = true) ∧ lastName cs = some 1 ∧
    Reached someDiff byInsertion id w ∧ SentAs byInsertion w.tm.rows [1] text ∧ w.tm.value 1 = some (.str 2) ∧
    w.app.s.t.getParents (.str 3) = [.str 1] ∧
    (w.received someDiff byInsertion id text none (run cs {}).handlers).app.s.t.getParents (.str 3) = [] := by
  refine ⟨[.name (some 1), .name (some 1)], _, [[0, 0]], fun k => ?_, rfl, dropScreen_reached id [] trivial, ?_, by decide, by decide, by decide⟩
  · match k with
    | 0 => rfl
    | 1 => rfl
    | k + 2 => rfl
  · exact Or.inr ⟨by decide, .cons (.under (path := [0]) (p := 0) (.top (by decide)) (by decide)) .nil⟩

/-- **A source that is registered again keeps its old function.** -/
theorem C71_refuted_again : ∃ cs : List (DndCall Nat Nat), lastName cs = some 1 ∧ (registered cs).getLast? = some (5, 51) ∧
    ∃ k, (run cs {}).info 5 = some k ∧ (run cs {}).function k = some 50 :=
  ⟨[.name (some 1), .external 5 50, .external 5 51], rfl, rfl, 1, rfl, rfl⟩

end Larch
