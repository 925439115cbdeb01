import Verif.Proofs.Untouched
import Verif.Spec.Live

/-!
# Views that call their callbacks do what views do that only record signals
-/

namespace Larch

open Spec

variable {G : Id → Prop} {root : Id} {P : View → Sig → Prop}

/-- The outcome of an operation whose callbacks ended like `t`. -/
def Agrees {σ : Type} (r : Res (LView σ)) (t : Res σ) (v' : View) : Prop :=
  match t with
  | .ok a => r = .ok ⟨v', a⟩
  | .err e a => ∃ u, r = .err e ⟨u, a⟩

/-- All displayed nodes have the property, and the virtual root is below nothing. -/
structure All (G : Id → Prop) (root : Id) (v : View) : Prop where
  has : ∀ y, v.has y = true → y ≠ root → G y
  kids : ∀ p, root ∉ v.kids p
  pars : v.pars root = []

/-- The view loses nodes, children and parents at most. -/
theorem All.less {v v' : View} (h : All G root v) (hh : ∀ y, v'.has y = true → v.has y = true) (hk : ∀ p c, c ∈ v'.kids p → c ∈ v.kids p)
    (hp : ∀ p, p ∈ v'.pars root → p ∈ v.pars root) : All G root v' :=
  ⟨fun y hy => h.has y (hh y hy), fun p hc => h.kids p (hk p _ hc), List.eq_nil_iff_forall_not_mem.2 fun p hm => by
    have := hp p hm
    rw [h.pars] at this; cases this⟩

/-- The live operation `g` goes from `v` to `v'`, and its callbacks are called as `P` says; it raises only if they do. If the
displayed nodes have the property `G`, then those displayed afterwards and those signalled have it. -/
def Follows (G : Id → Prop) (root : Id) (P : View → Sig → Prop) (v v' : View) (g : (σ : Type) → Handler σ → LView σ → Res (LView σ)) : Prop :=
  ∃ tr : Calls, (∀ c ∈ tr, P c.1 c.2) ∧ v'.out = v.out ++ tr.map Prod.snd ∧
    (All G root v → All G root v' ∧ ∀ c ∈ tr, G c.2.nid) ∧
    ∀ (σ : Type) (cb : Handler σ) (a : σ), Agrees (g σ cb ⟨v, a⟩) (callAll cb tr a) v'

theorem callAll_append {σ : Type} (cb : Handler σ) (t1 t2 : Calls) (a : σ) :
    callAll cb (t1 ++ t2) a = (callAll cb t1 a).andThen (callAll cb t2) := by
  induction t1 generalizing a with
  | nil => rfl
  | cons c t1 ih =>
    show (cb c.1 c.2 a).andThen (fun a => callAll cb (t1 ++ t2) a) = ((cb c.1 c.2 a).andThen (fun a => callAll cb t1 a)).andThen (callAll cb t2)
    cases cb c.1 c.2 a with
    | err e s => rfl
    | ok s => exact ih s

theorem Follows.pure {v v' : View} {g : (σ : Type) → Handler σ → LView σ → Res (LView σ)} (ho : v'.out = v.out)
    (hk : All G root v → All G root v') (h : ∀ σ cb a, g σ cb ⟨v, a⟩ = .ok ⟨v', a⟩) : Follows G root P v v' g :=
  ⟨[], by simp, by simp [ho], fun hv => ⟨hk hv, by simp⟩, fun σ cb a => h σ cb a⟩

theorem Follows.andThen {v v1 v' : View} {g k : (σ : Type) → Handler σ → LView σ → Res (LView σ)} (h1 : Follows G root P v v1 g)
    (h2 : Follows G root P v1 v' k) : Follows G root P v v' (fun σ cb w => (g σ cb w).andThen (k σ cb)) := by
  obtain ⟨t1, p1, o1, k1, f1⟩ := h1
  obtain ⟨t2, p2, o2, k2, f2⟩ := h2
  refine ⟨t1 ++ t2, fun c hc => (List.mem_append.1 hc).elim (p1 c) (p2 c), by rw [o2, o1]; simp, fun hv => ⟨(k2 (k1 hv).1).1,
    fun c hc => (List.mem_append.1 hc).elim ((k1 hv).2 c) ((k2 (k1 hv).1).2 c)⟩, fun σ cb a => ?_⟩
  rw [callAll_append]
  have e1 := f1 σ cb a
  cases ht : callAll cb t1 a with
  | err e s =>
    rw [ht] at e1
    obtain ⟨u, hu⟩ := e1
    exact ⟨u, by show (g σ cb ⟨v, a⟩).andThen (k σ cb) = _; rw [hu]; rfl⟩
  | ok s =>
    rw [ht] at e1
    have e1' : g σ cb ⟨v, a⟩ = .ok ⟨v1, s⟩ := e1
    show Agrees ((g σ cb ⟨v, a⟩).andThen (k σ cb)) (callAll cb t2 s) v'
    rw [e1']
    exact f2 σ cb s

theorem Follows.congr {v v' : View} {g k : (σ : Type) → Handler σ → LView σ → Res (LView σ)} (h : Follows G root P v v' g)
    (e : ∀ σ cb a, k σ cb ⟨v, a⟩ = g σ cb ⟨v, a⟩) : Follows G root P v v' k := by
  obtain ⟨tr, p, o, k, f⟩ := h
  exact ⟨tr, p, o, k, fun σ cb a => by rw [e]; exact f σ cb a⟩

theorem Follows.forEach {α : Type} {body : α → View → Res View} {bodyL : (σ : Type) → Handler σ → α → LView σ → Res (LView σ)} :
    ∀ {l : List α} {v v' : View},
    (∀ x ∈ l, ∀ u u', body x u = .ok u' → Follows G root P u u' (fun σ cb => bodyL σ cb x)) → Res.forEach body l v = .ok v' →
    Follows G root P v v' (fun σ cb => Res.forEach (bodyL σ cb) l) := by
  intro l
  induction l with
  | nil => intro v v' _ h; cases h; exact Follows.pure rfl id (fun _ _ _ => rfl)
  | cons x l ih =>
    intro v v' hb h
    obtain ⟨v1, h1, h⟩ := andThen_eq_ok h
    exact ((hb x (by simp) v v1 h1).andThen (ih (fun y hy => hb y (by simp [hy])) h)).congr (fun _ _ _ => rfl)

theorem Follows.forEachInv {α : Type} (I : View → Prop) {body : α → View → Res View}
    {bodyL : (σ : Type) → Handler σ → α → LView σ → Res (LView σ)} : ∀ {l : List α} {v v' : View},
    (∀ x ∈ l, ∀ u u', I u → body x u = .ok u' → I u' ∧ Follows G root P u u' (fun σ cb => bodyL σ cb x)) → I v →
    Res.forEach body l v = .ok v' → Follows G root P v v' (fun σ cb => Res.forEach (bodyL σ cb) l) := by
  intro l
  induction l with
  | nil => intro v v' _ _ h; cases h; exact Follows.pure rfl id (fun _ _ _ => rfl)
  | cons x l ih =>
    intro v v' hb hi h
    obtain ⟨v1, h1, h⟩ := andThen_eq_ok h
    obtain ⟨i1, f1⟩ := hb x (by simp) v v1 hi h1
    exact (f1.andThen (ih (fun y hy => hb y (by simp [hy])) i1 h)).congr (fun _ _ _ => rfl)

/-! ### Sending -/

/-- `P` does not look at the signals sent before. -/
def OutFree (P : View → Sig → Prop) : Prop := ∀ u u' s, u.nodes = u'.nodes → P u s → P u' s

theorem send_calls (hP : OutFree P) {ev : SigEv} {x : Id} : ∀ {ps : List (List Id)} {v : View}, (∀ p ∈ ps, P v ⟨ev, x, p⟩) →
    ∃ tr : Calls, (∀ c ∈ tr, P c.1 c.2 ∧ c.2.nid = x) ∧ (v.send ev x ps).out = v.out ++ tr.map Prod.snd ∧
      ∀ (σ : Type) (cb : Handler σ) (a : σ), Agrees (LView.send cb ev x ps ⟨v, a⟩) (callAll cb tr a) (v.send ev x ps) := by
  intro ps
  induction ps with
  | nil => intro v _; exact ⟨[], by simp, by simp [View.send], fun _ _ _ => by simp [LView.send, View.send, callAll, Agrees, Res.forEach]⟩
  | cons p ps ih =>
    intro v h
    have e : v.send ev x (p :: ps) = (v.send ev x [p]).send ev x ps := by simp [View.send]
    rw [e]
    obtain ⟨tr, p1, o1, f1⟩ := ih (v := v.send ev x [p]) (fun q hq => hP v _ _ rfl (h q (by simp [hq])))
    refine ⟨(v, ⟨ev, x, p⟩) :: tr, ?_, ?_, fun σ cb a => ?_⟩
    · intro c hc
      rcases List.mem_cons.1 hc with rfl | hc
      · exact ⟨h p (by simp), rfl⟩
      · exact p1 c hc
    · rw [o1]; simp [View.send]
    · show Agrees (LView.send cb ev x (p :: ps) ⟨v, a⟩) ((cb v ⟨ev, x, p⟩ a).andThen (callAll cb tr)) _
      unfold LView.send
      dsimp only
      cases cb v ⟨ev, x, p⟩ a with
      | err e s => exact ⟨v, rfl⟩
      | ok s => exact f1 σ cb s

theorem send_follows (hP : OutFree P) {ev : SigEv} {x : Id} {ps : List (List Id)} {v : View} (h : ∀ p ∈ ps, P v ⟨ev, x, p⟩)
    (hg : All G root v → G x) : Follows G root P v (v.send ev x ps) (fun _ cb => LView.send cb ev x ps) := by
  obtain ⟨tr, p, o, f⟩ := send_calls hP h
  exact ⟨tr, fun c hc => (p c hc).1, o, fun hv => ⟨⟨hv.has, hv.kids, hv.pars⟩, fun c hc => by rw [(p c hc).2]; exact hg hv⟩, f⟩

theorem seen_outFree (root : Id) : OutFree (Seen root) := by
  intro u u' s e h
  have hk : ∀ p, u'.kids p = u.kids p := fun p => by unfold View.kids; rw [e]
  refine ⟨h.node, fun hd => ?_, fun hd => ?_⟩
  · have := h.shown hd
    unfold View.has at this ⊢
    rw [← e]; exact this
  · have := h.row hd
    unfold RowNow at this ⊢
    simpa only [hk] using this

theorem paths_chain {root : Id} {v : View} : ∀ {f : Nat} {p : Id} {ps : List (List Id)}, v.pathsFuel root f p = .ok ps →
    (p = root ∨ v.has p = true) → ∀ l ∈ ps, List.IsChain (fun p c => c ∈ v.kids p) (root :: l) ∧ (root :: l).getLast? = some p := by
  intro f
  induction f with
  | zero => intro p ps h; cases h
  | succ f ih =>
    intro p ps h hp l hl
    unfold View.pathsFuel at h
    split at h
    · rename_i hc
      cases h
      have : l = [] := by simpa using hl
      subst this
      rcases hp with rfl | hp
      · exact ⟨List.IsChain.singleton _, rfl⟩
      · rcases hc with rfl | hc
        · exact ⟨List.IsChain.singleton _, rfl⟩
        · rw [hp] at hc; cases hc
    · obtain ⟨q, -, ys, h1, h2⟩ := collect_mem h l hl
      split at h1
      · cases h1
      rename_i hq
      split at h1
      · cases h1
      rename_i hk
      split at h1
      · cases h1
      · rename_i zs hz
        cases h1
        obtain ⟨l', hl', rfl⟩ := List.mem_map.1 h2
        obtain ⟨c1, c2⟩ := ih hz (Or.inr (by simpa using hq)) l' hl'
        refine ⟨?_, by rw [← List.cons_append, List.getLast?_append]; rfl⟩
        rw [← List.cons_append, List.isChain_append]
        refine ⟨c1, List.IsChain.singleton _, ?_⟩
        intro a ha b hb
        rw [c2] at ha
        cases ha
        cases hb
        simpa using hk

theorem addLoop_follows {root p : Id} {starts : List (List Id)} (f : Nat) : ∀ {v v' : View} {q : List (Id × List Id)},
    (∀ l ∈ starts, List.IsChain (fun p c => c ∈ v.kids p) (root :: l) ∧ (root :: l).getLast? = some p) →
    (∀ i ∈ q, i.2.getLast? = some i.1 ∧ List.IsChain (fun p c => c ∈ v.kids p) (p :: i.2)) →
    (All G root v → ∀ i ∈ q, i.1 ≠ root) →
    View.addLoop starts f v q = .ok v' → Follows G root (Seen root) v v' (fun _ cb w => LView.addLoop cb starts f w q) := by
  induction f with
  | zero =>
    intro v v' q _ _ _ h
    cases q with
    | nil => unfold View.addLoop at h; cases h; exact Follows.pure rfl id (fun _ _ _ => by unfold LView.addLoop; rfl)
    | cons i q => unfold View.addLoop at h; cases h
  | succ f ih =>
    intro v v' q hs hq hqr h
    cases q with
    | nil => unfold View.addLoop at h; cases h; exact Follows.pure rfl id (fun _ _ _ => by unfold LView.addLoop; rfl)
    | cons i q =>
      obtain ⟨y, rel⟩ := i
      unfold View.addLoop at h
      dsimp only at h
      cases hn : v.nodes.get? y with
      | none => rw [hn] at h; cases h
      | some n =>
        rw [hn] at h
        dsimp only at h
        obtain ⟨q1, q2⟩ := hq (y, rel) (by simp)
        dsimp only at q1 q2
        have hne : rel ≠ [] := by rintro rfl; cases q1
        have h1 := send_follows (G := G) (seen_outFree root) (ev := .added) (x := y) (ps := starts.map (· ++ rel)) (v := v) (by
          intro l hl
          obtain ⟨s, hs', rfl⟩ := List.mem_map.1 hl
          obtain ⟨c1, c2⟩ := hs s hs'
          refine ⟨by rw [List.getLast?_append]; simp [q1], fun _ => (Dict.has_iff _ _).2 ⟨n, hn⟩, fun _ => ⟨by simp [hne], ?_⟩⟩
          show List.IsChain _ (root :: (s ++ rel))
          rw [← List.cons_append, List.isChain_append]
          refine ⟨c1, (List.isChain_cons.1 q2).2, ?_⟩
          intro a ha b hb
          rw [c2] at ha
          cases ha
          exact (List.isChain_cons.1 q2).1 b hb) (fun hv => hv.has y ((Dict.has_iff _ _).2 ⟨n, hn⟩) (hqr hv (y, rel) (by simp)))
        have h2 := ih (v := v.send .added y (starts.map (· ++ rel))) hs (by
          intro i hi
          rcases List.mem_append.1 hi with hi | hi
          · exact hq i (by simp [hi])
          · obtain ⟨c, hc, rfl⟩ := List.mem_map.1 hi
            refine ⟨by simp, ?_⟩
            show List.IsChain _ (p :: (rel ++ [c]))
            rw [← List.cons_append, List.isChain_append]
            refine ⟨q2, List.IsChain.singleton _, ?_⟩
            intro a ha b hb
            rw [List.getLast?_cons_of_ne_nil hne, q1] at ha
            cases ha
            cases hb
            show c ∈ v.kids y
            rw [View.kids_of_get hn]; exact hc) (by
          intro hv i hi
          have hv' : All G root v := ⟨hv.has, hv.kids, hv.pars⟩
          rcases List.mem_append.1 hi with hi | hi
          · exact hqr hv' i (by simp [hi])
          · obtain ⟨c, hc, rfl⟩ := List.mem_map.1 hi
            rintro rfl
            exact hv'.kids y (by rw [View.kids_of_get hn]; exact hc)) h
        have h3 : Follows G root (Seen root) (v.send .added y (starts.map (· ++ rel))) v' (fun _ cb w =>
            match w.view.nodes.get? y with
            | none => Res.err .keyError w
            | some n => LView.addLoop cb starts f w (q ++ n.children.map (fun c => (c, rel ++ [c])))) :=
          h2.congr (fun σ cb a => by
            show (match v.nodes.get? y with
              | none => Res.err .keyError _
              | some n => LView.addLoop cb starts f _ (q ++ n.children.map (fun c => (c, rel ++ [c])))) = _
            rw [hn])
        exact (h1.andThen h3).congr (fun σ cb a => by
          show LView.addLoop cb starts (f + 1) ⟨v, a⟩ ((y, rel) :: q) = _
          rw [LView.addLoop]
          rfl)

theorem removeLoop_follows {root : Id} {starts : List (List Id)} (f : Nat) : ∀ {v v' : View} {q : List (Id × List Id × Bool)},
    (∀ i ∈ q, i.2.1.getLast? = some i.1 ∧ (i.2.2 = false → v.has i.1 = true)) →
    (All G root v → ∀ i ∈ q, i.1 ≠ root) → View.removeLoop starts f v q = .ok v' →
    Follows G root (Seen root) v v' (fun _ cb w => LView.removeLoop cb starts f w q) := by
  induction f with
  | zero =>
    intro v v' q _ _ h
    cases q with
    | nil => unfold View.removeLoop at h; cases h; exact Follows.pure rfl id (fun _ _ _ => by unfold LView.removeLoop; rfl)
    | cons i q => unfold View.removeLoop at h; cases h
  | succ f ih =>
    intro v v' q hq hqr h
    cases q with
    | nil => unfold View.removeLoop at h; cases h; exact Follows.pure rfl id (fun _ _ _ => by unfold LView.removeLoop; rfl)
    | cons i q =>
      obtain ⟨y, rel, first⟩ := i
      obtain ⟨q1, q2⟩ : rel.getLast? = some y ∧ (first = false → v.has y = true) := hq (y, rel, first) (by simp)
      unfold View.removeLoop at h
      cases first with
      | true =>
        rw [if_pos rfl] at h
        cases hn : v.nodes.get? y with
        | none => rw [hn] at h; cases h
        | some n =>
          rw [hn] at h
          refine (ih ?_ ?_ h).congr (fun σ cb a => ?_)
          · intro i hi
            rcases List.mem_append.1 hi with hi | hi
            · obtain ⟨c, -, rfl⟩ := List.mem_map.1 (List.mem_reverse.1 hi)
              simp
            · rcases List.mem_cons.1 hi with rfl | hi
              · exact ⟨q1, fun _ => (Dict.has_iff _ _).2 ⟨n, hn⟩⟩
              · exact hq i (by simp [hi])
          · intro hv i hi
            rcases List.mem_append.1 hi with hi | hi
            · obtain ⟨c, hc, rfl⟩ := List.mem_map.1 (List.mem_reverse.1 hi)
              rintro rfl
              exact hv.kids y (by rw [View.kids_of_get hn]; exact hc)
            · rcases List.mem_cons.1 hi with rfl | hi
              · exact hqr hv (y, rel, true) (by simp)
              · exact hqr hv i (by simp [hi])
          · show LView.removeLoop cb starts (f + 1) ⟨v, a⟩ ((y, rel, true) :: q) = _
            rw [LView.removeLoop, if_pos rfl]
            dsimp only
            rw [hn]
      | false =>
        rw [if_neg (by simp)] at h
        have h1 := send_follows (G := G) (seen_outFree root) (ev := .deleted) (x := y) (ps := starts.map (· ++ rel)) (v := v) (by
          intro l hl
          obtain ⟨s, hs', rfl⟩ := List.mem_map.1 hl
          exact ⟨by rw [List.getLast?_append]; simp [q1], fun hd => absurd rfl hd, fun hd => absurd rfl hd⟩)
          (fun hv => hv.has y (q2 rfl) (hqr hv (y, rel, false) (by simp)))
        refine (h1.andThen (ih (fun i hi => hq i (by simp [hi])) (fun hv i hi => hqr ⟨hv.has, hv.kids, hv.pars⟩ i (by simp [hi])) h)).congr (fun σ cb a => ?_)
        show LView.removeLoop cb starts (f + 1) ⟨v, a⟩ ((y, rel, false) :: q) = _
        rw [LView.removeLoop, if_neg (by simp)]

theorem sendAdd_follows {root x p : Id} {v v' : View} (hp : p = root ∨ v.has p = true) (hx : x ∈ v.kids p)
    (h : v.sendAdd root x p = .ok v') : Follows G root (Seen root) v v' (fun _ cb w => w.sendAdd cb root x p) := by
  unfold View.sendAdd at h
  cases hs : v.paths root p with
  | error e => rw [hs] at h; cases h
  | ok starts =>
    rw [hs] at h
    refine (addLoop_follows (root := root) (p := p) _ (fun l hl => paths_chain hs hp l hl) ?_ ?_ h).congr (fun σ cb a => ?_)
    · intro i hi
      have : i = (x, [x]) := by simpa using hi
      subst this
      exact ⟨rfl, List.isChain_cons.2 ⟨fun b hb => by cases hb; exact hx, List.IsChain.singleton _⟩⟩
    · intro hv i hi
      have : i = (x, [x]) := by simpa using hi
      subst this
      rintro rfl
      exact hv.kids p hx
    · show LView.sendAdd cb root ⟨v, a⟩ x p = _
      unfold LView.sendAdd
      dsimp only
      rw [hs]

theorem sendRemove_follows {root x p : Id} {v v' : View} (hr : All G root v → x ≠ root)
    (h : v.sendRemove root x p = .ok v') : Follows G root (Seen root) v v' (fun _ cb w => w.sendRemove cb root x p) := by
  unfold View.sendRemove at h
  cases hs : v.paths root p with
  | error e => rw [hs] at h; cases h
  | ok starts =>
    rw [hs] at h
    refine (removeLoop_follows (root := root) _ ?_ ?_ h).congr (fun σ cb a => ?_)
    · intro i hi
      have : i = (x, [x], true) := by simpa using hi
      subst this
      exact ⟨rfl, by simp⟩
    · intro hv i hi
      have : i = (x, [x], true) := by simpa using hi
      subst this
      exact hr hv
    · show LView.sendRemove cb root ⟨v, a⟩ x p = _
      unfold LView.sendRemove
      dsimp only
      rw [hs]

theorem dropKid_follows {p x : Id} {v v' : View} (h : v.dropKid p x = .ok v') : Follows G root P v v' (fun _ _ w => w.dropKid p x) :=
  Follows.pure (by obtain ⟨-, rfl⟩ := dropKid_inv h; rfl)
    (fun hv => by
      obtain ⟨-, rfl⟩ := dropKid_inv h
      exact hv.less (fun y hy => by rw [View.has_upd] at hy; exact hy) (fun q c hc => View.kids_drop hc)
        (fun q hq => by rw [View.pars_updKids v p (fun l => l.erase x)] at hq; exact hq)) (fun _ _ _ => by unfold LView.dropKid; dsimp only; rw [h])

theorem View.pars_drop {v : View} {p x q c : Id} (h : c ∈ (v.upd p fun n => { n with parents := n.parents.erase x }).pars q) :
    c ∈ v.pars q := by
  unfold View.pars at h ⊢
  rw [View.get_upd] at h
  by_cases e : q = p
  · subst e
    rw [if_pos rfl] at h
    cases hn : v.nodes.get? q with
    | none => rw [hn] at h; exact h
    | some n => rw [hn] at h; exact List.mem_of_mem_erase h
  · rw [if_neg e] at h; exact h

theorem dropPar_follows {p x : Id} {v v' : View} (h : v.dropPar p x = .ok v') : Follows G root P v v' (fun _ _ w => w.dropPar p x) :=
  Follows.pure (by obtain ⟨-, rfl⟩ := dropPar_inv h; rfl)
    (fun hv => by
      obtain ⟨-, rfl⟩ := dropPar_inv h
      exact hv.less (fun y hy => by rw [View.has_upd] at hy; exact hy)
        (fun q c hc => by rw [View.kids_updPars v p (fun n => n.parents.erase x)] at hc; exact hc) (fun q hq => View.pars_drop hq)) (fun _ _ _ => by unfold LView.dropPar; dsimp only; rw [h])

/-! ### Updating -/

/-- The live recursive call follows the recorded one. -/
def FollowsUp (G : Id → Prop) (E : VEnv) (up : Id → View → Res View) (upL : (σ : Type) → Handler σ → Id → LView σ → Res (LView σ)) : Prop :=
  ∀ y u u', up y u = .ok u' → Follows G E.root (Seen E.root) u u' (fun σ cb => upL σ cb y)

variable {E : VEnv} {up down : Id → View → Res View} {upL downL : (σ : Type) → Handler σ → Id → LView σ → Res (LView σ)}

theorem Follows.ite {v v' : View} {g : Bool} {b : View → Res View} {bL : (σ : Type) → Handler σ → LView σ → Res (LView σ)}
    (hb : b v = .ok v' → Follows G root P v v' bL) (h : (if g then b v else .ok v) = .ok v') :
    Follows G root P v v' (fun σ cb w => if g then bL σ cb w else .ok w) := by
  cases g with
  | true => exact hb h
  | false => cases h; exact Follows.pure rfl id (fun _ _ _ => rfl)

theorem leave_follows (hup : FollowsUp G E up upL) {g : Bool} {x p : Id} {v v' : View} (hr : x ≠ E.root) (h : E.leave up g x p v = .ok v') :
    Follows G E.root (Seen E.root) v v' (fun σ cb => E.leaveL cb (upL σ cb) g x p) := by
  unfold VEnv.leave at h
  obtain ⟨v1, h1, h⟩ := andThen_eq_ok h
  obtain ⟨v2, h2, h⟩ := andThen_eq_ok h
  exact (sendRemove_follows (fun _ => hr) h1).andThen ((dropKid_follows h2).andThen (Follows.ite (b := up p) (hup p v2 v') h))

theorem join_follows (hup : FollowsUp G E up upL) {g : Bool} {x p : Id} {v v' : View} (hr : x ≠ E.root) (h : E.join up g x p v = .ok v') :
    Follows G E.root (Seen E.root) v v' (fun σ cb => E.joinL cb (upL σ cb) g x p) := by
  unfold VEnv.join at h
  split at h
  · cases h
  rename_i hp
  have hp' : v.has p = true := by simpa using hp
  obtain ⟨v1, h1, h⟩ := andThen_eq_ok h
  obtain ⟨n, hn⟩ := (Dict.has_iff _ _).1 hp'
  have f1 := sendAdd_follows (G := G) (root := E.root) (Or.inr (by rw [View.has_upd]; exact hp')) (by
    rw [View.kids_updKids v p (fun l => l ++ [x]) hp', if_pos rfl]; simp) h1
  have f0 : Follows G E.root (Seen E.root) v (v.upd p fun n => { n with children := n.children ++ [x] })
      (fun _ _ w => .ok (w.onView fun v => v.upd p fun n => { n with children := n.children ++ [x] })) :=
    Follows.pure rfl (fun hv => ⟨fun y hy => hv.has y (by rw [View.has_upd] at hy; exact hy), fun q hc => by
      rw [View.kids_updKids v p (fun l => l ++ [x]) hp'] at hc
      split at hc
      · rcases List.mem_append.1 hc with hc | hc
        · exact hv.kids _ hc
        · exact hr (List.mem_singleton.1 hc).symm
      · exact hv.kids _ hc, by
      rw [View.pars_updKids v p (fun l => l ++ [x])]; exact hv.pars⟩) (fun _ _ _ => rfl)
  refine (f0.andThen (f1.andThen (Follows.ite (b := up p) (hup p v1 v') h))).congr (fun σ cb a => ?_)
  show VEnv.joinL E cb (upL σ cb) g x p ⟨v, a⟩ = _
  unfold VEnv.joinL
  rw [if_neg (by simpa using hp)]
  rfl

theorem abandon_follows (hdn : FollowsUp G E down downL) {x c : Id} {v v' : View} (h : E.abandon down x c v = .ok v') :
    Follows G E.root (Seen E.root) v v' (fun σ cb => E.abandonL cb (downL σ cb) x c) := by
  unfold VEnv.abandon at h
  obtain ⟨v1, h1, h⟩ := andThen_eq_ok h
  obtain ⟨v2, h2, h⟩ := andThen_eq_ok h
  have hc : All G E.root v → c ≠ E.root := by
    rintro hv rfl
    obtain ⟨sigs, rfl, -⟩ := sendRemove_uses h1
    have : x ∈ v.pars E.root := (dropPar_inv h2).1
    rw [hv.pars] at this; cases this
  exact (sendRemove_follows hc h1).andThen ((dropPar_follows h2).andThen (hdn c v2 v' h))

theorem ups_follows (hup : FollowsUp G E up upL) {l : List Id} {v v' : View} (h : Res.forEach up l v = .ok v') :
    Follows G E.root (Seen E.root) v v' (fun σ cb => Res.forEach (upL σ cb) l) :=
  Follows.forEach (bodyL := upL) (fun y _ u u' hu => hup y u u' hu) h

theorem settle_follows {x : Id} (hg : G x) (hup : FollowsUp G E up upL) {dir : Dir} {v v' : View} (hx : v'.has x = true)
    (hr : x ≠ E.root) (h : E.settle up x dir v = .ok v') :
    Follows G E.root (Seen E.root) v v' (fun σ cb => E.settleL cb (upL σ cb) x dir) := by
  unfold VEnv.settle at h
  dsimp only at h
  obtain ⟨v2, h2, h⟩ := andThen_eq_ok h
  cases hn : v2.nodes.get? x with
  | none => rw [hn] at h; cases h
  | some n =>
    rw [hn] at h
    dsimp only at h
    obtain ⟨v4, h4, h⟩ := andThen_eq_ok h
    obtain ⟨v5, h5, h⟩ := andThen_eq_ok h
    obtain ⟨v6, h6, h⟩ := andThen_eq_ok h
    have f6 : Follows G E.root (Seen E.root) v6 v' (fun σ cb w => if (!v.has x) = true then .ok w else
        match w.view.paths E.root x with
        | .error e => .err e w
        | .ok ps => w.send cb .modified x ps) := by
      by_cases e : (!v.has x) = true
      · rw [if_pos e] at h; cases h
        exact Follows.pure rfl id (fun _ _ _ => by rw [if_pos e])
      · rw [if_neg e] at h
        cases hp : v6.paths E.root x with
        | error e => rw [hp] at h; cases h
        | ok ps =>
          rw [hp] at h
          cases h
          have hx6 : v6.has x = true := hx
          refine (send_follows (seen_outFree E.root) (ev := .modified) (x := x) (ps := ps) (v := v6) (fun l hl => ?_) (fun _ => hg)).congr
            (fun σ cb a => by simp only [if_neg e, hp])
          obtain ⟨c1, c2⟩ := paths_chain hp (Or.inr hx6) l hl
          have hl0 : l ≠ [] := by
            rintro rfl
            have : E.root = x := by simpa using c2
            exact hr this.symm
          refine ⟨?_, fun _ => hx6, fun _ => ⟨hl0, c1⟩⟩
          rw [List.getLast?_cons_of_ne_nil hl0] at c2
          exact c2
    have f3 : Follows G E.root (Seen E.root) v2 (v2.upd x fun n => { n with parents := (E.newPars v2 x).filter v2.has })
        (fun _ _ w => .ok (w.onView fun v => v.upd x fun n => { n with parents := (E.newPars v2 x).filter v.has })) :=
      Follows.pure rfl (fun hv => ⟨fun y hy => hv.has y (by rw [View.has_upd] at hy; exact hy), fun q hc => by
        rw [View.kids_updPars v2 x (fun _ => (E.newPars v2 x).filter v2.has)] at hc; exact hv.kids q hc, by
        rw [View.pars_updPars v2 x (fun _ => (E.newPars v2 x).filter v2.has) (by unfold View.has; exact (Dict.has_iff _ _).2 ⟨n, hn⟩), if_neg hr.symm]
        exact hv.pars⟩) (fun _ _ _ => rfl)
    have f4 := Follows.forEach (G := G) (root := E.root) (P := Seen E.root) (bodyL := fun σ cb => E.leaveL cb (upL σ cb) _ x)
      (fun p _ u u' hu => leave_follows hup hr hu) h4
    have f5 := Follows.forEach (G := G) (root := E.root) (P := Seen E.root) (bodyL := fun σ cb => E.joinL cb (upL σ cb) _ x)
      (fun p _ u u' hu => join_follows hup hr hu) h5
    have f5' := Follows.ite (b := Res.forEach up (E.diff (E.newPars v2 x) (E.diff (E.newPars v2 x) n.parents)))
      (ups_follows hup) h6
    have f2 := Follows.ite (b := Res.forEach up _) (ups_follows hup) h2
    have f0 : Follows G E.root (Seen E.root) v (if (!v.has x) = true then { v with nodes := v.nodes.set x {} } else v)
        (fun _ _ w => .ok (w.onView fun u => if (!v.has x) = true then { u with nodes := u.nodes.set x {} } else u)) :=
      Follows.pure (by split <;> rfl) (fun hv => by
        split
        · next hx0 =>
          have hx0 : v.has x = false := by simpa using hx0
          refine ⟨fun y hy hyr => ?_, fun q hc => ?_, ?_⟩
          · by_cases e : y = x
            · rw [e]; exact hg
            · exact hv.has y (by unfold View.has at hy ⊢; rw [Dict.has_set] at hy; simpa [e] using hy) hyr
          · rw [View.kids_insert hx0] at hc; exact hv.kids q hc
          · rw [View.pars_insert hx0]; exact hv.pars
        · exact hv) (fun _ _ _ => rfl)
    have f7 := f3.andThen (f4.andThen (f5.andThen (f5'.andThen f6)))
    have f8 : Follows G E.root (Seen E.root) v2 v' (fun σ cb w2 =>
        match w2.view.nodes.get? x with
        | none => Res.err .keyError w2
        | some n =>
          let cur := n.parents
          let new := E.newPars w2.view x
          let w3 := w2.onView fun v => v.upd x fun n => { n with parents := new.filter v.has }
          let addTo := E.diff new cur
          let dir := if dir = .down ∧ E.root ∈ addTo then .both else dir
          (Res.forEach (E.leaveL cb (upL σ cb) dir.goesUp x) (E.diff cur new) w3).andThen fun w4 =>
          (Res.forEach (E.joinL cb (upL σ cb) dir.goesUp x) addTo w4).andThen fun w5 =>
          (if dir.goesUp then Res.forEach (upL σ cb) (E.diff new addTo) w5 else .ok w5).andThen fun w6 =>
          if (!v.has x) = true then .ok w6
          else match w6.view.paths E.root x with
            | .error e => .err e w6
            | .ok ps => w6.send cb .modified x ps) :=
      f7.congr (fun σ cb a => by
        dsimp only
        rw [hn]
        rfl)
    exact (f0.andThen (f2.andThen f8)).congr (fun _ _ _ => rfl)

theorem vanish_follows (hup : FollowsUp G E up upL) (hdn : FollowsUp G E down downL) {x : Id} {v v' : View} (hx : v.has x = true)
    (hr : x ≠ E.root) (h : E.vanish up down x v = .ok v') :
    Follows G E.root (Seen E.root) v v' (fun σ cb => E.vanishL cb (upL σ cb) (downL σ cb) x) := by
  unfold VEnv.vanish at h
  cases hp : v.paths E.root x with
  | error e => rw [hp] at h; cases h
  | ok ps =>
    rw [hp] at h
    dsimp only at h
    obtain ⟨v1, h1, h⟩ := andThen_eq_ok h
    cases hn : v1.nodes.get? x with
    | none => rw [hn] at h; cases h
    | some n =>
      rw [hn] at h
      dsimp only at h
      obtain ⟨v3, h3, h⟩ := andThen_eq_ok h
      have f1 := Follows.forEach (G := G) (root := E.root) (P := Seen E.root) (bodyL := fun σ cb => E.abandonL cb (downL σ cb) x)
        (fun c _ u u' hu => abandon_follows hdn hu) h1
      have hx1 : v1.has x = true := (Dict.has_iff _ _).2 ⟨n, hn⟩
      have f3 : Follows G E.root (Seen E.root) v1 (({ v1 with nodes := v1.nodes.del x } : View).send .deleted x ps)
          (fun _ cb w => (w.onView fun v => { v with nodes := v.nodes.del x }).send cb .deleted x ps) := by
        obtain ⟨tr, p, o, f⟩ := send_calls (seen_outFree E.root) (ev := .deleted) (x := x) (ps := ps)
          (v := { v1 with nodes := v1.nodes.del x })
          (fun l hl => ⟨paths_last hp hr hx l hl, fun hd => absurd rfl hd, fun hd => absurd rfl hd⟩)
        refine ⟨tr, fun c hc => (p c hc).1, o, fun hv => ⟨?_, fun c hc => by rw [(p c hc).2]; exact hv.has x hx1 hr⟩, f⟩
        refine ⟨fun y hy hyr => hv.has y ?_ hyr, fun q hc => ?_, ?_⟩
        · have hy' : (v1.nodes.del x).has y = true := hy
          rw [Dict.has_del] at hy'
          simp only [Bool.and_eq_true] at hy'
          exact hy'.2
        · have hc' : E.root ∈ ({ nodes := v1.nodes.del x, out := v1.out } : View).kids q := hc
          rw [View.kids_gone] at hc'
          split at hc'
          · cases hc'
          · exact hv.kids q hc'
        · show ({ nodes := v1.nodes.del x, out := v1.out } : View).pars E.root = []
          rw [View.pars_gone, if_neg hr.symm]; exact hv.pars
      have f4 := Follows.forEach (G := G) (root := E.root) (P := Seen E.root) (bodyL := fun σ cb p (w : LView σ) => (w.dropKid p x).andThen (upL σ cb p))
        (fun p _ u u' hu => by
          obtain ⟨u1, g1, g2⟩ := andThen_eq_ok hu
          exact (dropKid_follows g1).andThen (hup p u1 u' g2)) h3
      have f5 := Follows.ite (bL := fun σ cb => Res.forEach (fun p (w : LView σ) => if w.view.has p = false then upL σ cb p w else .ok w) (E.par x))
        (b := Res.forEach (fun p (w : View) => if w.has p = false then up p w else .ok w) (E.par x))
        (fun h => Follows.forEach (G := G) (root := E.root) (P := Seen E.root)
          (bodyL := fun σ cb p (w : LView σ) => if w.view.has p = false then upL σ cb p w else .ok w) (fun p _ u u' hu => by
            by_cases e : u.has p = false
            · rw [if_pos e] at hu
              exact (hup p u u' hu).congr (fun _ _ _ => by rw [if_pos e])
            · rw [if_neg e] at hu
              cases hu
              exact Follows.pure rfl id (fun _ _ _ => by rw [if_neg e])) h) h
      have f6 : Follows G E.root (Seen E.root) v1 v' (fun σ cb w1 =>
          match w1.view.nodes.get? x with
          | none => Res.err .keyError w1
          | some n =>
            ((w1.onView fun v => { v with nodes := v.nodes.del x }).send cb .deleted x ps).andThen fun w2 =>
            (Res.forEach (fun p w => (w.dropKid p x).andThen (upL σ cb p)) n.parents w2).andThen fun w3 =>
            if E.has x then
              Res.forEach (fun p w => if w.view.has p = false then upL σ cb p w else .ok w) (E.par x) w3
            else .ok w3) :=
        (f3.andThen (f4.andThen f5)).congr (fun σ cb a => by
          dsimp only
          rw [hn])
      refine (f1.andThen f6).congr (fun σ cb a => ?_)
      show VEnv.vanishL E cb (upL σ cb) (downL σ cb) x ⟨v, a⟩ = _
      unfold VEnv.vanishL
      dsimp only
      rw [hp]
      rfl

theorem update_follows (hG : ∀ y, E.disp y = true → G y) (f : Nat) : ∀ (x : Id) (dir : Dir) (v v' : View), E.update f x dir v = .ok v' →
    Follows G E.root (Seen E.root) v v' (fun _ cb => E.updateL cb f x dir) := by
  induction f with
  | zero => intro x dir v v' h; cases h
  | succ f ih =>
    intro x dir v v' h
    have hup : FollowsUp G E (fun p v => E.update f p .up v) (fun _ cb p w => E.updateL cb f p .up w) := fun y u u' hu => ih y .up u u' hu
    have hdn : FollowsUp G E (fun p v => E.update f p .down v) (fun _ cb p w => E.updateL cb f p .down w) :=
      fun y u u' hu => ih y .down u u' hu
    unfold VEnv.update at h
    by_cases e1 : x = E.root
    · rw [if_pos e1] at h
      cases h
      exact Follows.pure rfl id (fun σ cb a => by unfold VEnv.updateL; rw [if_pos e1])
    rw [if_neg e1] at h
    by_cases e2 : v.has x = false ∧ E.disp x = false
    · rw [if_pos e2] at h
      exact (Follows.ite (b := Res.forEach (fun p v => E.update f p .up v) (E.par x)) (ups_follows hup) h).congr
        (fun σ cb a => by
          show VEnv.updateL E cb (f + 1) x dir ⟨v, a⟩ = _
          conv => lhs; unfold VEnv.updateL
          rw [if_neg e1, if_pos e2])
    rw [if_neg e2] at h
    by_cases e3 : E.disp x = true
    · rw [if_pos e3] at h
      obtain ⟨v1, h1, h⟩ := andThen_eq_ok h
      have hx1 : v1.has x = true := by
        by_contra hc
        rw [if_pos (by simpa using hc)] at h
        cases h
      have f1 := settle_follows (hG x e3) hup hx1 e1 h1
      rw [if_neg (by simp [hx1])] at h
      have f2 := Follows.ite
        (bL := fun σ cb => Res.forEach (fun c (w : LView σ) => if c ∉ w.view.kids x then E.updateL cb f c .down w else .ok w) (E.newKids x))
        (b := Res.forEach (fun c (v : View) => if c ∉ v.kids x then E.update f c .down v else .ok v) (E.newKids x))
        (fun h => Follows.forEach (G := G) (root := E.root) (P := Seen E.root)
          (bodyL := fun σ cb c (w : LView σ) => if c ∉ w.view.kids x then E.updateL cb f c .down w else .ok w) (fun c _ u u' hu => by
            by_cases e : c ∉ u.kids x
            · rw [if_pos e] at hu
              exact (hdn c u u' hu).congr (fun _ _ _ => by rw [if_pos e])
            · rw [if_neg e] at hu
              cases hu
              exact Follows.pure rfl id (fun _ _ _ => by rw [if_neg e])) h) h
      have f3 : Follows G E.root (Seen E.root) v1 v' (fun σ cb w =>
          if w.view.has x = false then Res.err .keyError w
          else if dir.goesDown then
            Res.forEach (fun c w => if c ∉ w.view.kids x then E.updateL cb f c .down w else .ok w) (E.newKids x) w
          else .ok w) := f2.congr (fun σ cb a => by
            dsimp only
            rw [if_neg (by simp [hx1])])
      refine (f1.andThen f3).congr (fun σ cb a => ?_)
      show VEnv.updateL E cb (f + 1) x dir ⟨v, a⟩ = _
      conv => lhs; unfold VEnv.updateL
      rw [if_neg e1, if_neg e2, if_pos e3]
    · rw [if_neg e3] at h
      have hx : v.has x = true := by
        by_contra hc
        exact e2 ⟨by simpa using hc, by simpa using e3⟩
      refine (vanish_follows hup hdn hx e1 h).congr (fun σ cb a => ?_)
      show VEnv.updateL E cb (f + 1) x dir ⟨v, a⟩ = _
      conv => lhs; unfold VEnv.updateL
      rw [if_neg e1, if_neg e2, if_neg e3]

theorem fillLoop_follows (hG : ∀ y, E.disp y = true → G y) {depth : Nat} (f : Nat) : ∀ {v v' : View} {q : List Id}, E.fillLoop depth f v q = .ok v' →
    Follows G E.root (Seen E.root) v v' (fun _ cb w => E.fillLoopL cb depth f w q) := by
  induction f with
  | zero =>
    intro v v' q h
    cases q with
    | nil => unfold VEnv.fillLoop at h; cases h; exact Follows.pure rfl id (fun _ _ _ => by unfold VEnv.fillLoopL; rfl)
    | cons i q => unfold VEnv.fillLoop at h; cases h
  | succ f ih =>
    intro v v' q h
    cases q with
    | nil => unfold VEnv.fillLoop at h; cases h; exact Follows.pure rfl id (fun _ _ _ => by unfold VEnv.fillLoopL; rfl)
    | cons x q =>
      unfold VEnv.fillLoop at h
      obtain ⟨v1, h1, h⟩ := andThen_eq_ok h
      by_cases e : E.has x = false
      · rw [if_pos e] at h; cases h
      · rw [if_neg e] at h
        refine ((update_follows hG depth x .both v v1 h1).andThen (ih h)).congr (fun σ cb a => ?_)
        show VEnv.fillLoopL E cb depth (f + 1) ⟨v, a⟩ (x :: q) = _
        conv => lhs; unfold VEnv.fillLoopL
        simp only [if_neg e]

theorem refilter_follows (hG : ∀ y, E.disp y = true → G y) {depth rounds : Nat} {v v' : View} (h : E.refilter depth rounds v = .ok v') :
    Follows G E.root (Seen E.root) v v' (fun _ cb => E.refilterL cb depth rounds) := by
  unfold VEnv.refilter at h
  obtain ⟨v1, h1, h⟩ := andThen_eq_ok h
  have f1 := Follows.forEachInv (G := G) (root := E.root) (P := Seen E.root) (fun u => u.nodes = v.nodes)
    (bodyL := fun σ cb x (w : LView σ) => w.sendRemove cb E.root x E.root)
    (fun c hc u u' hI hu => ⟨by
      obtain ⟨_, rfl, -⟩ := sendRemove_uses hu; exact hI, sendRemove_follows (fun hv => by
      intro hcr
      rw [hcr] at hc
      refine hv.kids E.root ?_
      unfold View.kids at hc ⊢; rw [hI]; exact List.mem_reverse.1 hc) hu⟩) rfl h1
  have f2 : Follows G E.root (Seen E.root) v1 { v1 with nodes := View.rootOnly E.root }
      (fun _ _ w => .ok (w.onView fun v => { v with nodes := View.rootOnly E.root })) := Follows.pure rfl (fun _ => ⟨fun y hy hyr => by
        have : y = E.root := by
          by_contra e
          have hy' : (View.rootOnly E.root).has y = true := hy
          rw [View.rootOnly, Dict.has_set] at hy'
          simp [e, Dict.has, Dict.get?, Dict.empty, Dict.lookup] at hy'
        exact absurd this hyr, fun q hc => by
        unfold View.kids at hc
        rw [View.rootOnly, Dict.get?_set] at hc
        split at hc
        · cases hc
        · simp [Dict.get?, Dict.empty, Dict.lookup] at hc, by
        unfold View.pars
        rw [View.rootOnly, Dict.get?_set, if_pos rfl]; rfl⟩) (fun _ _ _ => rfl)
  exact (f1.andThen (f2.andThen (fillLoop_follows hG rounds h))).congr (fun _ _ _ => rfl)

end Larch
