import Verif.Proofs.ViewPrefix
import Verif.Proofs.ViewApp

/-!
# Reading a view that holds together
-/

namespace Larch

open Graph Spec
open scoped List

/-- `Whole` without the observer. -/
structure Frame (root : Id) (rank : Id → Nat) (M : Nat) (v : View) : Prop where
  bound : ∀ x, rank x ≤ M
  rootRank : rank root = 0
  posRank : ∀ x, x ≠ root → 0 < rank x
  keys : v.nodes.keys.Nodup
  rootIn : v.has root = true
  rootPars : v.pars root = []
  par : ∀ y p, p ∈ v.pars y → v.has p = true ∧ rank p < rank y
  kid : ∀ p c, c ∈ v.kids p → v.has c = true ∧ rank p < rank c
  ndP : ∀ y, (v.pars y).Nodup
  ndK : ∀ y, (v.kids y).Nodup
  mirror : ∀ y p, p ∈ v.pars y ↔ y ∈ v.kids p

theorem Frame.whole {root : Id} {rank : Id → Nat} {M : Nat} {v : View} (h : Frame root rank M v)
    (hr : RowsSet v.out (RowE v.edge root) (fun _ => [])) : Whole root rank M v :=
  ⟨h.bound, h.rootRank, h.posRank, h.keys, h.rootIn, h.rootPars, h.par, h.kid, h.ndP, h.ndK, h.mirror, hr⟩

theorem Frame.reout {root : Id} {rank : Id → Nat} {M : Nat} {v : View} (h : Frame root rank M v) (o : List Sig) :
    Frame root rank M ⟨v.nodes, o⟩ :=
  ⟨h.bound, h.rootRank, h.posRank, h.keys, h.rootIn, h.rootPars, h.par, h.kid, h.ndP, h.ndK, h.mirror⟩

theorem Whole.frame {root : Id} {rank : Id → Nat} {M : Nat} {v : View} (h : Whole root rank M v) : Frame root rank M v :=
  ⟨h.bound, h.rootRank, h.posRank, h.keys, h.rootIn, h.rootPars, h.par, h.kid, h.ndP, h.ndK, h.mirror⟩

theorem Frame.pathsOK {root : Id} {rank : Id → Nat} {M : Nat} {v : View} (h : Frame root rank M v) (k : Nat) :
    PathsOK root rank v v.edge k :=
  ⟨h.par, h.ndP, fun y _ p => h.mirror y p, fun y _ p hp => (h.mirror y p).1 hp, fun p y hy => (h.kid p y hy).2⟩

theorem Frame.viewOK {ft : FT} {rank : Id → Nat} {M : Nat} (h : Frame ft.root rank M ft.view) : ViewOK ft := by
  refine ⟨h.keys, h.rootIn, h.rootPars, fun p c hc => (h.kid p c hc).1, fun p c => (h.mirror c p).symm, h.ndP, h.ndK, ?_⟩
  have : ∀ x y, Relation.TransGen (fun p c => c ∈ ft.view.kids p) x y → rank x < rank y := by
    intro x y hxy
    induction hxy with
    | single h1 => exact (h.kid _ _ h1).2
    | tail _ h1 ih => exact lt_trans ih (h.kid _ _ h1).2
  exact fun x hx => lt_irrefl _ (this x x hx)

theorem View.has_of_kids {v : View} {p c : Id} (h : c ∈ v.kids p) : v.has p = true := by
  have := View.kids_keys v p (List.ne_nil_of_mem h)
  exact (Dict.mem_keys _ _).1 this

theorem Spec.ViewOK.frame {ft : FT} (h : ViewOK ft) : ∃ rank M, Frame ft.root rank M ft.view := by
  have hac : Acyclic ft.view.pars := by
    intro x hx
    have : ∀ x y, Reach ft.view.pars x y → Relation.TransGen (fun p c => c ∈ ft.view.kids p) y x := by
      intro x y hxy
      induction hxy with
      | single h1 => exact .single ((h.mirror _ _).2 h1)
      | tail _ h1 ih => exact ih.head ((h.mirror _ _).2 h1)
    exact h.noCycle x (this x x hx)
  obtain ⟨ht, hb, hlt⟩ := exists_height ft.view.pars ft.view.nodes.keys ft.view.pars_keys hac
  have hr : ∀ y p, p ∈ ft.view.pars y → (if p = ft.root then 0 else ht p + 1) < (if y = ft.root then 0 else ht y + 1) := by
    intro y p hp
    have hy : y ≠ ft.root := by rintro rfl; rw [h.top] at hp; cases hp
    rw [if_neg hy]
    have := hlt y p hp
    split <;> omega
  refine ⟨fun x => if x = ft.root then 0 else ht x + 1, ft.view.nodes.keys.length + 1, ?_, if_pos rfl, ?_, h.once, h.root, h.top,
    fun y p hp => ⟨View.has_of_kids ((h.mirror _ _).2 hp), hr y p hp⟩,
    fun p c hc => ⟨h.shown p c hc, hr c p ((h.mirror _ _).1 hc)⟩, h.parents_once, h.children_once, fun y p => (h.mirror p y).symm⟩
  · intro x
    have := hb x
    show (if x = ft.root then 0 else ht x + 1) ≤ _
    split <;> omega
  · intro x hx
    show 0 < (if x = ft.root then 0 else ht x + 1)
    rw [if_neg hx]; omega

/-! ### Paths -/

theorem Spec.ViewOK.paths {ft : FT} (h : ViewOK ft) {x : Id} (hx : ft.view.has x = true) (hr : x ≠ ft.root) :
    ∃ ps, ft.pathsFor x = .ok ps ∧ ps.Nodup ∧ ∀ l, l ∈ ps ↔ IsRow ft l ∧ l.getLast? = some x := by
  obtain ⟨rank, M, hF⟩ := h.frame
  obtain ⟨ps, h1, h2, h3⟩ := paths_spec (hF.pathsOK (rank x)) (le_refl _) hx
  refine ⟨ps, h1, h2, fun l => (h3 l).trans ?_⟩
  unfold PathTo IsRow View.edge
  constructor
  · rintro ⟨c, e⟩
    cases l with
    | nil =>
      exfalso
      simp at e
      exact hr e.symm
    | cons a l => exact ⟨⟨by simp, c⟩, by rw [List.getLast?_cons_cons] at e; exact e⟩
  · rintro ⟨⟨hn, c⟩, e⟩
    cases l with
    | nil => exact absurd rfl hn
    | cons a l => exact ⟨c, by rw [List.getLast?_cons_cons]; exact e⟩

theorem paths_other (ft : FT) (x : Id) (hx : x = ft.root ∨ ft.view.has x = false) : ft.pathsFor x = .ok [[]] := by
  unfold FT.pathsFor View.paths
  rw [View.pathsFuel, if_pos hx]

theorem Spec.ViewOK.row_last {ft : FT} (h : ViewOK ft) {l : List Id} (hl : IsRow ft l) :
    ∃ x, l.getLast? = some x ∧ ft.view.has x = true ∧ x ≠ ft.root := by
  obtain ⟨hn, hc⟩ := hl
  induction l using List.reverseRecOn with
  | nil => exact absurd rfl hn
  | append_singleton l x =>
    refine ⟨x, by simp, ?_⟩
    have : ∃ p, x ∈ ft.view.kids p := by
      rw [show ft.root :: (l ++ [x]) = (ft.root :: l) ++ [x] from rfl, List.isChain_append] at hc
      obtain ⟨y, hy⟩ : ∃ y, (ft.root :: l).getLast? = some y := by
        cases hz : (ft.root :: l).getLast? with
        | none => simp at hz
        | some y => exact ⟨y, rfl⟩
      exact ⟨y, hc.2.2 y hy x (by simp)⟩
    obtain ⟨p, hp⟩ := this
    refine ⟨h.shown p x hp, ?_⟩
    rintro rfl
    have := (h.mirror p ft.root).1 hp
    rw [h.top] at this; cases this

theorem Spec.ViewOK.nodeForPath {ft : FT} (h : ViewOK ft) (l : List Id) :
    (IsRow ft l → ft.nodeForPath l = .ok l.getLast?) ∧ (¬ IsRow ft l → ft.nodeForPath l = .ok none) := by
  constructor
  · intro hl
    obtain ⟨x, e, hx, hr⟩ := h.row_last hl
    obtain ⟨ps, e1, -, e2⟩ := h.paths hx hr
    unfold FT.nodeForPath
    rw [e]
    dsimp only
    rw [e1]
    dsimp only
    rw [if_pos ((e2 l).2 ⟨hl, e⟩)]
  · intro hl
    unfold FT.nodeForPath
    cases e : l.getLast? with
    | none => rfl
    | some x =>
      dsimp only
      by_cases hx : x = ft.root ∨ ft.view.has x = false
      · rw [paths_other ft x hx]
        dsimp only
        rw [if_neg]
        intro hm
        rw [List.mem_singleton] at hm
        rw [hm] at e; cases e
      · rw [not_or] at hx
        obtain ⟨ps, e1, -, e2⟩ := h.paths (by simpa using hx.2) hx.1
        rw [e1]
        dsimp only
        rw [if_neg]
        intro hm
        exact hl ((e2 l).1 hm).1

/-! ### Counting -/

/-- The chains of children below `x`, of at most `f` steps. -/
def chains (v : View) : Nat → Id → List (List Id)
  | 0, _ => []
  | f + 1, x => (v.kids x).flatMap fun c => [c] :: (chains v f c).map (c :: ·)

theorem mem_chains {v : View} {rank : Id → Nat} {M : Nat} (hk : ∀ p c, c ∈ v.kids p → rank p < rank c)
    (hB : ∀ x, rank x ≤ M) (f : Nat) (x : Id) (hf : M < f + rank x) (l : List Id) :
    l ∈ chains v f x ↔ l ≠ [] ∧ List.IsChain (fun p c => c ∈ v.kids p) (x :: l) := by
  induction f generalizing x l with
  | zero => have := hB x; omega
  | succ f ih =>
    rw [chains, List.mem_flatMap]
    cases l with
    | nil => simp
    | cons b l =>
      rw [List.isChain_cons_cons]
      constructor
      · rintro ⟨c, hc, hm⟩
        have hr := hk x c hc
        rcases List.mem_cons.1 hm with e | hm
        · cases e; exact ⟨by simp, hc, List.isChain_singleton _⟩
        · obtain ⟨l', hl', e⟩ := List.mem_map.1 hm
          cases e
          exact ⟨by simp, hc, ((ih b (by omega) l).1 hl').2⟩
      · rintro ⟨-, hc, hl⟩
        have hr := hk x b hc
        refine ⟨b, hc, ?_⟩
        cases l with
        | nil => simp
        | cons d l => exact List.mem_cons_of_mem _ (List.mem_map_of_mem ((ih b (by omega) _).2 ⟨by simp, hl⟩))

theorem chains_nodup {v : View} (hn : ∀ x, (v.kids x).Nodup) (f : Nat) (x : Id) : (chains v f x).Nodup := by
  induction f generalizing x with
  | zero => simp [chains]
  | succ f ih =>
    rw [chains, List.nodup_flatMap]
    refine ⟨fun c _ => ?_, ?_⟩
    · rw [List.nodup_cons]
      refine ⟨?_, (ih c).map (fun a b h => by simpa using h)⟩
      rw [List.mem_map]
      rintro ⟨l, hl, e⟩
      cases e
      cases f with
      | zero => simp [chains] at hl
      | succ f => simp [chains] at hl
    · refine (hn x).imp fun {a b} hab => ?_
      intro l h1 h2
      have e1 : l.head? = some a := by
        rcases List.mem_cons.1 h1 with rfl | h1
        · rfl
        · obtain ⟨l', -, rfl⟩ := List.mem_map.1 h1; rfl
      have e2 : l.head? = some b := by
        rcases List.mem_cons.1 h2 with rfl | h2
        · rfl
        · obtain ⟨l', -, rfl⟩ := List.mem_map.1 h2; rfl
      rw [e1] at e2; cases e2; exact hab rfl

theorem countBelow_eq {v : View} {ht : Id → Nat} (hk : ∀ p c, c ∈ v.kids p → ht c < ht p ∧ v.has c = true)
    (f : Nat) (x : Id) (hf : ht x < f) (hx : v.has x = true) : FT.countBelow v f x = .ok (chains v f x).length := by
  induction f generalizing x with
  | zero => omega
  | succ f ih =>
    rw [FT.countBelow, if_neg (by simp [hx]), chains]
    have key : ∀ (l : List Id) (k : Nat), (∀ c ∈ l, c ∈ v.kids x) →
        l.foldl (fun (acc : Except Err Nat) c => match acc with
          | .error e => .error e
          | .ok n => match FT.countBelow v f c with
            | .error e => .error e
            | .ok m => .ok (n + m + 1)) (.ok k)
        = .ok (k + (l.flatMap fun c => [c] :: (chains v f c).map (c :: ·)).length) := by
      intro l
      induction l with
      | nil => intro k _; rfl
      | cons c l ihl =>
        intro k hl
        obtain ⟨h1, h2⟩ := hk x c (hl c (by simp))
        rw [List.foldl_cons]
        dsimp only
        rw [ih c (by omega) h2]
        dsimp only
        rw [ihl _ (fun d hd => hl d (by simp [hd]))]
        simp only [List.flatMap_cons, List.length_append, List.length_cons, List.length_map]
        congr 1
        omega
    exact (key _ 0 (fun c hc => hc)).trans (by rw [Nat.zero_add])

theorem Spec.ViewOK.count {ft : FT} (h : ViewOK ft) {x : Id} (hx : ft.view.has x = true) :
    ∃ exts : List (List Id), FT.countBelow ft.view (ft.view.nodes.entries.length + 2) x = .ok exts.length ∧ exts.Nodup ∧
      ∀ l, l ∈ exts ↔ l ≠ [] ∧ List.IsChain (fun p c => c ∈ ft.view.kids p) (x :: l) := by
  have hac : Acyclic ft.view.kids := by
    intro x hx
    exact h.noCycle x hx
  obtain ⟨ht, hb, hlt⟩ := exists_height ft.view.kids ft.view.nodes.keys ft.view.kids_keys hac
  have e : ft.view.nodes.keys.length = ft.view.nodes.entries.length := by simp [Dict.keys]
  rw [e] at hb
  refine ⟨_, countBelow_eq (ht := ht) (fun p c hc => ⟨hlt p c hc, h.shown p c hc⟩) _ x (by have := hb x; omega) hx,
    chains_nodup h.children_once _ x, fun l => ?_⟩
  refine mem_chains (rank := fun y => ft.view.nodes.entries.length - ht y) (M := ft.view.nodes.entries.length)
    (fun p c hc => ?_) (fun y => by omega) _ x (by omega) l
  have := hlt p c hc
  have := hb p
  show _ - ht p < _ - ht c
  omega

/-! ### The current state -/

theorem replay_added {sent : List Sig} (ha : ∀ s ∈ sent, s.ev = .added) {rows rows' : List (List Id)}
    (h : replay sent rows = some rows') : rows' = (sent.map Sig.path).reverse ++ rows ∧
      (∀ s ∈ sent, s.path.getLast? = some s.nid) ∧
      ∀ before s after, sent = before ++ s :: after →
        s.path.dropLast = [] ∨ s.path.dropLast ∈ before.map Sig.path ∨ s.path.dropLast ∈ rows := by
  induction sent generalizing rows with
  | nil =>
    cases h
    exact ⟨rfl, by simp, fun b s a e => by simp at e⟩
  | cons s sent ih =>
    rw [replay] at h
    cases hs : applySig rows s with
    | none => rw [hs] at h; cases h
    | some r =>
      rw [hs] at h
      have e1 := ha s (by simp)
      unfold applySig at hs
      rw [e1] at hs
      split at hs
      · next hlast =>
        dsimp only at hs
        split at hs
        · next hc =>
          cases hs
          obtain ⟨i1, i2, i3⟩ := ih (fun x hx => ha x (by simp [hx])) h
          refine ⟨by rw [i1]; simp, ?_, ?_⟩
          · intro x hx
            rcases List.mem_cons.1 hx with rfl | hx
            · exact hlast
            · exact i2 x hx
          · intro before x after e
            cases before with
            | nil =>
              simp only [List.nil_append, List.cons.injEq] at e
              obtain ⟨rfl, -⟩ := e
              exact hc.2.imp id Or.inr
            | cons b before =>
              simp only [List.cons_append, List.cons.injEq] at e
              obtain ⟨rfl, e⟩ := e
              rcases i3 before x after e with h | h | h
              · exact Or.inl h
              · exact Or.inr (Or.inl (by simp only [List.map_cons]; exact List.mem_cons_of_mem _ h))
              · rcases List.mem_cons.1 h with h | h
                · exact Or.inr (Or.inl (by simp [h]))
                · exact Or.inr (Or.inr h)
        · cases hs
      · cases hs

/-- Only `added` signals are appended. -/
def OnlyAdds (v : View) (r : Res View) : Prop :=
  ∃ sent, r.state.out = v.out ++ sent ∧ ∀ s ∈ sent, s.ev = .added

theorem OnlyAdds.refl (v : View) : OnlyAdds v (.ok v) := ⟨[], by simp, by simp⟩

theorem OnlyAdds.trans {v w : View} {r : Res View} (h : OnlyAdds v (.ok w)) (h' : OnlyAdds w r) : OnlyAdds v r := by
  obtain ⟨a, e, ha⟩ := h
  obtain ⟨b, e', hb⟩ := h'
  have e : w.out = v.out ++ a := e
  refine ⟨a ++ b, by rw [e', e, List.append_assoc], fun s hs => ?_⟩
  rcases List.mem_append.1 hs with h | h
  · exact ha s h
  · exact hb s h

theorem send_onlyAdds (v : View) (x : Id) (ps : List (List Id)) : OnlyAdds v (.ok (v.send .added x ps)) :=
  ⟨_, rfl, fun s hs => by obtain ⟨p, -, rfl⟩ := List.mem_map.1 hs; rfl⟩

theorem addLoop_onlyAdds (starts : List (List Id)) (f : Nat) (v : View) (q : List (Id × List Id)) :
    OnlyAdds v (View.addLoop starts f v q) := by
  induction f generalizing v q with
  | zero =>
    cases q with
    | nil => exact OnlyAdds.refl v
    | cons i q => exact ⟨[], by simp [View.addLoop], by simp⟩
  | succ f ih =>
    cases q with
    | nil => exact OnlyAdds.refl v
    | cons i q =>
      obtain ⟨x, rel⟩ := i
      rw [View.addLoop]
      cases v.nodes.get? x with
      | none => exact send_onlyAdds v x _
      | some n => exact (send_onlyAdds v x _).trans (ih _ _)

theorem sendAdd_onlyAdds (root : Id) (v : View) (x p : Id) : OnlyAdds v (v.sendAdd root x p) := by
  unfold View.sendAdd
  cases v.paths root p with
  | error e => exact ⟨[], by simp, by simp⟩
  | ok starts => exact addLoop_onlyAdds _ _ _ _

theorem forEach_onlyAdds {b : Id → View → Res View} (h : ∀ x v, OnlyAdds v (b x v)) (l : List Id) (v : View) :
    OnlyAdds v (Res.forEach b l v) := by
  induction l generalizing v with
  | nil => exact OnlyAdds.refl v
  | cons x l ih =>
    rw [Res.forEach]
    have := h x v
    cases e : b x v with
    | err e' s => rw [e] at this; exact this
    | ok s => rw [e] at this; exact this.trans (ih s)

/-- Announcing the children of the root one after the other. -/
theorem announce_ok {root : Id} {rank : Id → Nat} {M : Nat} {v : View} (h : Frame root rank M v) (hout : v.out = []) :
    ∃ v', Res.forEach (fun x v => v.sendAdd root x root) (v.kids root) v = .ok v' ∧ v'.nodes = v.nodes ∧
      RowsSet v'.out (RowE v.edge root) (v.under root) := by
  have hnoroot : ∀ p, root ∉ v.kids p := by
    intro p hp
    have := (h.kid p root hp).2
    rw [h.rootRank] at this; omega
  obtain ⟨v', a1, -, -, a2, a3, -⟩ := forEach_ok (body := fun (x : Id) (v : View) => v.sendAdd root x root)
    (fun l w => l.Nodup ∧ (∀ c ∈ l, c ∈ v.kids root) ∧ w.nodes = v.nodes ∧
      RowsSet w.out (RowE (fun a b => b ∈ v.kids a ∧ (a = root → b ∉ l)) root) (v.under root) ∧ ∃ done, v.kids root = done ++ l)
    (by
      rintro c l w ⟨i1, i2, i3, i4, done, i5⟩
      rw [List.nodup_cons] at i1
      have hk : w.kids = v.kids := View.kids_congr i3
      have hp : w.pars = v.pars := View.pars_congr i3
      have hh : w.has = v.has := View.has_congr i3
      have hc := i2 c (by simp)
      have hcr := (h.kid root c hc).2
      obtain ⟨w', j1, j2, j3⟩ := sendAdd_spec (root := root) (rank := rank) (v := w)
        ⟨⟨M, h.bound⟩, fun p c hc => by rw [hk] at hc; exact (h.kid p c hc).2, fun y => by rw [hk]; exact h.ndK y⟩
        (e := fun a b => b ∈ v.kids a ∧ (a = root → b ∉ c :: l))
        (e' := fun a b => b ∈ v.kids a ∧ (a = root → b ∉ l)) (p := root) (x := c)
        (fun p c hc => by rw [hk] at hc; rw [hh]; exact (h.kid p c hc).1) (by rw [hh]; exact h.rootIn)
        (by rw [hh]; exact (h.kid root c hc).1) hcr
        ⟨fun y p hpy => by rw [hp] at hpy; rw [hh]; exact h.par y p hpy, fun y => by rw [hp]; exact h.ndP y,
          by
            intro y hy p
            have hyr : y = root := by
              by_contra hne
              have := h.posRank y hne
              rw [h.rootRank] at hy; omega
            subst hyr
            rw [hp, h.rootPars]
            constructor
            · intro h; cases h
            · rintro ⟨h1, -⟩; exact absurd h1 (hnoroot p),
          fun y _ p hpy => by rw [hp] at hpy; rw [hk]; exact (h.mirror y p).1 hpy,
          fun p y hy => (h.kid p y hy.1).2⟩
        (by
          intro a b
          by_cases hab : a = root ∧ b = c
          · obtain ⟨rfl, rfl⟩ := hab; simp [hc, i1.1]
          · by_cases ha : a = root
            · subst ha
              have hb : b ≠ c := fun e => hab ⟨rfl, e⟩
              simp [hb]
            · simp [ha])
        (by simp)
        (by
          intro ext
          unfold Below
          rw [hk]
          have key : ∀ (z : Id) (l' : List Id), z ≠ root →
              (List.IsChain (fun a b => b ∈ v.kids a) (z :: l') ↔
                List.IsChain (fun a b => b ∈ v.kids a ∧ (a = root → b ∉ l)) (z :: l')) := by
            intro z l'
            induction l' generalizing z with
            | nil => simp
            | cons b l' ih =>
              intro hz
              rw [List.isChain_cons_cons, List.isChain_cons_cons]
              constructor
              · rintro ⟨m1, m2⟩
                have hb : b ≠ root := by rintro rfl; exact hnoroot z m1
                exact ⟨⟨m1, fun e => absurd e hz⟩, (ih b hb).1 m2⟩
              · rintro ⟨m1, m2⟩
                have hb : b ≠ root := by rintro rfl; exact hnoroot z m1.1
                exact ⟨m1.1, (ih b hb).2 m2⟩
          exact key c ext (by rintro rfl; exact hnoroot _ hc))
        (by
          rintro a ⟨ha, hal⟩ hsub
          rw [hk] at hsub
          have hd : a ∈ done := by
            rw [i5] at ha
            exact (List.mem_append.1 ha).resolve_right (hal rfl)
          have hac : [a, c] <+ v.kids root := by
            rw [i5]
            exact (List.singleton_sublist.2 hd).append (List.singleton_sublist.2 (by simp))
          exact (List.pairwise_iff_forall_sublist.1 (nodup_not_swapped (h.ndK root))) hac hsub)
        (by rw [View.under_congr i3]; exact i4)
      rw [View.under_congr (j2.trans i3)] at j3
      exact ⟨w', j1, i1.2, fun q hq => i2 q (by simp [hq]), j2.trans i3, j3, done ++ [c], by rw [i5]; simp⟩)
    (v.kids root) v ⟨h.ndK root, fun c hc => hc, rfl, by
      refine ⟨⟨[], by rw [hout]; rfl, by simp, fun l => ?_, List.Pairwise.nil⟩, [], rfl⟩
      constructor
      · intro h; cases h
      · rintro ⟨h1, h2⟩
        cases l with
        | nil => exact absurd rfl h1
        | cons b l =>
          rw [List.isChain_cons_cons] at h2
          exact absurd h2.1.1 (h2.1.2 rfl)⟩
  refine ⟨v', a1, a2, a3.congr fun l => ?_⟩
  unfold View.edge
  rw [show (fun p c => c ∈ v.kids p) = (fun a b => b ∈ v.kids a ∧ (a = root → b ∉ ([] : List Id))) from by
    funext a b; simp]

theorem Spec.ViewOK.announce {ft : FT} (h : ViewOK ft) :
    ∃ sent, ft.currentState = .ok { ft with view := ⟨ft.view.nodes, ft.view.out ++ sent⟩ } ∧ Announces ft sent ∧
      RowsSet sent (RowE ft.view.edge ft.root) (ft.view.under ft.root) := by
  obtain ⟨rank, M, hF⟩ := h.frame
  obtain ⟨v', a1, a2, a3⟩ := announce_ok (hF.reout []) rfl
  have hb := Blind.forEach (fun x => View.sendAdd_blind ft.root x ft.root) (ft.view.kids ft.root) ft.view.out ⟨ft.view.nodes, []⟩
  have ha := forEach_onlyAdds (fun x v => sendAdd_onlyAdds ft.root v x ft.root) (ft.view.kids ft.root) ⟨ft.view.nodes, []⟩
  have a1' : Res.forEach (fun x v => v.sendAdd ft.root x ft.root) (ft.view.kids ft.root) ⟨ft.view.nodes, []⟩ = .ok v' := a1
  rw [a1'] at hb ha
  obtain ⟨sent, e, hadd⟩ := ha
  have e : v'.out = sent := e
  have hpre : View.pre ft.view.out ⟨ft.view.nodes, []⟩ = ft.view := by
    unfold View.pre; simp
  rw [hpre] at hb
  have a3' : RowsSet sent (RowE ft.view.edge ft.root) (ft.view.under ft.root) := e ▸ a3
  refine ⟨sent, ?_, ?_, a3'⟩
  · unfold FT.currentState
    rw [hb]
    unfold Res.onState FT.withView View.pre
    dsimp only
    rw [e, a2]
  · obtain ⟨rows, r1, r2, r3, -⟩ := a3'
    obtain ⟨b1, b2, b3⟩ := replay_added hadd r1
    rw [List.append_nil] at b1
    refine ⟨hadd, b2, ?_, fun l => ?_, fun before s after e => ?_⟩
    · rw [b1, List.nodup_reverse] at r2; exact r2
    · rw [← List.mem_reverse, ← b1, r3]; rfl
    · rcases b3 before s after e with h | h | h
      · exact Or.inl h
      · exact Or.inr h
      · cases h

end Larch
