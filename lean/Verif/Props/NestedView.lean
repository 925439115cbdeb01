import Verif.Proofs.NestedView
import Verif.Props.Nested
import Verif.Props.FilteredTree

/-!
# C67: views beside observers that edit the tree
-/

namespace Larch

open Spec Graph

variable {σ V : Type} {obs : List (Member σ)} {diff : List Id → List Id → List Id} {roots : List Id} {more n : Nat}

/-- The state of a view after some history that meets the conditions of C24 to C27: of the tree before the view was created, and of
the application with the view. Its filters look at a node's own data only. -/
def FairView (diff : List Id → List Id → List Id) (s : St) (d : Id → V) (b : Bank (Id → V)) (ft : FT) : Prop :=
  ∃ ops bcs root d0 ft0 acts, ViewStart ops root ∧ FT.new diff (Bank.run {} bcs) (runOps St.init ops).t d0 root true = .ok ft0 ∧
    ViewFairRun diff acts ⟨runOps St.init ops, d0, Bank.run {} bcs, ft0⟩ ∧
    FApp.run diff acts ⟨runOps St.init ops, d0, Bank.run {} bcs, ft0⟩ = .ok ⟨s, d, b, ft⟩ ∧
    OwnApplied (⟨s, d, b, ft⟩ : FApp V)

theorem FairView.vstate {s : St} {d : Id → V} {b : Bank (Id → V)} {ft : FT} (hdiff : SetDiff diff) (h : FairView diff s d b ft) :
    VState diff ⟨s, d, b, ft⟩ := by
  obtain ⟨ops, bcs, root, d0, ft0, acts, hs, e0, hf, e, -⟩ := h
  obtain ⟨ft1, e1, hr⟩ := hs.run (bcs := bcs) hdiff d0
  rw [e0] at e1
  cases e1
  obtain ⟨a, ea, hv⟩ := hr acts hf
  rw [e] at ea
  cases ea
  exact hv

theorem FairView.own {s : St} {d : Id → V} {b : Bank (Id → V)} {ft : FT} (h : FairView diff s d b ft) : OwnOn b ft.applied := by
  obtain ⟨ops, bcs, root, d0, ft0, acts, -, -, -, -, h⟩ := h
  exact h

theorem VState.viewRight {a : FApp V} (h : VState diff a) : ViewRight a := ⟨h.rebuilt.showsExactly, h.rebuilt.rightShape, h.observerAgrees⟩

theorem runNested_right {s : St} {d : Id → V} {b : Bank (Id → V)} {o : σ} {cut link : Prop} {ok : St → Op → Prop} {out : St → Op → Prop}
    (hdiff : SetDiff diff) (hcut : cut → ¬ link) (hap : SeatsApart (seats obs)) (hv : ∀ c ∈ seats obs, FairView diff s d b (c.get o) ∧ (c.get o).root ∈ roots)
    (hok : ∀ s op, ok s op → Kind cut link (fun x => x ∈ roots) s op) (hm : ∀ ob, .editor ob ∈ obs → ModestWatcher (seats obs) ok ob)
    (hout : ∀ s op, out s op → GentleOuter s op ∧ (op.mayCut → cut) ∧ ∀ nd p, op = .addNode nd p → nd.id ∉ roots) (ops : List Op)
    (hdel : (∀ x r, .delNode x r ∉ ops) ∨ EarlyIgnoreRemovals (seats obs) obs)
    (ho : AlongCalm (obs.map (·.watcher diff b d)) more n out ⟨s, o⟩ ops) :
    ∀ c ∈ seats obs, ViewRight (⟨(Now.runNested (obs.map (·.watcher diff b d)) more n ops ⟨s, o⟩).s, d, b,
      c.get (Now.runNested (obs.map (·.watcher diff b d)) more n ops ⟨s, o⟩).o⟩ : FApp V) := by
  intro c0 hc0
  have v0 := (hv c0 hc0).1.vstate hdiff
  have h0 : AllRight diff b d (fun x => x ∈ roots) link (seats obs) (fun _ _ => False) (fun _ => False) (⟨s, o⟩ : Now σ) := by
    refine ⟨⟨v0.good, v0.tidy⟩, fun c hc => ?_⟩
    have v := (hv c hc).1.vstate hdiff
    exact ⟨(hv c hc).2, v.rootFree, v.flat, (hv c hc).1.own, v.fit.owed (env_ok hdiff b v0.good.wf d _ v.rootFree), fun _ => v.fit.anc⟩
  have key : ∀ (ops : List Op) (w : Now σ), ((∀ x r, .delNode x r ∉ ops) ∨ EarlyIgnoreRemovals (seats obs) obs) → AlongCalm (obs.map (·.watcher diff b d)) more n out w ops →
      AllRight diff b d (fun x => x ∈ roots) link (seats obs) (fun _ _ => False) (fun _ => False) w →
      AllRight diff b d (fun x => x ∈ roots) link (seats obs) (fun _ _ => False) (fun _ => False) (Now.runNested (obs.map (·.watcher diff b d)) more n ops w) := by
    intro ops
    induction ops with
    | nil => exact fun w _ _ h => h
    | cons op ops ih =>
      intro w hdel hal h
      obtain ⟨⟨h1, h2⟩, h3⟩ := hal
      obtain ⟨g1, g2, g3⟩ := hout _ _ h1
      refine ih _ (hdel.imp (fun h x r hx => h x r (by simp [hx])) id) h3 ?_
      rcases nested_right hdiff hcut hap hok hm h g1 g2 g3 (fun x r e => hdel.resolve_left fun h => h x r (by simp [e])) with ⟨w', e⟩ | hr
      · exact absurd e (h2 w')
      · exact hr
  obtain ⟨hs, hr⟩ := key ops _ hdel ho h0
  have r := hr c0 hc0
  exact VState.viewRight (diff := diff) ⟨hs.1, hs.2, v0.bank, r.rootFree, r.flat, r.fit hdiff hs.1.wf fun _ h => h.elim id id⟩

/-- **C67** (partial), observers that loosen: any number of views, with filters on a node's own data, are registered with the
tree together with any number of observers that edit it in their callbacks, in any order. These take relations away, refresh nodes and add nodes without
children, to any depth; the application makes gentle edits of all kinds. Then every view displays exactly the nodes it should, where
it should, and its own observers know it, after every edit, also a refused one. If the application removes a node then the
observers that come before a view have to ignore that.

Missing: observers that add relations (`C67_refuted_link`, `C67_refuted_flip`), that raise (`C67_refuted_raise`), that edit the tree when
a node is removed and come before a view, and filters on more than a node's own data. -/
theorem C67_loosening_partial {s : St} {d : Id → V} {b : Bank (Id → V)} {o : σ} (hdiff : SetDiff diff) (hap : SeatsApart (seats obs))
    (hv : ∀ c ∈ seats obs, FairView diff s d b (c.get o) ∧ (c.get o).root ∈ roots)
    (hm : ∀ ob, .editor ob ∈ obs → ModestWatcher (seats obs) (Loosening roots) ob) (ops : List Op)
    (hdel : (∀ x r, .delNode x r ∉ ops) ∨ EarlyIgnoreRemovals (seats obs) obs)
    (ho : AlongCalm (obs.map (·.watcher diff b d)) more n (fun s op => GentleOuter s op ∧ Unnamed roots op) ⟨s, o⟩ ops) :
    ∀ c ∈ seats obs, ViewRight (⟨(Now.runNested (obs.map (·.watcher diff b d)) more n ops ⟨s, o⟩).s, d, b,
      c.get (Now.runNested (obs.map (·.watcher diff b d)) more n ops ⟨s, o⟩).o⟩ : FApp V) := by
  refine runNested_right (cut := True) (link := False) hdiff (fun _ h => h) hap hv ?_ hm ?_ ops hdel ho
  · intro s op h
    cases op <;> first | exact h.elim | skip
    case addNode nd p =>
      refine ⟨h.1, fun _ => trivial, fun h => h.elim, fun nd' p' e => ?_⟩
      cases e
      exact ⟨h.2.1, .inr h.2.2⟩
    all_goals exact ⟨h, fun _ => trivial, fun h => h.elim, fun nd' p' e => by cases e⟩
  · rintro s op ⟨h1, h2⟩
    refine ⟨h1, fun _ => trivial, fun nd p e => ?_⟩
    subst e
    exact h2

/-- **C67** (partial), observers that tighten: the same for observers that add relations, add nodes and refresh nodes, if the
application does the same or removes nodes without parents and children.

Missing: relations that are taken away, by the application (`C67_refuted_link`) or by an observer (`C67_refuted_flip`), and the rest as
in `C67_loosening_partial`. -/
theorem C67_tightening_partial {s : St} {d : Id → V} {b : Bank (Id → V)} {o : σ} (hdiff : SetDiff diff) (hap : SeatsApart (seats obs))
    (hv : ∀ c ∈ seats obs, FairView diff s d b (c.get o) ∧ (c.get o).root ∈ roots)
    (hm : ∀ ob, .editor ob ∈ obs → ModestWatcher (seats obs) (Tightening roots) ob) (ops : List Op)
    (hdel : (∀ x r, .delNode x r ∉ ops) ∨ EarlyIgnoreRemovals (seats obs) obs)
    (ho : AlongCalm (obs.map (·.watcher diff b d)) more n (TighteningOuter roots) ⟨s, o⟩ ops) :
    ∀ c ∈ seats obs, ViewRight (⟨(Now.runNested (obs.map (·.watcher diff b d)) more n ops ⟨s, o⟩).s, d, b,
      c.get (Now.runNested (obs.map (·.watcher diff b d)) more n ops ⟨s, o⟩).o⟩ : FApp V) := by
  have ht : ∀ s op, Tightening roots s op → Gentle s op ∧ (op.mayCut → False) ∧ ∀ nd p, op = .addNode nd p → nd.id ∉ roots := by
    intro s op h
    cases op <;> first | exact h.elim | skip
    case addNode nd p =>
      refine ⟨h.1, fun h => h.elim, fun nd' p' e => ?_⟩
      cases e
      exact h.2
    all_goals exact ⟨h, fun h => h.elim, fun nd' p' e => by cases e⟩
  refine runNested_right (cut := False) (link := True) hdiff (fun h => h.elim) hap hv ?_ hm ?_ ops hdel ho
  · intro s op h
    obtain ⟨h1, h2, h3⟩ := ht s op h
    exact ⟨h1, h2, fun _ => trivial, fun nd p e => ⟨h3 nd p e, .inl trivial⟩⟩
  · intro s op h
    by_cases hd : ∃ x r, op = .delNode x r
    · obtain ⟨x, r, rfl⟩ := hd
      exact ⟨h, fun h => h.elim, fun nd p e => by cases e⟩
    · have h' : Tightening roots s op := by
        cases op with
        | delNode x r => exact absurd ⟨x, r, rfl⟩ hd
        | _ => exact h
      obtain ⟨h1, h2, h3⟩ := ht s op h'
      refine ⟨?_, h2, h3⟩
      cases op with
      | delNode x r => exact absurd ⟨x, r, rfl⟩ hd
      | _ => exact h1

/-! ### A concrete case: two views, one of them with a filter -/

/-- The states of two views. -/
def seatA : Seat (FT × FT) := ⟨Prod.fst, fun ft o => (ft, o.2), fun _ _ => rfl⟩
def seatB : Seat (FT × FT) := ⟨Prod.snd, fun ft o => (o.1, ft), fun _ _ => rfl⟩

theorem seatsAB_apart : SeatsApart [seatA, seatB] := by
  refine List.pairwise_cons.2 ⟨fun c hc => ?_, List.pairwise_singleton _ _⟩
  simp only [List.mem_cons, List.not_mem_nil, or_false] at hc
  subst hc
  exact ⟨fun _ _ => rfl, fun _ _ => rfl⟩

/-- Nodes 3 and 6 have odd numbers, so that the filter hides them. -/
def twoData : Id → Nat := fun x => if x = .str 3 ∨ x = .str 6 then 1 else 0

def twoB : FT := ((emptyApp twoData).act someDiff (.apply (.plain 1) none false true)).state.ft

def twoStart : Now (FT × FT) := ⟨St.init, (emptyApp twoData).ft, twoB⟩

theorem emptyStart : ViewStart [] (.str 100) :=
  ⟨trivial, by decide⟩

theorem two_fair : ∀ c ∈ [seatA, seatB], FairView someDiff twoStart.s twoData (Bank.run {} countBank) (c.get twoStart.o) ∧
    (c.get twoStart.o).root ∈ [Id.str 100] := by
  intro c hc
  simp only [List.mem_cons, List.not_mem_nil, or_false] at hc
  rcases hc with rfl | rfl
  · exact ⟨⟨[], countBank, .str 100, twoData, _, [], emptyStart, rfl, trivial, rfl, (ownBank_run _ countBank_own).2.applied⟩, by decide⟩
  · exact ⟨⟨[], countBank, .str 100, twoData, _, [.apply (.plain 1) none false true], emptyStart, rfl,
      ⟨⟨rfl, fun h => by cases h⟩, trivial⟩, rfl, (ownBank_run _ countBank_own).2.applied⟩, by decide⟩

/-- One edit, whether it is refused or not. -/
def once {σ : Type} (w : Now σ) (op : Op) : Prog σ := .edit w.o op fun
  | .err .recursion w' => .raise .recursion w'.o
  | r => .done r.state.o

theorem once_modest {σ : Type} {cs : List (Seat σ)} {ok : St → Op → Prop} {w : Now σ} {op : Op} (h : ok w.s op) : Modest cs ok (once w op) w := by
  refine ⟨fun _ _ => rfl, h, fun r _ => ⟨?_, fun hr => ?_⟩⟩
  · rintro w' rfl
    exact ⟨w'.o, rfl⟩
  · dsimp only
    split
    · exact absurd rfl (hr _)
    · exact fun _ _ => rfl

/-- Nobody has node 5 as a parent, as far as can be seen. -/
def bare (t : Tree) (x : Id) : Bool := t.nodes.keys.all fun y => decide (x ∉ t.getParents y)

theorem bare_spec {t : Tree} {x : Id} (h : bare t x = true) (y : Id) : ¬ IsParent t x y := by
  intro hy
  have hk := t.rawParents_keys y (List.ne_nil_of_mem (t.getParents_sub y x hy))
  unfold bare at h
  rw [List.all_eq_true] at h
  exact of_decide_eq_true (h y hk) hy

/-- An observer that leaves every node only its last parent, and adds node 5 when it hears of node 1. -/
def trimmer : Watcher (FT × FT) := fun ev x w =>
  if ev = .modified ∧ 2 ≤ (w.s.t.getParents x).length then once w (.removeParent x ((w.s.t.getParents x).headD .none))
  else if x = .str 1 ∧ (insertNode w.s.t (Node.new (.str 5) .none)).allEnabled = true ∧ (addNode w.s (Node.new (.str 5) .none) .none).isOk = true ∧
      bare (addNode w.s (Node.new (.str 5) .none) .none).state.t (.str 5) = true then once w (.addNode (Node.new (.str 5) .none) .none)
  else .done w.o

theorem trimmer_modest : ModestWatcher [seatA, seatB] (Loosening [.str 100]) trimmer := by
  intro ev x w _
  unfold trimmer
  split
  · exact once_modest (ok := Loosening [.str 100]) trivial
  · split
    · rename_i h
      exact once_modest (ok := Loosening [.str 100]) ⟨careful_add (Made.new _ _) ⟨by decide, by decide, h.2.1, h.2.2.1⟩, by decide, bare_spec h.2.2.2⟩
    · exact fun _ _ => rfl

/-- One view comes before the observer and one after it. -/
def between (ob : Watcher (FT × FT)) : List (Watcher (FT × FT)) :=
  [Member.view seatA, .editor ob, .view seatB].map (·.watcher someDiff (Bank.run {} countBank) twoData)

def trimOps : List Op :=
  [ .addNode (Node.new (.str 1) .none) .none, .addNode (Node.new (.str 2) .none) .none, .addNode (Node.new (.str 3) .none) (.str 1),
    .addNode (Node.new (.str 4) .none) (.str 3), .addParent (.str 3) (.str 2), .setParent (.str 4) (.str 1), .addParent (.str 1) (.str 4) ]

def noRecursion {σ : Type} : Res (Now σ) → Bool
  | .err .recursion _ => false
  | _ => true

theorem noRecursion_ne {σ : Type} {r : Res (Now σ)} (h : noRecursion r = true) : ∀ w', r ≠ .err .recursion w' := by
  rintro w' rfl
  cases h

theorem trimOps_calm : AlongCalm (between trimmer) 5 8 (fun s op => GentleOuter s op ∧ Unnamed [.str 100] op) twoStart trimOps := by
  refine ⟨⟨⟨careful_add (Made.new _ _) (by decide), by unfold Unnamed; decide⟩, noRecursion_ne (by decide +kernel)⟩,
    ⟨⟨careful_add (Made.new _ _) (by decide +kernel), by unfold Unnamed; decide⟩, noRecursion_ne (by decide +kernel)⟩,
    ⟨⟨careful_add (Made.new _ _) (by decide +kernel), by unfold Unnamed; decide⟩, noRecursion_ne (by decide +kernel)⟩,
    ⟨⟨careful_add (Made.new _ _) (by decide +kernel), by unfold Unnamed; decide⟩, noRecursion_ne (by decide +kernel)⟩,
    ⟨⟨trivial, trivial⟩, noRecursion_ne (by decide +kernel)⟩,
    ⟨⟨.inl (by decide +kernel), trivial⟩, noRecursion_ne (by decide +kernel)⟩,
    ⟨⟨trivial, trivial⟩, noRecursion_ne (by decide +kernel)⟩, trivial⟩

example : ∀ c ∈ [seatA, seatB], ViewRight (⟨(Now.runNested (between trimmer) 5 8 trimOps twoStart).s, twoData, Bank.run {} countBank,
    c.get (Now.runNested (between trimmer) 5 8 trimOps twoStart).o⟩ : FApp Nat) :=
  C67_loosening_partial (obs := [.view seatA, .editor trimmer, .view seatB]) someDiff_ok seatsAB_apart two_fair (by
    intro ob hob
    simp only [List.mem_cons, List.not_mem_nil, or_false, reduceCtorEq, false_or, Member.editor.injEq] at hob
    subst hob
    exact trimmer_modest) trimOps (.inl (by unfold trimOps; simp)) trimOps_calm

example : (Now.runNested (between trimmer) 5 8 (trimOps.take 5) twoStart).s.t.getParents (.str 3) = [.str 2] ∧
    (Now.runNested (between trimmer) 5 8 (trimOps.take 5) twoStart).o.1.view.pars (.str 3) = [.str 2] ∧
    (Now.runNested (between trimmer) 5 8 (trimOps.take 5) twoStart).o.2.view.pars (.str 4) = [.str 100] ∧
    (Now.runNested (between trimmer) 5 8 (trimOps.take 6) twoStart).o.2.view.pars (.str 4) = [.str 1] ∧
    (Now.runNested (between trimmer) 5 8 trimOps twoStart).o.1.view.has (.str 5) = true ∧
    (Now.nested (between trimmer) 5 8 (Now.runNested (between trimmer) 5 8 (trimOps.take 6) twoStart) (.addParent (.str 1) (.str 4))).isOk = false := by
  decide +kernel

/-- An observer that puts every node it hears of under node 1, if that is possible. -/
def gatherer : Watcher (FT × FT) := fun ev x w =>
  if ev ≠ .deleted ∧ x ≠ .str 1 ∧ w.s.t.has (.str 1) = true ∧ w.s.t.has x = true ∧ .str 1 ∉ w.s.t.getParents x then once w (.addParent x (.str 1)) else .done w.o

theorem gatherer_modest : ModestWatcher [seatA, seatB] (Tightening [.str 100]) gatherer := by
  intro ev x w _
  unfold gatherer
  split
  · exact once_modest (ok := Tightening [.str 100]) trivial
  · exact fun _ _ => rfl

def gatherOps : List Op :=
  [ .addNode (Node.new (.str 2) .none) .none, .addNode (Node.new (.str 3) .none) (.str 2), .addNode (Node.new (.str 4) .none) (.str 3),
    .addNode (Node.new (.str 6) .none) .none, .delNode (.str 6) false, .addNode (Node.new (.str 1) .none) .none, .addParent (.str 4) (.str 2),
    .refreshNode (.str 3), .addNode (Node.new (.str 5) .none) (.str 4), .addParent (.str 1) (.str 5) ]

theorem gatherOps_calm : AlongCalm (between gatherer) 5 8 (TighteningOuter [.str 100]) twoStart gatherOps := by
  refine ⟨⟨⟨careful_add (Made.new _ _) (by decide), by decide⟩, noRecursion_ne (by decide +kernel)⟩,
    ⟨⟨careful_add (Made.new _ _) (by decide +kernel), by decide⟩, noRecursion_ne (by decide +kernel)⟩,
    ⟨⟨careful_add (Made.new _ _) (by decide +kernel), by decide⟩, noRecursion_ne (by decide +kernel)⟩,
    ⟨⟨careful_add (Made.new _ _) (by decide +kernel), by decide⟩, noRecursion_ne (by decide +kernel)⟩,
    ⟨⟨by decide +kernel, by decide +kernel⟩, noRecursion_ne (by decide +kernel)⟩,
    ⟨⟨careful_add (Made.new _ _) (by decide +kernel), by decide⟩, noRecursion_ne (by decide +kernel)⟩,
    ⟨trivial, noRecursion_ne (by decide +kernel)⟩, ⟨trivial, noRecursion_ne (by decide +kernel)⟩,
    ⟨⟨careful_add (Made.new _ _) (by decide +kernel), by decide⟩, noRecursion_ne (by decide +kernel)⟩,
    ⟨trivial, noRecursion_ne (by decide +kernel)⟩, trivial⟩

example : ∀ c ∈ [seatA, seatB], ViewRight (⟨(Now.runNested (between gatherer) 5 8 gatherOps twoStart).s, twoData, Bank.run {} countBank,
    c.get (Now.runNested (between gatherer) 5 8 gatherOps twoStart).o⟩ : FApp Nat) :=
  C67_tightening_partial (obs := [.view seatA, .editor gatherer, .view seatB]) someDiff_ok seatsAB_apart two_fair (by
    intro ob hob
    simp only [List.mem_cons, List.not_mem_nil, or_false, reduceCtorEq, false_or, Member.editor.injEq] at hob
    subst hob
    exact gatherer_modest) gatherOps (.inr ⟨.inl fun x w => ⟨w.o, by simp [gatherer], fun _ _ => rfl⟩, trivial⟩) gatherOps_calm

example : (Now.runNested (between gatherer) 5 8 gatherOps twoStart).o.1.view.pars (.str 4) = [.str 3, .str 2, .str 1] ∧
    (Now.runNested (between gatherer) 5 8 gatherOps twoStart).o.2.view.pars (.str 4) = [.str 2, .str 1] ∧
    (Now.runNested (between gatherer) 5 8 gatherOps twoStart).o.2.view.has (.str 3) = false := by
  decide +kernel

/-! ### What observers can spoil -/

/-- The state of one view. -/
def seat1 : Seat FT := ⟨id, fun ft _ => ft, fun _ _ => rfl⟩

theorem one_fair : FairView someDiff St.init (fun _ => 0) (Bank.run {} countBank) (emptyApp fun _ => 0).ft :=
  ⟨[], countBank, .str 100, fun _ => 0, _, [], emptyStart, rfl, trivial, rfl, (ownBank_run _ countBank_own).2.applied⟩

/-- What C67 says, with freely chosen conditions on the edits of the observers and of the application. -/
def Unspoilt (ok out : St → Op → Prop) : Prop := ∀ (eds : List (Watcher FT)) (ops : List Op), (∀ ob ∈ eds, ModestWatcher [seat1] ok ob) →
  AlongCalm (seat1.watcher someDiff (Bank.run {} countBank) (fun _ => 0) :: eds) 5 8 out ⟨St.init, (emptyApp fun _ => 0).ft⟩ ops →
  ViewRight (⟨(Now.runNested (seat1.watcher someDiff (Bank.run {} countBank) (fun _ => 0) :: eds) 5 8 ops ⟨St.init, (emptyApp fun _ => 0).ft⟩).s, fun _ => 0,
    Bank.run {} countBank, (Now.runNested (seat1.watcher someDiff (Bank.run {} countBank) (fun _ => 0) :: eds) 5 8 ops ⟨St.init, (emptyApp fun _ => 0).ft⟩).o⟩ : FApp Nat)

/-- An observer that puts node 3 under node 6 when it hears of node 3 and node 6 has no parents. -/
def linker36 : Watcher FT := fun ev x w =>
  if ev = .modified ∧ x = .str 3 ∧ w.s.t.getParents (.str 3) = [] ∧ w.s.t.getParents (.str 6) = [] then once w (.addParent (.str 3) (.str 6)) else .done w.o

/-- The same, but it also takes node 6 away from node 3. -/
def flip36 : Watcher FT := fun ev x w =>
  if ev = .modified ∧ x = .str 3 then
    if .str 3 ∈ w.s.t.getParents (.str 6) then once w (.removeParent (.str 6) (.str 3))
    else if w.s.t.getParents (.str 3) = [] then once w (.addParent (.str 3) (.str 6)) else .done w.o
  else .done w.o

def twoNodes : List Op := [.addNode (Node.new (.str 3) .none) .none, .addNode (Node.new (.str 6) .none) (.str 3)]

/-- Observers that only add relations spoil a view if the application takes a relation away. Node 6 is taken away from node 3. The
observer, told of node 3 (`tree.py:313`), puts node 3 under node 6, before the view has heard that node 6 has left. The view, told of
node 6 by the edit of the observer, raises, and nothing is left at its top level. -/
theorem C67_refuted_link : ¬ Unspoilt (Tightening [.str 100]) (fun s op => GentleOuter s op ∧ Unnamed [.str 100] op) := by
  intro h
  have hv := h [linker36] (twoNodes ++ [.removeParent (.str 6) (.str 3)]) (by
    intro ob hob ev x w _
    simp only [List.mem_cons, List.not_mem_nil, or_false] at hob
    subst hob
    unfold linker36
    split
    · exact once_modest (ok := Tightening [.str 100]) trivial
    · exact fun _ _ => rfl) (by
    refine ⟨⟨⟨careful_add (Made.new _ _) (by decide), by unfold Unnamed; decide⟩, noRecursion_ne (by decide +kernel)⟩,
      ⟨⟨careful_add (Made.new _ _) (by decide +kernel), by unfold Unnamed; decide⟩, noRecursion_ne (by decide +kernel)⟩,
      ⟨⟨trivial, trivial⟩, noRecursion_ne (by decide +kernel)⟩, trivial⟩)
  have := (hv.shape.mirror (.str 100) (.str 6)).2 (by decide +kernel)
  revert this
  decide +kernel

/-- It is the view that raises. -/
example : ∃ w, Now.nested [seat1.watcher someDiff (Bank.run {} countBank) (fun _ => 0), linker36] 5 8
    (Now.runNested [seat1.watcher someDiff (Bank.run {} countBank) (fun _ => 0), linker36] 5 8 twoNodes ⟨St.init, (emptyApp fun _ => 0).ft⟩)
    (.removeParent (.str 6) (.str 3)) = .err .inconsistent w := ⟨_, rfl⟩

/-- An observer that both takes relations away and adds them spoils a view alone: the application adds two nodes and refreshes one. -/
theorem C67_refuted_flip : ¬ Unspoilt (fun s op => Gentle s op ∧ Unnamed [.str 100] op) (TighteningOuter [.str 100]) := by
  intro h
  have hv := h [flip36] (twoNodes ++ [.refreshNode (.str 3)]) (by
    intro ob hob ev x w _
    simp only [List.mem_cons, List.not_mem_nil, or_false] at hob
    subst hob
    unfold flip36
    split
    · split
      · exact once_modest (ok := fun s op => Gentle s op ∧ Unnamed [.str 100] op) ⟨trivial, trivial⟩
      · split
        · exact once_modest (ok := fun s op => Gentle s op ∧ Unnamed [.str 100] op) ⟨trivial, trivial⟩
        · exact fun _ _ => rfl
    · exact fun _ _ => rfl) (by
    refine ⟨⟨⟨careful_add (Made.new _ _) (by decide), by decide⟩, noRecursion_ne (by decide +kernel)⟩,
      ⟨⟨careful_add (Made.new _ _) (by decide +kernel), by decide⟩, noRecursion_ne (by decide +kernel)⟩,
      ⟨trivial, noRecursion_ne (by decide +kernel)⟩, trivial⟩)
  have := (hv.shape.mirror (.str 100) (.str 6)).2 (by decide +kernel)
  revert this
  decide +kernel

/-- An observer that raises when it hears of node 3. -/
def raiser3 : Watcher FT := fun ev x w => if ev = .modified ∧ x = .str 3 then .raise .valueError w.o else .done w.o

/-- An observer that makes no edits, but raises in the middle of one, spoils a view, too: the exception ends `_break_relationship`
before the other node is announced (`tree.py:313-314`), and the view keeps the node where it was. -/
theorem C67_refuted_raise : ¬ ∀ (eds : List (Watcher FT)) (ops : List Op), (∀ ob ∈ eds, PoliteWatcher Sane (fun _ _ => False) ob) →
    AlongCalm (seat1.watcher someDiff (Bank.run {} countBank) (fun _ => 0) :: eds) 5 8 (fun s op => GentleOuter s op ∧ Unnamed [.str 100] op)
      ⟨St.init, (emptyApp fun _ => 0).ft⟩ ops →
    ViewRight (⟨(Now.runNested (seat1.watcher someDiff (Bank.run {} countBank) (fun _ => 0) :: eds) 5 8 ops ⟨St.init, (emptyApp fun _ => 0).ft⟩).s, fun _ => 0,
      Bank.run {} countBank, (Now.runNested (seat1.watcher someDiff (Bank.run {} countBank) (fun _ => 0) :: eds) 5 8 ops ⟨St.init, (emptyApp fun _ => 0).ft⟩).o⟩ : FApp Nat) := by
  intro h
  have hv := h [raiser3] (twoNodes ++ [.removeParent (.str 6) (.str 3)]) (by
    intro ob hob ev x w _
    simp only [List.mem_cons, List.not_mem_nil, or_false] at hob
    subst hob
    unfold raiser3
    split <;> trivial) (by
    refine ⟨⟨⟨careful_add (Made.new _ _) (by decide), by unfold Unnamed; decide⟩, noRecursion_ne (by decide +kernel)⟩,
      ⟨⟨careful_add (Made.new _ _) (by decide +kernel), by unfold Unnamed; decide⟩, noRecursion_ne (by decide +kernel)⟩,
      ⟨⟨trivial, trivial⟩, noRecursion_ne (by decide +kernel)⟩, trivial⟩)
  have hw : Wanted (⟨(Now.runNested [seat1.watcher someDiff (Bank.run {} countBank) (fun _ => 0), raiser3] 5 8 (twoNodes ++ [.removeParent (.str 6) (.str 3)])
      ⟨St.init, (emptyApp fun _ => 0).ft⟩).s, fun _ => 0, Bank.run {} countBank,
      (Now.runNested [seat1.watcher someDiff (Bank.run {} countBank) (fun _ => 0), raiser3] 5 8 (twoNodes ++ [.removeParent (.str 6) (.str 3)])
      ⟨St.init, (emptyApp fun _ => 0).ft⟩).o⟩ : FApp Nat) (.str 6) := (hv.shows.shown (.str 6) (by decide +kernel)).1 (by decide +kernel)
  rcases (hv.shape.parents (.str 6) hw (.str 3)).1 (by decide +kernel) with ⟨-, hp, -⟩ | ⟨hp, -⟩
  · revert hp; unfold IsParent; decide +kernel
  · revert hp; decide +kernel

end Larch
