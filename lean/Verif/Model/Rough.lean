import Verif.Model.FilteredTree
import Verif.Model.Now

/-!
# Filters that raise

A filter function is code of the application, and nothing in `FilteredTree` or `FiltersBank` catches what it raises
(`filters_bank.py:35-49`, `filteredtree.py:335-348`). This file follows `Model/View.lean` with `__is_displayed` replaced
by a question that may raise instead of being answered; the exception ends the call where it is, and the view is left as it is
at that moment. `leave`, `join`, `abandon` and `vanish` ask nothing themselves and are the ones of `Model/View.lean`.

Simplifications: as in `Model/View.lean`. Whether a filter raises may depend on its name, the node, and the state of the
view at that moment (which includes the signals sent so far).
-/

namespace Larch

/-- The loops over `__is_displayed` in `__node_children` (`filteredtree.py:370-375`) and `__node_parents`
(`filteredtree.py:388-390`): the elements for which the answer is yes, or the first exception. -/
def askAll (ask : Id → Except Err Bool) : List Id → Except Err (List Id)
  | [] => .ok []
  | x :: l =>
    match ask x with
    | .error e => .error e
    | .ok b =>
      match askAll ask l with
      | .error e => .error e
      | .ok l' => .ok (if b then x :: l' else l')

namespace VEnv

/-- `__node_children` (`filteredtree.py:355-375`). -/
def newKidsR (E : VEnv) (ask : View → Id → Except Err Bool) (v : View) (x : Id) : Except Err (List Id) :=
  if E.flat = false ∧ E.has x = true then askAll (ask v) (E.chi x) else .ok []

/-- `__node_parents` (`filteredtree.py:377-396`); only parents in the view are asked about. -/
def newParsR (E : VEnv) (ask : View → Id → Except Err Bool) (v : View) (x : Id) : Except Err (List Id) :=
  match (if E.flat = false ∧ E.has x = true then askAll (ask v) ((E.par x).filter v.has) else .ok []) with
  | .error e => .error e
  | .ok l => .ok (if l = [] then [E.root] else l)

/-- The first half of the branch for a node to be shown (`filteredtree.py:167-223`). The parents are asked about twice,
at lines 173 and 185. -/
def settleR (E : VEnv) (ask : View → Id → Except Err Bool) (up : Id → View → Res View) (x : Id) (dir : Dir) (v : View) :
    Res View :=
  -- 167-168
  let isNew := !v.has x
  let v1 : View := if isNew then { v with nodes := v.nodes.set x {} } else v
  -- 172-181
  match E.newParsR ask v1 x with
  | .error e => .err e v1
  | .ok first =>
    let absent := (E.par x).filter fun p => decide (p ∉ first ∧ p ∉ v1.pars x)
    (if isNew then Res.forEach up absent v1 else .ok v1).andThen fun v2 =>
    -- 184-193
    match v2.nodes.get? x with
    | none => .err .keyError v2
    | some n =>
      match E.newParsR ask v2 x with
      | .error e => .err e v2
      | .ok new =>
        let cur := n.parents
        let v3 := v2.upd x fun n => { n with parents := new.filter v2.has }
        let addTo := E.diff new cur
        -- 197-198
        let dir := if dir = .down ∧ E.root ∈ addTo then .both else dir
        -- 200-204
        (Res.forEach (E.leave up dir.goesUp x) (E.diff cur new) v3).andThen fun v4 =>
        -- 206-214
        (Res.forEach (E.join up dir.goesUp x) addTo v4).andThen fun v5 =>
        -- 216-218
        (if dir.goesUp then Res.forEach up (E.diff new addTo) v5 else .ok v5).andThen fun v6 =>
        -- 221-223
        if isNew then .ok v6
        else match v6.paths E.root x with
          | .error e => .err e v6
          | .ok ps => .ok (v6.send .modified x ps)

/-- `__update_node` (`filteredtree.py:132-258`). The children are asked about at line 227, whatever the direction. -/
def updateR (E : VEnv) (ask : View → Id → Except Err Bool) : Nat → Id → Dir → View → Res View
  | 0, _, _, v => .err .diverge v
  | f + 1, x, dir, v =>
    -- 136-140
    if x = E.root then .ok v
    else match ask v x with
      | .error e => .err e v
      | .ok wanted =>
        if v.has x = false ∧ wanted = false then
          -- 150-158
          if E.has x then Res.forEach (fun p v => updateR E ask f p .up v) (E.par x) v else .ok v
        else if wanted = true then
          (E.settleR ask (fun p v => updateR E ask f p .up v) x dir v).andThen fun v =>
          -- 226-231
          if v.has x = false then .err .keyError v
          else match E.newKidsR ask v x with
            | .error e => .err e v
            | .ok new =>
              if dir.goesDown then
                Res.forEach (fun c v => if c ∉ v.kids x then updateR E ask f c .down v else .ok v) new v
              else .ok v
        else E.vanish (fun p v => updateR E ask f p .up v) (fun c v => updateR E ask f c .down v) x v

/-- The loop of `refilter` (`filteredtree.py:329-333`). -/
def fillLoopR (E : VEnv) (ask : View → Id → Except Err Bool) (depth : Nat) : Nat → View → List Id → Res View
  | _, v, [] => .ok v
  | 0, v, _ :: _ => .err .diverge v
  | f + 1, v, x :: q =>
    (updateR E ask depth x .both v).andThen fun v =>
    if E.has x = false then .err .valueError v else fillLoopR E ask depth f v (q ++ E.chi x)

/-- `refilter` (`filteredtree.py:309-333`). -/
def refilterR (E : VEnv) (ask : View → Id → Except Err Bool) (depth rounds : Nat) (v : View) : Res View :=
  -- 320-321
  (Res.forEach (fun x v => v.sendRemove E.root x E.root) (v.kids E.root).reverse v).andThen fun v =>
  -- 323-333
  fillLoopR E ask depth rounds { v with nodes := View.rootOnly E.root } E.top

end VEnv

/-- Which evaluations raise: the filter of this name, at this state of the view, for this node. -/
abbrev Raises := FName → View → Id → Option Err

/-- Nothing raises. -/
def Raises.never : Raises := fun _ _ _ => none

namespace FT

variable {D : Type}

/-- The loop of `__is_displayed` (`filteredtree.py:338-346`) over the applied filters. -/
def askFilters (b : Bank D) (t : Tree) (d : D) (bad : Raises) (v : View) (x : Id) : List FName → Except Err Bool
  | [] => .ok true
  | n :: l =>
    match b.getFilter n with
    | none => .ok false
    | some f =>
      match bad n v x with
      | some e => .error e
      | none => if f.isDisplayed t d x then askFilters b t d bad v x l else .ok false

/-- `__is_displayed` (`filteredtree.py:335-348`); the filters are only asked about nodes of the tree. -/
def asks (b : Bank D) (t : Tree) (d : D) (bad : Raises) (applied : List FName) (v : View) (x : Id) : Except Err Bool :=
  if x.falsy = false ∧ t.has x = true then askFilters b t d bad v x applied else .ok false

/-- `refilter` (`filteredtree.py:309-333`). -/
def refilterR (diff : List Id → List Id → List Id) (b : Bank D) (t : Tree) (d : D) (bad : Raises) (ft : FT) : Res FT :=
  -- 312-317
  let ft1 : FT := { ft with flat := anyFlat b ft.applied }
  ft1.withView ((env diff b t d ft1).refilterR (asks b t d bad ft.applied) (depth t ft.view) (rounds t) ft1.view)

/-- `__external_modify` (`filteredtree.py:129-130`). -/
def reactR (diff : List Id → List Id → List Id) (b : Bank D) (d : D) (bad : Raises) (n : Note) (ft : FT) : Res FT :=
  ft.withView ((env diff b n.snap d ft).updateR (asks b n.snap d bad ft.applied) (depth n.snap ft.view) n.nid .both ft.view)

/-- `apply_filter` (`filteredtree.py:598-630`). -/
def applyFilterR (diff : List Id → List Id → List Id) (b : Bank D) (t : Tree) (d : D) (bad : Raises) (ft : FT) (n : FName)
    (params : Option Params) (reset refresh : Bool) : Bool × Bank D × Res FT :=
  let ft1 : FT := if reset then { ft with applied := [] } else ft
  -- 612-619
  if givesParams params && (b.getFilter n).isNone then (false, b, .err .valueError ft1)
  else
    let b1 := if givesParams params then b.setParameters n params else b
    -- 621-626
    let isNew := decide (n ∉ ft1.applied)
    let ft2 : FT := if isNew then { ft1 with applied := ft1.applied ++ [n] } else ft1
    -- 628-630
    if refresh && (givesParams params || isNew) then (isNew, b1, ft2.refilterR diff b1 t d bad)
    else (isNew, b1, .ok ft2)

/-- `unapply_filter` (`filteredtree.py:632-645`). -/
def unapplyFilterR (diff : List Id → List Id → List Id) (b : Bank D) (t : Tree) (d : D) (bad : Raises) (ft : FT) (n : FName)
    (refresh : Bool) : Bool × Res FT :=
  if n ∈ ft.applied then
    let ft1 : FT := { ft with applied := ft.applied.erase n }
    (true, if refresh then ft1.refilterR diff b t d bad else .ok ft1)
  else (false, .ok ft)

/-- `reset_filters` (`filteredtree.py:647-654`). -/
def resetFiltersR (diff : List Id → List Id → List Id) (b : Bank D) (t : Tree) (d : D) (bad : Raises) (ft : FT) (refresh : Bool) :
    Res FT :=
  let ft1 : FT := { ft with applied := [] }
  if refresh then ft1.refilterR diff b t d bad else .ok ft1

end FT

/-- One step of an application whose filters may raise: an action, or a call of `refilter` (`filteredtree.py:309-333`), and which
evaluations raise during it. -/
inductive RoughAct (V : Type)
  | does (act : FAct V) (bad : Raises)
  | refilter (bad : Raises)

/-- The application, and whether an exception has left the view behind since it was last refiltered to the end. -/
structure RoughApp (V : Type) where
  app : FApp V
  hurt : Bool := false

namespace RoughApp

variable {V : Type}

/-- The new state of the view after an exception or without one. -/
def settle (a : FApp V) (hurt : Bool) : Res FT → RoughApp V
  | .ok ft => ⟨{ a with ft := ft }, hurt⟩
  | .err _ ft => ⟨{ a with ft := ft }, true⟩

/-- One action. The exception of a filter goes through to the caller, who carries on.
* The view is told in the middle of an edit of the tree (`Model/Now.lean`). An exception also ends the edit, and the tree stays as it is
  at that notification. The exceptions of the edit itself go to the caller as well and do no harm to the view.
* After `node.modified()` (`treenode.py:49-52`, `tree.py:88-89, 258-261`) the view is the only thing that was being changed.
* A refilter that reaches its end leaves nothing of an earlier exception behind. -/
def step (diff : List Id → List Id → List Id) (r : RoughApp V) : RoughAct V → RoughApp V
  | .refilter bad => settle r.app false (r.app.ft.refilterR diff r.app.bank r.app.s.t r.app.data bad)
  | .does (.change x w) bad =>
    let a := r.app
    let a1 : FApp V := { a with data := fun y => if y = x then w else a.data y }
    let s' := (Larch.step a.s (.refreshNode x)).state
    settle { a1 with s := s' } r.hurt
      (Res.forEach (FT.reactR diff a1.bank a1.data bad) (s'.log.drop a.s.log.length) a1.ft)
  | .does (.apply n p rs rf) bad =>
    let a := r.app
    let o := a.ft.applyFilterR diff a.bank a.s.t a.data bad n p rs rf
    settle { a with bank := o.2.1 } (r.hurt && !(rf && (FT.givesParams p || decide (n ∉ (if rs then [] else a.ft.applied))))) o.2.2
  | .does (.unapply n rf) bad =>
    let a := r.app
    settle a (r.hurt && !(rf && decide (n ∈ a.ft.applied))) (a.ft.unapplyFilterR diff a.bank a.s.t a.data bad n rf).2
  | .does (.reset rf) bad =>
    settle r.app (r.hurt && !rf) (r.app.ft.resetFiltersR diff r.app.bank r.app.s.t r.app.data bad rf)
  | .does (.edit op) bad =>
    let a := r.app
    let w := (Now.step (Now.quietly (FT.reactR diff a.bank a.data bad)) ⟨a.s, a.ft⟩ op).state
    let told := Res.forEach (FT.reactR diff a.bank a.data bad) ((Larch.step a.s op).state.log.drop a.s.log.length) a.ft
    ⟨{ a with s := w.s, ft := w.o }, r.hurt || !told.isOk⟩
  | .does c _ => match r.app.act diff c with
    | .ok a' => ⟨a', r.hurt⟩
    | .err _ a' => ⟨a', true⟩

/-- A history of actions. -/
def run (diff : List Id → List Id → List Id) (cs : List (RoughAct V)) (r : RoughApp V) : RoughApp V := cs.foldl (step diff) r

end RoughApp
end Larch
