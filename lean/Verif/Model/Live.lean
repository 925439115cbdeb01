import Verif.Model.RunOnce
import Verif.Model.FilteredTree

/-!
# Views whose callbacks are called while they work

`Model/View.lean` and `Model/FilteredTree.lean` record the signals of a view. Here the same functions of
`liblarch/filteredtree.py` call what stands behind the signals at the moment they are sent, when the view may be half done:
the callback gets the view as it is then, has a state of its own, and may raise.

Simplification: callbacks look at the view but do not change it or the main tree.
-/

namespace Larch

/-- What stands behind `self.callback` (`filteredtree.py:99-126`). -/
abbrev Handler (σ : Type) := View → Sig → σ → Res σ

/-- A view, and the state of its callbacks. -/
structure LView (σ : Type) where
  view : View
  aux : σ

namespace LView

variable {σ : Type}

/-- Change the view only. -/
def onView (w : LView σ) (g : View → View) : LView σ := ⟨g w.view, w.aux⟩

/-- `self.callback(ev, x, path)` for each path of the list. -/
def send (cb : Handler σ) (ev : SigEv) (x : Id) : List (List Id) → LView σ → Res (LView σ)
  | [], w => .ok w
  | p :: l, w =>
    match cb w.view ⟨ev, x, p⟩ w.aux with
    | .ok a => send cb ev x l ⟨w.view.send ev x [p], a⟩
    | .err e a => .err e ⟨w.view, a⟩

/-- The loop of `send_add_tree` (`filteredtree.py:264-272`). -/
def addLoop (cb : Handler σ) (starts : List (List Id)) : Nat → LView σ → List (Id × List Id) → Res (LView σ)
  | _, w, [] => .ok w
  | 0, w, _ :: _ => .err .diverge w
  | f + 1, w, (x, rel) :: q =>
    (w.send cb .added x (starts.map (· ++ rel))).andThen fun w =>
    match w.view.nodes.get? x with
    | none => .err .keyError w
    | some n => addLoop cb starts f w (q ++ n.children.map (fun c => (c, rel ++ [c])))

/-- `send_add_tree` (`filteredtree.py:260-272`). -/
def sendAdd (cb : Handler σ) (root : Id) (w : LView σ) (x p : Id) : Res (LView σ) :=
  match w.view.paths root p with
  | .error e => .err e w
  | .ok starts => addLoop cb starts (w.view.walksBelow x) w [(x, [x])]

/-- The loop of `send_remove_tree` (`filteredtree.py:278-290`). -/
def removeLoop (cb : Handler σ) (starts : List (List Id)) : Nat → LView σ → List (Id × List Id × Bool) → Res (LView σ)
  | _, w, [] => .ok w
  | 0, w, _ :: _ => .err .diverge w
  | f + 1, w, (x, rel, first) :: q =>
    if first then
      match w.view.nodes.get? x with
      | none => .err .keyError w
      | some n =>
        removeLoop cb starts f w ((n.children.map (fun c => (c, rel ++ [c], true))).reverse ++ (x, rel, false) :: q)
    else (w.send cb .deleted x (starts.map (· ++ rel))).andThen fun w => removeLoop cb starts f w q

/-- `send_remove_tree` (`filteredtree.py:274-290`). -/
def sendRemove (cb : Handler σ) (root : Id) (w : LView σ) (x p : Id) : Res (LView σ) :=
  match w.view.paths root p with
  | .error e => .err e w
  | .ok starts => removeLoop cb starts (2 * w.view.walksBelow x) w [(x, [x], true)]

/-- `self.nodes[p]['children'].remove(x)`. -/
def dropKid (w : LView σ) (p x : Id) : Res (LView σ) :=
  match w.view.dropKid p x with
  | .ok v => .ok ⟨v, w.aux⟩
  | .err e v => .err e ⟨v, w.aux⟩

/-- `self.nodes[c]['parents'].remove(x)`. -/
def dropPar (w : LView σ) (c x : Id) : Res (LView σ) :=
  match w.view.dropPar c x with
  | .ok v => .ok ⟨v, w.aux⟩
  | .err e v => .err e ⟨v, w.aux⟩

end LView

namespace VEnv

variable {σ : Type}

/-- `filteredtree.py:200-204`. -/
def leaveL (E : VEnv) (cb : Handler σ) (upd : Id → LView σ → Res (LView σ)) (goUp : Bool) (x p : Id) (w : LView σ) :
    Res (LView σ) :=
  (w.sendRemove cb E.root x p).andThen fun w =>
  (w.dropKid p x).andThen fun w =>
  if goUp then upd p w else .ok w

/-- `filteredtree.py:206-214`. -/
def joinL (E : VEnv) (cb : Handler σ) (upd : Id → LView σ → Res (LView σ)) (goUp : Bool) (x p : Id) (w : LView σ) :
    Res (LView σ) :=
  if w.view.has p = false then .err .inconsistent w
  else
    ((w.onView fun v => v.upd p fun n => { n with children := n.children ++ [x] }).sendAdd cb E.root x p).andThen fun w =>
    if goUp then upd p w else .ok w

/-- `filteredtree.py:236-239`. -/
def abandonL (E : VEnv) (cb : Handler σ) (upd : Id → LView σ → Res (LView σ)) (x c : Id) (w : LView σ) : Res (LView σ) :=
  (w.sendRemove cb E.root c x).andThen fun w =>
  (w.dropPar c x).andThen fun w => upd c w

/-- `filteredtree.py:167-223`. -/
def settleL (E : VEnv) (cb : Handler σ) (up : Id → LView σ → Res (LView σ)) (x : Id) (dir : Dir) (w : LView σ) :
    Res (LView σ) :=
  -- 167-168
  let isNew := !w.view.has x
  let w1 : LView σ := w.onView fun v => if isNew then { v with nodes := v.nodes.set x {} } else v
  -- 172-181
  let absent := (E.par x).filter fun p => decide (p ∉ E.newPars w1.view x ∧ p ∉ w1.view.pars x)
  (if isNew then Res.forEach up absent w1 else .ok w1).andThen fun w2 =>
  -- 184-193
  match w2.view.nodes.get? x with
  | none => .err .keyError w2
  | some n =>
    let cur := n.parents
    let new := E.newPars w2.view x
    let w3 := w2.onView fun v => v.upd x fun n => { n with parents := new.filter v.has }
    let addTo := E.diff new cur
    -- 197-198
    let dir := if dir = .down ∧ E.root ∈ addTo then .both else dir
    -- 200-204
    (Res.forEach (E.leaveL cb up dir.goesUp x) (E.diff cur new) w3).andThen fun w4 =>
    -- 206-214
    (Res.forEach (E.joinL cb up dir.goesUp x) addTo w4).andThen fun w5 =>
    -- 216-218
    (if dir.goesUp then Res.forEach up (E.diff new addTo) w5 else .ok w5).andThen fun w6 =>
    -- 221-223
    if isNew then .ok w6
    else match w6.view.paths E.root x with
      | .error e => .err e w6
      | .ok ps => w6.send cb .modified x ps

/-- `filteredtree.py:233-256`. -/
def vanishL (E : VEnv) (cb : Handler σ) (up down : Id → LView σ → Res (LView σ)) (x : Id) (w : LView σ) : Res (LView σ) :=
  -- 234-239
  match w.view.paths E.root x with
  | .error e => .err e w
  | .ok ps =>
    (Res.forEach (E.abandonL cb down x) (w.view.kids x).reverse w).andThen fun w1 =>
    -- 241-243
    match w1.view.nodes.get? x with
    | none => .err .keyError w1
    | some n =>
      ((w1.onView fun v => { v with nodes := v.nodes.del x }).send cb .deleted x ps).andThen fun w2 =>
      -- 246-248
      (Res.forEach (fun p w => (w.dropKid p x).andThen (up p)) n.parents w2).andThen fun w3 =>
      -- 252-256
      if E.has x then
        Res.forEach (fun p w => if w.view.has p = false then up p w else .ok w) (E.par x) w3
      else .ok w3

/-- `__update_node` (`filteredtree.py:132-258`). -/
def updateL (E : VEnv) (cb : Handler σ) : Nat → Id → Dir → LView σ → Res (LView σ)
  | 0, _, _, w => .err .diverge w
  | f + 1, x, dir, w =>
    -- 136-140
    if x = E.root then .ok w
    else if w.view.has x = false ∧ E.disp x = false then
      -- 150-158
      if E.has x then Res.forEach (fun p w => updateL E cb f p .up w) (E.par x) w else .ok w
    else if E.disp x = true then
      (E.settleL cb (fun p w => updateL E cb f p .up w) x dir w).andThen fun w =>
      -- 226-231
      if w.view.has x = false then .err .keyError w
      else if dir.goesDown then
        Res.forEach (fun c w => if c ∉ w.view.kids x then updateL E cb f c .down w else .ok w) (E.newKids x) w
      else .ok w
    else E.vanishL cb (fun p w => updateL E cb f p .up w) (fun c w => updateL E cb f c .down w) x w

/-- The loop of `refilter` (`filteredtree.py:329-333`). -/
def fillLoopL (E : VEnv) (cb : Handler σ) (depth : Nat) : Nat → LView σ → List Id → Res (LView σ)
  | _, w, [] => .ok w
  | 0, w, _ :: _ => .err .diverge w
  | f + 1, w, x :: q =>
    (updateL E cb depth x .both w).andThen fun w =>
    if E.has x = false then .err .valueError w else fillLoopL E cb depth f w (q ++ E.chi x)

/-- `refilter` (`filteredtree.py:309-333`). -/
def refilterL (E : VEnv) (cb : Handler σ) (depth rounds : Nat) (w : LView σ) : Res (LView σ) :=
  -- 320-321
  (Res.forEach (fun x w => w.sendRemove cb E.root x E.root) (w.view.kids E.root).reverse w).andThen fun w =>
  -- 323-333
  fillLoopL E cb depth rounds (w.onView fun v => { v with nodes := View.rootOnly E.root }) E.top

end VEnv

/-! ### The application -/

/-- The application with a view, and the state of the callbacks of the view. -/
structure Live (V σ : Type) where
  app : FApp V
  aux : σ

/-- What happens: the application acts, or something else that looks at the view. -/
inductive LiveAct (V σ : Type) where
  | app (c : FAct V)
  | own (g : View → σ → Res σ)

namespace Live

variable {V σ : Type}

/-- Put the outcome of a view operation back. -/
def withView (a : FApp V) (ft : FT) : Res (LView σ) → Res (Live V σ)
  | .ok w => .ok ⟨{ a with ft := { ft with view := w.view } }, w.aux⟩
  | .err e w => .err e ⟨{ a with ft := { ft with view := w.view } }, w.aux⟩

/-- `__external_modify` (`filteredtree.py:129-130`). -/
def react (diff : List Id → List Id → List Id) (cb : Handler σ) (n : Note) (w : Live V σ) : Res (Live V σ) :=
  withView w.app w.app.ft ((w.app.ft.env diff w.app.bank n.snap w.app.data).updateL cb (FT.depth n.snap w.app.ft.view) n.nid .both
    ⟨w.app.ft.view, w.aux⟩)

/-- `refilter` (`filteredtree.py:309-333`) of the view `ft`. -/
def refilter (diff : List Id → List Id → List Id) (cb : Handler σ) (ft : FT) (w : Live V σ) : Res (Live V σ) :=
  let ft1 : FT := { ft with flat := FT.anyFlat w.app.bank ft.applied }
  withView w.app ft1 ((ft1.env diff w.app.bank w.app.s.t w.app.data).refilterL cb (FT.depth w.app.s.t ft.view)
    (FT.rounds w.app.s.t) ⟨ft1.view, w.aux⟩)

/-- The view handles the notifications an edit sends; see `FApp.edit`. -/
def edit (diff : List Id → List Id → List Id) (cb : Handler σ) (w : Live V σ) (op : Op) : Res (Live V σ) :=
  let s' := (step w.app.s op).state
  Res.forEach (react diff cb) (s'.log.drop w.app.s.log.length) ⟨{ w.app with s := s' }, w.aux⟩

/-- `apply_filter` (`filteredtree.py:598-630`). -/
def applyFilter (diff : List Id → List Id → List Id) (cb : Handler σ) (w : Live V σ) (n : FName) (params : Option Params)
    (reset refresh : Bool) : Res (Live V σ) :=
  let a := w.app
  let ft1 : FT := if reset then { a.ft with applied := [] } else a.ft
  -- 612-619
  if FT.givesParams params && (a.bank.getFilter n).isNone then .err .valueError ⟨{ a with ft := ft1 }, w.aux⟩
  else
    let b1 := if FT.givesParams params then a.bank.setParameters n params else a.bank
    -- 621-626
    let isNew := decide (n ∉ ft1.applied)
    let ft2 : FT := if isNew then { ft1 with applied := ft1.applied ++ [n] } else ft1
    -- 628-630
    if refresh && (FT.givesParams params || isNew) then refilter diff cb ft2 ⟨{ a with bank := b1 }, w.aux⟩
    else .ok ⟨{ a with bank := b1, ft := ft2 }, w.aux⟩

/-- `unapply_filter` (`filteredtree.py:632-645`). -/
def unapplyFilter (diff : List Id → List Id → List Id) (cb : Handler σ) (w : Live V σ) (n : FName) (refresh : Bool) :
    Res (Live V σ) :=
  if n ∈ w.app.ft.applied then
    let ft1 : FT := { w.app.ft with applied := w.app.ft.applied.erase n }
    if refresh then refilter diff cb ft1 w else .ok ⟨{ w.app with ft := ft1 }, w.aux⟩
  else .ok w

/-- `reset_filters` (`filteredtree.py:647-654`). -/
def resetFilters (diff : List Id → List Id → List Id) (cb : Handler σ) (w : Live V σ) (refresh : Bool) : Res (Live V σ) :=
  let ft1 : FT := { w.app.ft with applied := [] }
  if refresh then refilter diff cb ft1 w else .ok ⟨{ w.app with ft := ft1 }, w.aux⟩

/-- `get_current_state` (`filteredtree.py:584-592`). -/
def currentState (cb : Handler σ) (w : Live V σ) : Res (Live V σ) :=
  withView w.app w.app.ft
    (Res.forEach (fun x u => u.sendAdd cb w.app.ft.root x w.app.ft.root) (w.app.ft.view.kids w.app.ft.root) ⟨w.app.ft.view, w.aux⟩)

/-- One action of the application. -/
def appAct (diff : List Id → List Id → List Id) (cb : Handler σ) (w : Live V σ) : FAct V → Res (Live V σ)
  | .edit op => w.edit diff cb op
  | .change x v =>
    (⟨{ w.app with data := fun y => if y = x then v else w.app.data y }, w.aux⟩ : Live V σ).edit diff cb (.refreshNode x)
  | .bank c => .ok ⟨{ w.app with bank := (w.app.bank.call c).2 }, w.aux⟩
  | .setParams n p => .ok ⟨{ w.app with bank := w.app.bank.setParameters n (some p) }, w.aux⟩
  | .apply n p rs rf => w.applyFilter diff cb n p rs rf
  | .unapply n rf => w.unapplyFilter diff cb n rf
  | .reset rf => w.resetFilters diff cb rf
  | .currentState => w.currentState cb

def act (diff : List Id → List Id → List Id) (cb : Handler σ) (w : Live V σ) : LiveAct V σ → Res (Live V σ)
  | .app c => w.appAct diff cb c
  | .own g =>
    match g w.app.ft.view w.aux with
    | .ok a => .ok ⟨w.app, a⟩
    | .err e a => .err e ⟨w.app, a⟩

/-- A history, ended by the first exception. -/
def run (diff : List Id → List Id → List Id) (cb : Handler σ) : List (LiveAct V σ) → Live V σ → Res (Live V σ)
  | [], w => .ok w
  | c :: cs, w => (w.act diff cb c).andThen (run diff cb cs)

end Live
end Larch
