import Mathlib.Data.List.Chain
import Verif.Model.Live
import Verif.Model.RunOnce

/-!
# What is claimed about callbacks that look at the view
-/

namespace Larch
namespace Spec

/-- `l` is a chain of displayed parent/child pairs that starts below the virtual root, in the view as it is at some moment. -/
def RowNow (root : Id) (u : View) (l : List Id) : Prop :=
  l ≠ [] ∧ List.IsChain (fun p c => c ∈ u.kids p) (root :: l)

/-- What a callback finds when it looks at the view at the moment of the signal `s`: the path ends with the node, and unless
a row is deleted the node is displayed and the path leads to it. -/
structure Seen (root : Id) (u : View) (s : Sig) : Prop where
  node : s.path.getLast? = some s.nid
  shown : s.ev ≠ .deleted → u.has s.nid = true
  row : s.ev ≠ .deleted → RowNow root u s.path

/-- The calls of callbacks: the view at that moment, and the signal. -/
abbrev Calls := List (View × Sig)

/-- What becomes of the state of the callbacks, one call after the other. -/
def callAll {σ : Type} (cb : Handler σ) (tr : Calls) (a : σ) : Res σ := Res.forEach (fun c a => cb c.1 c.2 a) tr a

/-- What happens to the state of the callbacks in a history: a call of the callback, or something of its own that looks at the
view. -/
inductive Happening (σ : Type) where
  | call (u : View) (s : Sig)
  | own (u : View) (g : View → σ → Res σ)

/-- One thing after the other, ended by the first exception. -/
def happenAll {σ : Type} (cb : Handler σ) (l : List (Happening σ)) (a : σ) : Res σ :=
  Res.forEach (fun | .call u s => cb u s | .own u g => g u) l a

/-- The signals among them. -/
def callsOf {σ : Type} (l : List (Happening σ)) : List Sig := l.filterMap fun | .call _ s => some s | .own _ _ => none

/-- The others among them. -/
def owns {σ : Type} (l : List (Happening σ)) : List (View → σ → Res σ) := l.filterMap fun | .own _ g => some g | .call _ _ => none

/-- What the application does in a history. -/
def appActs {V σ : Type} (hs : List (LiveAct V σ)) : List (FAct V) := hs.filterMap fun | .app c => some c | .own _ => none

/-- The other things in a history. -/
def ownActs {V σ : Type} (hs : List (LiveAct V σ)) : List (View → σ → Res σ) := hs.filterMap fun | .own g => some g | .app _ => none

/-! ### Actions that run once -/

/-- A history of a view: the application acts, or an action is queued. -/
inductive OnceAct (V : Type) where
  | app (c : FAct V)
  | queue (x : Id) (f : Nat)

/-- `callback` (`filteredtree.py:99-126`), called at the moment of the signal. No action raises. -/
def onceHandler : Handler RunOnce := fun u s r => r.signal (fun _ => false) u.has s.ev s.nid

/-- `queue_action` (`viewtree.py:82-83`) looks at the view as it is. -/
def OnceAct.live {V : Type} : OnceAct V → LiveAct V RunOnce
  | .app c => .app c
  | .queue x f => .own fun u r => r.queue u.has x f

/-- An id that is no name of an event. -/
def ProperId (x : Id) : Prop := x.falsy = false ∧ (∀ ev : SigEv, x ≠ ev.key) ∧ x ≠ reorderedKey

/-- No node has the name of an event, neither in the tree nor in what is queued. -/
def NamedRun {V : Type} (diff : List Id → List Id → List Id) : List (OnceAct V) → FApp V → Prop
  | [], a => ∀ y, a.s.t.has y = true → ProperId y
  | .app c :: hs, a => (∀ y, a.s.t.has y = true → ProperId y) ∧ NamedRun diff hs (a.act diff c).state
  | .queue x _ :: hs, a => ProperId x ∧ NamedRun diff hs a

/-- What the application does in such a history. -/
def edits {V : Type} (hs : List (OnceAct V)) : List (FAct V) := hs.filterMap fun | .app c => some c | .queue _ _ => none

/-- `f` is queued in the history. -/
def Queued {V : Type} (f : Nat) (hs : List (OnceAct V)) : Prop := ∃ x, OnceAct.queue x f ∈ hs

/-- A signal that says that `x` is there. -/
def Appeared (x : Id) (l : List Sig) : Prop := ∃ s ∈ l, s.ev = .added ∧ s.nid = x

end Spec
end Larch
