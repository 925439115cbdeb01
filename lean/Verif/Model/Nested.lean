import Verif.Model.Now

/-!
# Observers that edit the tree from their callbacks

A callback may call the methods of the tree and of its nodes (`tree.py:74-79` does not forbid it). In the thread that made the
tree, `SyncQueue.push` calls the function of the request at once (`processqueue.py:64-67`). So the edit of the callback is
made, with its own notifications to all observers, in the middle of the edit that it was told about.

Simplification: a method of a node works on the object. Here the node is looked up under its name after a notification, so that
an observer that removes the node whose `set_parent` or whose removal is going on is not modelled exactly.
-/

namespace Larch

/-- What a callback does: it ends, it raises, or it makes an edit and goes on. Whatever it keeps in mind is part of `σ`. How it
goes on depends on the state it finds then, and on whether the edit has raised: it may catch the exception. -/
inductive Prog (σ : Type) where
  | done (o : σ)
  | raise (e : Err) (o : σ)
  | edit (o : σ) (op : Op) (next : Res (Now σ) → Prog σ)

/-- An observer: what it does when it is told of something, in the state it finds then. -/
abbrev Watcher (σ : Type) := Ev → Id → Now σ → Prog σ

namespace Now

variable {σ : Type}

/-- Run a callback. -/
def run (edit : Now σ → Op → Res (Now σ)) : Prog σ → Now σ → Res (Now σ)
  | .done o, w => .ok ⟨w.s, o⟩
  | .raise e o, w => .err e ⟨w.s, o⟩
  | .edit o op next, w => run edit (next (edit ⟨w.s, o⟩ op)) (edit ⟨w.s, o⟩ op).state

/-- `_callback` (`tree.py:74-79`): the observers are told one after the other. Edits in callbacks of edits in callbacks are
possible `n` levels deep, then Python raises. -/
def told (obs : List (Watcher σ)) (more : Nat) : Nat → Ev → Id → Now σ → Res (Now σ)
  | 0, _, _, w => .err .recursion w
  | n + 1, ev, x, w =>
    Res.forEach (fun ob w => run (fun w op => step (told obs more n) w op more) (ob ev x w) w) obs ⟨w.s.emit ev x, w.o⟩

/-- An edit of the application, with observers that may edit the tree. -/
def nested (obs : List (Watcher σ)) (more n : Nat) (w : Now σ) (op : Op) : Res (Now σ) := step (told obs more n) w op more

/-- A history of edits. Edits that raise count as far as they got. -/
def runNested (obs : List (Watcher σ)) (more n : Nat) : List Op → Now σ → Now σ
  | [], w => w
  | op :: ops, w => runNested obs more n ops (nested obs more n w op).state

end Now

/-- Where the state of a view is kept in the state of the observers. -/
structure Seat (σ : Type) where
  get : σ → FT
  put : FT → σ → σ
  get_put : ∀ ft o, get (put ft o) = ft

/-- A view as an observer (`filteredtree.py:129-130`): it does not edit the tree. -/
def Seat.watcher {σ D : Type} (c : Seat σ) (diff : List Id → List Id → List Id) (b : Bank D) (d : D) : Watcher σ := fun ev x w =>
  match FT.react diff b d ⟨w.s.t, ev, x⟩ (c.get w.o) with
  | .ok ft => .done (c.put ft w.o)
  | .err e ft => .raise e (c.put ft w.o)

/-- What may be registered with the tree (`tree.py:52-65`): a view, or a function of the application. -/
inductive Member (σ : Type) where
  | view (c : Seat σ)
  | editor (ob : Watcher σ)

def Member.watcher {σ D : Type} (diff : List Id → List Id → List Id) (b : Bank D) (d : D) : Member σ → Watcher σ
  | .view c => c.watcher diff b d
  | .editor ob => ob

/-- The views among them. -/
def seats {σ : Type} : List (Member σ) → List (Seat σ)
  | [] => []
  | .view c :: ms => c :: seats ms
  | .editor _ :: ms => seats ms

end Larch
