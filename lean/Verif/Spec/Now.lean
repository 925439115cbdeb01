import Verif.Model.Now
import Verif.Spec.Tree

/-!
# What is claimed about observers that are told in the middle of an edit
-/

namespace Larch
namespace Spec

variable {σ : Type}

/-- The outcome of an edit, together with the state of the observers. -/
def withObservers (o : σ) : Res St → Res (Now σ)
  | .ok s => .ok ⟨s, o⟩
  | .err e s => .err e ⟨s, o⟩

/-- `q` is what an edit does to a tree `s` with observers `o` that are told at once, if `r` is what it does to the tree alone: the
observers hear the notifications of `r` one after the other. If none raises, the edit goes its way; if one raises, the edit stops
there with that exception, and the tree is the one of that notification. -/
def Interleaves (tell : Note → σ → Res σ) (s : St) (o : σ) (r : Res St) (q : Res (Now σ)) : Prop :=
  ∃ notes, r.state.log = s.log ++ notes ∧
    ((∃ o', Res.forEach tell notes o = .ok o' ∧ q = withObservers o' r) ∨
      ∃ pre n post o1 e o2, notes = pre ++ n :: post ∧ Res.forEach tell pre o = .ok o1 ∧ tell n o1 = .err e o2 ∧
        q = .err e ⟨⟨n.snap, s.log ++ pre ++ [n]⟩, o2⟩)

/-- The edits of a careful user of the application, whose views are told at once and may raise: the user goes on. -/
def CarefulNow {V : Type} (diff : List Id → List Id → List Id) : List Op → Suite V → Prop
  | [], _ => True
  | op :: ops, a => Careful a.s op ∧ CarefulNow diff ops (a.editNow diff op).state

end Spec
end Larch
