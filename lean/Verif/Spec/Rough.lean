import Verif.Model.Rough
import Verif.Spec.NestedView

/-!
# What is claimed about filters that raise
-/

namespace Larch
namespace Spec

variable {V : Type}

/-- The applied filters do not reject `x`: whenever they are asked, they accept it or one of them raises. -/
def NotRejected (b : Bank (Id → V)) (t : Tree) (d : Id → V) (bad : Raises) (applied : List FName) (x : Id) : Prop :=
  ∀ v, FT.asks b t d bad applied v x ≠ .ok false

/-- What the application does before it refilters, once an exception has left the view behind: it may do anything to the filters, also
to those in use, but it leaves the tree alone. -/
def Mending : FAct V → Prop
  | .bank _ | .setParams _ _ | .apply _ _ _ _ | .unapply _ _ | .reset _ => True
  | .edit _ | .change _ _ | .currentState => False

/-- What the filters accept before the edit, or at a notification during it, they do not reject at a later notification of the edit. -/
def Steady (a : FApp V) (op : Op) (bad : Raises) : Prop :=
  ∀ l1 n l2, (step a.s op).state.log = a.s.log ++ (l1 ++ n :: l2) → ∀ z t, (t = a.s.t ∨ ∃ m ∈ l1, t = m.snap) →
    Wanted { a with s := ⟨t, []⟩ } z → NotRejected a.bank n.snap a.data bad a.ft.applied z

/-- What the application keeps to when filters may raise. While no exception has left the view behind this is `ViewFair`, and
* if the data of a node change so that the filters reject it, or with filters on what is below a node reject some other node, and the
  rejected node is on display, then nothing raises meanwhile;
* nothing raises while a node is removed, nor, with filters on more than a node's own data, while an edit makes the filters reject what they
  have accepted. -/
def RoughFair (r : RoughApp V) : RoughAct V → Prop
  | .refilter _ => True
  | .does c bad => (r.hurt = true → Mending c) ∧ (r.hurt = false → ViewFair r.app c ∧
      ∀ x w, c = .change x w → bad = .never ∨ ∀ z, r.app.ft.view.has z = true → z ≠ r.app.ft.root →
        (z = x ∨ ¬ FewerApplied r.app) →
        NotRejected r.app.bank r.app.s.t (fun y => if y = x then w else r.app.data y) bad r.app.ft.applied z) ∧
      (r.hurt = false → ∀ op, c = .edit op → bad = .never ∨
        ((∀ x rec, op ≠ .delNode x rec) ∧ (OwnApplied r.app ∨ Steady r.app op bad)))

/-- `RoughFair` all along. -/
def RoughFairRun (diff : List Id → List Id → List Id) : List (RoughAct V) → RoughApp V → Prop
  | [], _ => True
  | c :: cs, r => RoughFair r c ∧ RoughFairRun diff cs (r.step diff c)

/-- A call of `refilter`: the tree, the data, the bank and the applied filters at that moment, and which evaluations raise. -/
structure Attempt (V : Type) where
  t : Tree
  data : Id → V
  bank : Bank (Id → V)
  applied : List FName
  bad : Raises

/-- Calls of `refilter` one after the other, each of which may raise. -/
def attempts (diff : List Id → List Id → List Id) (as : List (Attempt V)) (ft : FT) : FT :=
  as.foldl (fun ft c => (({ ft with applied := c.applied } : FT).refilterR diff c.bank c.t c.data c.bad).state) ft

end Spec
end Larch
