import Verif.Proofs.CountApp
import Verif.Proofs.OwnFair

/-! # C34: counters -/

namespace Larch

open Spec

variable {V : Type}

/-- C34: a counter created with refresh, on any tree and with any filters in the bank, reports the exact number after any fair
history, and never raises. The filters in use look at a node's own data or, under the conditions of `Fair`, at its children. Missing for the literal claim: see the refutations below. -/
theorem C34_exact_partial (s : St) (d : Id → V) (bcs : List (Bank.Call (Id → V))) :
    ∃ v, VC.new (Bank.run {} bcs) s.t d true = .ok v ∧
      ∀ cs, FairRun cs ⟨s, d, Bank.run {} bcs, v⟩ →
        ∃ a, CApp.run cs ⟨s, d, Bank.run {} bcs, v⟩ = .ok a ∧ Exact a := by
  have h0 : BankInv ({} : Bank (Id → V)) := ⟨rfl, by simp [KV.keys]⟩
  obtain ⟨v, e, h⟩ := new_inv s d (Bank.run {} bcs) (bank_run bcs _ h0)
  refine ⟨v, e, fun cs hf => ?_⟩
  obtain ⟨a, e', h'⟩ := run_inv cs _ h hf
  exact ⟨a, e', h'.exact⟩

/-- C34: whatever happens (also after an exception), an observer registered at some moment knows the number later: if
the number differs from the one at that moment, the last number it read is the current one, and whenever it was called
at all the last number it read is the current one. -/
theorem C34_observers (cs : List (CAct V)) (a : CApp V) :
    ∃ h, (CApp.run cs a).state.vc.heard = a.vc.heard ++ h ∧ ∀ c ∈ a.vc.cllbcks,
      lastRead c h = some (CApp.run cs a).state.vc.nNodes ∨
      (lastRead c h = none ∧ (CApp.run cs a).state.vc.nNodes = a.vc.nNodes) := (heard_run cs a).heard

/-! ### A concrete case, and the limits -/

/-- Filters for the examples: the node's number is even; the node's number is above 5. -/
def isEven : Tree → (Id → Nat) → Id → Option Params → Bool := fun _ d x _ => decide (d x % 2 = 0)
def isBig : Tree → (Id → Nat) → Id → Option Params → Bool := fun _ d x _ => decide (5 < d x)

def countBank : List (Bank.Call (Id → Nat)) := [.add (.plain 1) isEven none, .add (.plain 2) isBig (some { negate := some true })]

def countApp : CApp Nat := ⟨runOps St.init [.addNode (.fresh (.str 1)) .none, .addNode (.fresh (.str 2)) (.str 1)],
  fun _ => 0, Bank.run {} countBank, (VC.new (Bank.run {} countBank)
    (runOps St.init [.addNode (.fresh (.str 1)) .none, .addNode (.fresh (.str 2)) (.str 1)]).t (fun _ => 0) true).state⟩

/-- Apply a filter, register an observer, change data, add and remove a node, apply the other filter, unapply the
first. -/
def countHistory : List (CAct Nat) :=
  [ .apply (.plain 1) true, .register 7, .change (.str 1) 3, .edit (.addNode (.fresh (.str 3)) (.str 1)),
    .change (.str 2) 8, .apply (.plain 2) true, .edit (.delNode (.str 3) false), .unapply (.plain 1) ]

theorem isEven_own : OwnData isEven := fun _ _ _ _ _ _ h => by unfold isEven; rw [h]
theorem isBig_own : OwnData isBig := fun _ _ _ _ _ _ h => by unfold isBig; rw [h]

theorem countBank_onlyOwn : OwnBank (Bank.run {} countBank) := by
  refine (ownBank_run _ ?_).2
  intro n f p hm
  simp only [countBank, List.mem_cons, Bank.Call.add.injEq, List.not_mem_nil, or_false] at hm
  rcases hm with ⟨-, rfl, -⟩ | ⟨-, rfl, -⟩
  · exact isEven_own
  · exact isBig_own

theorem countBank_used (a : CApp Nat) (h : a.bank = Bank.run {} countBank) : OwnUsed a :=
  fun n _ f hf => countBank_onlyOwn n f (h ▸ hf)

example : FairRun countHistory countApp ∧
    (CApp.run countHistory countApp).state.vc.nodes = [.str 1] ∧
    (CApp.run countHistory countApp).state.vc.heard = [(7, 1), (7, 2), (7, 1), (7, 0), (7, 1)] := by
  refine ⟨⟨rfl, trivial, ⟨by decide, .inl (countBank_used _ rfl)⟩, .inl ⟨countBank_used _ rfl, ?_⟩,
    ⟨by decide, .inl (countBank_used _ rfl)⟩, rfl, .inl ⟨countBank_used _ rfl, ?_⟩, trivial, trivial⟩, by decide, by decide⟩
  · intro nd p hop; cases hop; decide
  · intro nd p hop; cases hop

/-- C34 is false when a view applies the same filter with other parameters: filters are shared between views and
counters, and the counter is not told. -/
theorem C34_refuted_parameters :
    ¬ Exact (CApp.run [.apply (.plain 1) true, .setParams (.plain 1) { negate := some true }] countApp).state := by
  rintro ⟨l, hn, hm, hl⟩
  have hc : (CApp.run [.apply (.plain 1) true, .setParams (.plain 1) { negate := some true }] countApp).state.vc.nNodes
      = 2 := by decide
  rw [hc] at hl
  cases l with
  | nil => simp at hl
  | cons x l =>
    obtain ⟨-, h2⟩ := (hm x).1 (by simp)
    obtain ⟨f, hf, hd⟩ := h2 (.plain 1) (by decide)
    have : f = ⟨isEven, { negate := some true }⟩ := by
      have e : (CApp.run [.apply (.plain 1) true, .setParams (.plain 1) { negate := some true }]
        countApp).state.bank.getFilter (.plain 1) = some ⟨isEven, { negate := some true }⟩ := rfl
      rw [e] at hf; cases hf; rfl
    subst this
    have e : (CApp.run [.apply (.plain 1) true, .setParams (.plain 1) { negate := some true }] countApp).state.data
        = fun _ => 0 := rfl
    rw [e] at hd
    unfold Filter.isDisplayed at hd
    split at hd
    · simp [isEven] at hd
    · cases hd

/-- C34 is false when a filter in use is removed from the bank: the next edit of the tree makes the counter raise. -/
theorem C34_refuted_removed :
    ∃ a, CApp.run [.apply (.plain 1) true, .bank (.remove (.plain 1)), .edit (.refreshNode (.str 1))] countApp
      = .err .attributeError a := ⟨_, rfl⟩

/-- An observer of a counter can never be unregistered: the method raises. -/
theorem C34_unregister_raises (a : CApp V) (c : Nat) : a.act (.unregister c) = .err .attributeError a := rfl

/-- Without filters, `modify` of an unknown id counts a node that does not exist. -/
theorem C34_refuted_unknown : ¬ Exact (CApp.run [.touch (.str 9)] countApp).state := by
  rintro ⟨l, hn, hm, hl⟩
  have hc : (CApp.run [.touch (.str 9)] countApp).state.vc.nNodes = 3 := by decide
  rw [hc] at hl
  have hs : ∀ x ∈ l, x ∈ [Id.str 1, Id.str 2] := by
    intro x hx
    have := ((hm x).1 hx).1
    rw [← mem_keys] at this
    exact this
  have := (List.subperm_of_subset hn hs).length_le
  rw [← hl] at this
  exact absurd this (by decide)

end Larch
