import Verif.Proofs.ViewApp

/-!
# Banks whose filters look only at a node's own data
-/

namespace Larch

open Graph Spec

variable {V : Type} {diff : List Id → List Id → List Id}

theorem add_own {b : Bank (Id → V)} (hb : BankInv b) (own : OwnBank b) (c : Bank.Call (Id → V)) (hc : ∀ n f p, c = .add n f p → OwnData f) :
    OwnBank (b.call c).2 := by
  intro m f hm
  cases c with
  | add n func p =>
    have hm' : (b.addFilter n func p).2.getFilter m = some f := hm
    rcases getFilter_add hb n m func p with e | ⟨-, dic, e⟩
    · exact own m f (e ▸ hm')
    · rw [e] at hm'; cases hm'; exact hc n func p rfl
  | remove n =>
    have hm' : (b.removeFilter n).2.getFilter m = some f := hm
    rw [getFilter_remove hb] at hm'
    split at hm'
    · cases hm'
    · exact own m f hm'

theorem OwnBank.applied {a : FApp V} (h : OwnBank a.bank) : OwnApplied a := fun n _ f hf => h n f hf

/-- Filters on a node's own data are filters as in `FewerIsMore`, negated or not. -/
theorem ownData_fewer {f : Filter (Id → V)} (h : OwnData f.func) : FewerIsMore f := by
  intro t t' d d' x hx hx' hd _ _ _ hf
  unfold Filter.isDisplayed at hf ⊢
  rw [if_pos hx'] at hf
  rw [if_pos hx, h t t' d d' x _ hd]
  exact hf

theorem OwnApplied.fewer {a : FApp V} (h : OwnApplied a) : FewerApplied a := fun n hn f hf => ownData_fewer (h n hn f hf)

theorem ownData_run (cs : List (Bank.Call (Id → V))) (hf : ∀ n f p, Bank.Call.add n f p ∈ cs → OwnData f)
    (b : Bank (Id → V)) (hb : BankInv b) (own : OwnBank b) : OwnBank (b.run cs) := by
  induction cs generalizing b with
  | nil => exact own
  | cons c cs ih =>
    exact ih (fun n f p hm => hf n f p (by simp [hm])) _ (bank_call b hb c) (add_own hb own c fun n f p e => hf n f p (by simp [e]))

theorem ownBank_run (cs : List (Bank.Call (Id → V))) (hf : ∀ n f p, Bank.Call.add n f p ∈ cs → OwnData f) :
    BankInv (Bank.run {} cs) ∧ OwnBank (Bank.run {} cs) := by
  have h0 : BankInv ({} : Bank (Id → V)) := ⟨rfl, by simp [KV.keys]⟩
  exact ⟨bank_run cs _ h0, ownData_run cs hf {} h0 fun n f hf => by cases hf⟩

theorem FApp.withFT_bank (a : FApp V) (r : Res FT) : (a.withFT r).state.bank = a.bank := by
  unfold FApp.withFT; split <;> rfl

/-- The bank stays of this kind. -/
theorem act_own {a : FApp V} (hi : BankInv a.bank) (own : OwnBank a.bank) {c : FAct V} (hf : OwnFair a c) :
    BankInv (a.act diff c).state.bank ∧ OwnBank (a.act diff c).state.bank := by
  have same : ∀ (a' : FApp V) (r : Res FT), a'.bank = a.bank →
      BankInv (a'.withFT r).state.bank ∧ OwnBank (a'.withFT r).state.bank := by
    intro a' r e; rw [FApp.withFT_bank, e]; exact ⟨hi, own⟩
  cases c with
  | edit op => exact same _ _ rfl
  | change x v => exact same _ _ rfl
  | bank c =>
    refine ⟨bank_call _ hi c, add_own hi own c ?_⟩
    rintro n f p rfl
    exact hf.1
  | setParams n p => exact ⟨setParameters_inv hi n _, setParameters_own hi own n _⟩
  | apply n p rs rf =>
    show BankInv (FApp.withFT { a with bank := (a.ft.applyFilter diff a.bank a.s.t a.data n p rs rf).2.1 } _).state.bank ∧
      OwnBank (FApp.withFT { a with bank := (a.ft.applyFilter diff a.bank a.s.t a.data n p rs rf).2.1 } _).state.bank
    rw [FApp.withFT_bank]
    show BankInv (a.ft.applyFilter diff a.bank a.s.t a.data n p rs rf).2.1 ∧ OwnBank (a.ft.applyFilter diff a.bank a.s.t a.data n p rs rf).2.1
    have key : ∀ b, b = a.bank ∨ b = a.bank.setParameters n p → BankInv b ∧ OwnBank b := by
      rintro b (rfl | rfl)
      · exact ⟨hi, own⟩
      · exact ⟨setParameters_inv hi n p, setParameters_own hi own n p⟩
    apply key
    unfold FT.applyFilter
    dsimp only
    split
    · exact .inl rfl
    · cases FT.givesParams p with
      | true => right; rw [apply_ite (fun q : Bool × Bank (Id → V) × Res FT => q.2.1)]; exact ite_self _
      | false => left; rw [apply_ite (fun q : Bool × Bank (Id → V) × Res FT => q.2.1)]; exact ite_self _
  | unapply n rf => exact same _ _ rfl
  | reset rf => exact same _ _ rfl
  | currentState => exact same _ _ rfl

theorem OwnFair.fair {a : FApp V} (own : OwnBank a.bank) {c : FAct V} (hf : OwnFair a c) : ViewFair a c := by
  cases c with
  | edit op => exact ⟨hf, .inl own.applied⟩
  | change x v => exact .inl own.applied
  | bank c => cases c with
    | add n f p => exact hf.2
    | remove n => exact hf
  | _ => exact hf

theorem OwnFairRun.fair {cs : List (FAct V)} {a : FApp V} (hi : BankInv a.bank) (own : OwnBank a.bank)
    (hf : OwnFairRun diff cs a) : ViewFairRun diff cs a := by
  induction cs generalizing a with
  | nil => trivial
  | cons c cs ih =>
    have := act_own (diff := diff) hi own hf.1
    exact ⟨OwnFair.fair own hf.1, ih this.1 this.2 hf.2⟩

end Larch
