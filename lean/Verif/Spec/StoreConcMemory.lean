import Verif.Spec.StoreConcCount
import Verif.Spec.Memory
/-!
# Concurrent calls of the in-memory account store: what it has reason to keep
-/
namespace LAM.Conc
open Store

/-- Every account submitted is one of `keys`. -/
def AmongKeys (keys : List Pubkey) (log : List (Nat × Event)) : Prop := ∀ a, Submitted log a → a.pubkey ∈ keys

/-- At none of these moments there is a submitted state that closes its account or that the filters do not take. -/
def NoneLeave (vs : List World) : Prop :=
  ∀ v ∈ vs, ∀ a, Submitted v.log a → a.account.lamports ≠ 0 ∧ v.filters.satisfies a = true

/-- The entry has a state of the account. -/
def HasState (pk : Pubkey) (e : ByCommitment) : Prop :=
  ∃ a, ((∃ k, BMap.find e.processed k = some a) ∨ e.confirmed = some a ∨ e.finalized = some a) ∧ a.pubkey = pk

end LAM.Conc
