import Verif.Spec.StoreConcTime
/-!
# Concurrent calls of the in-memory account store: accounts that stay with their owner
-/
namespace LAM.Conc
open Store Spec

/-- All submitted states of the account have this owner. -/
def OwnedBy (pk owner : Pubkey) (log : List (Nat × Event)) : Prop := ∀ a, Submitted log a → a.pubkey = pk → a.account.owner = owner

/-- None of the submitted states of the account closes it, all say truly how long their data is, and pass the filters of the query. -/
def Passing (E : Env) (pk : Pubkey) (fs : Option (List AccountFilterType)) (log : List (Nat × Event)) : Prop :=
  ∀ a, Submitted log a → a.pubkey = pk → 0 < a.account.lamports ∧ Honest E.codecs a ∧ Selected E.codecs fs a

end LAM.Conc
