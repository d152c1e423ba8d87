import Verif.Spec.TokenConc
/-!
# Concurrent calls of the token program store: who has heard of a finalized state
-/
namespace LAM.TokConc
open Token Spec

/-- The account was submitted as finalized, or without a commitment. -/
def Direct (log : List (Nat × Event)) (a : AccountData) : Prop :=
  ∃ t c, (t, Event.call (.submit a c)) ∈ log ∧ (c = none ∨ c = some .finalized)

/-- The account is in the answer to a notification of a finalized slot. -/
def FinalHeard (log : List (Nat × Event)) (b : AccountData) : Prop :=
  ∃ pre t info l post, log = pre ++ (t, .ret (.reported l)) :: post ∧ LastCall pre t (.process info .finalized) ∧ b ∈ l

/-- The account was submitted as finalized, or the answer to a notification of a finalized slot has exactly this account (with the slot
and the write version it was submitted with, which the store then forgets). -/
def Explained (X : Codecs) (log : List (Nat × Event)) (b : AccountData) : Prop :=
  Stems X (Direct log) b ∨ ∃ b', FinalHeard log b' ∧ b'.pubkey = b.pubkey ∧ b'.account = b.account

end LAM.TokConc
