import Verif.Spec.TokenConcDue
/-!
# Concurrent calls of the token program store: finalized token accounts that are not closed
-/
namespace LAM.TokConc
open Token Spec

/-- The account was submitted as finalized or without a commitment, and the call has returned `true`. -/
def Installed (log : List (Nat × Event)) (a : AccountData) : Prop :=
  ∃ pre post t c, log = pre ++ (t, .ret (.updated true)) :: post ∧ LastCall pre t (.submit a c) ∧ (c = none ∨ c = some .finalized)

/-- Its data is a token account. -/
def IsToken (X : Codecs) (a : AccountData) : Prop := ∃ bs sa, a.account.data.data X = .ok bs ∧ AccountLayout bs sa

/-- No submitted account whose address begins with the same four bytes is closed or given to another program. -/
def NoneGone (pk : Pubkey) (log : List (Nat × Event)) : Prop :=
  ∀ b, Submitted log b → b.pubkey.bytes.take 4 = pk.bytes.take 4 → ¬ Gone b

/-- All submitted token accounts with this address are of this owner. -/
def HeldOnlyBy (X : Codecs) (pk owner : Pubkey) (log : List (Nat × Event)) : Prop :=
  ∀ b bs sb, Submitted log b → b.pubkey = pk → b.account.data.data X = .ok bs → AccountLayout bs sb → sb.owner = owner

/-- Since the update of the account has returned, there was a moment when no writing call was being executed. -/
def Rested (log : List (Nat × Event)) (a : AccountData) : Prop :=
  ∃ pre post, log = pre ++ post ∧ Installed pre a ∧ ∀ t k, LastCall pre t k → k.modifies = false

end LAM.TokConc
