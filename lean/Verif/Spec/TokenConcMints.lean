import Verif.Spec.TokenConcKeeps
/-!
# Concurrent calls of the token program store: finalized mints that are not closed
-/
namespace LAM.TokConc
open Token Spec

/-- Its data is a mint. -/
def IsMint (X : Codecs) (a : AccountData) : Prop := ∃ bs sm, a.account.data.data X = .ok bs ∧ MintLayout bs sm

/-- No submitted state of this address is closed or given to another program. -/
def NeverGone (pk : Pubkey) (log : List (Nat × Event)) : Prop := ∀ b, Submitted log b → b.pubkey = pk → ¬ Gone b

/-- All submitted states of this address belong to the Token program (not to Token-2022), and none is closed. -/
def AlwaysToken (pk : Pubkey) (log : List (Nat × Event)) : Prop :=
  ∀ b, Submitted log b → b.pubkey = pk → TokenProgramOwned b .tokenProgram

end LAM.TokConc
