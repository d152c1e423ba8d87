import Verif.Spec.TokenConcMints
/-!
# Concurrent calls of the token program store: finalized multisigs
-/
namespace LAM.TokConc
open Token Spec

/-- Its data is a multisig. -/
def IsMultisig (X : Codecs) (a : AccountData) : Prop := ∃ bs sm, a.account.data.data X = .ok bs ∧ MultisigLayout bs sm

end LAM.TokConc
