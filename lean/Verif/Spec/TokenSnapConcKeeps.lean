import Verif.Spec.TokenConcMultisigs
import Verif.Spec.TokenSnapConc
/-!
# Snapshots of the token program store made while other calls are executed
-/
namespace LAM.TokConc
open Token Spec

/-- No snapshot was loaded. -/
def NoLoads (log : List (Nat × SEvent)) : Prop := ∀ t x, (t, SEvent.call (.load x)) ∉ log

/-- All submitted states of this address belong to the program, and none is closed. -/
def AlwaysOwned (p : Program) (pk : Pubkey) (log : List (Nat × Event)) : Prop :=
  ∀ b, Submitted log b → b.pubkey = pk → TokenProgramOwned b p

end LAM.TokConc
