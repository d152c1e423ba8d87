import Verif.Spec.ProgramQuery
import Verif.Spec.ProgramRead
/-!
# What the simulator program should list about unfinalized slots
-/
namespace LAM.Spec
open Sim Token
open TokenStore (TOp)

/-- The slot a commitment asks about: the last finalized, the highest confirmed, the highest mentioned. -/
def tipOf (ops : List TOp) : Commitment → Nat
  | .finalized => lastFinal ops
  | .confirmed => confirmedOf ops
  | .processed => highestSlot ops

/-- What C109 and C110 need to hold for `pk`: the links from the confirmed slot down to the newest state are noted; for the
processed commitment, the confirmed slot and the states above it are on the chain of the highest slot. -/
structure Followed (X : Codecs) (par : Nat → Nat) (evs : List Event) (pk : Pubkey) (c : Commitment) : Prop where
  links : ∀ a k, NewestTrue (streamed evs) par pk (confirmedOf (streamed evs)) a k → lastFinal (streamed evs) < k →
    ∀ i, Ancestor par (confirmedOf (streamed evs)) i → Ancestor par i k → i ≠ k → LinkNoted X (streamed evs) i
  above : c = .processed → ∀ k, confirmedOf (streamed evs) < k → lastFinal (streamed evs) < k →
    submittedAt (streamed evs) pk k ≠ [] → Ancestor par (highestSlot (streamed evs)) k
  confirmed : c = .processed → Ancestor par (highestSlot (streamed evs)) (confirmedOf (streamed evs))

end LAM.Spec
