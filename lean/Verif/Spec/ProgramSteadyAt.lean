import Verif.Spec.ProgramList
import Verif.Spec.ProgramSteady
/-!
# What the simulator program should answer for mints and multisigs about unfinalized slots
-/
namespace LAM.Spec
open Sim Token

/-- The slot, the owner, the lamports and the data to be shown for `pk` as of the slot `tip`: those of the newest state on the chain of
`tip`; if that state is not above the last finalized slot, or there is none, those of the last finalized slot. -/
inductive NowAt (ws : List (Nat × Written)) (evs : List Event) (par : Nat → Nat) (pk : Pubkey) (tip : Nat) :
    Nat → Pubkey → Nat → Bytes → Prop where
  | recent {a k bs} : NewestTrue (streamed evs) par pk tip a k → lastFinal (streamed evs) < k → a.account.data = .uncompressed bs →
      NowAt ws evs par pk tip k a.account.owner a.account.lamports bs
  | final {owner lamports bs} : (∀ a k, NewestTrue (streamed evs) par pk tip a k → k ≤ lastFinal (streamed evs)) →
      Now ws evs par pk owner lamports bs → NowAt ws evs par pk tip (lastFinal (streamed evs)) owner lamports bs

end LAM.Spec
