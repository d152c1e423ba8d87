import Verif.Spec.Program
/-!
# What the simulator program should answer about unfinalized slots
-/
namespace LAM.Spec
open Sim Token
open TokenStore (TOp)

/-- The highest slot of any state or notification; 0 if there is none. -/
def highestSlot (ops : List TOp) : Nat :=
  ops.foldl (fun n o => match o with
    | .update a _ => max n a.slot
    | .slot _ info _ => max n info.slot
    | .init _ => n) 0

/-- The owner and the data to be shown for `pk` as of the slot `tip`, if any, and the slot they are of: those of the newest
state on the chain of `tip`; if that state is not above the last finalized slot, or there is none, those of the last finalized
slot. -/
inductive CurrentAt (ws : List (Nat × Written)) (evs : List Event) (par : Nat → Nat) (pk : Pubkey) (tip : Nat) :
    Nat → Option (Pubkey × Bytes) → Prop where
  | open {a k bs} : NewestTrue (streamed evs) par pk tip a k → lastFinal (streamed evs) < k → a.account.lamports ≠ 0 →
      a.account.data = .uncompressed bs → CurrentAt ws evs par pk tip k (some (a.account.owner, bs))
  | closed {a k} : NewestTrue (streamed evs) par pk tip a k → lastFinal (streamed evs) < k → a.account.lamports = 0 →
      CurrentAt ws evs par pk tip k none
  | final {d} : (∀ a k, NewestTrue (streamed evs) par pk tip a k → k ≤ lastFinal (streamed evs)) → Current ws evs par pk d →
      CurrentAt ws evs par pk tip (lastFinal (streamed evs)) d

end LAM.Spec
