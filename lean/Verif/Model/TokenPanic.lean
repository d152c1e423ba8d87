import Verif.Model.TokenStore
/-!
# The token program store after a slot notification that panicked

`token_program_account_to_solana_account` panics if the mint of a token account is not stored.  It is called with read locks only,
so no lock is poisoned (C91) and other threads go on with the store as the panicking call left it.
-/
namespace LAM.Token.TokenStore
open LAM Token

/-- `inmemory_token_storage.rs` 695-738: the store left behind, and the answer unless the call panicked.
Confirmed: the conversion (160) changes nothing.  Finalized: the conversion (721-731) comes after the removal (719) and before
anything is stored (732-734).  A panic in 732-734 is left as one; it does not happen, see `attempt_agrees`. -/
def attemptSlot (σ : Orders) (s : TokenStore) (info : SlotInfo) (c : Commitment) : Run (TokenStore × Option (List AccountData)) :=
  match c with
  | .processed => .ok ({ s with processed := s.processed.updateSlotInfo info }, some [])
  | .confirmed =>
    let s := if s.confirmedSlot < info.slot then
        { s with confirmedSlot := info.slot, processed := s.processed.updateSlotInfo info } else s
    match s.processed.getProcessedForSlot info s.mints with
    | .ok (l, P) => .ok ({ s with processed := P }, some l)
    | .panic => .ok (s, none)
    | .diverge => .diverge
  | .finalized => do
    let s := if s.finalizedSlot < info.slot then
        { s with finalizedSlot := info.slot, processed := s.processed.updateSlotInfo info } else s
    let (P, l) ← s.processed.finalize info.slot
    let l := σ.final l
    let s := { s with processed := P }
    match ProcStore.toSolanaAll s.mints l with
    | .ok notifications => return (← addAll l s, some notifications)
    | .panic => return (s, none)
    | .diverge => .diverge

/-- Effect of one call; notifications may panic. -/
def attempt (X : Codecs) (s : TokenStore) : TOp → Run TokenStore
  | .slot σ info c => do return (← s.attemptSlot σ info c).1
  | o => s.step X o

/-- Calls one after the other; the store is used further after a notification that panicked. -/
def attempts (X : Codecs) : List TOp → TokenStore → Run TokenStore
  | [], s => .ok s
  | o :: os, s => do attempts X os (← s.attempt X o)

end LAM.Token.TokenStore
