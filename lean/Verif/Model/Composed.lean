import Verif.Model.Dispatch
import Verif.Model.TokenStore
/-!
# The dispatcher around the two stores of this repository

`StorageByProgramId` (`account_storage/src/storage_by_program_id.rs`) with one `TokenProgramAccountsStorage` registered for both token
programs, and an `InmemoryAccountStore` as the default.  Calls one after the other.  That this is what `Model/Dispatch` does
with these storages is proved (`C100_is_the_dispatcher` and others).
-/
namespace LAM.Composed
open LAM Token

structure Sys where
  token : TokenStore
  main : Store

def Sys.empty : Sys := ⟨.empty, .empty⟩

/-- `storage_by_program_id.rs` 29-36: the token store is asked once per entry of the table, then the default. -/
def Sys.update (X : Codecs) (F : Filters) (w : Sys) (a : AccountData) (c : Commitment) : Run (Sys × Bool) := do
  let (b, token) ← w.token.updateAccount X a c
  if b then return ({ w with token := token }, true)
  else
    let (b, token) ← token.updateAccount X a c
    if b then return ({ w with token := token }, true)
    else
      let (main, b) ← w.main.updateAccount F a c
      return (⟨token, main⟩, b)

/-- `storage_by_program_id.rs` 38-46. -/
def Sys.init (X : Codecs) (F : Filters) (w : Sys) (a : AccountData) : Run Sys :=
  if a.account.owner = Spl.tokenId ∨ a.account.owner = Spl.token2022Id then do
    return { w with token := ← w.token.initAccount X a }
  else do return { w with main := ← w.main.initializeOrUpdate F a }

/-- `storage_by_program_id.rs` 48-59: the token store always answers `Ok` (`inmemory_token_storage.rs` 616-645), so nobody else is asked. -/
def Sys.getAccount (w : Sys) (pk : Pubkey) (c : Commitment) : Run (Option AccountData) := w.token.getAccount pk c

/-- `storage_by_program_id.rs` 61-73. -/
def Sys.getProgramAccounts (X : Codecs) (F : Filters) (σ : Orders) (busy : Nat → Bool) (w : Sys) (p : Pubkey)
    (fs : Option (List AccountFilterType)) (c : Commitment) : Run (Except LoadError (List AccountData)) :=
  if p = Spl.tokenId ∨ p = Spl.token2022Id then w.token.getProgramAccounts X σ p fs c
  else w.main.getProgramAccounts X F busy p fs c

/-- Iteration orders of one notification: of the two calls of the token store and of the default store. -/
structure SlotOrders where
  first : Orders
  second : Orders
  main : Store.Order

/-- `storage_by_program_id.rs` 75-84. -/
def Sys.slot (F : Filters) (o : SlotOrders) (w : Sys) (info : SlotInfo) (c : Commitment) : Run (Sys × List AccountData) := do
  let (l1, token) ← w.token.processSlot o.first info c
  let (l2, token) ← token.processSlot o.second info c
  let (main, l3) ← w.main.processSlotData F o.main info c
  return (⟨token, main⟩, l1 ++ (l2 ++ l3))

/-- A call that changes the storages. -/
inductive SOp where
  | update (a : AccountData) (c : Commitment)
  | init (a : AccountData)
  | slot (o : SlotOrders) (info : SlotInfo) (c : Commitment)

/-- Effect of one call. -/
def Sys.step (X : Codecs) (F : Filters) (w : Sys) : SOp → Run Sys
  | .update a c => do return (← w.update X F a c).1
  | .init a => w.init X F a
  | .slot o info c => do return (← w.slot F o info c).1

/-- Calls one after the other. -/
def Sys.run (X : Codecs) (F : Filters) : List SOp → Sys → Run Sys
  | [], w => .ok w
  | o :: os, w => do Sys.run X F os (← w.step X F o)

end LAM.Composed
