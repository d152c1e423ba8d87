import Verif.Model.Bincode
import Verif.Model.OnDemand
/-!
# `AccountsOnDemand` around the in-memory account store

`accounts_on_demand/src/accounts_on_demand.rs` with `InmemoryAccountStore` as its storage, which uses the `MutableFilterStore` of
`AccountsOnDemand` as its filters (`common/src/mutable_filter_store.rs`).  Calls are made one after the other (`Model/OnDemand`
is about concurrent ones); a call that finds its key in the table waits 10 seconds for nobody.  Filters that panic (text that does not
decode) count as not satisfied: the properties are about filters and data that decode.
-/
namespace LAM.Demand
open LAM Store

/-- `AccountsSourceInterface` (`common/src/accounts_source_interface.rs` 9-23) at the moment of a call. -/
structure Source where
  /-- `subscribe_accounts` or `subscribe_program_accounts`: `none` is an error; a source may change the filters, which are shared -/
  subscribe : AccountFilter → SimpleFilterStore → Option SimpleFilterStore
  /-- `save_snapshot`: the accounts given to `initilize_or_update_account`, and whether it succeeds in the end -/
  snapshot : AccountFilter → List AccountData × Bool

/-- `accounts_on_demand.rs` 30-36 with the storage and the filters. -/
structure Sys where
  store : Store
  filters : SimpleFilterStore
  loadingAccounts : Pubkey → Bool
  loadingPrograms : Pubkey × List AccountFilterType → Bool

/-- The filters as the storage sees them. -/
def filtersOf (X : Codecs) (s : SimpleFilterStore) : Filters :=
  ⟨fun a => decide (s.satisfies X a = .ok true), s.containsFilter⟩

/-- The filter of a load of one account (`accounts_on_demand.rs` 101-105). -/
def accountFilter (pk : Pubkey) : AccountFilter := ⟨[pk], none, none⟩

/-- The filter of a program query (`accounts_on_demand.rs` 133-137). -/
def programFilter (p : Pubkey) (fs : Option (List AccountFilterType)) : AccountFilter := ⟨[], some p, fs⟩

/-- `accounts_on_demand.rs` 65-125. -/
def getAccount (X : Codecs) (S : Source) (w : Sys) (pk : Pubkey) (c : Commitment) :
    Run (Sys × Except LoadError (Option AccountData)) := do
  match ← w.store.getAccount pk c with
  | some a => return (w, .ok (some a))
  | none =>
    if w.loadingAccounts pk then return (w, .ok (← w.store.getAccount pk c))
    else if w.filters.containsAccount pk then return (w, .ok none)
    else
      let loading := { w with loadingAccounts := fun k => if k = pk then true else w.loadingAccounts k }
      match S.subscribe (accountFilter pk) w.filters with
      | none => return (loading, .error .errorSubscribingAccount)
      | some filters =>
        let (accounts, ok) := S.snapshot (accountFilter pk)
        let store ← initAll (filtersOf X filters) w.store accounts
        if ok then
          let w : Sys := ⟨store, filters, fun k => if k = pk then false else w.loadingAccounts k, w.loadingPrograms⟩
          return (w, .ok (← store.getAccount pk c))
        else return ({ loading with store := store, filters := filters }, .error .errorCreatingSnapshot)

/-- `accounts_on_demand.rs` 127-196. -/
def getProgramAccounts (X : Codecs) (S : Source) (busy : Nat → Bool) (w : Sys) (p : Pubkey)
    (fs : Option (List AccountFilterType)) (c : Commitment) : Run (Sys × Except LoadError (List AccountData)) := do
  let key := (p, fs.getD [])
  if w.filters.containsFilter (programFilter p fs) then
    return (w, ← w.store.getProgramAccounts X (filtersOf X w.filters) busy p fs c)
  else if w.loadingPrograms key then
    return (w, ← w.store.getProgramAccounts X (filtersOf X w.filters) busy p fs c)
  else
    let loading := { w with loadingPrograms := fun k => if k = key then true else w.loadingPrograms k }
    match S.subscribe (programFilter p fs) w.filters with
    | none => return (loading, .error .errorSubscribingAccount)
    | some filters =>
      let filters ← filters.addFilters X [programFilter p fs]
      let (accounts, ok) := S.snapshot (programFilter p fs)
      let store ← initAll (filtersOf X filters) w.store accounts
      if ok then
        let w : Sys := ⟨store, filters, w.loadingAccounts, fun k => if k = key then false else w.loadingPrograms k⟩
        return (w, ← store.getProgramAccounts X (filtersOf X filters) busy p fs c)
      else return ({ loading with store := store, filters := filters }, .error .errorCreatingSnapshot)

/-- `accounts_on_demand.rs` 55-58. -/
def updateAccount (X : Codecs) (w : Sys) (a : AccountData) (c : Commitment) : Run (Sys × Bool) := do
  let (store, b) ← w.store.updateAccount (filtersOf X w.filters) a c
  return ({ w with store := store }, b)

/-- `accounts_on_demand.rs` 60-63. -/
def initializeOrUpdate (X : Codecs) (w : Sys) (a : AccountData) : Run Sys := do
  return { w with store := ← w.store.initializeOrUpdate (filtersOf X w.filters) a }

/-- `accounts_on_demand.rs` 203-205: the storage is asked, and nothing is loaded for it. -/
def createSnapshot (X : Codecs) (busy : Nat → Bool) (w : Sys) (p : Pubkey) : Run (Except LoadError Bytes) :=
  w.store.createSnapshot X (filtersOf X w.filters) busy p

/-- `accounts_on_demand.rs` 207-214. -/
def loadFromSnapshot (X : Codecs) (w : Sys) (snapshot : Bytes) : Run (Sys × Except LoadError Unit) := do
  let (store, r) ← w.store.loadFromSnapshot (filtersOf X w.filters) snapshot
  return ({ w with store := store }, r)

/-- `accounts_on_demand.rs` 198-201. -/
def processSlotData (X : Codecs) (σ : Order) (w : Sys) (info : SlotInfo) (c : Commitment) : Run (Sys × List AccountData) := do
  let (store, l) ← w.store.processSlotData (filtersOf X w.filters) σ info c
  return ({ w with store := store }, l)

/-- A call of the methods above that change something; the source is as it is at the moment of the call. -/
inductive Call where
  | account (S : Source) (pk : Pubkey) (c : Commitment)
  | program (S : Source) (busy : Nat → Bool) (p : Pubkey) (fs : Option (List AccountFilterType)) (c : Commitment)
  | update (a : AccountData) (c : Commitment)
  | slot (σ : Order) (info : SlotInfo) (c : Commitment)
  | init (a : AccountData)
  | load (snapshot : Bytes)

/-- The system after a call. -/
def Sys.call (X : Codecs) (w : Sys) : Call → Run Sys
  | .account S pk c => do return (← getAccount X S w pk c).1
  | .program S busy p fs c => do return (← getProgramAccounts X S busy w p fs c).1
  | .update a c => do return (← updateAccount X w a c).1
  | .slot σ info c => do return (← processSlotData X σ w info c).1
  | .init a => initializeOrUpdate X w a
  | .load bs => do return (← loadFromSnapshot X w bs).1

/-- The system after several calls, one after the other. -/
def Sys.calls (X : Codecs) (w : Sys) : List Call → Run Sys
  | [] => .ok w
  | k :: ks => do (← w.call X k).calls X ks

end LAM.Demand
