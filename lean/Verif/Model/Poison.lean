import Verif.Model.OnDemandStore
/-!
# `AccountsOnDemand` when filters panic

`Model/OnDemandStore` with panics: a text that does not decode makes `MemcmpFilter::bytes` panic (`common/src/account_filter.rs`
24-34), data that does not decompress makes `Data::data` panic.  A thread that panics with the write lock of a
`std::sync::RwLock` or with a `Mutex` poisons it, and everyone who takes it later panics (`.unwrap()`).  Read locks and the locks of a
`DashMap` are not poisoned.
-/
namespace LAM.Demand
open LAM Store

/-- A system and its poisoned locks. -/
structure Live where
  sys : Sys
  /-- the lock of `MutableFilterStore` (`common/src/mutable_filter_store.rs` 12) -/
  poisoned : Bool
  /-- `accounts_in_loading` (`accounts_on_demand.rs` 34) -/
  tablePoisoned : Bool

/-- How a call ends. -/
inductive Outcome where
  | panicked
  | updated (b : Bool)
  | account (r : Except LoadError (Option AccountData))
  | accounts (r : Except LoadError (List AccountData))
  | notified (l : List AccountData)
  | loaded (r : Except LoadError Unit)

/-- `MutableFilterStore::satisfies` (`common/src/mutable_filter_store.rs` 26-35). -/
def Live.satisfies (X : Codecs) (l : Live) (a : AccountData) : Run Bool :=
  if l.poisoned then .panic else l.sys.filters.satisfies X a

/-- Does `InmemoryAccountStore::update_account` ask the filters about the account?  `inmemory_account_store.rs` 209-210 unless it
is deleted, 245 if it is not tracked (97 and 101 only ask what 210 has asked). -/
def asks (s : Store) (a : AccountData) : Bool := !isDeleted a || !s.containsKey a.pubkey

/-- The accounts that a source hands over, one after the other, until one makes the filters panic (`false`). -/
def loadAll (X : Codecs) (filters : SimpleFilterStore) : Store → List AccountData → Run (Store × Bool)
  | s, [] => .ok (s, true)
  | s, a :: l =>
    if asks s a = true ∧ filters.satisfies X a = .panic then .ok (s, false)
    else do loadAll X filters (← s.initializeOrUpdate (filtersOf X filters) a) l

/-- `accounts_on_demand.rs` 55-58 and `inmemory_account_store.rs` 205-264: if the filters panic nothing has been changed. -/
def Live.update (X : Codecs) (l : Live) (a : AccountData) (c : Commitment) : Run (Live × Outcome) :=
  if asks l.sys.store a = true ∧ l.satisfies X a = .panic then .ok (l, .panicked)
  else do
    let (w, b) ← updateAccount X l.sys a c
    return ({ l with sys := w }, .updated b)

/-- `accounts_on_demand.rs` 60-63; `false` if the filters panic. -/
def Live.init (X : Codecs) (l : Live) (a : AccountData) : Run (Live × Bool) :=
  if asks l.sys.store a = true ∧ l.satisfies X a = .panic then .ok (l, false)
  else do return ({ l with sys := ← initializeOrUpdate X l.sys a }, true)

/-- The loop of `inmemory_account_store.rs` 469-471, until an account makes the filters panic. -/
def Live.inits (X : Codecs) : Live → List AccountData → Run (Live × Bool)
  | l, [] => .ok (l, true)
  | l, a :: as => do
    let (l, fine) ← l.init X a
    if fine then l.inits X as else return (l, false)

/-- `accounts_on_demand.rs` 207-214 and `inmemory_account_store.rs` 462-473. -/
def Live.load (X : Codecs) (l : Live) (snapshot : Bytes) : Run (Live × Outcome) :=
  match Bincode.deserialize snapshot with
  | none => .ok (l, .loaded (.error .deserializationIssues))
  | some accounts => do
    let (l, fine) ← l.inits X accounts
    return (l, if fine then .loaded (.ok ()) else .panicked)

/-- `accounts_on_demand.rs` 65-125.  `contains_account` (86) is called with `accounts_in_loading` locked. -/
def Live.account (X : Codecs) (S : Source) (l : Live) (pk : Pubkey) (c : Commitment) : Run (Live × Outcome) := do
  match ← l.sys.store.getAccount pk c with
  | some a => return (l, .account (.ok (some a)))
  | none =>
    if l.tablePoisoned then return (l, .panicked)
    else if l.sys.loadingAccounts pk then return (l, .account (.ok (← l.sys.store.getAccount pk c)))
    else if l.poisoned then return ({ l with tablePoisoned := true }, .panicked)
    else if l.sys.filters.containsAccount pk then return (l, .account (.ok none))
    else
      let loading := { l.sys with loadingAccounts := fun k => if k = pk then true else l.sys.loadingAccounts k }
      match S.subscribe (accountFilter pk) l.sys.filters with
      | none => return ({ l with sys := loading }, .account (.error .errorSubscribingAccount))
      | some filters =>
        let (accounts, ok) := S.snapshot (accountFilter pk)
        let (store, fine) ← loadAll X filters l.sys.store accounts
        if !fine then return ({ l with sys := { loading with store := store, filters := filters } }, .panicked)
        else if ok then
          let w : Sys := ⟨store, filters, fun k => if k = pk then false else l.sys.loadingAccounts k, l.sys.loadingPrograms⟩
          return ({ l with sys := w }, .account (.ok (← store.getAccount pk c)))
        else return ({ l with sys := { loading with store := store, filters := filters } }, .account (.error .errorCreatingSnapshot))

/-- `InmemoryAccountStore::get_program_accounts`, which holds read locks only. -/
def Live.query (X : Codecs) (busy : Nat → Bool) (l : Live) (p : Pubkey) (fs : Option (List AccountFilterType)) (c : Commitment) :
    Run (Live × Outcome) :=
  if l.poisoned then .ok (l, .panicked)
  else match l.sys.store.getProgramAccounts X (filtersOf X l.sys.filters) busy p fs c with
    | .ok r => .ok (l, .accounts r)
    | .panic => .ok (l, .panicked)
    | .diverge => .diverge

/-- `accounts_on_demand.rs` 127-196.  `add_account_filters` (175-176) locks the filters for writing. -/
def Live.program (X : Codecs) (S : Source) (busy : Nat → Bool) (l : Live) (p : Pubkey)
    (fs : Option (List AccountFilterType)) (c : Commitment) : Run (Live × Outcome) :=
  if l.poisoned then .ok (l, .panicked)
  else if l.sys.filters.containsFilter (programFilter p fs) then l.query X busy p fs c
  else if l.sys.loadingPrograms (p, fs.getD []) then l.query X busy p fs c
  else
    let loading := { l.sys with loadingPrograms := fun k => if k = (p, fs.getD []) then true else l.sys.loadingPrograms k }
    match S.subscribe (programFilter p fs) l.sys.filters with
    | none => .ok ({ l with sys := loading }, .accounts (.error .errorSubscribingAccount))
    | some filters =>
      match filters.addFilters X [programFilter p fs] with
      | .diverge => .diverge
      | .panic => .ok ({ l with sys := { loading with filters := filters }, poisoned := true }, .panicked)
      | .ok filters => do
        let (accounts, ok) := S.snapshot (programFilter p fs)
        let (store, fine) ← loadAll X filters l.sys.store accounts
        if !fine then return ({ l with sys := { loading with store := store, filters := filters } }, .panicked)
        else if ok then
          let w : Sys := ⟨store, filters, l.sys.loadingAccounts, fun k => if k = (p, fs.getD []) then false else l.sys.loadingPrograms k⟩
          Live.query X busy { l with sys := w } p fs c
        else return ({ l with sys := { loading with store := store, filters := filters } }, .accounts (.error .errorCreatingSnapshot))

/-- A call and how it ends.  A slot notification (`inmemory_account_store.rs` 349-455) asks the filters about states it
promotes; if they panic on one that is there to be promoted it may panic, and what it leaves of the storage then is not modelled (any storage). -/
inductive Live.Step (X : Codecs) : Live → Call → Live → Outcome → Prop where
  | account {l S pk c l' o} : l.account X S pk c = .ok (l', o) → Step X l (.account S pk c) l' o
  | program {l S busy p fs c l' o} : l.program X S busy p fs c = .ok (l', o) → Step X l (.program S busy p fs c) l' o
  | update {l a c l' o} : l.update X a c = .ok (l', o) → Step X l (.update a c) l' o
  | init {l a l' b} : l.init X a = .ok (l', b) → Step X l (.init a) l' (if b then .updated b else .panicked)
  | load {l bs l' o} : l.load X bs = .ok (l', o) → Step X l (.load bs) l' o
  | slot {l σ info c w r} : processSlotData X σ l.sys info c = .ok (w, r) →
      Step X l (.slot σ info c) { l with sys := w } (.notified r)
  | slotPanics {l σ info c pk i e k a} (s : Store) : l.sys.store.index pk = some i → l.sys.store.accounts[i]? = some e →
      BMap.find e.processed k = some a → l.satisfies X a = .panic →
      Step X l (.slot σ info c) { l with sys := { l.sys with store := s } } .panicked

/-- Calls one after the other. -/
inductive Live.Steps (X : Codecs) : Live → List Call → Live → Prop where
  | nil {l} : Steps X l [] l
  | cons {l k ks l1 l2 o} : l.Step X k l1 o → Steps X l1 ks l2 → Steps X l (k :: ks) l2

end LAM.Demand
