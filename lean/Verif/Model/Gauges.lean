import Verif.Model.Store
import Verif.Model.TokenSnapshot
/-!
# The Prometheus gauges

The calls of the stores with the gauges they change (`IntGauge` of the `prometheus` crate, external: a number that is set, counted up
and counted down).  Everything else is as in `Model/Store`, `Model/TokenStorage`, `Model/Processed` and `Model/TokenStore`; that the stores
are changed in the same way is proved (`store_erase`, `token_erase`).  A gauge is shared by all stores of the process; here there is
one store.  `TOTAL_PROCESSED_ACCOUNTS` of the account store and the two gauges of `accounts_on_demand.rs` (20-26) are registered
but never written.  Gauges are numbers without bounds (`i64` in the code).
-/
namespace LAM

/-- `inmemory_account_store.rs` 21-30, the gauges that are written. -/
structure StoreGauges where
  /-- `lite_accounts_accounts_in_memory` -/
  stored : Int
  /-- `lite_accounts_slot_for_latest_account_update` -/
  latest : Int
deriving DecidableEq, Repr

def StoreGauges.zero : StoreGauges := ⟨0, 0⟩

namespace Store

/-- `inmemory_account_store.rs` 244-261. -/
def updateVacantG (F : Filters) (s : Store) (g : StoreGauges) (a : AccountData) (c : Commitment) : (Store × Bool) × StoreGauges :=
  if F.satisfies a then
    let g := { g with stored := g.stored + 1 }
    let s := { s with accounts := s.accounts ++ [ByCommitment.new a c] }
    let i := s.accounts.length - 1
    let s := s.addAccountOwner i a.account.owner
    let s := (s.addIndexToSlot a.slot i c).1
    (({ s with index := fun k => if k = a.pubkey then some i else s.index k }, true), g)
  else ((s, false), g)

/-- `inmemory_account_store.rs` 205-264. -/
def updateAccountG (F : Filters) (s : Store) (g : StoreGauges) (a : AccountData) (c : Commitment) : Run ((Store × Bool) × StoreGauges) :=
  let g := { g with latest := a.slot }
  if !isDeleted a && !F.satisfies a && !s.containsKey a.pubkey then .ok ((s, false), g)
  else
    let (s, c) := s.maybeUpdateSlotStatus a c
    match s.index a.pubkey with
    | some i => do return (← updateOccupied F s a c i, g)
    | none => .ok (updateVacantG F s g a c)

/-- Effect of one call. -/
def stepG (s : Store) (g : StoreGauges) : Op → Run (Store × StoreGauges)
  | .update F a c => do let r ← s.updateAccountG F g a c; return (r.1.1, r.2)
  | .slot F σ info c => do let r ← s.processSlotData F σ info c; return (r.1, g)

/-- Effect of a history of calls. -/
def runG (s : Store) (g : StoreGauges) : List Op → Run (Store × StoreGauges)
  | [] => .ok (s, g)
  | op :: ops => do let r ← s.stepG g op; r.1.runG r.2 ops

end Store
end LAM

namespace LAM.Token

/-- `inmemory_token_account_storage.rs` 19-26 and `inmemory_token_storage.rs` 34-41. -/
structure TokenGauges where
  /-- `lite_account_token_accounts_in_memory` -/
  stored : Int
  /-- `lite_account_token_accounts_deleted_in_memory` -/
  deleted : Int
  /-- `lite_accounts_token_processed_accounts_in_memory` -/
  processed : Int
  /-- `lite_accounts_token_mints_in_memory` -/
  mints : Int
deriving DecidableEq, Repr

def TokenGauges.zero : TokenGauges := ⟨0, 0, 0, 0⟩

namespace TokenStorage

/-- `inmemory_token_account_storage.rs` 60-96. -/
def saveG (s : TokenStorage) (g : TokenGauges) (t : TokenAccount) : Run (((Nat × Bool) × TokenStorage) × TokenGauges) :=
  match s.buckets.find (prefix4 t.pubkey) with
  | some is => do
    match ← firstMatch s.accounts t.pubkey is with
    | some i => return (((i, false), { s with accounts := s.accounts.set i t.toBytes }), g)
    | none =>
      let i := wrap32 s.accounts.length
      return (((i, true), ⟨s.buckets.insert (prefix4 t.pubkey) (is ++ [i]), s.accounts ++ [t.toBytes]⟩),
        { g with stored := g.stored + 1 })
  | none =>
    let i := wrap32 s.accounts.length
    .ok (((i, true), ⟨s.buckets.insert (prefix4 t.pubkey) [i], s.accounts ++ [t.toBytes]⟩), { g with stored := g.stored + 1 })

/-- `inmemory_token_account_storage.rs` 129-156. -/
def deleteG (s : TokenStorage) (g : TokenGauges) (pk : Pubkey) : Run (TokenStorage × TokenGauges) :=
  match s.buckets.find (prefix4 pk) with
  | some is => do
    match ← firstMatch s.accounts pk is with
    | some i => return (⟨s.buckets.erase (prefix4 pk), s.accounts.set i tombstone.toBytes⟩, { g with deleted := g.deleted + 1 })
    | none => return ({ s with buckets := s.buckets.erase (prefix4 pk) }, g)
  | none => .ok (s, g)

end TokenStorage

namespace ProcStore

/-- `inmemory_token_storage.rs` 61-124. -/
def insertAccountG (P : ProcStore) (g : TokenGauges) (pk : Pubkey) (x : ProgramAccount) (wv slot : Nat) :
    (Bool × ProcStore) × TokenGauges :=
  match BMap.find P slot with
  | some e =>
    match e.accounts.find pk with
    | some old =>
      if old.wv < wv then ((true, BMap.insert P slot { e with accounts := e.accounts.insert pk ⟨x, wv⟩ }), g)
      else ((false, P), g)
    | none => ((true, BMap.insert P slot { e with accounts := e.accounts.insert pk ⟨x, wv⟩ }), { g with processed := g.processed + 1 })
  | none => ((true, BMap.insert P slot ⟨[(pk, ⟨x, wv⟩)], none⟩), { g with processed := g.processed + 1 })

/-- `inmemory_token_storage.rs` 188-201. -/
def collectG (slot : Nat) : AMap Pubkey Processed → Found → TokenGauges → Found × TokenGauges
  | [], found, g => (found, g)
  | (pk, x) :: l, found, g =>
    let g := { g with processed := g.processed - 1 }
    collectG slot l (match found.find pk with
      | some _ => found
      | none => found.insert pk (x, slot)) g

/-- `inmemory_token_storage.rs` 184-209. -/
def finalizeLoopG : Nat → ProcStore → Found → TokenGauges → Nat → Run ((ProcStore × Found) × TokenGauges)
  | 0, _, _, _, _ => .diverge
  | fuel + 1, P, found, g, slot =>
    match BMap.find P slot with
    | none => .ok ((P, found), g)
    | some e =>
      let (found, g) := collectG slot e.accounts found g
      let P := BMap.erase P slot
      match e.parent with
      | none => .ok ((P, found), g)
      | some p => finalizeLoopG fuel P found g p

/-- `inmemory_token_storage.rs` 179-224: the slots removed at the end (212-218) are not counted down. -/
def finalizeG (P : ProcStore) (g : TokenGauges) (slot : Nat) : Run ((ProcStore × List (Processed × Nat)) × TokenGauges) := do
  let ((P', found), g) ← finalizeLoopG (P.length + 1) P [] g slot
  return ((dropUpTo P' slot, found.map Prod.snd), g)

end ProcStore

namespace TokenStore

/-- `inmemory_token_storage.rs` 334-400. -/
def addFinalizedG (s : TokenStore) (g : TokenGauges) : ProgramAccount → Run (TokenStore × TokenGauges)
  | .token t => do
    let (((i, added), tokens), g) ← s.tokens.saveG g t
    if added then
      return ({ s with
        tokens := tokens
        byMint := push s.byMint t.mint i
        byOwner := push s.byOwner (prefix4 t.owner) i }, g)
    else return ({ s with tokens := tokens }, g)
  | .mint m =>
    match s.table.index.find m.pubkey with
    | some i => .ok ({ s with mints := s.mints.insert i m }, g)
    | none =>
      let g := { g with mints := g.mints + 1 }
      let i := s.table.counter
      .ok ({ s with
        mints := s.mints.insert i m
        table := ⟨s.table.index.insert m.pubkey i, wrap32 (i + 1)⟩ }, g)
  | .multisig m pk => .ok ({ s with multisigs := s.multisigs.insert pk m }, g)
  | .deleted pk =>
    match s.table.index.find pk with
    | some i => .ok ({ s with
        table := { s.table with index := s.table.index.erase pk }
        mints := s.mints.erase i
        byMint := s.byMint.erase i }, { g with mints := g.mints - 1 })
    | none => do
      let (tokens, g) ← s.tokens.deleteG g pk
      return ({ s with tokens := tokens }, g)

/-- `inmemory_token_storage.rs` 558-589. -/
def updateAccountG (X : Codecs) (s : TokenStore) (g : TokenGauges) (a : AccountData) (c : Commitment) :
    Run ((Bool × TokenStore) × TokenGauges) := do
  if !(← s.isTokenAccount a) then return ((false, s), g)
  else do
    let (r, table) ← classify X s.table a
    let s := { s with table := table }
    match r with
    | none => return ((false, s), g)
    | some x =>
      if c = .processed ∨ c = .confirmed then
        let ((b, P), g) := s.processed.insertAccountG g a.pubkey x a.wv a.slot
        return ((b, { s with processed := P }), g)
      else do
        let (s, g) ← s.addFinalizedG g x
        return ((true, s), g)

/-- `inmemory_token_storage.rs` 591-614. -/
def initAccountG (X : Codecs) (s : TokenStore) (g : TokenGauges) (a : AccountData) : Run (TokenStore × TokenGauges) := do
  if !(← s.isTokenAccount a) then return (s, g)
  else do
    let (r, table) ← classify X s.table a
    let s := { s with table := table }
    match r with
    | none => return (s, g)
    | some x => s.addFinalizedG g x

/-- The loop of `inmemory_token_storage.rs` 732-734. -/
def addAllG : List (Processed × Nat) → TokenStore → TokenGauges → Run (TokenStore × TokenGauges)
  | [], s, g => .ok (s, g)
  | x :: l, s, g => do
    let (s, g) ← s.addFinalizedG g x.1.account
    addAllG l s g

/-- `inmemory_token_storage.rs` 695-738. -/
def processSlotG (σ : Orders) (s : TokenStore) (g : TokenGauges) (info : SlotInfo) (c : Commitment) :
    Run ((List AccountData × TokenStore) × TokenGauges) :=
  match c with
  | .processed => .ok (([], { s with processed := s.processed.updateSlotInfo info }), g)
  | .confirmed => do
    let s := if s.confirmedSlot < info.slot then
        { s with confirmedSlot := info.slot, processed := s.processed.updateSlotInfo info } else s
    let (l, P) ← s.processed.getProcessedForSlot info s.mints
    return ((l, { s with processed := P }), g)
  | .finalized => do
    let s := if s.finalizedSlot < info.slot then
        { s with finalizedSlot := info.slot, processed := s.processed.updateSlotInfo info } else s
    let ((P, l), g) ← s.processed.finalizeG g info.slot
    let l := σ.final l
    let s := { s with processed := P }
    let notifications ← ProcStore.toSolanaAll s.mints l
    let (s, g) ← addAllG l s g
    return ((notifications, s), g)

/-- Effect of one call. -/
def stepG (X : Codecs) (s : TokenStore) (g : TokenGauges) : TOp → Run (TokenStore × TokenGauges)
  | .update a c => do
    let r ← s.updateAccountG X g a c
    return (r.1.2, r.2)
  | .init a => s.initAccountG X g a
  | .slot σ info c => do
    let r ← s.processSlotG σ g info c
    return (r.1.2, r.2)

/-- Calls one after the other. -/
def runG (X : Codecs) : List TOp → TokenStore → TokenGauges → Run (TokenStore × TokenGauges)
  | [], s, g => .ok (s, g)
  | o :: os, s, g => do
    let r ← s.stepG X g o
    runG X os r.1 r.2

/-- The loop of `inmemory_token_storage.rs` 814-842 (loading a snapshot). -/
def loadTokensG (mapping : AMap Nat Nat) : List Bytes → TokenStore → TokenGauges → Run (TokenStore × TokenGauges)
  | [], s, g => .ok (s, g)
  | b :: l, s, g => do
    let t ← TokenAccount.fromBytes b
    let i ← Run.unwrap (mapping.find t.mint)
    let t := { t with mint := i }
    let (((k, added), tokens), g) ← s.tokens.saveG g t
    loadTokensG mapping l (if added then
      { s with
        tokens := tokens
        byOwner := push s.byOwner (prefix4 t.owner) k
        byMint := push s.byMint i k }
      else { s with tokens := tokens }) g

/-- `inmemory_token_storage.rs` 787-844: mints are loaded (799-812) without counting them. -/
def loadSnapshotG (s : TokenStore) (g : TokenGauges) (x : TokenSnapshot) : Run (TokenStore × TokenGauges) :=
  let (mapping, s) := loadMints x.mints [] (loadMultisigs x.multisigs s)
  loadTokensG mapping x.tokens s g

end TokenStore
end LAM.Token
