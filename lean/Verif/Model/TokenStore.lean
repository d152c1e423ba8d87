import Verif.Model.Processed
import Verif.Model.TokenStorage
/-!
# The token program store (`token_account_storage/src/inmemory_token_storage.rs` 303-738)

Each call is one atomic step.  The logs are left out; for the gauges see `Model/Gauges`.
-/
namespace LAM.Token
open Spl (tokenId token2022Id)

/-- `inmemory_token_storage.rs` 303-314; `table` is `mints_index_by_pubkey` with `mint_counter`. -/
structure TokenStore where
  mints : AMap Nat MintAccount
  table : MintTable
  multisigs : AMap Pubkey MultiSig
  byMint : AMap Nat (List Nat)
  byOwner : AMap Bytes (List Nat)
  tokens : TokenStorage
  processed : ProcStore
  confirmedSlot : Nat
  finalizedSlot : Nat
deriving DecidableEq, Repr

/-- Iteration orders of hash sets and hash maps: arbitrary, but no entry is lost or repeated. -/
structure Orders where
  set : List Nat → List Nat
  set_nodup : ∀ l, (set l).Nodup
  set_mem : ∀ l i, i ∈ set l ↔ i ∈ l
  final : List (Processed × Nat) → List (Processed × Nat)
  final_perm : ∀ l, (final l).Perm l

namespace TokenStore

/-- `inmemory_token_storage.rs` 318-331. -/
def empty : TokenStore := ⟨[], ⟨[], 0⟩, [], [], [], .empty, [], 0, 0⟩

/-- `entry(k)` … `push(i)` (`inmemory_token_storage.rs` 344-366). -/
def push {K : Type} [DecidableEq K] (m : AMap K (List Nat)) (k : K) (i : Nat) : AMap K (List Nat) :=
  match m.find k with
  | some l => m.insert k (l ++ [i])
  | none => m.insert k [i]

/-- `inmemory_token_storage.rs` 334-400. -/
def addFinalized (s : TokenStore) : ProgramAccount → Run TokenStore
  | .token t => do
    let ((i, added), tokens) ← s.tokens.save t
    if added then
      return { s with
        tokens := tokens
        byMint := push s.byMint t.mint i
        byOwner := push s.byOwner (prefix4 t.owner) i }
    else return { s with tokens := tokens }
  | .mint m =>
    match s.table.index.find m.pubkey with
    | some i => .ok { s with mints := s.mints.insert i m }
    | none =>
      let i := s.table.counter
      .ok { s with
        mints := s.mints.insert i m
        table := ⟨s.table.index.insert m.pubkey i, wrap32 (i + 1)⟩ }
  | .multisig m pk => .ok { s with multisigs := s.multisigs.insert pk m }
  | .deleted pk =>
    match s.table.index.find pk with
    | some i => .ok { s with
        table := { s.table with index := s.table.index.erase pk }
        mints := s.mints.erase i
        byMint := s.byMint.erase i }
    | none => do
      -- line 392 looks in `mints_index_by_pubkey` again and finds nothing
      let tokens ← s.tokens.delete pk
      return { s with tokens := tokens }

/-- `inmemory_token_storage.rs` 402-412. -/
def isTokenAccount (s : TokenStore) (a : AccountData) : Run Bool :=
  if (s.table.index.find a.pubkey).isSome ∨ (s.multisigs.find a.pubkey).isSome ∨ a.account.owner = tokenId ∨
      a.account.owner = token2022Id then .ok true
  else do return (← s.tokens.contains a.pubkey).isSome

/-- `inmemory_token_storage.rs` 414-445. -/
def getFinalized (s : TokenStore) (pk : Pubkey) : Run (Option AccountData) :=
  match s.multisigs.find pk with
  | some m => do return some (← multisigToSolana m pk s.finalizedSlot 0)
  | none =>
    match s.table.index.find pk with
    | some i => do
      let m ← Run.unwrap (s.mints.find i)
      return some (mintToSolana m s.finalizedSlot 0)
    | none => do
      match ← s.tokens.getByPubkey pk with
      | some t => if t.isDeleted then return none else tokenToSolana s.mints t s.finalizedSlot 0
      | none => return none

/-- The `filter_map` of `inmemory_token_storage.rs` 484-492 and 511-519. -/
def tokensToSolana (mints : AMap Nat MintAccount) (slot : Nat) : List TokenAccount → Run (List AccountData)
  | [] => .ok []
  | t :: l => do
    let r ← tokenToSolana mints t slot 0
    let rs ← tokensToSolana mints slot l
    return r.toList ++ rs

/-- `inmemory_token_storage.rs` 447-547. -/
def gpaFinalized (X : Codecs) (σ : Orders) (s : TokenStore) (program : Pubkey) (filters : Option (List AccountFilterType)) :
    Run (Except LoadError (List AccountData)) :=
  match filters with
  | none => .ok (.error .shouldContainAnAccountFilter)
  | some filters =>
    match ownerMintFilter program filters with
    | (some owner, mint) => do
      let mint ← (match mint with
        | some pk => do return some (← Run.unwrap (s.table.index.find pk))
        | none => (return none : Run (Option Nat)))
      match s.byOwner.find (prefix4 owner) with
      | some l => do
        let ts ← s.tokens.getByIndex (σ.set l)
        let ts := ts.filter (fun t => match mint with
          | some i => t.mint = i && t.owner = owner
          | none => t.owner = owner)
        return .ok (← tokensToSolana s.mints s.finalizedSlot ts)
      | none => return .ok []
    | (none, some mint) =>
      match s.table.index.find mint with
      | some i =>
        match s.byMint.find i with
        | some l => do
          let ts ← s.tokens.getByIndex (σ.set l)
          return .ok (← tokensToSolana s.mints s.finalizedSlot ts)
        | none => .ok (.ok [])
      | none => .ok (.ok [])
    | (none, none) =>
      if filters.contains (.datasize 82) then do
        let all := s.mints.map (fun e => mintToSolana e.2 s.finalizedSlot 0)
        return .ok (← TokenStorage.filterRun (fun a => do
          let d ← a.account.data.data X
          Run.allM (fun f => f.allows X d) filters) all)
      else .ok (.error .shouldContainAnAccountFilter)

/-- `inmemory_token_storage.rs` 558-589. -/
def updateAccount (X : Codecs) (s : TokenStore) (a : AccountData) (c : Commitment) : Run (Bool × TokenStore) := do
  if !(← s.isTokenAccount a) then return (false, s)
  else do
    let (r, table) ← classify X s.table a
    let s := { s with table := table }
    match r with
    | none => return (false, s)
    | some x =>
      if c = .processed ∨ c = .confirmed then
        let (b, P) := s.processed.insertAccount a.pubkey x a.wv a.slot
        return (b, { s with processed := P })
      else do return (true, ← s.addFinalized x)

/-- `inmemory_token_storage.rs` 591-614. -/
def initAccount (X : Codecs) (s : TokenStore) (a : AccountData) : Run TokenStore := do
  if !(← s.isTokenAccount a) then return s
  else do
    let (r, table) ← classify X s.table a
    let s := { s with table := table }
    match r with
    | none => return s
    | some x => s.addFinalized x

/-- `inmemory_token_storage.rs` 616-645. -/
def getAccount (s : TokenStore) (pk : Pubkey) (c : Commitment) : Run (Option AccountData) :=
  if c = .finalized then s.getFinalized pk
  else do
    let r ← s.processed.getAccounts [pk] c s.confirmedSlot
    match ← Run.unwrap r.head? with
    | some (x, slot) => x.account.toSolana s.mints slot 0
    | none => s.getFinalized pk

/-- `inmemory_token_storage.rs` 666-690: an account found unfinalized replaces the finalized one, deleted ones are removed. -/
def overlay (mints : AMap Nat MintAccount) : List AccountData → ProcStore.Answers → Run (List AccountData)
  | _ :: l, some (x, slot) :: r => do
    let y ← x.account.toSolana mints slot x.wv
    let ys ← overlay mints l r
    return y.toList ++ ys
  | a :: l, none :: r => do return a :: (← overlay mints l r)
  | l, [] => .ok l
  | [], _ => .ok []

/-- `inmemory_token_storage.rs` 647-693. -/
def getProgramAccounts (X : Codecs) (σ : Orders) (s : TokenStore) (program : Pubkey)
    (filters : Option (List AccountFilterType)) (c : Commitment) : Run (Except LoadError (List AccountData)) :=
  if program ≠ tokenId ∧ program ≠ token2022Id then .ok (.error .wrongIndex)
  else do
    match ← s.gpaFinalized X σ program filters with
    | .error e => return .error e
    | .ok l =>
      if c = .finalized then return .ok l
      else do
        let r ← s.processed.getAccounts (l.map (·.pubkey)) c s.confirmedSlot
        return .ok (← overlay s.mints l r)

/-- The loop of `inmemory_token_storage.rs` 732-734. -/
def addAll : List (Processed × Nat) → TokenStore → Run TokenStore
  | [], s => .ok s
  | x :: l, s => do addAll l (← s.addFinalized x.1.account)

/-- `inmemory_token_storage.rs` 695-738. -/
def processSlot (σ : Orders) (s : TokenStore) (info : SlotInfo) (c : Commitment) : Run (List AccountData × TokenStore) :=
  match c with
  | .processed => .ok ([], { s with processed := s.processed.updateSlotInfo info })
  | .confirmed => do
    let s := if s.confirmedSlot < info.slot then
        { s with confirmedSlot := info.slot, processed := s.processed.updateSlotInfo info } else s
    let (l, P) ← s.processed.getProcessedForSlot info s.mints
    return (l, { s with processed := P })
  | .finalized => do
    let s := if s.finalizedSlot < info.slot then
        { s with finalizedSlot := info.slot, processed := s.processed.updateSlotInfo info } else s
    let (P, l) ← s.processed.finalize info.slot
    let l := σ.final l
    let s := { s with processed := P }
    let notifications ← ProcStore.toSolanaAll s.mints l
    let s ← addAll l s
    return (notifications, s)

/-- A call that changes the store. -/
inductive TOp where
  | update (a : AccountData) (c : Commitment)
  | init (a : AccountData)
  | slot (σ : Orders) (info : SlotInfo) (c : Commitment)

/-- Effect of one call. -/
def step (X : Codecs) (s : TokenStore) : TOp → Run TokenStore
  | .update a c => do return (← s.updateAccount X a c).2
  | .init a => s.initAccount X a
  | .slot σ info c => do return (← s.processSlot σ info c).2

/-- Calls one after the other; a panicking call ends the history. -/
def run (X : Codecs) : List TOp → TokenStore → Run TokenStore
  | [], s => .ok s
  | o :: os, s => do run X os (← s.step X o)

end TokenStore
end LAM.Token
