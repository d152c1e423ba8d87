import Verif.Model.TokenStore
/-!
# Concurrent calls of the token program store (`token_account_storage/src/inmemory_token_storage.rs`)

A transition system of any number of threads that call `update_account`, `initilize_or_update_account`, `get_account`,
`get_program_accounts` and `process_slot_data` on one store.  All locks of the store are part of the model:

* the shards of the `DashMap`s `mints_index_by_pubkey`, `multisigs`, `accounts_index_by_mint`, `account_by_owner_pubkey`,
  `mints_by_index` and `pubkey_to_index`: `entry`, `insert`, `remove` write-lock a shard, `get` and `contains_key` read-lock it;
* the `RwLock`s `token_accounts` and `processed_slot_accounts`.

A program counter (`Pc`) stands in front of the next lock; it says which locks the thread has (`Pc.holds`), which one it asks for
(`Pc.wants`), and what it does with it (`Pc.exec`).  What is done under a lock until the next one is asked for, or a shared
atomic is read or written, is one step.  A lock that is not in `Pc.holds` of the next program counter is released by the end of
the step.

Simplifications: the atomics are sequentially consistent.  `mint_counter` is incremented in the step that locks the shard in
which the new index is put.  Locking `token_accounts` again for each index (it is not released in between) is one step.  A
thread that panics releases its locks; the `RwLock`s are never poisoned, because no write guard is dropped in a panic
(`panics_only_reading`).  `create_snapshot` and `load_from_snapshot` are left out.
-/
namespace LAM.TokConc
open Token
open Spl (tokenId token2022Id)

/-- The calls; the commitment of `initilize_or_update_account` is `none`. -/
inductive Call where
  | submit (a : AccountData) (c : Option Commitment)
  | process (info : SlotInfo) (c : Commitment)
  | get (pk : Pubkey) (c : Commitment)
  | gpa (program : Pubkey) (fs : Option (List AccountFilterType)) (c : Commitment)

/-- What they return; `initilize_or_update_account` returns nothing, the Boolean is then unimportant.  A panic ends the call too. -/
inductive Reply where
  | updated (b : Bool)
  | reported (l : List AccountData)
  | account (a : Option AccountData)
  | accounts (r : Except LoadError (List AccountData))
  | panicked

/-- What can be seen from outside. -/
inductive Event where
  | call (k : Call)
  | ret (r : Reply)

/-- A lock; the number is that of a shard. -/
inductive Lock where
  | index (n : Nat)
  | multisig (n : Nat)
  | byMint (n : Nat)
  | byOwner (n : Nat)
  | bucket (n : Nat)
  | mints (n : Nat)
  | accounts
  | processed
deriving DecidableEq, Repr

/-- How a lock is held. -/
inductive Mode where
  | read
  | write
deriving DecidableEq, Repr

/-- The shards; whether a lock lets waiting writers pass new readers (left open by `std` and `dashmap`); codecs. -/
structure Env where
  indexShard : Pubkey → Nat
  multisigShard : Pubkey → Nat
  byMintShard : Nat → Nat
  byOwnerShard : Bytes → Nat
  bucketShard : Bytes → Nat
  mintsShard : Nat → Nat
  /-- number of shards of `mints_by_index` -/
  mintsShards : Nat
  mintsShard_lt : ∀ i, mintsShard i < mintsShards
  writersFirst : Bool
  codecs : Codecs

/-- An account to be converted, or one that stays as it is. -/
inductive Item where
  | keep (a : AccountData)
  | conv (x : ProgramAccount) (slot wv : Nat)

/-- A program query: program, filters and commitment. -/
structure Query where
  program : Pubkey
  filters : List AccountFilterType
  c : Commitment

/-- What is left to do after an account was stored as finalized: more accounts, then the reply. -/
structure After where
  todo : List (Processed × Nat)
  reply : Reply

/-- What the converted accounts are for. -/
inductive Job where
  /-- the answer of `get_account` -/
  | one
  /-- the finalized answer of a query; when found by mint, the mint and its index are still locked -/
  | found (q : Query) (mint : Option (Pubkey × Nat))
  /-- the answer of a query that is not finalized -/
  | overlay
  /-- the report of a confirmed slot; `processed_slot_accounts` is still locked -/
  | confirmed
  /-- the report of a finalized slot, to be stored then -/
  | finalized (l : List (Processed × Nat))

/-- What the unfinalized states are looked up for. -/
inductive Scan where
  | one (pk : Pubkey)
  | overlay (l : List AccountData)

/-- Where a thread is, with its local variables. -/
inductive Pc where
  /-- not in a call -/
  | idle
  /-- in an endless loop, with these locks -/
  | loops (held : List (Lock × Mode))
  /-- `is_token_program_account`: about to ask `mints_index_by_pubkey` (403-404) -/
  | chkIndex (a : AccountData) (c : Option Commitment)
  /-- about to ask `multisigs` (405), then compare the owner (406-407) -/
  | chkMultisig (a : AccountData) (c : Option Commitment)
  /-- `contains`: about to lock the bucket (39) -/
  | chkBucket (a : AccountData) (c : Option Commitment)
  /-- has the bucket, about to lock `token_accounts` (43) -/
  | chkAccounts (a : AccountData) (c : Option Commitment)
  /-- about to decode, and to lock the index of the mint if there is one (569-580, 600-612) -/
  | classify (a : AccountData) (c : Option Commitment)
  /-- about to lock `processed_slot_accounts` (581-586, 68) -/
  | insert (a : AccountData) (x : ProgramAccount)
  /-- `add_account_finalized` (334-400): about to take the first lock -/
  | add (x : ProgramAccount) (k : After)
  /-- `save_or_update`: has the bucket, about to lock `token_accounts` (65, 87) -/
  | save (t : TokenAccount) (k : After)
  /-- about to lock `accounts_index_by_mint` (344) -/
  | pushMint (t : TokenAccount) (i : Nat) (k : After)
  /-- about to lock `account_by_owner_pubkey` (356-358) -/
  | pushOwner (t : TokenAccount) (i : Nat) (k : After)
  /-- has the index of the mint, which is new or not, about to lock `mints_by_index` (373, 380) -/
  | putMint (m : MintAccount) (i : Nat) (new : Bool) (k : After)
  /-- closed mint: about to lock `mints_by_index` (390) -/
  | eraseMint (i : Nat) (k : After)
  /-- closed mint: about to lock `accounts_index_by_mint` (391) -/
  | eraseByMint (i : Nat) (k : After)
  /-- about to lock `mints_index_by_pubkey` again (392) -/
  | again (pk : Pubkey) (k : After)
  /-- `delete`: about to remove the bucket (130) -/
  | dropBucket (pk : Pubkey) (k : After)
  /-- `delete`: about to lock `token_accounts` (132) -/
  | entomb (pk : Pubkey) (is : List Nat) (k : After)
  /-- `get_account`, `get_program_accounts`: about to read `confirmed_slot` (629, 660) -/
  | scanSlot (c : Commitment) (s : Scan)
  /-- `get_accounts`: about to lock `processed_slot_accounts` (267, 233) -/
  | scan (c : Commitment) (n : Nat) (s : Scan)
  /-- `get_accounts` for processed: released the lock at the confirmed slot, about to take it again (285-286, 233) -/
  | rescan (n : Nat) (ret : ProcStore.Answers) (s : Scan)
  /-- `get_account_finalized`: about to ask `multisigs` (415) -/
  | finMultisig (pk : Pubkey)
  /-- has it, about to read `finalized_slot` (416-421) -/
  | finMultisigSlot (pk : Pubkey) (m : MultiSig)
  /-- about to ask `mints_index_by_pubkey` (424) -/
  | finIndex (pk : Pubkey)
  /-- has it, about to ask `mints_by_index` (425) -/
  | finMint (pk : Pubkey) (i : Nat)
  /-- has both, about to read `finalized_slot` (426-430) -/
  | finMintSlot (pk : Pubkey) (i : Nat) (m : MintAccount)
  /-- `get_by_pubkey`: about to lock the bucket (112) -/
  | finBucket (pk : Pubkey)
  /-- has the bucket, about to lock `token_accounts` (115) -/
  | finAccounts (pk : Pubkey)
  /-- about to read `finalized_slot` (437-442) -/
  | finSlot (t : TokenAccount)
  /-- `get_program_accounts`: about to check the program and to read `finalized_slot` (653, 452) -/
  | gpaStart (program : Pubkey) (fs : Option (List AccountFilterType)) (c : Commitment)
  /-- about to lock the accounts of an owner (457) -/
  | gpaOwner (q : Query) (slot : Nat) (owner : Pubkey) (mint : Option Pubkey)
  /-- about to look for the index of the mint, if one is asked for (468) -/
  | gpaIndex (q : Query) (slot : Nat) (owner : Pubkey) (mint : Option Pubkey) (is : Option (List Nat))
  /-- about to lock `token_accounts` (472-474) -/
  | gpaGet (q : Query) (slot : Nat) (owner : Pubkey) (mint : Option Nat) (is : List Nat)
  /-- about to look for the index of the mint (500) -/
  | gpaMint (q : Query) (slot : Nat) (mint : Pubkey)
  /-- has it, about to ask `accounts_index_by_mint` (501) -/
  | gpaByMint (q : Query) (slot : Nat) (mint : Pubkey) (i : Nat)
  /-- has both, about to lock `token_accounts` (508-510) -/
  | gpaMintGet (q : Query) (slot : Nat) (mint : Pubkey) (i : Nat) (is : List Nat)
  /-- about to lock the next of the remaining shards of `mints_by_index` (528-540) -/
  | gpaMints (q : Query) (slot : Nat) (shards : List Nat) (out : List AccountData)
  /-- converting accounts, about to ask `mints_by_index` for the mint of the first one if it is a token account -/
  | convert (l : List Item) (out : List AccountData) (j : Job)
  /-- `process_slot_data`: about to lock `processed_slot_accounts` (699) or to read the slot (704, 713) -/
  | psStart (info : SlotInfo) (c : Commitment)
  /-- about to write `confirmed_slot` (705) -/
  | psConfirm (info : SlotInfo)
  /-- about to lock `processed_slot_accounts` (706, 714) -/
  | psUpdate (info : SlotInfo) (c : Commitment)
  /-- about to write `finalized_slot` (715) -/
  | psFinal (info : SlotInfo)
  /-- about to lock `processed_slot_accounts` (708, 155) -/
  | psReport (info : SlotInfo)
  /-- the slot is unknown: about to lock `processed_slot_accounts` (173) -/
  | psMissing (info : SlotInfo)
  /-- about to lock `processed_slot_accounts` (719, 182) -/
  | psFinalize (info : SlotInfo)

/-- The locks a job keeps. -/
def Job.holds (E : Env) : Job → List (Lock × Mode)
  | .found _ (some (mint, i)) => [(.index (E.indexShard mint), .read), (.byMint (E.byMintShard i), .read)]
  | .confirmed => [(.processed, .read)]
  | _ => []

/-- The locks a thread has. -/
def Pc.holds (E : Env) : Pc → List (Lock × Mode)
  | .loops held => held
  | .chkAccounts a _ => [(.bucket (E.bucketShard (prefix4 a.pubkey)), .write)]
  | .save t _ => [(.bucket (E.bucketShard (prefix4 t.pubkey)), .write)]
  | .putMint m _ _ _ => [(.index (E.indexShard m.pubkey), .write)]
  | .finMultisigSlot pk _ => [(.multisig (E.multisigShard pk), .read)]
  | .finMint pk _ => [(.index (E.indexShard pk), .read)]
  | .finMintSlot pk i _ => [(.index (E.indexShard pk), .read), (.mints (E.mintsShard i), .read)]
  | .finAccounts pk => [(.bucket (E.bucketShard (prefix4 pk)), .write)]
  | .gpaByMint _ _ mint _ => [(.index (E.indexShard mint), .read)]
  | .gpaMintGet _ _ mint i _ => [(.index (E.indexShard mint), .read), (.byMint (E.byMintShard i), .read)]
  | .convert _ _ j => j.holds E
  | _ => []

/-- The mint whose index `get_token_program_account_type` looks for (`token_program_utils.rs` 118, 194): the one it would enter
in an empty table. -/
def mintNeeded (X : Codecs) (a : AccountData) : Option Pubkey :=
  match Token.classify X ⟨[], 0⟩ a with
  | .ok (_, T) => T.index.head?.map (·.1)
  | _ => none

/-- The lock a thread asks for. -/
def Pc.wants (E : Env) : Pc → Option (Lock × Mode)
  | .chkIndex a _ => some (.index (E.indexShard a.pubkey), .read)
  | .chkMultisig a _ => some (.multisig (E.multisigShard a.pubkey), .read)
  | .chkBucket a _ => some (.bucket (E.bucketShard (prefix4 a.pubkey)), .write)
  | .chkAccounts _ _ => some (.accounts, .read)
  | .classify a _ => (mintNeeded E.codecs a).map fun mint => (.index (E.indexShard mint), .write)
  | .insert .. => some (.processed, .write)
  | .add (.token t) _ => some (.bucket (E.bucketShard (prefix4 t.pubkey)), .write)
  | .add (.mint m) _ => some (.index (E.indexShard m.pubkey), .write)
  | .add (.multisig _ pk) _ => some (.multisig (E.multisigShard pk), .write)
  | .add (.deleted pk) _ => some (.index (E.indexShard pk), .write)
  | .save .. => some (.accounts, .write)
  | .pushMint t _ _ => some (.byMint (E.byMintShard t.mint), .write)
  | .pushOwner t _ _ => some (.byOwner (E.byOwnerShard (prefix4 t.owner)), .write)
  | .putMint _ i _ _ => some (.mints (E.mintsShard i), .write)
  | .eraseMint i _ => some (.mints (E.mintsShard i), .write)
  | .eraseByMint i _ => some (.byMint (E.byMintShard i), .write)
  | .again pk _ => some (.index (E.indexShard pk), .write)
  | .dropBucket pk _ => some (.bucket (E.bucketShard (prefix4 pk)), .write)
  | .entomb .. => some (.accounts, .write)
  | .scan .. => some (.processed, .read)
  | .rescan .. => some (.processed, .read)
  | .finMultisig pk => some (.multisig (E.multisigShard pk), .read)
  | .finIndex pk => some (.index (E.indexShard pk), .read)
  | .finMint _ i => some (.mints (E.mintsShard i), .read)
  | .finBucket pk => some (.bucket (E.bucketShard (prefix4 pk)), .write)
  | .finAccounts _ => some (.accounts, .read)
  | .gpaOwner _ _ owner _ => some (.byOwner (E.byOwnerShard (prefix4 owner)), .write)
  | .gpaIndex _ _ _ mint _ => mint.map fun pk => (.index (E.indexShard pk), .read)
  | .gpaGet .. => some (.accounts, .read)
  | .gpaMint _ _ mint => some (.index (E.indexShard mint), .read)
  | .gpaByMint _ _ _ i => some (.byMint (E.byMintShard i), .read)
  | .gpaMintGet .. => some (.accounts, .read)
  | .gpaMints _ _ (n :: _) _ => some (.mints n, .read)
  | .convert (.conv (.token t) _ _ :: _) _ _ => if t.isDeleted then none else some (.mints (E.mintsShard t.mint), .read)
  | .psStart _ .processed => some (.processed, .write)
  | .psUpdate .. => some (.processed, .write)
  | .psReport _ => some (.processed, .read)
  | .psMissing _ => some (.processed, .write)
  | .psFinalize _ => some (.processed, .write)
  | _ => none

/-- How a step goes on. -/
inductive Next where
  | go (p : Pc)
  | ret (r : Reply)

/-- After an account was stored as finalized: the loop of 732-734, or the end. -/
def After.next (k : After) : Next :=
  match k.todo with
  | [] => .ret k.reply
  | x :: l => .go (.add x.1.account ⟨l, k.reply⟩)

/-- After all accounts are converted. -/
def Job.next (out : List AccountData) : Job → Next
  | .one => .ret (.account out.head?)
  | .found q _ => if q.c = .finalized then .ret (.accounts (.ok out)) else .go (.scanSlot q.c (.overlay out))
  | .overlay => .ret (.accounts (.ok out))
  | .confirmed => .ret (.reported out)
  | .finalized l => After.next ⟨l, .reported out⟩

/-- The accounts the unfinalized states are looked up for. -/
def Scan.keys : Scan → List Pubkey
  | .one pk => [pk]
  | .overlay l => l.map (·.pubkey)

/-- `inmemory_token_storage.rs` 666-690: unfinalized states replace finalized ones. -/
def overlayItems : List AccountData → ProcStore.Answers → List Item
  | _ :: l, some (x, slot) :: r => .conv x.account slot x.wv :: overlayItems l r
  | a :: l, none :: r => .keep a :: overlayItems l r
  | l, [] => l.map .keep
  | [], _ => []

/-- After the unfinalized states are looked up (633-643, 664-690). -/
def Scan.next (r : ProcStore.Answers) : Scan → Run Next
  | .one pk => do
    match ← Run.unwrap r.head? with
    | some (x, slot) => return .go (.convert [.conv x.account slot 0] [] .one)
    | none => return .go (.finMultisig pk)
  | .overlay l => .ok (.go (.convert (overlayItems l r) [] .overlay))

/-- `inmemory_token_storage.rs` 269-292, as far as the lock is held: the answers, and whether the confirmed slot was reached. -/
def scanProcessed (pks : List Pubkey) (confirmed : Nat) : List (Nat × BySlot) → ProcStore.Answers → ProcStore.Answers × Bool
  | [], ret => (ret, false)
  | (slot, e) :: l, ret =>
    if slot > confirmed then
      let ret := ProcStore.fill slot e pks ret
      if ret.all Option.isSome then (ret, false) else scanProcessed pks confirmed l ret
    else (ret, true)

/-- After `is_token_program_account` (559-561, 592-594). -/
def taken (a : AccountData) (c : Option Commitment) : Bool → Next
  | true => .go (.classify a c)
  | false => .ret (.updated false)

/-- After the account is decoded (581-588, 613). -/
def decoded (a : AccountData) (c : Option Commitment) : Option ProgramAccount → Next
  | none => .ret (.updated false)
  | some x => if c = some .processed ∨ c = some .confirmed then .go (.insert a x) else .go (.add x ⟨[], .updated true⟩)

/-- Token accounts of a query, to be converted. -/
def tokenItems (slot : Nat) (l : List TokenAccount) : List Item := l.map (fun t => .conv (.token t) slot 0)

/-- What a thread does in one step once it has the lock it wants; `diverge` if that never ends. -/
def Pc.exec (E : Env) (σ : Orders) (s : TokenStore) : Pc → Run (TokenStore × Next)
  | .idle => .diverge
  | .loops _ => .diverge
  | .chkIndex a c =>
    .ok (s, if (s.table.index.find a.pubkey).isSome then taken a c true else .go (.chkMultisig a c))
  | .chkMultisig a c =>
    .ok (s, if (s.multisigs.find a.pubkey).isSome ∨ a.account.owner = tokenId ∨ a.account.owner = token2022Id then taken a c true
      else .go (.chkBucket a c))
  | .chkBucket a c =>
    match s.tokens.buckets.find (prefix4 a.pubkey) with
    | some is =>
      if is.length > 1 then .ok (s, .go (.chkAccounts a c))
      else do
        let _ ← Run.unwrap is.head?
        return (s, taken a c true)
    | none => .ok (s, taken a c false)
  | .chkAccounts a c => do return (s, taken a c (← s.tokens.contains a.pubkey).isSome)
  | .classify a c => do
    let (x, table) ← Token.classify E.codecs s.table a
    return ({ s with table := table }, decoded a c x)
  | .insert a x =>
    let (b, P) := s.processed.insertAccount a.pubkey x a.wv a.slot
    .ok ({ s with processed := P }, .ret (.updated b))
  | .add (.token t) k => .ok (s, .go (.save t k))
  | .add (.mint m) k =>
    match s.table.index.find m.pubkey with
    | some i => .ok (s, .go (.putMint m i false k))
    | none => .ok ({ s with table := { s.table with counter := wrap32 (s.table.counter + 1) } },
        .go (.putMint m s.table.counter true k))
  | .add (.multisig m pk) k => .ok ({ s with multisigs := s.multisigs.insert pk m }, k.next)
  | .add (.deleted pk) k =>
    match s.table.index.find pk with
    | some i => .ok ({ s with table := { s.table with index := s.table.index.erase pk } }, .go (.eraseMint i k))
    | none => .ok (s, .go (.again pk k))
  | .save t k => do
    let ((i, added), tokens) ← s.tokens.save t
    return ({ s with tokens := tokens }, if added then .go (.pushMint t i k) else k.next)
  | .pushMint t i k => .ok ({ s with byMint := TokenStore.push s.byMint t.mint i }, .go (.pushOwner t i k))
  | .pushOwner t i k => .ok ({ s with byOwner := TokenStore.push s.byOwner (prefix4 t.owner) i }, k.next)
  | .putMint m i new k =>
    .ok ({ s with
      mints := s.mints.insert i m
      table := if new then { s.table with index := s.table.index.insert m.pubkey i } else s.table }, k.next)
  | .eraseMint i k => .ok ({ s with mints := s.mints.erase i }, .go (.eraseByMint i k))
  | .eraseByMint i k => .ok ({ s with byMint := s.byMint.erase i }, k.next)
  | .again pk k =>
    match s.table.index.find pk with
    | some _ => .ok ({ s with table := { s.table with index := s.table.index.erase pk } }, k.next)
    | none => .ok (s, .go (.dropBucket pk k))
  | .dropBucket pk k =>
    match s.tokens.buckets.find (prefix4 pk) with
    | some is => .ok ({ s with tokens := { s.tokens with buckets := s.tokens.buckets.erase (prefix4 pk) } }, .go (.entomb pk is k))
    | none => .ok (s, k.next)
  | .entomb pk is k => do
    match ← firstMatch s.tokens.accounts pk is with
    | some i => return ({ s with tokens := { s.tokens with accounts := s.tokens.accounts.set i TokenStorage.tombstone.toBytes } }, k.next)
    | none => return (s, k.next)
  | .scanSlot c j => .ok (s, .go (.scan c s.confirmedSlot j))
  | .scan .finalized _ _ => .panic
  | .scan .confirmed n j => do
    let r ← ProcStore.getConfirmed (s.processed.length + 1) s.processed j.keys (List.replicate j.keys.length none) n
    return (s, ← j.next r)
  | .scan .processed n j =>
    match scanProcessed j.keys n s.processed.reverse (List.replicate j.keys.length none) with
    | (r, true) => .ok (s, .go (.rescan n r j))
    | (r, false) => do return (s, ← j.next r)
  | .rescan n ret j => do
    let r ← ProcStore.getConfirmed (s.processed.length + 1) s.processed j.keys ret n
    return (s, ← j.next r)
  | .finMultisig pk =>
    match s.multisigs.find pk with
    | some m => .ok (s, .go (.finMultisigSlot pk m))
    | none => .ok (s, .go (.finIndex pk))
  | .finMultisigSlot pk m => do return (s, .ret (.account (some (← multisigToSolana m pk s.finalizedSlot 0))))
  | .finIndex pk =>
    match s.table.index.find pk with
    | some i => .ok (s, .go (.finMint pk i))
    | none => .ok (s, .go (.finBucket pk))
  | .finMint pk i => do return (s, .go (.finMintSlot pk i (← Run.unwrap (s.mints.find i))))
  | .finMintSlot _ _ m => .ok (s, .ret (.account (some (mintToSolana m s.finalizedSlot 0))))
  | .finBucket pk =>
    match s.tokens.buckets.find (prefix4 pk) with
    | some _ => .ok (s, .go (.finAccounts pk))
    | none => .ok (s, .ret (.account none))
  | .finAccounts pk => do
    match ← s.tokens.getByPubkey pk with
    | some t => return (s, if t.isDeleted then .ret (.account none) else .go (.finSlot t))
    | none => return (s, .ret (.account none))
  | .finSlot t => .ok (s, .go (.convert [.conv (.token t) s.finalizedSlot 0] [] .one))
  | .gpaStart program fs c =>
    if program ≠ tokenId ∧ program ≠ token2022Id then .ok (s, .ret (.accounts (.error .wrongIndex)))
    else match fs with
    | none => .ok (s, .ret (.accounts (.error .shouldContainAnAccountFilter)))
    | some fs =>
      let q : Query := ⟨program, fs, c⟩
      match ownerMintFilter program fs with
      | (some owner, mint) => .ok (s, .go (.gpaOwner q s.finalizedSlot owner mint))
      | (none, some mint) => .ok (s, .go (.gpaMint q s.finalizedSlot mint))
      | (none, none) =>
        if fs.contains (.datasize 82) then .ok (s, .go (.gpaMints q s.finalizedSlot (List.range E.mintsShards) []))
        else .ok (s, .ret (.accounts (.error .shouldContainAnAccountFilter)))
  | .gpaOwner q slot owner mint => .ok (s, .go (.gpaIndex q slot owner mint (s.byOwner.find (prefix4 owner))))
  | .gpaIndex q slot owner mint is => do
    let mint ← (match mint with
      | some pk => do return some (← Run.unwrap (s.table.index.find pk))
      | none => (return none : Run (Option Nat)))
    match is with
    | some is => return (s, .go (.gpaGet q slot owner mint is))
    | none => return (s, .go (.convert [] [] (.found q none)))
  | .gpaGet q slot owner mint is => do
    let ts ← s.tokens.getByIndex (σ.set is)
    let ts := ts.filter (fun t => match mint with
      | some i => t.mint = i && t.owner = owner
      | none => t.owner = owner)
    return (s, .go (.convert (tokenItems slot ts) [] (.found q none)))
  | .gpaMint q slot mint =>
    match s.table.index.find mint with
    | some i => .ok (s, .go (.gpaByMint q slot mint i))
    | none => .ok (s, .go (.convert [] [] (.found q none)))
  | .gpaByMint q slot mint i =>
    match s.byMint.find i with
    | some is => .ok (s, .go (.gpaMintGet q slot mint i is))
    | none => .ok (s, .go (.convert [] [] (.found q none)))
  | .gpaMintGet q slot mint i is => do
    let ts ← s.tokens.getByIndex (σ.set is)
    return (s, .go (.convert (tokenItems slot ts) [] (.found q (some (mint, i)))))
  | .gpaMints q _ [] out => .ok (s, .go (.convert (out.map .keep) [] (.found q none)))
  | .gpaMints q slot (n :: shards) out => do
    let l := (s.mints.filter (fun e => E.mintsShard e.1 = n)).map (fun e => mintToSolana e.2 slot 0)
    let l ← TokenStorage.filterRun (fun a => do
      let d ← a.account.data.data E.codecs
      Run.allM (fun f => f.allows E.codecs d) q.filters) l
    return (s, .go (.gpaMints q slot shards (out ++ l)))
  | .convert [] out j => .ok (s, j.next out)
  | .convert (.keep a :: l) out j => .ok (s, .go (.convert l (out ++ [a]) j))
  | .convert (.conv x slot wv :: l) out j => do
    let r ← x.toSolana s.mints slot wv
    return (s, .go (.convert l (out ++ r.toList) j))
  | .psStart info .processed => .ok ({ s with processed := s.processed.updateSlotInfo info }, .ret (.reported []))
  | .psStart info .confirmed => .ok (s, if s.confirmedSlot < info.slot then .go (.psConfirm info) else .go (.psReport info))
  | .psStart info .finalized =>
    .ok (s, if s.finalizedSlot < info.slot then .go (.psUpdate info .finalized) else .go (.psFinalize info))
  | .psConfirm info => .ok ({ s with confirmedSlot := info.slot }, .go (.psUpdate info .confirmed))
  | .psUpdate info c => .ok ({ s with processed := s.processed.updateSlotInfo info },
      if c = .finalized then .go (.psFinal info) else .go (.psReport info))
  | .psFinal info => .ok ({ s with finalizedSlot := info.slot }, .go (.psFinalize info))
  | .psReport info =>
    match BMap.find s.processed info.slot with
    | some e => .ok (s, .go (.convert (e.accounts.map (fun x => .conv x.2.account info.slot x.2.wv)) [] .confirmed))
    | none => .ok (s, .go (.psMissing info))
  | .psMissing info => .ok ({ s with processed := s.processed.updateSlotInfo info }, .ret (.reported []))
  | .psFinalize info => do
    let (P, l) ← s.processed.finalize info.slot
    let l := σ.final l
    return ({ s with processed := P }, .go (.convert (l.map (fun x => .conv x.1.account x.2 x.1.wv)) [] (.finalized l)))

/-- The store, the threads, and what happened so far (only recorded). -/
structure World where
  st : TokenStore
  pc : Nat → Pc
  log : List (Nat × Event)

/-- Function update. -/
def upd (f : Nat → Pc) (t : Nat) (p : Pc) : Nat → Pc := fun x => if x = t then p else f x

/-- Where a call begins. -/
def Call.start : Call → Pc
  | .submit a c => .chkIndex a c
  | .process info c => .psStart info c
  | .get pk c => if c = .finalized then .finMultisig pk else .scanSlot c (.one pk)
  | .gpa p fs c => .gpaStart p fs c

/-- The lock that thread `t` asks for, if any, can be given to it: readers share a lock, a writer is alone. -/
def World.Granted (E : Env) (w : World) (t : Nat) : Prop :=
  ∀ l m, (w.pc t).wants E = some (l, m) →
    (∀ u m', (l, m') ∈ (w.pc u).holds E → m = .read ∧ m' = .read) ∧
    (m = .read → E.writersFirst = true → ∀ u, (w.pc u).wants E ≠ some (l, .write))

/-- The result of a step of thread `t`; a panic ends the call and leaves the store as it is. -/
def World.after (E : Env) (w : World) (t : Nat) : Run (TokenStore × Next) → World
  | .ok (s, .go p) => { w with st := s, pc := upd w.pc t p }
  | .ok (s, .ret r) => { st := s, pc := upd w.pc t .idle, log := w.log ++ [(t, .ret r)] }
  | .panic => { w with pc := upd w.pc t .idle, log := w.log ++ [(t, .ret .panicked)] }
  | .diverge => { w with pc := upd w.pc t (.loops ((w.pc t).holds E ++ ((w.pc t).wants E).toList)) }

/-- In a call, and not in an endless loop. -/
def Pc.active : Pc → Prop
  | .idle | .loops _ => False
  | _ => True

/-- A step of a thread that is in a call. -/
inductive Work (E : Env) : World → World → Prop where
  | mk (w t σ) : (w.pc t).active → w.Granted E t → Work E w (w.after E t ((w.pc t).exec E σ w.st))

/-- A step of a thread, or a new call. -/
inductive Step (E : Env) : World → World → Prop where
  | work {w w'} : Work E w w' → Step E w w'
  | call (w t k) : w.pc t = .idle →
      Step E w { w with pc := upd w.pc t (Call.start k), log := w.log ++ [(t, .call k)] }

/-- Any number of steps. -/
inductive Steps (E : Env) : World → World → Prop where
  | refl (w) : Steps E w w
  | tail {w w' w''} : Steps E w w' → Step E w' w'' → Steps E w w''

/-- `inmemory_token_storage.rs` 318-331: an empty store that nobody has called yet. -/
def World.init : World := ⟨TokenStore.empty, fun _ => .idle, []⟩

/-- Reachable from a new store. -/
def Reachable (E : Env) (w : World) : Prop := Steps E World.init w

end LAM.TokConc
