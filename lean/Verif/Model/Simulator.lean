import Verif.Model.AppendVec
import Verif.Model.TokenStore
/-!
# Loading a Solana snapshot and following a validator (`simulate_from_snapshot/src/main.rs`,
`snapshot_utils/archived.rs`, `snapshot_utils/unpacked.rs`)

The archive after zstd and tar (external crates) is a list of entries.  The snapshot manifest is read by `bincode` from types
of Solana (`solana.rs`): a parameter gives what the two calls of `deserialize_from` make of the content.  Memory mapping
errors, progress tracking and logs are left out.
-/
namespace LAM.Sim
open LAM AppendVec Token

/-- `std::path::Component` (std, external): a normal name (UTF-8 or not), or the root, `.` or `..`. -/
inductive Component where
  | normal (name : List Char)
  | raw (name : Bytes)
  | special
deriving DecidableEq, Repr

/-- `std::path::Path` by its components. -/
abbrev Path := List Component

/-- `Path::file_name` (std, external) followed by `OsStr::to_str`. -/
def fileName (p : Path) : Option (List Char) :=
  match p.getLast? with
  | some (.normal s) => some s
  | _ => none

/-- What the iterator over the archive gives (`tar`, external): an error, an entry whose path cannot be read, or an entry with
its path and content (`none` if reading fails). -/
inductive Item where
  | broken
  | badPath
  | entry (path : Path) (content : Option Bytes)
deriving DecidableEq, Repr

/-- `mod.rs` 22-35 (without what is only used for progress tracking). -/
inductive SnapshotError where
  | io
  | bincode
  | noStatusCache
  | noSnapshotManifest
  | unexpectedAppendVec
deriving DecidableEq, Repr

/-- The first field of `AccountsDbFields` (`solana.rs` 106-127): ids and lengths by slot, none for a slot that is missing. -/
abbrev Manifest := Nat → List (Nat × Nat)

/-- `archived.rs` 138-160. -/
def isManifestFile : Path → Bool
  | [.normal dir, .normal a, c] => dir = "snapshots".toList && (parseU64 a).isSome && c = .normal a
  | _ => false

/-- `archived.rs` 162-172. -/
def isAppendVecFile : Path → Bool
  | [.normal dir, .normal name] => dir = "accounts".toList && (parseName name).isSome
  | _ => false

/-- `archived.rs` 41-93: the manifest and the entries behind it. -/
def fromReader (decode : Bytes → Option Manifest) : List Item → Except SnapshotError (Manifest × List Item)
  | [] => .error .noSnapshotManifest
  | .broken :: _ => .error .io
  | .badPath :: _ => .error .io
  | .entry path content :: rest =>
    if isManifestFile path then
      match content.bind decode with
      | some m => .ok (m, rest)
      | none => .error .bincode
    else if isAppendVecFile path then .error .unexpectedAppendVec
    else fromReader decode rest

/-- The lookup of `archived.rs` 120-130 and `unpacked.rs` 107-117. -/
def knownLen (m : Manifest) (slot id : Nat) : Option Nat := ((m slot).find? (fun e => e.1 = id)).map (·.2)

/-- `archived.rs` 114-136. -/
def processEntry (m : Manifest) (content : Option Bytes) (slot id : Nat) : Except SnapshotError AppendVec :=
  match knownLen m slot id with
  | none => .error .unexpectedAppendVec
  | some len =>
    match content with
    | none => .error .io
    | some b => .ok (newFromReader b len slot)

/-- `archived.rs` 95-112. -/
def archiveIter (m : Manifest) (items : List Item) : List (Except SnapshotError AppendVec) :=
  items.filterMap fun
    | .broken => some (.error .io)
    | .badPath => some (.error .io)
    | .entry path content => ((fileName path).bind parseName).map (fun n => processEntry m content n.1 n.2)

/-- `main.rs` 141-154: the account given to the store. -/
def snapshotAccount (a : StoredAccount) : AccountData := ⟨a.info.pubkey, a.toAccount, 0, 0⟩

/-- The inner loop of `main.rs` 135-155 (`access` finds the account again). -/
def loadAccounts (X : Codecs) : List StoredAccount → TokenStore → Run TokenStore
  | [], s => .ok s
  | a :: l, s =>
    if a.account.owner ≠ Spl.tokenId then loadAccounts X l s
    else do loadAccounts X l (← s.initAccount X (snapshotAccount a))

/-- The loop of `main.rs` 132-156; an error panics (`unwrap`).  No append vec has more than `currentLen / 136` accounts. -/
def loadVecs (X : Codecs) : List (Except SnapshotError AppendVec) → TokenStore → Run TokenStore
  | [], s => .ok s
  | .error _ :: _, _ => .panic
  | .ok v :: l, s => do
    let accounts ← iterate v (v.currentLen / 136 + 1) 0
    loadVecs X l (← loadAccounts X accounts s)

/-- `main.rs` 128-156. -/
def loadArchive (X : Codecs) (decode : Bytes → Option Manifest) (items : List Item) (s : TokenStore) : Run TokenStore :=
  match fromReader decode items with
  | .error _ => .panic
  | .ok (m, rest) => loadVecs X (archiveIter m rest) s

/-! ## Unpacked snapshots -/

/-- `unpacked.rs` 32-84: whether the status cache is a file, the directory `snapshots` in the order it is listed (`none` if it
cannot be read; a name that is not UTF-8 does not parse), and the content of `snapshots/NAME/NAME`. -/
def openUnpacked (decode : Bytes → Option Manifest) (statusCache : Bool)
    (snapshots : Option (List (Option (List Char) × Option Bytes))) : Except SnapshotError Manifest :=
  if !statusCache then .error .noStatusCache
  else
    match snapshots with
    | none => .error .io
    | some files =>
      match files.find? (fun f => (f.1.bind parseU64).isSome) with
      | none => .error .noSnapshotManifest
      | some (_, none) => .error .io
      | some (_, some b) =>
        match decode b with
        | none => .error .bincode
        | some m => .ok m

/-- `unpacked.rs` 106-124; the content is `none` if the file cannot be opened. -/
def openAppendVec (m : Manifest) (slot id : Nat) (content : Option Bytes) : Except SnapshotError AppendVec :=
  match knownLen m slot id with
  | none => .error .unexpectedAppendVec
  | some len =>
    match content.bind (fun b => newFromFile b len slot) with
    | none => .error .io
    | some v => .ok v

/-- `unpacked.rs` 92-104: the directory `accounts` in the order it is listed, `none` if it cannot be read; a name that is not
UTF-8 is `none`. -/
def iterStreams (m : Manifest) (dir : Option (List (Option (List Char) × Option Bytes))) :
    Except SnapshotError (List (Except SnapshotError AppendVec)) :=
  match dir with
  | none => .error .io
  | some files => .ok (files.filterMap fun (name, content) =>
      (name.bind parseName).map (fun n => openAppendVec m n.1 n.2 content))

/-- `Itertools::flatten_ok` (external): errors are passed on, the values in `Ok` are flattened. -/
def flattenOk {α β : Type} (parts : α → List β) : List (Except SnapshotError α) → List (Except SnapshotError β)
  | [] => []
  | .error e :: l => .error e :: flattenOk parts l
  | .ok a :: l => (parts a).map .ok ++ flattenOk parts l

/-- `Result` as an iterator (core, external): nothing for an error. -/
def resultIter : Except SnapshotError AppendVec → List AppendVec
  | .ok v => [v]
  | .error _ => []

/-- `unpacked.rs` 86-90. -/
def unpackedIter (m : Manifest) (dir : Option (List (Option (List Char) × Option Bytes))) : List (Except SnapshotError AppendVec) :=
  flattenOk resultIter (flattenOk id [iterStreams m dir])

/-! ## The stream of a validator -/

/-- `quic_geyser_common::compression::CompressionType` (external). -/
inductive CompressionType where
  | none
  | lz4Fast (level : Int)
  | lz4 (level : Int)
deriving DecidableEq, Repr

/-- `quic_geyser_common::message::Message` (external), as far as it is used. -/
inductive Message where
  | account (pubkey : Pubkey) (lamports : Nat) (data : Bytes) (compression : CompressionType) (owner : Pubkey)
      (executable : Bool) (rentEpoch slot writeVersion : Nat)
  | slot (slot parent : Nat) (commitment : CommitmentLevel)
  | other
deriving DecidableEq, Repr

/-- `main.rs` 63-73. -/
def CompressionType.method : CompressionType → CompressionMethod
  | .none => .none
  | .lz4Fast v => .lz4 v
  | .lz4 v => .lz4 v

/-- `main.rs` 61-114: the call made for a message, if any. -/
def messageCall (X : Codecs) (σ : Orders) : Message → Run (Option TokenStore.TOp)
  | .account pubkey lamports data compression owner executable rentEpoch slot writeVersion => do
    let d ← Data.new X data compression.method
    return some (.update ⟨pubkey, ⟨lamports, d, owner, executable, rentEpoch⟩, slot, writeVersion⟩ .processed)
  | .slot slot parent level =>
    if level = .confirmed then .ok (some (.slot σ ⟨slot, parent, 0⟩ .confirmed))
    else if level = .finalized then .ok (some (.slot σ ⟨slot, parent, 0⟩ .finalized))
    else .ok none
  | .other => .ok none

/-- The loop of `main.rs` 60-115; `σ` gives the iteration orders at each message. -/
def follow (X : Codecs) (σ : Nat → Orders) : List Message → Nat → TokenStore → Run TokenStore
  | [], _, s => .ok s
  | m :: ms, n, s => do
    match ← messageCall X (σ n) m with
    | none => follow X σ ms (n + 1) s
    | some o => do follow X σ ms (n + 1) (← s.step X o)

/-! ## Parallel iteration (`snapshot_utils/parallel.rs`) -/

/-- `JoinSet::join_next` (tokio, external): one of the tasks ends, given by `pick`. -/
def takeAt {α : Type} (l : List α) (pick : Nat) : Option (α × List α) :=
  match l[pick % l.length]? with
  | none => none
  | some a => some (a, l.eraseIdx (pick % l.length))

/-- What a task returns (`parallel.rs` 28-31): `on` is `on_append_vec` with the state of the consumer.  A consumer that panics
is left out. -/
def parTask {V C E : Type} (on : C → V → Except E C) (c : C) : Except E V → Except E C
  | .error e => .error e
  | .ok v => on c v

/-- `parallel.rs` 33-35; the consumers are given on. -/
def parDrain {C E : Type} (pick : Nat → Nat) : Nat → List (Except E C) → Except E (List C)
  | _, [] => .ok []
  | n, t :: ts =>
    match (t :: ts)[pick n % (ts.length + 1)]? with
    | none => .ok []
    | some (.error e) => .error e
    | some (.ok c) =>
      match parDrain pick (n + 1) ((t :: ts).eraseIdx (pick n % (ts.length + 1))) with
      | .error e => .error e
      | .ok cs => .ok (c :: cs)
termination_by _ ts => ts.length
decreasing_by
  have := Nat.mod_lt (pick n) (Nat.succ_pos ts.length)
  simp only [List.length_eraseIdx, List.length_cons]
  split <;> omega

/-- `parallel.rs` 11-38: the outcome of a task is computed when it is spawned, `pick` says which task ends next.  An early error
aborts the other tasks.  The consumers at the end are given on. -/
def parIter {V C E : Type} (new : C) (on : C → V → Except E C) (threads : Nat) (pick : Nat → Nat) :
    List (Except E V) → Nat → List (Except E C) → Run (Except E (List C))
  | [], n, tasks => .ok (parDrain pick n tasks)
  | v :: vs, n, tasks =>
    if tasks.length ≥ threads then
      match takeAt tasks (pick n) with
      | none => .panic
      | some (.error e, _) => .ok (.error e)
      | some (.ok c, rest) => parIter new on threads pick vs (n + 1) (rest ++ [parTask on c v])
    else parIter new on threads pick vs n (tasks ++ [parTask on new v])

end LAM.Sim
