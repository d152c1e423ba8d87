import Verif.Basic.Run
/-!
# Basic data types (`common/src/commitment.rs`, `account_data.rs`, `slot_info.rs`,
`account_store_interface.rs`)

Slots, lamports, write versions and rent epochs are `u64` in Rust; the stores only compare them, so
they are natural numbers here (ranges are added where bytes matter, see `Model/Bincode.lean`).
Byte strings and UTF-8 strings are `List UInt8`.
-/
namespace LAM

abbrev Bytes := List UInt8

/-- `solana_sdk::pubkey::Pubkey`: 32 bytes. -/
structure Pubkey where
  bytes : Bytes
  size : bytes.length = 32
deriving DecidableEq, Repr

/-- `Pubkey::default()`: all zero. -/
def Pubkey.default : Pubkey := ⟨List.replicate 32 0, by simp⟩

/-- A pubkey whose bytes are all `b` (used for concrete examples). -/
def Pubkey.fill (b : UInt8) : Pubkey := ⟨List.replicate 32 b, by simp⟩

/-- `common/src/commitment.rs` 6-12. -/
inductive Commitment where
  | processed
  | confirmed
  | finalized
deriving DecidableEq, Repr

/-- The discriminants of `common/src/commitment.rs` 6-12 (`repr(u8)`, derived `Ord`). -/
def Commitment.rank : Commitment → Nat
  | .processed => 0
  | .confirmed => 1
  | .finalized => 2

/-- Derived `Ord` of `common/src/commitment.rs` 6. -/
instance : LE Commitment := ⟨fun a b => a.rank ≤ b.rank⟩
instance : LT Commitment := ⟨fun a b => a.rank < b.rank⟩
instance (a b : Commitment) : Decidable (a ≤ b) := inferInstanceAs (Decidable (a.rank ≤ b.rank))
instance (a b : Commitment) : Decidable (a < b) := inferInstanceAs (Decidable (a.rank < b.rank))

/-- `solana_sdk::commitment_config::CommitmentLevel` (solana-sdk, external): the deprecated levels
`Max`, `Recent`, `Root`, `Single`, `SingleGossip` and the three current ones. -/
inductive CommitmentLevel where
  | max | recent | root | single | singleGossip | processed | confirmed | finalized
deriving DecidableEq, Repr

/-- `CommitmentConfig::is_finalized` of solana-sdk (external): `Finalized | Max | Root`. -/
def CommitmentLevel.isFinalized : CommitmentLevel → Bool
  | .finalized | .max | .root => true
  | _ => false

/-- `CommitmentConfig::is_confirmed` of solana-sdk (external):
`Confirmed | SingleGossip | Single`. -/
def CommitmentLevel.isConfirmed : CommitmentLevel → Bool
  | .confirmed | .singleGossip | .single => true
  | _ => false

/-- `common/src/commitment.rs` 14-24 (`From<CommitmentConfig>`). -/
def Commitment.ofConfig (v : CommitmentLevel) : Commitment :=
  if v.isFinalized then .finalized else if v.isConfirmed then .confirmed else .processed

/-- `common/src/commitment.rs` 26-34 (`Display`). -/
def Commitment.display : Commitment → String
  | .processed => "processed"
  | .confirmed => "confirmed"
  | .finalized => "finalized"

/-- External codecs used by `common`: `lz4::block`, `zstd::bulk`, `bs58`, `base64`.
`none` is the `Err` case. -/
structure Codecs where
  /-- `lz4::block::compress(data, Some(FAST(level)), true)`, `account_data.rs` 32-37 -/
  lz4c : Int → Bytes → Option Bytes
  /-- `lz4::block::decompress(binary, None)`, `account_data.rs` 67 -/
  lz4d : Bytes → Option Bytes
  /-- `zstd::bulk::compress(data, level)`, `account_data.rs` 42 -/
  zstdc : Int → Bytes → Option Bytes
  /-- `zstd::bulk::decompress(binary, capacity)`, `account_data.rs` 78 -/
  zstdd : Bytes → Nat → Option Bytes
  /-- `bs58::decode(s).into_vec()`, `account_filter.rs` 27 -/
  b58 : Bytes → Option Bytes
  /-- `base64 STANDARD.decode(s)`, `account_filter.rs` 30 -/
  b64 : Bytes → Option Bytes

/-- Laws assumed of the compression crates: decompressing what was compressed gives the input back
(zstd: only up to the capacity passed to the decompressor, beyond it fails). -/
structure Codecs.Lawful (X : Codecs) : Prop where
  lz4 : ∀ lvl d b, X.lz4c lvl d = some b → X.lz4d b = some d
  zstd : ∀ lvl d b cap, X.zstdc lvl d = some b →
    X.zstdd b cap = if d.length ≤ cap then some d else none

/-- `common/src/account_data.rs` 10: 64 MB. -/
def MAX_ACCOUNT_SIZE : Nat := 64 * 1024 * 1024

/-- `common/src/account_data.rs` 12-17. -/
inductive CompressionMethod where
  | none
  | lz4 (level : Int)
  | zstd (level : Int)
deriving DecidableEq, Repr

/-- `common/src/account_data.rs` 19-24. -/
inductive Data where
  | uncompressed (d : Bytes)
  | lz4 (binary : Bytes) (len : Nat)
  | zstd (binary : Bytes) (len : Nat)
deriving DecidableEq, Repr

/-- `common/src/account_data.rs` 27-46; a failing compressor panics (`unwrap`). -/
def Data.new (X : Codecs) (d : Bytes) : CompressionMethod → Run Data
  | .none => .ok (.uncompressed d)
  | .lz4 level => do let b ← Run.unwrap (X.lz4c level d); pure (.lz4 b d.length)
  | .zstd level => do let b ← Run.unwrap (X.zstdc level d); pure (.zstd b d.length)

/-- `common/src/account_data.rs` 48-54. -/
def Data.len : Data → Nat
  | .uncompressed d => d.length
  | .lz4 _ len => len
  | .zstd _ len => len

/-- `common/src/account_data.rs` 56-62. -/
def Data.isEmpty : Data → Bool
  | .uncompressed d => d.isEmpty
  | .lz4 _ len => len == 0
  | .zstd _ len => len == 0

/-- `common/src/account_data.rs` 64-80; undecodable data panics. -/
def Data.data (X : Codecs) : Data → Run Bytes
  | .uncompressed d => .ok d
  | .lz4 b _ => Run.unwrap (X.lz4d b)
  | .zstd b _ => Run.unwrap (X.zstdd b MAX_ACCOUNT_SIZE)

/-- `common/src/account_data.rs` 83-95. -/
structure Account where
  lamports : Nat
  data : Data
  owner : Pubkey
  executable : Bool
  rentEpoch : Nat
deriving DecidableEq, Repr

/-- `solana_sdk::account::Account` (external). -/
structure SolanaAccount where
  lamports : Nat
  data : Bytes
  owner : Pubkey
  executable : Bool
  rentEpoch : Nat
deriving DecidableEq, Repr

/-- `common/src/account_data.rs` 98-109. -/
def Account.fromSolana (X : Codecs) (a : SolanaAccount) (m : CompressionMethod) : Run Account := do
  let d ← Data.new X a.data m
  pure { lamports := a.lamports, data := d, owner := a.owner,
         executable := a.executable, rentEpoch := a.rentEpoch }

/-- `common/src/account_data.rs` 111-119. -/
def Account.toSolana (X : Codecs) (a : Account) : Run SolanaAccount := do
  let d ← a.data.data X
  pure { lamports := a.lamports, data := d, owner := a.owner,
         executable := a.executable, rentEpoch := a.rentEpoch }

/-- `common/src/account_data.rs` 122-128 (the `Arc` is only sharing). -/
structure AccountData where
  pubkey : Pubkey
  account : Account
  slot : Nat
  wv : Nat
deriving DecidableEq, Repr

/-- `common/src/account_data.rs` 143-149 (`PartialEq`; the write version is not compared). -/
def AccountData.eq (a b : AccountData) : Bool :=
  a.pubkey == b.pubkey && a.account == b.account && a.slot == b.slot

/-- `common/src/slot_info.rs` 3-8. -/
structure SlotInfo where
  slot : Nat
  parent : Nat
  root : Nat
deriving DecidableEq, Repr

/-- `common/src/account_store_interface.rs` 7-20 (`AccountLoadingError`). -/
inductive LoadError where
  | accountNotFound
  | configDoesNotContainRequiredFilters
  | operationTimeOut
  | errorCreatingSnapshot
  | errorSubscribingAccount
  | tokenAccountsSizeNotFound
  | tokenAccountsCannotUseThisFilter
  | wrongIndex
  | shouldContainAnAccountFilter
  | deserializationIssues
  | compressionIssues
deriving DecidableEq, Repr

end LAM
