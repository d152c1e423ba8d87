import Verif.Model.Bincode
/-!
# Reading account files of Solana snapshots (`simulate_from_snapshot/src/snapshot_utils/append_vec.rs`, `mod.rs`)

`usize` has 64 bits.  A `repr(C)` struct is read from its bytes (little-endian): `StoredMeta` is write version, data length
and public key (48 bytes), `AccountMeta` is lamports, rent epoch, owner, executable and 7 unused bytes (56 bytes), `Hash` is
32 bytes (`solana_accounts_db`, external).  The raw executable byte is kept: a value other than 0 and 1 is undefined
behaviour in Rust.  Memory mapping errors are left out.
-/
namespace LAM.AppendVec
open LAM

/-- `append_vec.rs` 69-81. -/
structure AppendVec where
  map : Bytes
  currentLen : Nat
  fileSize : Nat
  slot : Nat
deriving DecidableEq, Repr

/-- `MAXIMUM_APPEND_VEC_FILE_SIZE` (`solana_accounts_db`, external): 16 GiB. -/
def maxFileSize : Nat := 16 * 1024 * 1024 * 1024

/-- `append_vec.rs` 84-106: `true` is `Ok`. -/
def sanitize (currentLen fileSize : Nat) : Bool :=
  if fileSize = 0 then false
  else if fileSize > maxFileSize then false
  else if currentLen > fileSize then false
  else true

/-- `append_vec.rs` 126-156: `content` is the file; `none` is an error. -/
def newFromFile (content : Bytes) (currentLen slot : Nat) : Option AppendVec :=
  if sanitize currentLen content.length then some ⟨content, currentLen, content.length, slot⟩ else none

/-- `append_vec.rs` 158-171: a new map is zero, and at most `currentLen` bytes are copied into it. -/
def newFromReader (content : Bytes) (currentLen slot : Nat) : AppendVec :=
  ⟨content.take currentLen ++ List.replicate (currentLen - content.length) 0, currentLen, currentLen, slot⟩

/-- `u64_align!` (`solana_accounts_db`, external): `(addr + 7) & !7`; the addition is checked. -/
def align (addr : Nat) : Run Nat :=
  if addr + 7 < 2 ^ 64 then .ok ((addr + 7) / 8 * 8) else .panic

/-- `append_vec.rs` 173-191. -/
def getSlice (v : AppendVec) (offset size : Nat) : Run (Option (Bytes × Nat)) :=
  if offset + size ≥ 2 ^ 64 ∨ offset + size > v.currentLen then .ok none
  else do
    let data ← slice v.map offset (offset + size)
    let next ← align (offset + size)
    return some (data, next)

/-- `StoredMeta`. -/
structure StoredMeta where
  writeVersion : Nat
  dataLen : Nat
  pubkey : Pubkey
deriving DecidableEq, Repr

/-- `AccountMeta`. -/
structure AccountMeta where
  lamports : Nat
  rentEpoch : Nat
  owner : Pubkey
  executable : UInt8
deriving DecidableEq, Repr

/-- The 48 bytes of a `StoredMeta`. -/
def readStoredMeta (b : Bytes) : Option StoredMeta :=
  (decPair Bincode.decU64 (decPair Bincode.decU64 Bincode.decPubkey) b).map (fun r => ⟨r.1.1, r.1.2.1, r.1.2.2⟩)

/-- The 56 bytes of an `AccountMeta`. -/
def readAccountMeta (b : Bytes) : Option AccountMeta :=
  (decPair Bincode.decU64 (decPair Bincode.decU64 (decPair Bincode.decPubkey decByte)) b).map
    (fun r => ⟨r.1.1, r.1.2.1, r.1.2.2.1, r.1.2.2.2⟩)

/-- `append_vec.rs` 193-202: the struct at `offset`. -/
def getType (v : AppendVec) (size : Nat) (read : Bytes → Option α) (offset : Nat) : Run (Option (α × Nat)) := do
  match ← getSlice v offset size with
  | none => return none
  | some (data, next) => do return some (← Run.unwrap (read data), next)

/-- `append_vec.rs` 42-51; the three references by what they point to. -/
structure StoredAccount where
  info : StoredMeta
  account : AccountMeta
  data : Bytes
  offset : Nat
  storedSize : Nat
  hash : Bytes
deriving DecidableEq, Repr

/-- `append_vec.rs` 204-224. -/
def getAccount (v : AppendVec) (offset : Nat) : Run (Option (StoredAccount × Nat)) := do
  match ← getType v 48 readStoredMeta offset with
  | none => return none
  | some (info, next) =>
    match ← getType v 56 readAccountMeta next with
    | none => return none
    | some (account, next) =>
      match ← getType v 32 some next with
      | none => return none
      | some (hash, next) =>
        match ← getSlice v next info.dataLen with
        | none => return none
        | some (data, next) => return some (⟨info, account, data, offset, next - offset, hash⟩, next)

/-- `mod.rs` 56-67, with `access` (lines 79-81) on each handle; the first argument bounds the number of rounds, running out of
it is `diverge`. -/
def iterate (v : AppendVec) : Nat → Nat → Run (List StoredAccount)
  | 0, _ => .diverge
  | rounds + 1, offset => do
    match ← getAccount v offset with
    | none => return []
    | some (a, next) => do return a :: (← iterate v rounds next)

/-- The account given on (`append_vec.rs` 54-63). -/
def StoredAccount.toAccount (a : StoredAccount) : Account where
  lamports := a.account.lamports
  owner := a.account.owner
  executable := a.account.executable != 0
  rentEpoch := a.account.rentEpoch
  data := .uncompressed a.data

/-! ## File names -/

/-- The digits of `u64::from_str` (core, external), most significant first, with overflow checks. -/
def parseDigits : List Char → Nat → Option Nat
  | [], acc => some acc
  | c :: cs, acc =>
    if c.isDigit then
      let n := acc * 10 + (c.toNat - '0'.toNat)
      if acc * 10 < 2 ^ 64 ∧ n < 2 ^ 64 then parseDigits cs n else none
    else none

/-- `u64::from_str` (core, external): not empty, an optional `+`, digits. -/
def parseU64 : List Char → Option Nat
  | [] => none
  | ['+'] => none
  | '+' :: cs => parseDigits cs 0
  | cs => parseDigits cs 0

/-- `str::splitn(2, '.')` (core, external): the part before the first `.` and the part after it, if there is one. -/
def splitDot (s : List Char) : List Char × Option (List Char) :=
  match s.dropWhile (· ≠ '.') with
  | [] => (s, none)
  | _ :: rest => (s.takeWhile (· ≠ '.'), some rest)

/-- `mod.rs` 45-54; a name that is not UTF-8 is rejected before. -/
def parseName (name : List Char) : Option (Nat × Nat) :=
  let (a, b) := splitDot name
  match parseU64 a, parseU64 (b.getD []) with
  | some slot, some id => some (slot, id)
  | _, _ => none

end LAM.AppendVec
