import Verif.Model.AppendVec
import Verif.Spec.Spl
/-!
# The append-vec file layout, by byte offsets

An account starts at a multiple of 8: write version at 0, data length at 8, public key at 16, lamports at 48, rent epoch
at 56, owner at 64, executable at 96, (7 bytes of anything), hash at 104, data at 136.  Numbers are little-endian.  The next
account starts at the next multiple of 8.
-/
namespace LAM.Spec
open AppendVec (StoredAccount)

/-- Where the account at `off` with `n` bytes of data is followed by the next one. -/
def nextStart (off n : Nat) : Nat := (off + 136 + n + 7) / 8 * 8

/-- The bytes of `file` at `off` are those of `a`. -/
structure StoredAt (file : Bytes) (off : Nat) (a : StoredAccount) : Prop where
  writeVersion : leNat (field file off 8) = a.info.writeVersion
  dataLen : leNat (field file (off + 8) 8) = a.info.dataLen
  pubkey : field file (off + 16) 32 = a.info.pubkey.bytes
  lamports : leNat (field file (off + 48) 8) = a.account.lamports
  rentEpoch : leNat (field file (off + 56) 8) = a.account.rentEpoch
  owner : field file (off + 64) 32 = a.account.owner.bytes
  executable : field file (off + 96) 1 = [a.account.executable]
  hash : field file (off + 104) 32 = a.hash
  data : field file (off + 136) a.info.dataLen = a.data
  offset : a.offset = off

/-- What a validator writes about one account. -/
structure Written where
  writeVersion : Nat
  pubkey : Pubkey
  lamports : Nat
  rentEpoch : Nat
  owner : Pubkey
  executable : Bool
  hash : Bytes
  data : Bytes
deriving DecidableEq, Repr

/-- The numbers are `u64`s and the hash has 32 bytes. -/
structure Written.Fits (w : Written) : Prop where
  writeVersion : w.writeVersion < 2 ^ 64
  lamports : w.lamports < 2 ^ 64
  rentEpoch : w.rentEpoch < 2 ^ 64
  dataLen : w.data.length < 2 ^ 64
  hash : w.hash.length = 32

/-- `w` is written at `off`. -/
structure WrittenAt (file : Bytes) (off : Nat) (w : Written) : Prop where
  writeVersion : field file off 8 = leBytes 8 w.writeVersion
  dataLen : field file (off + 8) 8 = leBytes 8 w.data.length
  pubkey : field file (off + 16) 32 = w.pubkey.bytes
  lamports : field file (off + 48) 8 = leBytes 8 w.lamports
  rentEpoch : field file (off + 56) 8 = leBytes 8 w.rentEpoch
  owner : field file (off + 64) 32 = w.owner.bytes
  executable : field file (off + 96) 1 = [if w.executable then 1 else 0]
  hash : field file (off + 104) 32 = w.hash
  data : field file (off + 136) w.data.length = w.data

/-- The first `len` bytes of `file` hold the given accounts from `off` on and nothing else; the padding after the last one may
be missing. -/
def Layout (file : Bytes) (len : Nat) : Nat → List Written → Prop
  | off, [] => len ≤ off
  | off, w :: ws =>
    w.Fits ∧ WrittenAt file off w ∧ off + 136 + w.data.length ≤ len ∧ Layout file len (nextStart off w.data.length) ws

/-- A file as a validator writes it, with zeros as padding. -/
def fileOf : List Written → Bytes
  | [] => []
  | w :: ws =>
    leBytes 8 w.writeVersion ++ leBytes 8 w.data.length ++ w.pubkey.bytes ++
    leBytes 8 w.lamports ++ leBytes 8 w.rentEpoch ++ w.owner.bytes ++ [if w.executable then 1 else 0] ++ List.replicate 7 0 ++
    w.hash ++ w.data ++ List.replicate (nextStart 0 w.data.length - (136 + w.data.length)) 0 ++ fileOf ws

/-- An account that was read, as what was written; a flag byte other than 0 and 1 was not written. -/
def asWritten (a : StoredAccount) : Option Written :=
  if a.account.executable = 0 ∨ a.account.executable = 1 then
    some ⟨a.info.writeVersion, a.info.pubkey, a.account.lamports, a.account.rentEpoch, a.account.owner,
      a.account.executable == 1, a.hash, a.data⟩
  else none

/-! ## File names -/

/-- The number written by decimal digits, most significant first. -/
def decimal (cs : List Char) : Nat := cs.foldl (fun n c => 10 * n + (c.toNat - 48)) 0

/-- `cs` is a `u64` in decimal, with an optional plus sign and any number of leading zeros. -/
def IsU64 (cs : List Char) (n : Nat) : Prop :=
  ∃ ds : List Char, (cs = ds ∨ cs = '+' :: ds) ∧ ds ≠ [] ∧ (∀ c ∈ ds, '0' ≤ c ∧ c ≤ '9') ∧ decimal ds = n ∧ n < 2 ^ 64

end LAM.Spec
