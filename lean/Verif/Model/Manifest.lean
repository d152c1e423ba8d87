import Verif.Basic.Bytes
import Verif.Model.Simulator
/-!
# Reading the manifest of a Solana snapshot (`simulate_from_snapshot/src/snapshot_utils/solana.rs`)

`bincode = "=1.3.3"` (external) reading from a stream, with the options of `deserialize_from`: fixed-size little-endian integers,
`u64` lengths, a limit on the number of bytes read, bytes after the value left unread.  `usize` has 8 bytes.  A read that
finds too few bytes uses up what is there.  The fields of the bank are types of Solana and never used: how they are read is
a parameter.
-/
namespace LAM.Manifest
open LAM

/-- The stream and what is left of the limit. -/
structure Reader where
  bytes : Bytes
  left : Nat
deriving DecidableEq, Repr

/-- `bincode::ErrorKind` (external): the stream ends, the limit is reached, or another error. -/
inductive ReadError where
  | eof
  | limit
  | other
deriving DecidableEq, Repr

/-- `Deserialize::deserialize` on a `bincode` deserializer that reads from a stream; the stream also moves on if there is an error. -/
def Read (α : Type) := Reader → Except ReadError α × Reader

instance : Monad Read where
  pure a := fun r => (.ok a, r)
  bind m f := fun r =>
    match m r with
    | (.ok a, r) => f a r
    | (.error e, r) => (.error e, r)

/-- `k` bytes: the limit first (`SizeLimit::add`), then `read_exact`. -/
def bytes (k : Nat) : Read Bytes := fun r =>
  if r.left < k then (.error .limit, r)
  else if r.bytes.length < k then (.error .eof, ⟨[], r.left - k⟩)
  else (.ok (r.bytes.take k), ⟨r.bytes.drop k, r.left - k⟩)

/-- `u64` and `usize`. -/
def u64 : Read Nat := do return leNat (← bytes 8)

/-- `n` values one after the other. -/
def times {α : Type} (d : Read α) : Nat → Read (List α)
  | 0 => pure []
  | n + 1 => do
    let a ← d
    let l ← times d n
    return a :: l

/-- A `Vec`, or the pairs of a `HashMap`: the length as `u64`, then the elements. -/
def vec {α : Type} (d : Read α) : Read (List α) := do times d (← u64)

/-- Two values. -/
def pair {α β : Type} (d : Read α) (e : Read β) : Read (α × β) := do
  let a ← d
  let b ← e
  return (a, b)

/-- `solana_sdk::hash::Hash` (external): an array of 32 bytes, read one by one. -/
def hash : Read Bytes := do return (← times (bytes 1) 32).flatten

/-- `solana_sdk::deserialize_utils::default_on_eof` (external) for a `Vec`. -/
def defaultOnEof {α : Type} (d : Read (List α)) : Read (List α) := fun r =>
  match d r with
  | (.error .eof, r) => (.ok [], r)
  | x => x

/-- `solana.rs` 100-105; `BankHashStats` (external) has five `u64`. -/
def bankHashInfo : Read (Bytes × Bytes × List Nat) := pair hash (pair hash (times u64 5))

/-- `solana.rs` 123-127. -/
def storageEntry : Read (Nat × Nat) := pair u64 u64

/-- `solana.rs` 107-119.  The other fields are not used: only the first one is given back. -/
def accountsDbFields : Read (List (Nat × List (Nat × Nat))) := do
  let storages ← vec (pair u64 (vec storageEntry))
  let _ ← u64
  let _ ← u64
  let _ ← bankHashInfo
  let _ ← defaultOnEof (vec u64)
  let _ ← defaultOnEof (vec (pair u64 hash))
  return storages

/-- `solana.rs` 41. -/
def maxStreamSize : Nat := 32 * 1024 * 1024 * 1024

/-- `solana.rs` 43-53: the value and what is left of the stream. -/
def deserializeFrom {α : Type} (d : Read α) (bs : Bytes) : Except ReadError α × Bytes :=
  let (a, r) := d ⟨bs, maxStreamSize⟩
  (a, r.bytes)

/-- A `HashMap` from its pairs: a later pair replaces an earlier one (std, external). -/
def toMap (pairs : List (Nat × List (Nat × Nat))) : Sim.Manifest := fun slot =>
  ((pairs.reverse.find? (fun p => p.1 = slot)).map (·.2)).getD []

/-- `archived.rs` 70-75 and `unpacked.rs` 62-67: the bank and then the other fields from the same stream. -/
def readManifest (bank : Read Unit) (content : Bytes) : Option Sim.Manifest :=
  match deserializeFrom bank content with
  | (.error _, _) => none
  | (.ok _, rest) =>
    match deserializeFrom accountsDbFields rest with
    | (.error _, _) => none
    | (.ok pairs, _) => some (toMap pairs)

end LAM.Manifest
