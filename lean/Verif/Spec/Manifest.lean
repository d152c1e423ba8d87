import Verif.Model.Manifest
/-!
# The bytes of a snapshot manifest behind the bank, and what they declare
-/
namespace LAM.Spec
open Manifest

/-- The fields behind the bank that have to be there: the append vecs of each slot (id and length), the write version, the slot,
the hash, the snapshot hash and five numbers. -/
structure DbFields where
  storages : List (Nat × List (Nat × Nat))
  writeVersion : Nat
  slot : Nat
  hash : Bytes
  snapshotHash : Bytes
  stats : List Nat

/-- A number of 8 bytes, little-endian. -/
def num (n : Nat) : Bytes := leBytes 8 n

/-- The append vecs of one slot. -/
def slotBytes (p : Nat × List (Nat × Nat)) : Bytes :=
  num p.1 ++ (num p.2.length ++ p.2.flatMap (fun e => num e.1 ++ num e.2))

/-- The bytes of the fields. -/
def DbFields.bytes (f : DbFields) : Bytes :=
  num f.storages.length ++ (f.storages.flatMap slotBytes ++ (num f.writeVersion ++ (num f.slot ++ (f.hash ++ (f.snapshotHash ++
    f.stats.flatMap num)))))

/-- Numbers and lengths below 2^64, hashes of 32 bytes. -/
structure DbFields.Fits (f : DbFields) : Prop where
  slots : f.storages.length < 2 ^ 64
  storages : ∀ p ∈ f.storages, p.1 < 2 ^ 64 ∧ p.2.length < 2 ^ 64 ∧ ∀ e ∈ p.2, e.1 < 2 ^ 64 ∧ e.2 < 2 ^ 64
  writeVersion : f.writeVersion < 2 ^ 64
  slot : f.slot < 2 ^ 64
  hash : f.hash.length = 32
  snapshotHash : f.snapshotHash.length = 32
  stats : f.stats.length = 5 ∧ ∀ n ∈ f.stats, n < 2 ^ 64

/-- `m` has for every slot the append vecs that are listed last for it, and none if there are none listed. -/
def TableOf (storages : List (Nat × List (Nat × Nat))) (m : Sim.Manifest) : Prop :=
  ∀ slot, (∃ pre post, storages = pre ++ (slot, m slot) :: post ∧ ∀ p ∈ post, p.1 ≠ slot) ∨
    (m slot = [] ∧ ∀ p ∈ storages, p.1 ≠ slot)

/-- Reading the bank from `content` succeeds and leaves `rest`. -/
def BankRead (bank : Read Unit) (content rest : Bytes) : Prop :=
  deserializeFrom bank content = (.ok (), rest)

/-- Reading moves forward. -/
def Forward (bank : Read Unit) : Prop := ∀ content rest, BankRead bank content rest → rest <:+ content

end LAM.Spec
