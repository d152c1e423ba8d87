import Verif.Model.TokenUtils
/-!
# The token account storage (`token_account_storage/src/inmemory_token_account_storage.rs`)

Each method is one atomic step.  The `println!` is left out; for the gauges see `Model/Gauges`.
-/
namespace LAM.Token

/-- `PartialPubkey<4>` (`common/src/pubkey_container_utils.rs` 4-16): the first four bytes. -/
def prefix4 (pk : Pubkey) : Bytes := pk.bytes.take 4

/-- `inmemory_token_account_storage.rs` 30-35. -/
structure TokenStorage where
  buckets : AMap Bytes (List Nat)
  accounts : List Bytes
deriving DecidableEq, Repr

/-- `Default` (line 30). -/
def TokenStorage.empty : TokenStorage := ⟨[], []⟩

/-- The loops of `inmemory_token_account_storage.rs` 45-51, 69-76, 116-122: the first index whose binary has the pubkey. -/
def firstMatch (accounts : List Bytes) (pk : Pubkey) : List Nat → Run (Option Nat)
  | [] => .ok none
  | i :: is => do
    let binary ← Run.unwrap accounts[i]?
    let k ← getPubkeyFromBinary binary
    if k = pk then return some i else firstMatch accounts pk is

namespace TokenStorage

/-- `inmemory_token_account_storage.rs` 38-58: a bucket with one index is not checked. -/
def contains (s : TokenStorage) (pk : Pubkey) : Run (Option Nat) :=
  match s.buckets.find (prefix4 pk) with
  | some is =>
    if is.length > 1 then firstMatch s.accounts pk is
    else do return some (← Run.unwrap is.head?)
  | none => .ok none

/-- `inmemory_token_account_storage.rs` 60-96; `len() as u32` wraps. -/
def save (s : TokenStorage) (t : TokenAccount) : Run ((Nat × Bool) × TokenStorage) :=
  match s.buckets.find (prefix4 t.pubkey) with
  | some is => do
    match ← firstMatch s.accounts t.pubkey is with
    | some i => return ((i, false), { s with accounts := s.accounts.set i t.toBytes })
    | none =>
      let i := wrap32 s.accounts.length
      return ((i, true), ⟨s.buckets.insert (prefix4 t.pubkey) (is ++ [i]), s.accounts ++ [t.toBytes]⟩)
  | none =>
    let i := wrap32 s.accounts.length
    .ok ((i, true), ⟨s.buckets.insert (prefix4 t.pubkey) [i], s.accounts ++ [t.toBytes]⟩)

/-- `inmemory_token_account_storage.rs` 98-109: the indexes in the iteration order of the hash set. -/
def getByIndex (s : TokenStorage) (indexes : List Nat) : Run (List TokenAccount) :=
  mapRun TokenAccount.fromBytes (indexes.filterMap (fun i => s.accounts[i]?))

/-- `inmemory_token_account_storage.rs` 111-127. -/
def getByPubkey (s : TokenStorage) (pk : Pubkey) : Run (Option TokenAccount) :=
  match s.buckets.find (prefix4 pk) with
  | some is => do
    match ← firstMatch s.accounts pk is with
    | some i => do return some (← TokenAccount.fromBytes (← Run.unwrap s.accounts[i]?))
    | none => return none
  | none => .ok none

/-- `inmemory_token_account_storage.rs` 133-146. -/
def tombstone : TokenAccount where
  program := .tokenProgram
  isDeleted := true
  pubkey := Pubkey.default
  owner := Pubkey.default
  mint := 0
  amount := 0
  state := .uninitialized
  delegate := none
  isNative := none
  closeAuthority := none
  additionalData := none

/-- `inmemory_token_account_storage.rs` 129-156: the whole bucket is removed. -/
def delete (s : TokenStorage) (pk : Pubkey) : Run TokenStorage :=
  match s.buckets.find (prefix4 pk) with
  | some is => do
    match ← firstMatch s.accounts pk is with
    | some i => return ⟨s.buckets.erase (prefix4 pk), s.accounts.set i tombstone.toBytes⟩
    | none => return { s with buckets := s.buckets.erase (prefix4 pk) }
  | none => .ok s

/-- `Program` as a bit (`inmemory_token_account_storage.rs` 159-162). -/
def programBit : Program → UInt8
  | .tokenProgram => 0
  | .token2022Program => 0x1

/-- The filter of `inmemory_token_account_storage.rs` 166: an empty or too short binary panics. -/
def wanted (program : Program) (b : Bytes) : Run Bool := do
  let first ← Run.unwrap b[0]?
  if first &&& 0x3 = programBit program then
    let second ← Run.unwrap b[1]?
    return second = 0
  else return false

/-- `iter().filter(f)`. -/
def filterRun (f : α → Run Bool) : List α → Run (List α)
  | [] => .ok []
  | x :: xs => do
    let b ← f x
    let ys ← filterRun f xs
    return if b then x :: ys else ys

/-- `inmemory_token_account_storage.rs` 158-169. -/
def createSnapshot (s : TokenStorage) (program : Program) : Run (List Bytes) :=
  filterRun (wanted program) s.accounts

/-- Calls that change the storage. -/
inductive TokOp where
  | save (t : TokenAccount)
  | delete (pk : Pubkey)
deriving DecidableEq

/-- One call. -/
def step (s : TokenStorage) : TokOp → Run TokenStorage
  | .save t => do return (← s.save t).2
  | .delete pk => s.delete pk

/-- Calls from the empty storage, oldest first. -/
def run : List TokOp → TokenStorage → Run TokenStorage
  | [], s => .ok s
  | o :: os, s => do run os (← s.step o)

end TokenStorage
end LAM.Token
