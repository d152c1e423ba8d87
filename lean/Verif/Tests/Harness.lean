import Verif.Basic.Toy
import Verif.Model.Bincode
import Verif.Model.TokenStore
import Mathlib.Data.List.Dedup
/-!
# Running the unit tests of the code against the model

A test is a list of steps; a step changes the state under test or compares an answer with the one the
authors expect.  The tests themselves are in the other files of this directory, which are generated from
the Rust text by `tools/gen_tests.py`.  They check the transcription on the authors' own samples; the
properties are proved elsewhere.
-/
namespace LAM.Tests

variable {σ : Type}

/-- One statement of a test: the state afterwards, and whether an assertion held. -/
abbrev Step (σ : Type) := σ → Run (σ × Bool)

/-- The number of the first step that panics or whose assertion fails. -/
def failsFrom (s : σ) (n : Nat) : List (Step σ) → Option Nat
  | [] => none
  | f :: fs => match f s with
    | .ok (s, true) => failsFrom s (n + 1) fs
    | _ => some n

/-- A state under test as `default()` makes it. -/
class Fresh (σ : Type) where
  fresh : σ

/-- Run a test from a fresh state. -/
def failsAt [Fresh σ] (l : List (Step σ)) : Option Nat := failsFrom Fresh.fresh 0 l

/-- A statement that changes the state. -/
def act (f : σ → Run σ) : Step σ := fun s => do return (← f s, true)

/-- An assertion. -/
def ask (f : σ → Run Bool) : Step σ := fun s => do return (s, ← f s)

/-- `==` on two options of accounts (`AccountData` compares without the write version). -/
def sameOpt : Option AccountData → Option AccountData → Bool
  | none, none => true
  | some a, some b => a.eq b
  | _, _ => false

/-- `==` on two lists of accounts. -/
def sameList : List AccountData → List AccountData → Bool
  | [], [] => true
  | a :: l, b :: m => a.eq b && sameList l m
  | _, _ => false

/-- The keys handed out by `Pubkey::new_unique()`. -/
def K (n : Nat) : Pubkey := Pubkey.fill (UInt8.ofNat n)

/-- `n` bytes, different for each `k`; all below 97, so that the toy text codecs can carry them. -/
def bytes (k n : Nat) : Bytes := (List.range n).map fun i => UInt8.ofNat ((7 * i + 13 * k) % 97)

/-- `&d[a..b]`. -/
def cut (d : Bytes) (a b : Nat) : Bytes := (d.drop a).take (b - a)

/-- Text that `Toy.codecs.b58` decodes to the given bytes. -/
def text58 (d : Bytes) : Bytes := d.map (· + 49)

/-- Text that `Toy.codecs.b64` decodes to the given bytes. -/
def text64 (d : Bytes) : Bytes := d.map (· + 65)

/-- `new_slot_info` of the store tests. -/
def slotInfo (n : Nat) : SlotInfo := ⟨n, n - 1, 0⟩

/-- `create_random_account_with_data`; a codec failure is not possible with the toy codecs. -/
def rndData (k slot : Nat) (pk program : Pubkey) (d : Bytes) (m : CompressionMethod) : AccountData :=
  { pubkey := pk, slot := slot, wv := 0,
    account := match Account.fromSolana Toy.codecs ⟨1000 + k, d, program, false, 0⟩ m with
      | .ok a => a
      | _ => ⟨0, .uncompressed [], program, false, 0⟩ }

/-- `create_random_account` and `create_random_account_with_write_version`. -/
def rnd (k slot : Nat) (pk program : Pubkey) (wv : Nat) : AccountData :=
  { rndData k slot pk program (bytes k 5) .none with wv := wv }

/-! ## Per-account states -/
namespace Cell

instance : Fresh ByCommitment := ⟨⟨[], none, none⟩⟩

/-- `create_account_data` of `account_data_by_commitment.rs` 296-309. -/
def fixed (pk owner : Pubkey) (slot wv : Nat) : AccountData :=
  ⟨pk, ⟨100, .uncompressed (List.replicate 32 0), owner, false, 0⟩, slot, wv⟩

def start (a : AccountData) : Step ByCommitment := act fun _ => .ok (.initialized a)
def update (a : AccountData) (c : Commitment) : Step ByCommitment := act fun e => .ok (e.update a c).1
def erase : Step ByCommitment := act fun e => .ok e.delete
def getIs (c : Commitment) (x : Option AccountData) : Step ByCommitment := ask fun e => .ok (sameOpt (e.get c) x)
def readIs (c : Commitment) (x : Option AccountData) : Step ByCommitment :=
  ask fun e => .ok (sameOpt (if c = .finalized then e.finalized else e.confirmed) x)
def filteredIs (c : Commitment) (fs : List AccountFilterType) (x : Option AccountData) : Step ByCommitment :=
  ask fun e => do return sameOpt (← e.getFiltered Toy.codecs c fs) x
def promoteIs (slot : Nat) (c : Commitment) (x : Option (AccountData × Option AccountData)) : Step ByCommitment :=
  fun e =>
    let r := e.promote slot c
    .ok (r.1, match r.2, x with
      | none, none => true
      | some (a, p), some (b, q) => a.eq b && sameOpt p q
      | _, _ => false)

end Cell

/-! ## Filter stores -/
namespace Simple

instance : Fresh SimpleFilterStore := ⟨.empty⟩

def add (fs : List AccountFilter) : Step SimpleFilterStore := act fun s => s.addFilters Toy.codecs fs
def contains (f : AccountFilter) (want : Bool) : Step SimpleFilterStore := ask fun s => .ok (s.containsFilter f == want)

end Simple

namespace Excl

instance : Fresh ExceptFilterStore := ⟨⟨.empty⟩⟩

def add (fs : List AccountFilter) : Step ExceptFilterStore := act fun s => s.addFilters Toy.codecs fs
def contains (f : AccountFilter) (want : Bool) : Step ExceptFilterStore := ask fun s => .ok (s.containsFilter f == want)
def satisfies (a : AccountData) (want : Bool) : Step ExceptFilterStore :=
  ask fun s => do return (← s.satisfies Toy.codecs a) == want

end Excl

/-! ## The account store -/
namespace Accounts

/-- The account store under test with its filter store. -/
structure Both where
  filters : Filters
  store : Store

instance : Fresh Both := ⟨⟨⟨fun _ => false, fun _ => false⟩, .empty⟩⟩

abbrev Script := List (Step Both)

/-- A `SimpleFilterStore` as the store sees it; a panic of the filter store would show as `false`. -/
def seen (F : SimpleFilterStore) : Filters where
  satisfies a := F.satisfies Toy.codecs a = .ok true
  contains f := F.containsFilter f

/-- `InmemoryAccountStore::new(new_filter_store(filters))` followed by the test. -/
def script (fs : List AccountFilter) (l : List (Step Both)) : Script :=
  (act fun b => do return { b with filters := seen (← SimpleFilterStore.empty.addFilters Toy.codecs fs) }) :: l

def init (a : AccountData) : Step Both := act fun b => do return { b with store := ← b.store.initializeOrUpdate b.filters a }
def update (a : AccountData) (c : Commitment) : Step Both :=
  act fun b => do return { b with store := (← b.store.updateAccount b.filters a c).1 }
def slotIf (p : List AccountData → Bool) (info : SlotInfo) (c : Commitment) : Step Both := fun b => do
  let (s, l) ← b.store.processSlotData b.filters Store.Order.asIs info c
  return ({ b with store := s }, p l)
def slot (info : SlotInfo) (c : Commitment) : Step Both := slotIf (fun _ => true) info c
def slotIs (info : SlotInfo) (c : Commitment) (x : List AccountData) : Step Both := slotIf (sameList · x) info c
def getIs (pk : Pubkey) (c : Commitment) (x : Option AccountData) : Step Both :=
  ask fun b => do return sameOpt (← b.store.getAccount pk c) x
def gpa (p : Except LoadError (List AccountData) → Bool) (program : Pubkey) (fs : Option (List AccountFilterType))
    (c : Commitment) : Step Both :=
  ask fun b => do return p (← b.store.getProgramAccounts Toy.codecs b.filters (fun _ => false) program fs c)
def gpaIs (program : Pubkey) (fs : Option (List AccountFilterType)) (c : Commitment) (x : List AccountData) : Step Both :=
  gpa (fun | .ok l => sameList l x | .error _ => false) program fs c
def gpaOneOf (program : Pubkey) (fs : Option (List AccountFilterType)) (c : Commitment) (x y : List AccountData) :
    Step Both :=
  gpa (fun | .ok l => sameList l x || sameList l y | .error _ => false) program fs c
def gpaLen (program : Pubkey) (fs : Option (List AccountFilterType)) (c : Commitment) (n : Nat) : Step Both :=
  gpa (fun | .ok l => l.length == n | .error _ => false) program fs c
def gpaHas (program : Pubkey) (fs : Option (List AccountFilterType)) (c : Commitment) (a : AccountData) : Step Both :=
  gpa (fun | .ok l => l.any a.eq | .error _ => false) program fs c
def gpaKeys (program : Pubkey) (fs : Option (List AccountFilterType)) (c : Commitment) (ks : List Pubkey) : Step Both :=
  gpa (fun | .ok l => l.all (ks.contains ·.pubkey) && ks.all ((l.map (·.pubkey)).contains ·) | .error _ => false)
    program fs c
def gpaOk (program : Pubkey) (fs : Option (List AccountFilterType)) (c : Commitment) : Step Both :=
  gpa (fun | .ok _ => true | .error _ => false) program fs c
def gpaErr (program : Pubkey) (fs : Option (List AccountFilterType)) (c : Commitment) : Step Both :=
  gpa (fun | .ok _ => false | .error _ => true) program fs c
def gpaError (program : Pubkey) (fs : Option (List AccountFilterType)) (c : Commitment) (e : LoadError) : Step Both :=
  gpa (fun | .ok _ => false | .error e' => e' == e) program fs c
def stored (pk : Pubkey) (n : Nat) : Step Both := ask fun b => do
  let i ← Run.unwrap (b.store.index pk)
  let e ← Run.unwrap b.store.accounts[i]?
  return e.processed.length == n

end Accounts

/-! ## The token store -/
namespace Tokens

open Token

instance : Fresh TokenStore := ⟨.empty⟩

/-- `tests/utils.rs` 7-16. -/
structure TokenParams where
  owner : Pubkey
  mint : Pubkey
  amount : Nat
  delegate : Option (Pubkey × Nat)
  isNative : Option Nat
  closeAuthority : Option Pubkey
  state : TokenState
deriving DecidableEq

/-- `tests/utils.rs` 56-63. -/
structure MintParams where
  mintAuthority : Option Pubkey
  supply : Nat
  decimals : UInt8
  isInitialized : Bool
  freezeAuthority : Option Pubkey
deriving DecidableEq

/-- `tests/utils.rs` 19-29. -/
def tokenParams (owner mint : Pubkey) (amount : Nat) : TokenParams :=
  ⟨owner, mint, amount, none, none, none, .initialized⟩

/-- `tests/utils.rs` 32-53. -/
def tokenRandom (k : Nat) (d c owner mint : Pubkey) (amount : Nat) : TokenParams :=
  ⟨owner, mint, amount, some (d, 5000 + k), if k % 2 = 0 then some (77 + k) else none, some c,
   if k % 2 = 0 then .initialized else .frozen⟩

/-- `tests/utils.rs` 66-74. -/
def mintParams (supply : Nat) : MintParams := ⟨none, supply, 6, true, none⟩

/-- `tests/utils.rs` 77-85. -/
def mintRandom (k : Nat) (a f : Pubkey) (supply : Nat) : MintParams := ⟨some a, supply, UInt8.ofNat k, true, some f⟩

/-- `tests/utils.rs` 88-131. -/
def tokenData (pk : Pubkey) (p : TokenParams) (slot wv : Nat) : AccountData :=
  ⟨pk, ⟨2039280, .uncompressed (Spl.Account.pack ⟨p.mint, p.owner, p.amount, p.delegate.map (·.1), p.state, p.isNative,
    (p.delegate.map (·.2)).getD 0, p.closeAuthority⟩), Spl.tokenId, false, 18446744073709551615⟩, slot, wv⟩

/-- `tests/utils.rs` 161-195. -/
def mintData (pk : Pubkey) (p : MintParams) (slot wv : Nat) : AccountData :=
  ⟨pk, ⟨1000, .uncompressed (Spl.Mint.pack ⟨p.mintAuthority, p.supply, p.decimals, p.isInitialized, p.freezeAuthority⟩),
    Spl.tokenId, false, 18446744073709551615⟩, slot, wv⟩

/-- `tests/utils.rs` 141-159. -/
def parseToken (a : AccountData) : Run TokenParams := do
  let t ← Run.unwrap (Spl.unpackAccount (← a.account.data.data Toy.codecs))
  if t.state = .uninitialized then .panic
  else return ⟨t.owner, t.mint, t.amount, t.delegate.map (·, t.delegatedAmount), t.isNative, t.closeAuthority, t.state⟩

/-- `tests/utils.rs` 197-206. -/
def parseMint (a : AccountData) : Run MintParams := do
  let m ← Run.unwrap (Spl.unpackMint (← a.account.data.data Toy.codecs))
  if m.isInitialized then return ⟨m.mintAuthority, m.supply, m.decimals, m.isInitialized, m.freezeAuthority⟩ else .panic

/-- Sets and maps in the order of insertion. -/
def orders : Orders where
  set := List.dedup
  set_nodup := List.nodup_dedup
  set_mem := fun _ _ => List.mem_dedup
  final := id
  final_perm _ := .refl _

def init (a : AccountData) : Step TokenStore := act fun s => s.initAccount Toy.codecs a
def update (a : AccountData) (c : Commitment) : Step TokenStore := act fun s => do return (← s.updateAccount Toy.codecs a c).2
def slotIf (p : List AccountData → Bool) (info : SlotInfo) (c : Commitment) : Step TokenStore := fun s => do
  let (l, s) ← s.processSlot orders info c
  return (s, p l)
def slotIs (info : SlotInfo) (c : Commitment) (x : List AccountData) : Step TokenStore := slotIf (sameList · x) info c
def slotOneOf (info : SlotInfo) (c : Commitment) (x y : List AccountData) : Step TokenStore :=
  slotIf (fun l => sameList l x || sameList l y) info c
def getIs (pk : Pubkey) (c : Commitment) (x : Option AccountData) : Step TokenStore :=
  ask fun s => do return sameOpt (← s.getAccount pk c) x
def tokenIs (pk : Pubkey) (c : Commitment) (p : TokenParams) : Step TokenStore :=
  ask fun s => do return (← parseToken (← Run.unwrap (← s.getAccount pk c))) == p
def mintIs (pk : Pubkey) (c : Commitment) (p : MintParams) : Step TokenStore :=
  ask fun s => do return (← parseMint (← Run.unwrap (← s.getAccount pk c))) == p
def gpa (p : List AccountData → Bool) (program : Pubkey) (fs : Option (List AccountFilterType)) (c : Commitment) :
    Step TokenStore := ask fun s => do
  match ← s.getProgramAccounts Toy.codecs orders program fs c with
  | .ok l => return p l
  | .error _ => return false
def gpaLen (program : Pubkey) (fs : Option (List AccountFilterType)) (c : Commitment) (n : Nat) : Step TokenStore :=
  gpa (fun l => l.length == n) program fs c
def gpaHas (program : Pubkey) (fs : Option (List AccountFilterType)) (c : Commitment) (a : AccountData) : Step TokenStore :=
  gpa (fun l => l.any a.eq) program fs c

end Tokens
end LAM.Tests
