import Verif.Basic.Bytes
import Verif.Model.Store
/-!
# Snapshots of the in-memory store

`bincode = "=1.3.3"` (`Cargo.toml` 38, external) with the settings of `bincode::serialize` /
`bincode::deserialize`: fixed-size little-endian integers, `u64` lengths, `u32` enum tags, `bool` as one
byte 0 or 1, no size limit, trailing bytes allowed.  `usize` has 8 bytes.  The derived serde layout lists the
fields in declaration order; `Pubkey` is its 32 bytes and `Arc` is transparent.
-/
namespace LAM.Bincode
open LAM

/-- `u64` and `usize`. -/
def encU64 (n : Nat) : Bytes := leBytes 8 n
/-- `u64` and `usize`. -/
def decU64 : Decoder Nat := decNat 8

/-- `bool`. -/
def encBool (b : Bool) : Bytes := [if b then 1 else 0]
/-- `bool`; other bytes are an error. -/
def decBool : Decoder Bool := decMap decByte fun b => if b = 0 then some false else if b = 1 then some true else none

/-- `Pubkey`. -/
def encPubkey (p : Pubkey) : Bytes := p.bytes
/-- `Pubkey`. -/
def decPubkey : Decoder Pubkey := decMap (takeN 32) fun b => if h : b.length = 32 then some ⟨b, h⟩ else none

/-- `common/src/account_data.rs` 19-24 with its derived `Serialize`. -/
def encData : Data → Bytes
  | .uncompressed d => leBytes 4 0 ++ encByteVec d
  | .lz4 b len => leBytes 4 1 ++ (encByteVec b ++ encU64 len)
  | .zstd b len => leBytes 4 2 ++ (encByteVec b ++ encU64 len)

/-- `common/src/account_data.rs` 19-24 with its derived `Deserialize`. -/
def decData : Decoder Data := fun bs => do
  let (tag, bs) ← decNat 4 bs
  match tag with
  | 0 => let (d, bs) ← decVec decByte bs; return (.uncompressed d, bs)
  | 1 => let ((b, len), bs) ← decPair (decVec decByte) decU64 bs; return (.lz4 b len, bs)
  | 2 => let ((b, len), bs) ← decPair (decVec decByte) decU64 bs; return (.zstd b len, bs)
  | _ => none

/-- `common/src/account_data.rs` 83-95 with its derived `Serialize`. -/
def encAccount (a : Account) : Bytes :=
  encU64 a.lamports ++ (encData a.data ++ (encPubkey a.owner ++ (encBool a.executable ++ encU64 a.rentEpoch)))

/-- `common/src/account_data.rs` 83-95 with its derived `Deserialize`. -/
def decAccount : Decoder Account :=
  decMap (decPair decU64 (decPair decData (decPair decPubkey (decPair decBool decU64))))
    fun (l, d, o, e, r) => some ⟨l, d, o, e, r⟩

/-- `common/src/account_data.rs` 122-128 with its derived `Serialize`. -/
def encAccountData (a : AccountData) : Bytes :=
  encPubkey a.pubkey ++ (encAccount a.account ++ (encU64 a.slot ++ encU64 a.wv))

/-- `common/src/account_data.rs` 122-128 with its derived `Deserialize`. -/
def decAccountData : Decoder AccountData :=
  decMap (decPair decPubkey (decPair decAccount (decPair decU64 decU64)))
    fun (pk, a, s, w) => some ⟨pk, a, s, w⟩

/-- `bincode::serialize(&accounts)` for `Vec<AccountData>`. -/
def serialize (l : List AccountData) : Bytes := encVec encAccountData l

/-- `bincode::deserialize::<Vec<AccountData>>`; bytes after the value are ignored. -/
def deserialize (bs : Bytes) : Option (List AccountData) := (decVec decAccountData bs).map (·.1)

end LAM.Bincode

namespace LAM.Store

/-- `inmemory_account_store.rs` 457-460. -/
def createSnapshot (X : Codecs) (F : Filters) (busy : Nat → Bool) (s : Store) (program : Pubkey) :
    Run (Except LoadError Bytes) := do
  match ← getProgramAccounts X F busy s program none .finalized with
  | .error e => return .error e
  | .ok accounts => return .ok (Bincode.serialize accounts)

/-- The loop of `inmemory_account_store.rs` 469-471. -/
def initAll (F : Filters) : Store → List AccountData → Run Store
  | s, [] => .ok s
  | s, a :: l => do let s ← s.initializeOrUpdate F a; initAll F s l

/-- `inmemory_account_store.rs` 462-473 (the program id is not used). -/
def loadFromSnapshot (F : Filters) (s : Store) (snapshot : Bytes) : Run (Store × Except LoadError Unit) :=
  match Bincode.deserialize snapshot with
  | none => .ok (s, .error .deserializationIssues)
  | some accounts => do
    let s ← initAll F s accounts
    return (s, .ok ())

end LAM.Store
