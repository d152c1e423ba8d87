import Verif.Basic.SortedSet
import Verif.Model.Types
/-!
# Account filters (`common/src/account_filter.rs`, `simple_filter_store.rs`,
`except_filter_store.rs`, `mutable_filter_store.rs`)
-/
namespace LAM

/-- `common/src/account_filter.rs` 8-14. Text is the UTF-8 byte string. -/
inductive MemcmpData where
  | bytes (b : Bytes)
  | base58 (s : Bytes)
  | base64 (s : Bytes)
deriving DecidableEq, Repr

/-- `common/src/account_filter.rs` 16-21. `offset` is a `u64`; `as usize` is the identity on the
64-bit targets this code runs on. -/
structure MemcmpFilter where
  offset : Nat
  data : MemcmpData
deriving DecidableEq, Repr

/-- `common/src/account_filter.rs` 24-34; undecodable text panics (`expect`). -/
def MemcmpFilter.bytes (X : Codecs) (f : MemcmpFilter) : Run Bytes :=
  match f.data with
  | .bytes b => .ok b
  | .base58 s => Run.unwrap (X.b58 s)
  | .base64 s => Run.unwrap (X.b64 s)

/-- Rust slice `data[a..b]`: panics unless `a ≤ b ≤ len`. -/
def slice (d : Bytes) (a b : Nat) : Run Bytes :=
  if a ≤ b ∧ b ≤ d.length then .ok ((d.drop a).take (b - a)) else .panic

/-- The window comparison of `common/src/account_filter.rs` 39-46 and 49-56 (the same text twice). -/
def windowMatch (offset : Nat) (pat d : Bytes) : Run Bool := do
  if offset > d.length then
    return false
  let tail ← slice d offset d.length
  if tail.length < pat.length then
    return false
  let w ← slice d offset (offset + pat.length)
  return w == pat

/-- `common/src/account_filter.rs` 36-58. -/
def MemcmpFilter.bytesMatch (X : Codecs) (f : MemcmpFilter) (d : Bytes) : Run Bool :=
  match f.data with
  | .bytes b => windowMatch f.offset b d
  | _ => do let b ← f.bytes X; windowMatch f.offset b d

/-- `common/src/account_filter.rs` 61-66. -/
inductive AccountFilterType where
  | datasize (n : Nat)
  | memcmp (m : MemcmpFilter)
deriving DecidableEq, Repr

/-- `common/src/account_filter.rs` 69-74. -/
def AccountFilterType.allows (X : Codecs) (f : AccountFilterType) (d : Bytes) : Run Bool :=
  match f with
  | .datasize n => .ok (d.length == n)
  | .memcmp m => m.bytesMatch X d

/-- `common/src/account_filter.rs` 77-82. -/
structure AccountFilter where
  accounts : List Pubkey
  programId : Option Pubkey
  filters : Option (List AccountFilterType)
deriving DecidableEq, Repr

/-- Sort key realising the derived `Ord` of `AccountFilterType` (`account_filter.rs` 8, 16, 61):
variants in declaration order, then fields in order, byte strings lexicographically. -/
def AccountFilterType.key : AccountFilterType → List Nat
  | .datasize n => [0, n]
  | .memcmp ⟨off, .bytes b⟩ => 1 :: off :: 0 :: b.map UInt8.toNat
  | .memcmp ⟨off, .base58 s⟩ => 1 :: off :: 1 :: s.map UInt8.toNat
  | .memcmp ⟨off, .base64 s⟩ => 1 :: off :: 2 :: s.map UInt8.toNat

/-- Derived `Ord` of `AccountFilterType`, used by `BTreeSet<AccountFilterType>`. -/
def AccountFilterType.lt (a b : AccountFilterType) : Bool := decide (a.key < b.key)

/-- `BTreeSet<AccountFilterType>` in iteration order. -/
abbrev FSet := List AccountFilterType

/-- `iter().cloned().collect::<BTreeSet<_>>()`. -/
def FSet.collect (l : List AccountFilterType) : FSet := scollect AccountFilterType.lt l

/-- `common/src/simple_filter_store.rs` 10-18. -/
inductive ProgramIdFilters where
  | allowAll
  | byFilterType (l : List FSet)
deriving DecidableEq, Repr

/-- `common/src/simple_filter_store.rs` 20-24 (hash set and hash map that are never iterated). -/
structure SimpleFilterStore where
  accounts : Pubkey → Bool
  programs : Pubkey → Option ProgramIdFilters

/-- `SimpleFilterStore::default()`. -/
def SimpleFilterStore.empty : SimpleFilterStore := ⟨fun _ => false, fun _ => none⟩

/-- `common/src/simple_filter_store.rs` 63-77: the re-encoding of one filter to bytes. -/
def AccountFilterType.toBytes (X : Codecs) (f : AccountFilterType) : Run AccountFilterType :=
  match f with
  | .datasize n => .ok (.datasize n)
  | .memcmp m =>
    match m.data with
    | .bytes _ => .ok (.memcmp m)
    | _ => do let b ← m.bytes X; return .memcmp ⟨m.offset, .bytes b⟩

/-- `iter().map(f).collect()` where `f` may panic. -/
def mapRun (f : α → Run β) : List α → Run (List β)
  | [] => .ok []
  | x :: xs => do let y ← f x; let ys ← mapRun f xs; return y :: ys

/-- `common/src/simple_filter_store.rs` 55-81: the filters stored for a program seen first. -/
def firstFilters (X : Codecs) (fs : Option (List AccountFilterType)) : Run ProgramIdFilters :=
  match fs with
  | none => .ok .allowAll
  | some l => do let l' ← mapRun (AccountFilterType.toBytes X) l; return .byFilterType [FSet.collect l']

/-- `common/src/simple_filter_store.rs` 40-54: merging into the filters already stored. -/
def mergeFilters (cur : ProgramIdFilters) (fs : Option (List AccountFilterType)) : ProgramIdFilters :=
  match cur, fs with
  | .allowAll, _ => .allowAll
  | .byFilterType cur, some new => .byFilterType (cur ++ [FSet.collect new])
  | .byFilterType _, none => .allowAll

/-- `common/src/simple_filter_store.rs` 39-82: the new entry of the program's filter map. -/
def programFilters (X : Codecs) (cur : Option ProgramIdFilters)
    (fs : Option (List AccountFilterType)) : Run ProgramIdFilters :=
  match cur with
  | some cur => .ok (mergeFilters cur fs)
  | none => firstFilters X fs

/-- `common/src/simple_filter_store.rs` 33-84. -/
def SimpleFilterStore.addFilter (X : Codecs) (s : SimpleFilterStore) (f : AccountFilter) :
    Run SimpleFilterStore := do
  let accounts := fun pk => s.accounts pk || f.accounts.contains pk
  match f.programId with
  | none => return { s with accounts := accounts }
  | some p =>
    let pf ← programFilters X (s.programs p) f.filters
    return { accounts := accounts,
             programs := fun q => if q = p then some pf else s.programs q }

/-- `common/src/simple_filter_store.rs` 27-31. -/
def SimpleFilterStore.addFilters (X : Codecs) (s : SimpleFilterStore) :
    List AccountFilter → Run SimpleFilterStore
  | [] => .ok s
  | f :: fs => do let s' ← s.addFilter X f; s'.addFilters X fs

/-- `common/src/simple_filter_store.rs` 86-88. -/
def SimpleFilterStore.containsAccount (s : SimpleFilterStore) (pk : Pubkey) : Bool := s.accounts pk

/-- `common/src/simple_filter_store.rs` 106-117: does one stored set equal the query's prefix. -/
def prefixMatches (q stored : FSet) : Bool :=
  if q.length ≥ stored.length then FSet.collect (q.take stored.length) == stored else false

/-- `common/src/simple_filter_store.rs` 90-131. -/
def SimpleFilterStore.containsFilter (s : SimpleFilterStore) (f : AccountFilter) : Bool :=
  let accountsMatch := f.accounts.all s.accounts
  let programMatch := match f.programId with
    | some p =>
      match s.programs p with
      | some .allowAll => true
      | some (.byFilterType l) =>
        match f.filters with
        | some q => l.any (prefixMatches (FSet.collect q))
        | none => false
      | none => false
    | none => true
  accountsMatch && programMatch

/-- `common/src/simple_filter_store.rs` 133-154. The account data is decompressed anew for every
sub-filter checked. -/
def SimpleFilterStore.satisfies (X : Codecs) (s : SimpleFilterStore) (a : AccountData) : Run Bool :=
  if s.accounts a.pubkey then .ok true
  else match s.programs a.account.owner with
    | some .allowAll => .ok true
    | some (.byFilterType l) =>
      Run.anyM (fun set => Run.allM (fun x => do let d ← a.account.data.data X; x.allows X d) set) l
    | none => .ok false

/-- `common/src/except_filter_store.rs` 9-12; `add_account_filters` 15-18 delegates. -/
structure ExceptFilterStore where
  simple : SimpleFilterStore

/-- `common/src/except_filter_store.rs` 15-18. -/
def ExceptFilterStore.addFilters (X : Codecs) (s : ExceptFilterStore) (fs : List AccountFilter) :
    Run ExceptFilterStore := do
  let s' ← s.simple.addFilters X fs
  return ⟨s'⟩

/-- `common/src/except_filter_store.rs` 22-24. -/
def ExceptFilterStore.satisfies (X : Codecs) (s : ExceptFilterStore) (a : AccountData) : Run Bool := do
  let b ← s.simple.satisfies X a
  return !b

/-- `common/src/except_filter_store.rs` 26-28. -/
def ExceptFilterStore.containsFilter (s : ExceptFilterStore) (f : AccountFilter) : Bool :=
  !s.simple.containsFilter f

/-! ## RPC filters -/

/-- `solana_rpc_client_api::filter::MemcmpEncodedBytes` (external). -/
inductive RpcEncodedBytes where
  | base58 (s : Bytes)
  | base64 (s : Bytes)
  | bytes (b : Bytes)
deriving DecidableEq, Repr

/-- `solana_rpc_client_api::filter::RpcFilterType` (external). -/
inductive RpcFilter where
  | dataSize (n : Nat)
  | memcmp (offset : Nat) (b : RpcEncodedBytes)
  | tokenAccountState
deriving DecidableEq, Repr

/-- `Memcmp::bytes` (external): decoded bytes, `None` if the text does not decode. -/
def RpcEncodedBytes.decode (X : Codecs) : RpcEncodedBytes → Option Bytes
  | .base58 s => X.b58 s
  | .base64 s => X.b64 s
  | .bytes b => some b

/-- `Memcmp::bytes_match` (external, same window comparison; `false` when undecodable). -/
def rpcBytesMatch (X : Codecs) (offset : Nat) (b : RpcEncodedBytes) (d : Bytes) : Run Bool :=
  match b.decode X with
  | some pat => windowMatch offset pat d
  | none => .ok false

/-- `common/src/account_data.rs` 131-140. -/
def AccountData.allows (X : Codecs) (a : AccountData) (f : RpcFilter) : Run Bool :=
  match f with
  | .dataSize n => .ok (a.account.data.len == n)
  | .memcmp off b => do let d ← a.account.data.data X; rpcBytesMatch X off b d
  | .tokenAccountState => .ok false

/-- `common/src/account_filter.rs` 150-166: one filter to RPC form. -/
def AccountFilterType.toRpc : AccountFilterType → RpcFilter
  | .datasize n => .dataSize n
  | .memcmp ⟨off, .bytes b⟩ => .memcmp off (.bytes b)
  | .memcmp ⟨off, .base58 s⟩ => .memcmp off (.base58 s)
  | .memcmp ⟨off, .base64 s⟩ => .memcmp off (.base64 s)

/-- `common/src/account_filter.rs` 146-169. -/
def AccountFilter.getRpcFilter (f : AccountFilter) : Option (List RpcFilter) :=
  f.filters.map (·.map AccountFilterType.toRpc)

/-- `common/src/account_filter.rs` 173-190; an undecodable memcmp gives the empty pattern
(`unwrap_or_default`), `TokenAccountState` panics (`unimplemented!`). -/
def AccountFilterType.ofRpc (X : Codecs) : RpcFilter → Run AccountFilterType
  | .dataSize n => .ok (.datasize n)
  | .memcmp off b => .ok (.memcmp ⟨off, .bytes ((b.decode X).getD [])⟩)
  | .tokenAccountState => .panic

end LAM
