import Verif.Model.Filter
/-!
# JSON form of account filters (`common/src/account_filter.rs` 84-143 and the derived serde impls)

The JSON *tree* is modelled (`serde_json::Value`); the text syntax of `serde_json` is not.
-/
namespace LAM

/-- `serde_json::Value`; strings are UTF-8 byte strings, object keys are text. Negative and
fractional numbers are not needed: they are rejected wherever a `u64`/`u8` is expected, like any
other non-number. The keys of an object are distinct. -/
inductive Json where
  | null
  | bool (b : Bool)
  | num (n : Nat)
  | str (s : Bytes)
  | arr (l : List Json)
  | obj (l : List (String × Json))

/-- `Value::get(key)`: `None` unless an object with that key. -/
def Json.get (j : Json) (k : String) : Option Json :=
  match j with
  | .obj l => l.lookup k
  | _ => none

/-- `Pubkey::to_string` / `Pubkey::from_str` (external, base58). -/
structure PkText where
  toStr : Pubkey → Bytes
  ofStr : Bytes → Option Pubkey

/-- Law assumed of the external pubkey text format. -/
def PkText.Lawful (T : PkText) : Prop := ∀ pk, T.ofStr (T.toStr pk) = some pk

/-- Derived `Serialize` of `MemcmpFilterData` (`account_filter.rs` 8-14, camelCase, externally tagged). -/
def MemcmpData.toJson : MemcmpData → Json
  | .bytes b => .obj [("bytes", .arr (b.map fun x => .num x.toNat))]
  | .base58 s => .obj [("base58", .str s)]
  | .base64 s => .obj [("base64", .str s)]

/-- Derived `Serialize` of `MemcmpFilter` (`account_filter.rs` 16-21). -/
def MemcmpFilter.toJson (m : MemcmpFilter) : Json :=
  .obj [("offset", .num m.offset), ("data", m.data.toJson)]

/-- Derived `Serialize` of `AccountFilterType` (`account_filter.rs` 61-66). -/
def AccountFilterType.toJson : AccountFilterType → Json
  | .datasize n => .obj [("datasize", .num n)]
  | .memcmp m => .obj [("memcmp", m.toJson)]

/-- `account_filter.rs` 84-104: absent parts are omitted. -/
def AccountFilter.toJson (T : PkText) (f : AccountFilter) : Json :=
  .obj ((if f.accounts.isEmpty then [] else
          [("accounts", Json.arr (f.accounts.map fun pk => .str (T.toStr pk)))]) ++
        (match f.programId with
          | some p => [("programId", Json.str (T.toStr p))]
          | none => []) ++
        (match f.filters with
          | some l => [("filters", Json.arr (l.map AccountFilterType.toJson))]
          | none => []))

/-- Derived `Deserialize` of `u64`. -/
def Json.asU64 : Json → Option Nat
  | .num n => if n < 2 ^ 64 then some n else none
  | _ => none

/-- Derived `Deserialize` of `u8`. -/
def Json.asU8 : Json → Option UInt8
  | .num n => if n < 256 then some (UInt8.ofNat n) else none
  | _ => none

/-- Derived `Deserialize` of a string. -/
def Json.asStr : Json → Option Bytes
  | .str s => some s
  | _ => none

/-- Derived `Deserialize` of `Vec<T>`: all elements must convert. -/
def mapOpt (f : α → Option β) : List α → Option (List β)
  | [] => some []
  | x :: xs => do let y ← f x; let ys ← mapOpt f xs; return y :: ys

/-- Derived `Deserialize` of `MemcmpFilterData` (externally tagged: an object with one known key). -/
def MemcmpData.ofJson : Json → Option MemcmpData
  | .obj [("bytes", .arr l)] => (mapOpt Json.asU8 l).map .bytes
  | .obj [("base58", .str s)] => some (.base58 s)
  | .obj [("base64", .str s)] => some (.base64 s)
  | _ => none

/-- Derived `Deserialize` of `MemcmpFilter`; fields of an object may come in any order, others are ignored; an array has the two
fields in order. -/
def MemcmpFilter.ofJson (j : Json) : Option MemcmpFilter :=
  let of (o d : Json) := do
    let off ← o.asU64
    let data ← MemcmpData.ofJson d
    return ⟨off, data⟩
  match j with
  | .arr [o, d] => of o d
  | .arr _ => none
  | j => do
    let o ← j.get "offset"
    let d ← j.get "data"
    of o d

/-- Derived `Deserialize` of `AccountFilterType`. -/
def AccountFilterType.ofJson : Json → Option AccountFilterType
  | .obj [("datasize", n)] => n.asU64.map .datasize
  | .obj [("memcmp", m)] => (MemcmpFilter.ofJson m).map .memcmp
  | _ => none

/-- `account_filter.rs` 117-120 and 127-128: `Pubkey::from_str(v.as_str().expect(..)).expect(..)`. -/
def pkOfJson (T : PkText) (j : Json) : Run Pubkey := do
  let s ← Run.unwrap j.asStr
  Run.unwrap (T.ofStr s)

/-- `serde_json::from_value::<Option<Vec<AccountFilterType>>>`: null is `None`. -/
def filtersOfJson : Json → Option (Option (List AccountFilterType))
  | .null => some none
  | .arr l => (mapOpt AccountFilterType.ofJson l).map some
  | _ => none

/-- `account_filter.rs` 113-125. -/
def accountsOfJson (T : PkText) (j : Json) : Run (List Pubkey) :=
  match j.get "accounts" with
  | some (.arr l) => mapRun (pkOfJson T) l
  | some _ => .ok []
  | none => .ok []

/-- `account_filter.rs` 126-129. -/
def programOfJson (T : PkText) (j : Json) : Run (Option Pubkey) :=
  match j.get "programId" with
  | some v => do let pk ← pkOfJson T v; return some pk
  | none => .ok none

/-- `account_filter.rs` 131-136. -/
def subFiltersOfJson (j : Json) : Run (Option (List AccountFilterType)) :=
  match j.get "filters" with
  | some v => Run.unwrap (filtersOfJson v)
  | none => .ok none

/-- `account_filter.rs` 106-143; every malformed part panics (`expect`). -/
def AccountFilter.ofJson (T : PkText) (j : Json) : Run AccountFilter := do
  let accounts ← accountsOfJson T j
  let programId ← programOfJson T j
  let filters ← subFiltersOfJson j
  return { accounts, programId, filters }

end LAM
