import Verif.Model.Bincode
/-!
# Token accounts and their binary form (`token_account_storage/src/account_types.rs`)

Integers are natural numbers; the ranges of the Rust types are stated where they matter (`Spec/Token.lean`).
-/
namespace LAM.Token

/-- `account_types.rs` 7-12. -/
inductive Program where
  | tokenProgram
  | token2022Program
deriving DecidableEq, Repr

/-- `account_types.rs` 14-20. -/
inductive TokenState where
  | uninitialized
  | initialized
  | frozen
deriving DecidableEq, Repr

/-- `account_types.rs` 66-79. -/
structure TokenAccount where
  program : Program
  isDeleted : Bool
  pubkey : Pubkey
  owner : Pubkey
  mint : Nat
  amount : Nat
  state : TokenState
  delegate : Option (Pubkey × Nat)
  isNative : Option Nat
  closeAuthority : Option Pubkey
  additionalData : Option Bytes
deriving DecidableEq, Repr

/-- `account_types.rs` 81-92. -/
structure MintAccount where
  program : Program
  pubkey : Pubkey
  lamports : Nat
  supply : Nat
  decimals : UInt8
  isInitialized : Bool
  mintAuthority : Option Pubkey
  freezeAuthority : Option Pubkey
  additionalData : Option Bytes
deriving DecidableEq, Repr

/-- `account_types.rs` 94-103. -/
structure MultiSig where
  program : Program
  pubkey : Pubkey
  lamports : Nat
  m : UInt8
  n : UInt8
  isInitialized : Bool
  signers : List Pubkey
deriving DecidableEq, Repr

/-- `account_types.rs` 105-107. -/
def stateBits : TokenState → UInt8
  | .initialized => 0b00000000
  | .frozen => 0b00000001
  | .uninitialized => 0b00000010

/-- `account_types.rs` 112-148: the flag byte. -/
def flagByte (p : Program) (s : TokenState) (delegate native close additional : Bool) : UInt8 :=
  let one : UInt8 := 0x1
  (if p = .token2022Program then one else 0) ||| (stateBits s <<< 2) ||| (if delegate then one <<< 4 else 0) |||
    (if native then one <<< 5 else 0) ||| (if close then one <<< 6 else 0) ||| (if additional then one <<< 7 else 0)

/-- The flag byte of an account (`account_types.rs` 112-148). -/
def TokenAccount.flags (t : TokenAccount) : UInt8 :=
  flagByte t.program t.state t.delegate.isSome t.isNative.isSome t.closeAuthority.isSome t.additionalData.isSome

/-- `account_types.rs` 111-177. `len() as u32` keeps the low 32 bits. -/
def TokenAccount.toBytes (t : TokenAccount) : Bytes :=
  [t.flags] ++ [if t.isDeleted then 1 else 0] ++ t.pubkey.bytes ++ t.owner.bytes ++ leBytes 4 t.mint ++
  leBytes 8 t.amount ++
  (match t.delegate with | some (d, n) => d.bytes ++ leBytes 8 n | none => []) ++
  (match t.isNative with | some n => leBytes 8 n | none => []) ++
  (match t.closeAuthority with | some a => a.bytes | none => []) ++
  (match t.additionalData with | some d => leBytes 4 d.length ++ d | none => [])

/-- `account_types.rs` 189-194. -/
def stateOfBits (b : UInt8) : Option TokenState :=
  if b = 0b00000000 then some .initialized else if b = 0b00000001 then some .frozen
  else if b = 0b00000010 then some .uninitialized else none

/-- An optional part, present if `b`. -/
def decOpt (b : Bool) (d : Decoder α) : Decoder (Option α) := fun bs =>
  if b then do
    let (a, bs) ← d bs
    return (some a, bs)
  else some (none, bs)

/-- A `u32` length and that many bytes (`account_types.rs` 228-230). -/
def decBytes4 : Decoder Bytes := fun bs => do
  let (n, bs) ← decNat 4 bs
  takeN n bs

/-- `account_types.rs` 179-251 from the front of the input; `none` is a panic (a slice index out of range or
`unreachable!()`).  The order of the failing checks is not kept. -/
def TokenAccount.decode : Decoder TokenAccount := fun bs => do
  let (flags, bs) ← decByte bs
  let (isDeleted, bs) ← Bincode.decBool bs
  let (pubkey, bs) ← Bincode.decPubkey bs
  let (owner, bs) ← Bincode.decPubkey bs
  let (mint, bs) ← decNat 4 bs
  let (amount, bs) ← decNat 8 bs
  let program := if flags &&& 0x1 = 0 then Program.tokenProgram else .token2022Program
  let state ← stateOfBits ((flags >>> 2) &&& 0x3)
  let (delegate, bs) ← decOpt ((flags >>> 4) &&& 0x1 = 0x1) (decPair Bincode.decPubkey (decNat 8)) bs
  let (isNative, bs) ← decOpt ((flags >>> 5) &&& 0x1 = 0x1) (decNat 8) bs
  let (closeAuthority, bs) ← decOpt ((flags >>> 6) &&& 0x1 = 0x1) Bincode.decPubkey bs
  let (additionalData, bs) ← decOpt ((flags >>> 7) &&& 0x1 = 0x1) decBytes4 bs
  return ({ program, isDeleted, pubkey, owner, mint, amount, state, delegate, isNative, closeAuthority,
            additionalData }, bs)

/-- `account_types.rs` 179-251: bytes after the account are ignored. -/
def TokenAccount.fromBytes (v : Bytes) : Run TokenAccount := Run.unwrap ((TokenAccount.decode v).map (·.1))

/-- `<[u8; 32]>::try_from(..).unwrap()` and `Pubkey::new_from_array`. -/
def pubkeyOf (b : Bytes) : Run Pubkey := if h : b.length = 32 then .ok ⟨b, h⟩ else .panic

/-- `account_types.rs` 253-256. -/
def getPubkeyFromBinary (v : Bytes) : Run Pubkey := do pubkeyOf (← slice v 2 34)

/-- `account_types.rs` 258-261. -/
def getOwnerFromBinary (v : Bytes) : Run Pubkey := do pubkeyOf (← slice v 34 66)

/-- `account_types.rs` 263-266. -/
def getMintIndexFromBinary (v : Bytes) : Run Nat := do return leNat (← slice v 66 70)

end LAM.Token
