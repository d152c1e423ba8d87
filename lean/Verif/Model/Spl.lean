import Verif.Model.TokenAccount
/-!
# SPL token account layouts (external: `spl-token` 4.0.0 and `spl-token-2022` 3.0.4 `src/state.rs`, `solana-program`
1.18.26 `src/program_pack.rs`)

Both token programs use the same three layouts.  `Pack::unpack_unchecked` rejects input whose length is not the
packed length.  `pack_into_slice` is only called on zeroed buffers, so that absent options are all zero.
-/
namespace LAM.Spl
open Token (TokenState)

/-- `spl_token::state::Account`. -/
structure Account where
  mint : Pubkey
  owner : Pubkey
  amount : Nat
  delegate : Option Pubkey
  state : TokenState
  isNative : Option Nat
  delegatedAmount : Nat
  closeAuthority : Option Pubkey
deriving DecidableEq, Repr

/-- `spl_token::state::Mint`. -/
structure Mint where
  mintAuthority : Option Pubkey
  supply : Nat
  decimals : UInt8
  isInitialized : Bool
  freezeAuthority : Option Pubkey
deriving DecidableEq, Repr

/-- `spl_token::state::Multisig`; `signers` has length `MAX_SIGNERS` = 11. -/
structure Multisig where
  m : UInt8
  n : UInt8
  isInitialized : Bool
  signers : List Pubkey
deriving DecidableEq, Repr

/-- `pack_coption_key` into zeroed bytes. -/
def encKey : Option Pubkey → Bytes
  | some k => leBytes 4 1 ++ k.bytes
  | none => List.replicate 36 0

/-- `unpack_coption_key`: tag 0 or 1; the body of an absent key is not read. -/
def decKey : Decoder (Option Pubkey) :=
  decMap (decPair (decNat 4) Bincode.decPubkey) fun (tag, k) =>
    if tag = 0 then some none else if tag = 1 then some (some k) else none

/-- `pack_coption_u64` into zeroed bytes. -/
def encOptU64 : Option Nat → Bytes
  | some n => leBytes 4 1 ++ leBytes 8 n
  | none => List.replicate 12 0

/-- `unpack_coption_u64`. -/
def decOptU64 : Decoder (Option Nat) :=
  decMap (decPair (decNat 4) (decNat 8)) fun (tag, n) =>
    if tag = 0 then some none else if tag = 1 then some (some n) else none

/-- `AccountState as u8`. -/
def encState : TokenState → Bytes
  | .uninitialized => [0]
  | .initialized => [1]
  | .frozen => [2]

/-- `AccountState::try_from_primitive`. -/
def decState : Decoder TokenState := decMap decByte fun b =>
  if b = 0 then some .uninitialized else if b = 1 then some .initialized else if b = 2 then some .frozen else none

/-- `Account::pack_into_slice` (165 bytes). -/
def Account.pack (a : Account) : Bytes :=
  a.mint.bytes ++ (a.owner.bytes ++ (leBytes 8 a.amount ++ (encKey a.delegate ++ (encState a.state ++
    (encOptU64 a.isNative ++ (leBytes 8 a.delegatedAmount ++ encKey a.closeAuthority))))))

/-- `Account::unpack_from_slice`. -/
def decAccount : Decoder Account := decMap
  (decPair Bincode.decPubkey (decPair Bincode.decPubkey (decPair (decNat 8) (decPair decKey (decPair decState
    (decPair decOptU64 (decPair (decNat 8) decKey)))))))
  fun (mint, owner, amount, delegate, state, isNative, delegatedAmount, closeAuthority) =>
    some { mint, owner, amount, delegate, state, isNative, delegatedAmount, closeAuthority }

/-- `Mint::pack_into_slice` (82 bytes). -/
def Mint.pack (m : Mint) : Bytes :=
  encKey m.mintAuthority ++ (leBytes 8 m.supply ++ ([m.decimals] ++ (Bincode.encBool m.isInitialized ++
    encKey m.freezeAuthority)))

/-- `Mint::unpack_from_slice`. -/
def decMint : Decoder Mint := decMap
  (decPair decKey (decPair (decNat 8) (decPair decByte (decPair Bincode.decBool decKey))))
  fun (mintAuthority, supply, decimals, isInitialized, freezeAuthority) =>
    some { mintAuthority, supply, decimals, isInitialized, freezeAuthority }

/-- `Multisig::pack_into_slice` (355 bytes). -/
def Multisig.pack (m : Multisig) : Bytes :=
  [m.m] ++ ([m.n] ++ (Bincode.encBool m.isInitialized ++ (m.signers.map Pubkey.bytes).flatten))

/-- `Multisig::unpack_from_slice`. -/
def decMultisig : Decoder Multisig := decMap
  (decPair decByte (decPair decByte (decPair Bincode.decBool (decTimes Bincode.decPubkey 11))))
  fun (m, n, isInitialized, signers) => some { m, n, isInitialized, signers }

/-- `Pack::unpack_unchecked` (`program_pack.rs`): the length is checked, then `unpack_from_slice`. -/
def unpackUnchecked (len : Nat) (d : Decoder α) (bs : Bytes) : Option α :=
  if bs.length ≠ len then none else (d bs).map (·.1)

/-- `Account::LEN`. -/
def accountLen : Nat := 165
/-- `Mint::LEN`. -/
def mintLen : Nat := 82
/-- `Multisig::LEN`. -/
def multisigLen : Nat := 355

/-- `Account::unpack_unchecked`. -/
def unpackAccount : Bytes → Option Account := unpackUnchecked accountLen decAccount
/-- `Mint::unpack_unchecked`. -/
def unpackMint : Bytes → Option Mint := unpackUnchecked mintLen decMint
/-- `Multisig::unpack_unchecked`. -/
def unpackMultisig : Bytes → Option Multisig := unpackUnchecked multisigLen decMultisig

/-- `spl_token::id()`: TokenkegQfeZyiNwAJbNbGKPFXCWuBvf9Ss623VQ5DA. -/
def tokenId : Pubkey := ⟨[6, 221, 246, 225, 215, 101, 161, 147, 217, 203, 225, 70, 206, 235, 121, 172, 28, 180, 133, 237, 95,
  91, 55, 145, 58, 140, 245, 133, 126, 255, 0, 169], by decide⟩

/-- `spl_token_2022::id()`: TokenzQdBNbLqP5VEhdkAS6EPFLC1PHnBqCXEpPxuEb. -/
def token2022Id : Pubkey := ⟨[6, 221, 246, 225, 238, 117, 143, 222, 24, 66, 93, 188, 228, 108, 205, 218, 182, 26, 252, 77,
  131, 185, 13, 39, 254, 189, 249, 40, 216, 161, 139, 252], by decide⟩

/-- `Rent::default().minimum_balance(len)` (external: `solana-program` `rent.rs`): 128 bytes of overhead, 3480 lamports
per byte and year, two years.  The computation in `f64` is exact for the sizes of accounts. -/
def rentMinimum (len : Nat) : Nat := (128 + len) * 3480 * 2

end LAM.Spl
