import Verif.Basic.AMap
import Verif.Model.Spl
import Verif.Model.Filter
/-!
# Classification and reconstruction of token program accounts (`token_account_storage/src/token_program_utils.rs`)
-/
namespace LAM.Token
open Spl (tokenId token2022Id)

/-- `token_program_utils.rs` 21-27. -/
inductive ProgramAccount where
  | token (t : TokenAccount)
  | mint (m : MintAccount)
  | multisig (m : MultiSig) (pk : Pubkey)
  | deleted (pk : Pubkey)
deriving DecidableEq, Repr

/-- `token_program_utils.rs` 30-37. -/
def ProgramAccount.pubkey : ProgramAccount → Pubkey
  | .token t => t.pubkey
  | .mint m => m.pubkey
  | .multisig _ pk => pk
  | .deleted pk => pk

/-- `mints_index_by_pubkey` and `mint_counter`. -/
structure MintTable where
  index : AMap Pubkey Nat
  counter : Nat
deriving DecidableEq, Repr

/-- `AtomicU32::fetch_add(1)` wraps around. -/
def wrap32 (n : Nat) : Nat := n % 2 ^ 32

/-- `token_program_utils.rs` 40-53. -/
def MintTable.getOrCreate (T : MintTable) (mint : Pubkey) : Nat × MintTable :=
  match T.index.find mint with
  | some i => (i, T)
  | none => (T.counter, ⟨T.index.insert mint T.counter, wrap32 (T.counter + 1)⟩)

/-- `token_program_utils.rs` 160-165, 232-237. -/
def realSigners (l : List Pubkey) : List Pubkey := l.filter (fun x => x ≠ Pubkey.default)

/-- `token_program_utils.rs` 100-110, 176-186. -/
def mintOf (a : AccountData) (p : Program) (m : Spl.Mint) (additional : Option Bytes) : MintAccount where
  program := p
  pubkey := a.pubkey
  lamports := a.account.lamports
  supply := m.supply
  decimals := m.decimals
  isInitialized := m.isInitialized
  mintAuthority := m.mintAuthority
  freezeAuthority := m.freezeAuthority
  additionalData := additional

/-- `token_program_utils.rs` 121-146, 196-219. -/
def tokenOf (a : AccountData) (p : Program) (t : Spl.Account) (mintIndex : Nat) (additional : Option Bytes) :
    TokenAccount where
  program := p
  isDeleted := a.account.lamports == 0
  pubkey := a.pubkey
  owner := t.owner
  mint := mintIndex
  amount := t.amount
  state := t.state
  delegate := t.delegate.map (fun x => (x, t.delegatedAmount))
  isNative := t.isNative
  closeAuthority := t.closeAuthority
  additionalData := additional

/-- `token_program_utils.rs` 153-166, 225-238. -/
def multisigOf (a : AccountData) (p : Program) (m : Spl.Multisig) : MultiSig where
  program := p
  pubkey := a.pubkey
  lamports := a.account.lamports
  m := m.m
  n := m.n
  isInitialized := m.isInitialized
  signers := realSigners m.signers

/-- The kinds of `token_program_utils.rs` 70-94. -/
inductive Kind where
  | mint
  | token
  | multisig
deriving DecidableEq, Repr

/-- `token_program_utils.rs` 70-92: kind and whether there is additional data; `none` is `bail!`.  `len` is the recorded
length, `data` the decoded data (indexing panics). -/
def kind2022 (len : Nat) (data : Bytes) : Run (Option (Kind × Bool)) :=
  if len = 82 then .ok (some (.mint, false))
  else if len = 165 then .ok (some (.token, false))
  else if len = 355 then .ok (some (.multisig, false))
  else if len > 165 then
    match data[165]? with
    | none => .panic
    | some b => if b = 1 then .ok (some (.mint, true)) else if b = 2 then .ok (some (.token, true)) else .ok none
  else .ok none

/-- `additional_data.then(|| data[165..].to_vec())`. -/
def tail165 (data : Bytes) (additional : Bool) : Run (Option Bytes) :=
  if additional then do return some (← slice data 165 data.length) else .ok none

/-- `token_program_utils.rs` 55-245; `none` is `Err`. -/
def classify (X : Codecs) (T : MintTable) (a : AccountData) : Run (Option ProgramAccount × MintTable) :=
  if a.account.lamports = 0 ∨ (a.account.owner ≠ tokenId ∧ a.account.owner ≠ token2022Id) then
    .ok (some (.deleted a.pubkey), T)
  else if a.account.owner = token2022Id then do
    let data ← a.account.data.data X
    match ← kind2022 a.account.data.len data with
    | none => return (none, T)
    | some (.mint, additional) =>
      match Spl.unpackMint data with
      | none => return (none, T)
      | some m => do
        let extra ← tail165 data additional
        return (some (.mint (mintOf a .token2022Program m extra)), T)
    | some (.token, additional) =>
      match Spl.unpackAccount data with
      | none => return (none, T)
      | some t => do
        let (i, T) := T.getOrCreate t.mint
        let extra ← tail165 data additional
        return (some (.token (tokenOf a .token2022Program t i extra)), T)
    | some (.multisig, _) =>
      match Spl.unpackMultisig data with
      | none => return (none, T)
      | some m => return (some (.multisig (multisigOf a .token2022Program m) a.pubkey), T)
  else do
    let data ← a.account.data.data X
    if a.account.data.len = 82 then
      match Spl.unpackMint data with
      | none => return (none, T)
      | some m => return (some (.mint (mintOf a .tokenProgram m none)), T)
    else if a.account.data.len = 165 then
      match Spl.unpackAccount data with
      | none => return (none, T)
      | some t =>
        let (i, T) := T.getOrCreate t.mint
        return (some (.token (tokenOf a .tokenProgram t i none)), T)
    else
      match Spl.unpackMultisig data with
      | none => return (none, T)
      | some m => return (some (.multisig (multisigOf a .tokenProgram m) a.pubkey), T)

/-- `spl_token::id()` or `spl_token_2022::id()`. -/
def Program.id : Program → Pubkey
  | .tokenProgram => tokenId
  | .token2022Program => token2022Id

/-- `token_program_utils.rs` 320-333, 383-392, 435-444. -/
def solanaAccount (lamports : Nat) (data : Bytes) (p : Program) : Account where
  lamports := lamports
  data := .uncompressed data
  owner := p.id
  executable := false
  rentEpoch := 2 ^ 64 - 1

/-- `token_program_utils.rs` 258-317. -/
def tokenData (t : TokenAccount) (mint : Pubkey) : Bytes :=
  let packed := Spl.Account.pack {
    mint := mint
    owner := t.owner
    amount := t.amount
    delegate := t.delegate.map (·.1)
    state := t.state
    isNative := t.isNative
    delegatedAmount := (t.delegate.map (·.2)).getD 0
    closeAuthority := t.closeAuthority }
  match t.program with
  | .tokenProgram => packed
  | .token2022Program => packed ++ t.additionalData.getD []

/-- `token_program_utils.rs` 247-340: an unknown mint panics. -/
def tokenToSolana (mints : AMap Nat MintAccount) (t : TokenAccount) (slot wv : Nat) : Run (Option AccountData) :=
  if t.isDeleted then .ok none
  else do
    let mint ← Run.unwrap (mints.find t.mint)
    let data := tokenData t mint.pubkey
    return some ⟨t.pubkey, solanaAccount (Spl.rentMinimum data.length) data t.program, slot, wv⟩

/-- `token_program_utils.rs` 347-381. -/
def mintBytes (m : MintAccount) : Bytes :=
  let packed := Spl.Mint.pack {
    mintAuthority := m.mintAuthority
    supply := m.supply
    decimals := m.decimals
    isInitialized := m.isInitialized
    freezeAuthority := m.freezeAuthority }
  match m.program, m.additionalData with
  | .token2022Program, some d => packed ++ List.replicate (165 - 82) 0 ++ d
  | _, _ => packed

/-- `token_program_utils.rs` 342-399. -/
def mintToSolana (m : MintAccount) (slot wv : Nat) : AccountData :=
  ⟨m.pubkey, solanaAccount m.lamports (mintBytes m) m.program, slot, wv⟩

/-- `token_program_utils.rs` 407-434: more than 11 signers panic (`signers[..len]`). -/
def multisigBytes (m : MultiSig) : Run Bytes :=
  if m.signers.length ≤ 11 then
    .ok (Spl.Multisig.pack ⟨m.m, m.n, m.isInitialized,
      m.signers ++ List.replicate (11 - m.signers.length) Pubkey.default⟩)
  else .panic

/-- `token_program_utils.rs` 401-451. -/
def multisigToSolana (m : MultiSig) (pk : Pubkey) (slot wv : Nat) : Run AccountData := do
  let data ← multisigBytes m
  return ⟨pk, solanaAccount m.lamports data m.program, slot, wv⟩

/-- `token_program_utils.rs` 453-473. -/
def ProgramAccount.toSolana (mints : AMap Nat MintAccount) (x : ProgramAccount) (slot wv : Nat) :
    Run (Option AccountData) :=
  match x with
  | .token t => tokenToSolana mints t slot wv
  | .mint m => .ok (some (mintToSolana m slot wv))
  | .multisig m pk => do return some (← multisigToSolana m pk slot wv)
  | .deleted _ => .ok none

/-- The variables of `token_program_utils.rs` 479-484 (the incorrect lengths are only logged). -/
structure FilterScan where
  dataSize : Option Nat := none
  memcmp : Option Bytes := none
  owner : Option Pubkey := none
  mint : Option Pubkey := none

/-- `Pubkey::try_from(&bytes[..]).ok()` for 32 bytes. -/
def pubkeyOf? (b : Bytes) : Option Pubkey := if h : b.length = 32 then some ⟨b, h⟩ else none

/-- `token_program_utils.rs` 490-516. -/
def FilterScan.step (program : Pubkey) (s : FilterScan) : AccountFilterType → FilterScan
  | .datasize n => { s with dataSize := some n }
  | .memcmp ⟨offset, .bytes b⟩ =>
    let s := if offset = 165 ∧ program = token2022Id then { s with memcmp := some b } else s
    let s := if offset = 32 ∧ b.length = 32 then { s with owner := pubkeyOf? b } else s
    if offset = 0 ∧ b.length = 32 then { s with mint := pubkeyOf? b } else s
  | .memcmp _ => s

/-- `token_program_utils.rs` 475-536. -/
def ownerMintFilter (program : Pubkey) (filters : List AccountFilterType) : Option Pubkey × Option Pubkey :=
  let s := filters.foldl (FilterScan.step program) {}
  if s.dataSize = some 165 ∨ s.memcmp = some [2] then (s.owner, s.mint) else (none, none)

end LAM.Token
