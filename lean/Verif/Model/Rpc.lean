import Verif.Model.Filter
/-!
# The RPC server of the simulator (`simulate_from_snapshot/src/rpc_server.rs`)

The storage is an `Arc<dyn AccountStorageInterface>`: its three reads are parameters, each giving any outcome.  Starting the
HTTP server (lines 46-82) and the JSON form of requests and answers (generated by `jsonrpsee` and `serde`) are not modelled.
-/
namespace LAM.Rpc
open LAM

/-- `solana_account_decoder::UiAccountEncoding` (external). -/
inductive Encoding where
  | binary | base58 | base64 | jsonParsed | base64Zstd
deriving DecidableEq, Repr

/-- `RpcAccountInfoConfig` (solana-rpc-client-api, external); the data slice is offset and length. -/
structure AccountConfig where
  encoding : Option Encoding
  dataSlice : Option (Nat × Nat)
  commitment : Option CommitmentLevel
  minContextSlot : Option Nat
deriving DecidableEq, Repr

/-- `RpcProgramAccountsConfig` (solana-rpc-client-api, external). -/
structure ProgramConfig where
  filters : Option (List RpcFilter)
  account : AccountConfig
  withContext : Option Bool
deriving DecidableEq, Repr

/-- External functions: `Pubkey::from_str`, `Pubkey::to_string`, `UiAccount::encode` (whose fourth argument is always `None`
here) and the standard base64 encoder. -/
structure Externals (U : Type) where
  parse : Bytes → Option Pubkey
  text : Pubkey → Bytes
  encode : Pubkey → SolanaAccount → Encoding → Option (Nat × Nat) → U
  base64 : Bytes → Bytes

/-- `jsonrpsee::types::error::ErrorCode`, the two used. -/
inductive Error where
  | internal
  | invalidParams
deriving DecidableEq, Repr

/-- The reads of `AccountStorageInterface` (`common/src/account_store_interface.rs` 36-46, 50-53) that are used. -/
structure Storage where
  getAccount : Pubkey → Commitment → Run (Except LoadError (Option AccountData))
  getProgramAccounts : Pubkey → Option (List AccountFilterType) → Commitment → Run (Except LoadError (List AccountData))
  createSnapshot : Pubkey → Run (Except LoadError Bytes)

/-- `RpcKeyedAccount` (external). -/
structure KeyedAccount (U : Type) where
  pubkey : Bytes
  account : U
deriving DecidableEq, Repr

/-- `RpcResponse` (external): the context slot and the value (the API version is always `None`). -/
structure Response (α : Type) where
  slot : Nat
  value : α
deriving DecidableEq, Repr

/-- `OptionalContext` (external). -/
inductive OptionalContext (α : Type) where
  | context (r : Response α)
  | noContext (a : α)
deriving DecidableEq, Repr

variable {U : Type} (X : Codecs) (E : Externals U) (S : Storage)

/-- `CommitmentConfig::default()` (solana-sdk, external): finalized. -/
def defaultCommitment : CommitmentLevel := .finalized

/-- `rpc_server.rs` 215-232. -/
def toUi (a : AccountData) (config : Option AccountConfig) : Run U := do
  let encoding := ((config.map (·.encoding)).getD none).getD .base64
  let dataSlice := (config.map (·.dataSlice)).getD none
  return E.encode a.pubkey (← a.account.toSolana X) encoding dataSlice

/-- `rpc_server.rs` 133-137: `max().unwrap_or_default()`. -/
def maxSlot (l : List AccountData) : Nat := ((l.map (·.slot)).max?).getD 0

/-- `rpc_server.rs` 140-155: the `filter_map`. -/
def keyed (minSlot : Nat) (config : Option AccountConfig) : List AccountData → Run (List (KeyedAccount U))
  | [] => .ok []
  | a :: as =>
    if a.slot ≥ minSlot then do
      let u ← toUi X E a config
      let us ← keyed minSlot config as
      return ⟨E.text a.pubkey, u⟩ :: us
    else keyed minSlot config as

/-- `rpc_server.rs` 105-112. -/
def accountFilters (config : Option ProgramConfig) : Run (Option (List AccountFilterType)) :=
  match (config.map (·.filters)).getD none with
  | none => .ok none
  | some fs => do return some (← mapRun (AccountFilterType.ofRpc X) fs)

/-- `rpc_server.rs` 87-168. -/
def getProgramAccounts (program : Bytes) (config : Option ProgramConfig) :
    Run (Except Error (OptionalContext (List (KeyedAccount U)))) :=
  match E.parse program with
  | none => .ok (.error .internal)
  | some program => do
    let withContext := (config.map (·.withContext.getD false)).getD false
    let commitment := (config.bind (·.account.commitment)).getD defaultCommitment
    let filters ← accountFilters X config
    match ← S.getProgramAccounts program filters (Commitment.ofConfig commitment) with
    | .error _ => return .error .internal
    | .ok gpa =>
      let minSlot := ((config.map (fun c => if c.withContext.getD false then c.account.minContextSlot else none)).getD none).getD 0
      let slot := maxSlot gpa
      let accounts ← keyed X E minSlot (config.map (·.account)) gpa
      if withContext then return .ok (.context ⟨slot, accounts⟩)
      else return .ok (.noContext accounts)

/-- `rpc_server.rs` 170-178. -/
def getSnapshot (program : Bytes) : Run (Except Error Bytes) :=
  match E.parse program with
  | none => .ok (.error .invalidParams)
  | some program => do
    match ← S.createSnapshot program with
    | .error _ => return .error .internal
    | .ok b => return .ok (E.base64 b)

/-- `rpc_server.rs` 180-212. -/
def getAccountInfo (pubkey : Bytes) (config : Option AccountConfig) : Run (Except Error (Response (Option U))) :=
  match E.parse pubkey with
  | none => .ok (.error .invalidParams)
  | some pk => do
    let commitment := (config.bind (·.commitment)).getD defaultCommitment
    match ← S.getAccount pk (Commitment.ofConfig commitment) with
    | .error _ => return .error .internal
    | .ok (some a) => return .ok ⟨a.slot, some (← toUi X E a config)⟩
    | .ok none => return .ok ⟨0, none⟩

end LAM.Rpc
