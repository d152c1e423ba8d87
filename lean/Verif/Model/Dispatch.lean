import Verif.Model.Store
/-!
# The program dispatcher (`account_storage/src/storage_by_program_id.rs`)

Sub-storages are `Arc<dyn AccountStorageInterface>`: arbitrary objects with state, told apart by a number (two
table entries may hold the same `Arc`).  A call to a sub-storage is assumed to return (a panic in a
sub-storage would end the dispatcher's call with a panic).
-/
namespace LAM.Dispatch

/-- The calls of `AccountStorageInterface` (`common/src/account_store_interface.rs` 30-58). -/
inductive Call where
  | update (a : AccountData) (c : Commitment)
  | init (a : AccountData)
  | getAccount (pk : Pubkey) (c : Commitment)
  | gpa (program : Pubkey) (filters : Option (List AccountFilterType)) (c : Commitment)
  | process (info : SlotInfo) (c : Commitment)
  | createSnapshot (program : Pubkey)
  | load (program : Pubkey) (snapshot : Bytes)
deriving DecidableEq

/-- Their return types (`common/src/account_store_interface.rs` 30-58). -/
abbrev Call.Reply : Call → Type
  | .update .. => Bool
  | .init .. => Unit
  | .getAccount .. => Except LoadError (Option AccountData)
  | .gpa .. => Except LoadError (List AccountData)
  | .process .. => List AccountData
  | .createSnapshot .. => Except LoadError Bytes
  | .load .. => Except LoadError Unit

/-- What the sub-storages do when called: sub-storage `i` in state `x`. -/
structure Behaviour (σ : Type) where
  call : Nat → σ → (k : Call) → σ × k.Reply

/-- A call that was made to a sub-storage, with its answer. -/
structure Entry where
  storage : Nat
  call : Call
  reply : call.Reply

/-- The states of the sub-storages, and the calls made so far. -/
structure World (σ : Type) where
  state : Nat → σ
  log : List Entry

/-- `storage_by_program_id.rs` 11-14; the table lists the entries in the iteration order of the `HashMap`. -/
structure Table where
  map : List (Pubkey × Nat)
  default : Nat

variable {σ : Type} (B : Behaviour σ) (d : Table)

/-- Call sub-storage `i`. -/
def ask (i : Nat) (k : Call) (w : World σ) : World σ × k.Reply :=
  let r := B.call i (w.state i) k
  (⟨fun j => if j = i then r.1 else w.state j, w.log ++ [⟨i, k, r.2⟩]⟩, r.2)

/-- `HashMap::get` of `program_id_dispatch_map`. -/
def Table.find (d : Table) (p : Pubkey) : Option Nat := (d.map.find? (fun e => e.1 == p)).map (·.2)

/-- The loop of `storage_by_program_id.rs` 30-35. -/
def updateLoop (a : AccountData) (c : Commitment) (dflt : Nat) : List (Pubkey × Nat) → World σ → World σ × Bool
  | [], w => ask B dflt (.update a c) w
  | e :: es, w =>
    let (w, r) := ask B e.2 (.update a c) w
    if r then (w, true) else updateLoop a c dflt es w

/-- `storage_by_program_id.rs` 29-36. -/
def update (a : AccountData) (c : Commitment) (w : World σ) : World σ × Bool := updateLoop B a c d.default d.map w

/-- `storage_by_program_id.rs` 38-46. -/
def init (a : AccountData) (w : World σ) : World σ × Unit :=
  match d.find a.account.owner with
  | some i => ask B i (.init a) w
  | none => ask B d.default (.init a) w

/-- The loop of `storage_by_program_id.rs` 53-58. -/
def getLoop (pk : Pubkey) (c : Commitment) (dflt : Nat) :
    List (Pubkey × Nat) → World σ → World σ × Except LoadError (Option AccountData)
  | [], w => ask B dflt (.getAccount pk c) w
  | e :: es, w =>
    match ask B e.2 (.getAccount pk c) w with
    | (w, .ok r) => (w, .ok r)
    | (w, .error _) => getLoop pk c dflt es w

/-- `storage_by_program_id.rs` 48-59. -/
def getAccount (pk : Pubkey) (c : Commitment) (w : World σ) : World σ × Except LoadError (Option AccountData) :=
  getLoop B pk c d.default d.map w

/-- `storage_by_program_id.rs` 61-73. -/
def getProgramAccounts (p : Pubkey) (fs : Option (List AccountFilterType)) (c : Commitment) (w : World σ) :
    World σ × Except LoadError (List AccountData) :=
  match d.find p with
  | some i => ask B i (.gpa p fs c) w
  | none => ask B d.default (.gpa p fs c) w

/-- The loop of `storage_by_program_id.rs` 77-82. -/
def processLoop (info : SlotInfo) (c : Commitment) (dflt : Nat) :
    List (Pubkey × Nat) → World σ → World σ × List AccountData
  | [], w => ask B dflt (.process info c) w
  | e :: es, w =>
    let (w, r) := ask B e.2 (.process info c) w
    let (w, rs) := processLoop info c dflt es w
    (w, r ++ rs)

/-- `storage_by_program_id.rs` 75-84. -/
def process (info : SlotInfo) (c : Commitment) (w : World σ) : World σ × List AccountData :=
  processLoop B info c d.default d.map w

/-- `storage_by_program_id.rs` 87-92. -/
def createSnapshot (p : Pubkey) (w : World σ) : World σ × Except LoadError Bytes :=
  match d.find p with
  | some i => ask B i (.createSnapshot p) w
  | none => ask B d.default (.createSnapshot p) w

/-- `storage_by_program_id.rs` 94-103. -/
def load (p : Pubkey) (snapshot : Bytes) (w : World σ) : World σ × Except LoadError Unit :=
  match d.find p with
  | some i => ask B i (.load p snapshot) w
  | none => ask B d.default (.load p snapshot) w

end LAM.Dispatch
