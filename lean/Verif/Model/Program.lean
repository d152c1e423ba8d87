import Verif.Model.Rpc
import Verif.Model.Simulator
import Verif.Model.TokenPanic
import Verif.Model.TokenSnapshot
/-!
# The simulator program (`simulate_from_snapshot/src/main.rs` 27-168)

Three tasks share one token store: the stream of the validator, the loader of the archive, and the RPC server, which is started
when the loader has ended.  They run in turns of one call to the store each; what happens if calls overlap is the subject of
`Model/TokenConc`.  Arguments, logs and the connection are not modelled: messages come in any number and order, and the stream
may end, or never begin, at any time.
-/
namespace LAM.Sim
open LAM AppendVec Token

/-- How far the loader is (`main.rs` 128-156). -/
inductive Loader where
  | opening (items : List Item)
  | reading (accounts : List StoredAccount) (vecs : List (Except SnapshotError AppendVec))
  | done

/-- `listening`: the task of `main.rs` 49-119 still takes messages. -/
structure Main where
  loader : Loader
  listening : Bool
  store : TokenStore

/-- `main.rs` 42-47: `url` tells whether a stream is to be followed. -/
def Main.start (url : Bool) (items : List Item) : Main := ⟨.opening items, url, .empty⟩

/-- `main.rs` 128-156, one turn: the archive is opened, the next append vec is taken, an account is passed over or given to the
store, or the loop ends. -/
def loadStep (X : Codecs) (decode : Bytes → Option Manifest) : Loader → TokenStore → Run (Loader × TokenStore)
  | .opening items, s =>
    match fromReader decode items with
    | .error _ => .panic
    | .ok (m, rest) => .ok (.reading [] (archiveIter m rest), s)
  | .reading [] [], s => .ok (.done, s)
  | .reading [] (.error _ :: _), _ => .panic
  | .reading [] (.ok v :: vecs), s => do
    let accounts ← iterate v (v.currentLen / 136 + 1) 0
    return (.reading accounts vecs, s)
  | .reading (a :: accounts) vecs, s =>
    if a.account.owner ≠ Spl.tokenId then .ok (.reading accounts vecs, s)
    else do return (.reading accounts vecs, ← s.initAccount X (snapshotAccount a))
  | .done, s => .ok (.done, s)

/-- A call of the stream task: the store it leaves, and whether it returned.  A notification that panics leaves what
`attemptSlot` says.  An update does not panic on data that decodes (`C107_updates_return`), so what it would leave does not
matter. -/
def streamCall (X : Codecs) (s : TokenStore) : TokenStore.TOp → Run (TokenStore × Bool)
  | .slot σ info c => do
    let (s, r) ← s.attemptSlot σ info c
    return (s, r.isSome)
  | o =>
    match s.step X o with
    | .ok s => .ok (s, true)
    | .panic => .ok (s, false)
    | .diverge => .diverge

/-- What happens next; `σ` gives the iteration orders. -/
inductive Event where
  | load
  | message (σ : Orders) (m : Message)
  | hangUp

/-- One turn.  A panic of the loader ends the program (`main.rs` 160), a panic of the stream task (`main.rs` 60-115) only this
task: its handle is dropped. -/
def Main.step (X : Codecs) (decode : Bytes → Option Manifest) (w : Main) : Event → Run Main
  | .load => do
    let (l, s) ← loadStep X decode w.loader w.store
    return { w with loader := l, store := s }
  | .message σ m =>
    if w.listening then
      match messageCall X σ m with
      | .ok none => .ok w
      | .ok (some o) => do
        let (s, b) ← streamCall X w.store o
        return { w with listening := b, store := s }
      | .panic => .ok { w with listening := false }
      | .diverge => .diverge
    else .ok w
  | .hangUp => .ok { w with listening := false }

/-- One turn after the other. -/
def Main.run (X : Codecs) (decode : Bytes → Option Manifest) : List Event → Main → Run Main
  | [], w => .ok w
  | e :: es, w => do Main.run X decode es (← w.step X decode e)

/-- The token store as the storage of the RPC server (`main.rs` 163; `inmemory_token_storage.rs` 616-693, 740-765). -/
def storageOf (X : Codecs) (L : Lz4Block) (σ : Orders) (o : SnapshotOrders) (s : TokenStore) : Rpc.Storage where
  getAccount pk c := do return .ok (← s.getAccount pk c)
  getProgramAccounts p fs c := s.getProgramAccounts X σ p fs c
  createSnapshot p := s.createSnapshot L o p

/-- `main.rs` 160-167: requests are answered when the loader has ended. -/
def Main.serves (w : Main) : Prop := w.loader = .done

end LAM.Sim
