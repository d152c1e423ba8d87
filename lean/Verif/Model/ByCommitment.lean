import Verif.Basic.BMap
import Verif.Model.Filter
/-!
# Per-account states (`account_storage/src/account_data_by_commitment.rs`)
-/
namespace LAM

/-- `account_data_by_commitment.rs` 10-16. -/
structure ByCommitment where
  processed : BMap AccountData
  confirmed : Option AccountData
  finalized : Option AccountData
deriving DecidableEq, Repr

namespace ByCommitment

/-- `account_data_by_commitment.rs` 20-39. -/
def new (a : AccountData) (c : Commitment) : ByCommitment where
  processed := [(a.slot, a)]
  confirmed := if c = .confirmed ∨ c = .finalized then some a else none
  finalized := if c = .finalized then some a else none

/-- `account_data_by_commitment.rs` 41-51. -/
def get (e : ByCommitment) (c : Commitment) : Option AccountData :=
  match c with
  | .processed => (BMap.lastVal e.processed).or e.confirmed
  | .confirmed => e.confirmed
  | .finalized => e.finalized

/-- `account_data_by_commitment.rs` 71-77: `Datasize` filters against the stored length. -/
def sizesMatch (a : AccountData) (fs : List AccountFilterType) : Bool :=
  fs.all fun f => match f with
    | .datasize n => a.account.data.len == n
    | .memcmp _ => true

/-- `account_data_by_commitment.rs` 91-104: the same account with uncompressed data. -/
def withUncompressed (a : AccountData) (d : Bytes) : AccountData :=
  { a with account := { a.account with data := .uncompressed d } }

/-- `account_data_by_commitment.rs` 68-111: the filter check on the selected state. -/
def filterState (X : Codecs) (a : AccountData) (fs : List AccountFilterType) :
    Run (Option AccountData) :=
  if !sizesMatch a fs then .ok none
  else if fs.isEmpty then .ok (some a)
  else match a.account.data with
    | .uncompressed d => do
      if (← Run.allM (fun f => f.allows X d) fs) then return some a else return none
    | _ => do
      let d ← a.account.data.data X
      if (← Run.allM (fun f => f.allows X d) fs) then return some (withUncompressed a d)
      else return none

/-- `account_data_by_commitment.rs` 53-111. -/
def getFiltered (X : Codecs) (e : ByCommitment) (c : Commitment) (fs : List AccountFilterType) :
    Run (Option AccountData) :=
  match e.get c with
  | none => .ok none
  | some a => filterState X a fs

/-- `account_data_by_commitment.rs` 115-123 (unused by the store, kept for completeness). -/
def initialized (a : AccountData) : ByCommitment := ⟨[(a.slot, a)], some a, some a⟩

/-- `account_data_by_commitment.rs` 129-144: is `a` newer than the stored state. -/
def isNewer (x : Option AccountData) (a : AccountData) : Bool :=
  match x with
  | none => true
  | some x => x.slot < a.slot || (x.slot == a.slot && x.wv < a.wv)

/-- `account_data_by_commitment.rs` 150-163: the processed map after the update and whether it changed. -/
def updateProcessed (m : BMap AccountData) (a : AccountData) : BMap AccountData × Bool :=
  match BMap.find m a.slot with
  | some p => if p.wv < a.wv then (BMap.insert m a.slot a, true) else (m, false)
  | none => (BMap.insert m a.slot a, true)

/-- `account_data_by_commitment.rs` 125-186. -/
def update (e : ByCommitment) (a : AccountData) (c : Commitment) : ByCommitment × Bool :=
  let updateConfirmed := isNewer e.confirmed a
  let updateFinalized := isNewer e.finalized a
  let (m, up) := updateProcessed e.processed a
  match c with
  | .confirmed =>
    if updateConfirmed then (⟨m, some a, e.finalized⟩, true) else (⟨m, e.confirmed, e.finalized⟩, up)
  | .finalized =>
    let conf := if updateConfirmed then some a else e.confirmed
    if updateFinalized then (⟨m, conf, some a⟩, true) else (⟨m, conf, e.finalized⟩, up)
  | .processed => (⟨m, e.confirmed, e.finalized⟩, up)

/-- The pruning loop of `account_data_by_commitment.rs` 245-254 and 260-269: drop entries below `slot`
from the front while more than one is left. -/
def prune (slot : Nat) : BMap AccountData → BMap AccountData
  | [] => []
  | [e] => [e]
  | e :: e' :: t => if e.1 < slot then prune slot (e' :: t) else e :: e' :: t

/-- `account_data_by_commitment.rs` 189-276; returns the promoted state with the state it replaced. -/
def promote (e : ByCommitment) (slot : Nat) (c : Commitment) :
    ByCommitment × Option (AccountData × Option AccountData) :=
  match BMap.find e.processed slot with
  | some a =>
    match c with
    | .processed => (e, none)
    | .confirmed =>
      match e.confirmed with
      | some prev =>
        if prev.slot < a.slot then ({ e with confirmed := some a }, some (a, some prev))
        else (e, none)
      | none => ({ e with confirmed := some a }, some (a, none))
    | .finalized =>
      let conf := match e.confirmed with
        | some x => if x.slot < a.slot then some a else some x
        | none => some a
      match e.finalized with
      | some prev =>
        if prev.slot < a.slot then (⟨prune slot e.processed, conf, some a⟩, some (a, some prev))
        else (⟨prune slot e.processed, conf, some prev⟩, none)
      | none => (⟨prune slot e.processed, conf, some a⟩, some (a, none))
  | none =>
    if c = .finalized then ({ e with processed := prune slot e.processed }, none) else (e, none)

/-- `account_data_by_commitment.rs` 278-282. -/
def delete (_ : ByCommitment) : ByCommitment := ⟨[], none, none⟩

end ByCommitment
end LAM
