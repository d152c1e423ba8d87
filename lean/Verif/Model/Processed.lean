import Verif.Basic.BMap
import Verif.Model.TokenUtils
/-!
# Unfinalized token program accounts (`token_account_storage/src/inmemory_token_storage.rs` 44-301)

`processed_slot_accounts` is behind one lock; each method is one atomic step.  The logs are left out; for the gauges see `Model/Gauges`.
-/
namespace LAM.Token

/-- `inmemory_token_storage.rs` 44-48. -/
structure Processed where
  account : ProgramAccount
  wv : Nat
deriving DecidableEq, Repr

/-- `inmemory_token_storage.rs` 50-53. -/
structure BySlot where
  accounts : AMap Pubkey Processed
  parent : Option Nat
deriving DecidableEq, Repr

/-- `inmemory_token_storage.rs` 55-58. -/
abbrev ProcStore := BMap BySlot

namespace ProcStore

/-- `inmemory_token_storage.rs` 61-124. -/
def insertAccount (P : ProcStore) (pk : Pubkey) (x : ProgramAccount) (wv slot : Nat) : Bool × ProcStore :=
  match BMap.find P slot with
  | some e =>
    match e.accounts.find pk with
    | some old =>
      if old.wv < wv then (true, BMap.insert P slot { e with accounts := e.accounts.insert pk ⟨x, wv⟩ })
      else (false, P)
    | none => (true, BMap.insert P slot { e with accounts := e.accounts.insert pk ⟨x, wv⟩ })
  | none => (true, BMap.insert P slot ⟨[(pk, ⟨x, wv⟩)], none⟩)

/-- `inmemory_token_storage.rs` 126-148: the parent of a slot seen for the first time is not kept. -/
def updateSlotInfo (P : ProcStore) (info : SlotInfo) : ProcStore :=
  match BMap.find P info.slot with
  | some e => BMap.insert P info.slot { e with parent := some info.parent }
  | none => BMap.insert P info.slot ⟨[], none⟩

/-- The `filter_map` of `inmemory_token_storage.rs` 157-168 and 721-731. -/
def toSolanaAll (mints : AMap Nat MintAccount) : List (Processed × Nat) → Run (List AccountData)
  | [] => .ok []
  | (x, slot) :: l => do
    let r ← x.account.toSolana mints slot x.wv
    let rs ← toSolanaAll mints l
    return r.toList ++ rs

/-- `inmemory_token_storage.rs` 150-176. -/
def getProcessedForSlot (P : ProcStore) (info : SlotInfo) (mints : AMap Nat MintAccount) :
    Run (List AccountData × ProcStore) :=
  match BMap.find P info.slot with
  | some e => do
    let l ← toSolanaAll mints (e.accounts.map (fun x => (x.2, info.slot)))
    return (l, P)
  | none => .ok ([], P.updateSlotInfo info)

/-- The newest states found so far, with their slots (`map_of_accounts`). -/
abbrev Found := AMap Pubkey (Processed × Nat)

/-- `inmemory_token_storage.rs` 188-201. -/
def collect (slot : Nat) : AMap Pubkey Processed → Found → Found
  | [], found => found
  | (pk, x) :: l, found =>
    collect slot l (match found.find pk with
      | some _ => found
      | none => found.insert pk (x, slot))

/-- `inmemory_token_storage.rs` 184-209; the first argument bounds the number of rounds, see `finalizeLoop_total`. -/
def finalizeLoop : Nat → ProcStore → Found → Nat → Run (ProcStore × Found)
  | 0, _, _, _ => .diverge
  | fuel + 1, P, found, slot =>
    match BMap.find P slot with
    | none => .ok (P, found)
    | some e =>
      let found := collect slot e.accounts found
      let P := BMap.erase P slot
      match e.parent with
      | none => .ok (P, found)
      | some p => finalizeLoop fuel P found p

/-- `inmemory_token_storage.rs` 212-218: first entries are removed as long as their slot is not above. -/
def dropUpTo (P : ProcStore) (slot : Nat) : ProcStore := P.dropWhile (fun e => e.1 ≤ slot)

/-- `inmemory_token_storage.rs` 179-224; the result in insertion order, see `Orders`. -/
def finalize (P : ProcStore) (slot : Nat) : Run (ProcStore × List (Processed × Nat)) := do
  let (P', found) ← finalizeLoop (P.length + 1) P [] slot
  return (dropUpTo P' slot, found.map Prod.snd)

/-- Answers for a list of public keys. -/
abbrev Answers := List (Option (Processed × Nat))

/-- `inmemory_token_storage.rs` 237-245, 272-282; the two lists have the same length. -/
def fill (slot : Nat) (e : BySlot) (pks : List Pubkey) (ret : Answers) : Answers :=
  List.zipWith (fun pk r => r.or ((e.accounts.find pk).map (fun x => (x, slot)))) pks ret

/-- `inmemory_token_storage.rs` 226-256; the first argument bounds the number of rounds, see `getConfirmed_diverge`. -/
def getConfirmed : Nat → ProcStore → List Pubkey → Answers → Nat → Run Answers
  | 0, _, _, _, _ => .diverge
  | fuel + 1, P, pks, ret, slot =>
    match BMap.find P slot with
    | none => .ok ret
    | some e =>
      let ret := fill slot e pks ret
      if ret.all Option.isSome then .ok ret
      else match e.parent with
        | none => .ok ret
        | some p => getConfirmed fuel P pks ret p

/-- `inmemory_token_storage.rs` 269-292: the list holds the entries still to visit, newest first. -/
def getProcessed (P : ProcStore) (pks : List Pubkey) (confirmed : Nat) : List (Nat × BySlot) → Answers → Run Answers
  | [], ret => .ok ret
  | (slot, e) :: l, ret =>
    if slot > confirmed then
      let ret := fill slot e pks ret
      if ret.all Option.isSome then .ok ret else getProcessed P pks confirmed l ret
    else getConfirmed (P.length + 1) P pks ret confirmed

/-- `inmemory_token_storage.rs` 258-300. -/
def getAccounts (P : ProcStore) (pks : List Pubkey) (c : Commitment) (confirmed : Nat) : Run Answers :=
  let ret := List.replicate pks.length none
  match c with
  | .processed => getProcessed P pks confirmed P.reverse ret
  | .confirmed => getConfirmed (P.length + 1) P pks ret confirmed
  | .finalized => .panic

end ProcStore
end LAM.Token
