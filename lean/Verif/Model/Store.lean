import Verif.Model.ByCommitment
/-!
# The in-memory account store (`account_storage/src/inmemory_account_store.rs`)

Every public call is one atomic step: it takes the same locks in the same order as the Rust code, and
calls run one after the other.  Metrics (`SLOT_FOR_LATEST_ACCOUNT_UPDATE`, `ACCOUNT_STORED_IN_MEMORY`)
and logging are left out.
-/
namespace LAM

/-- `AccountFiltersStoreInterface` at the moment of a call (`common/src/account_filters_interface.rs`).
The filters may differ from call to call (`MutableFilterStore`). -/
structure Filters where
  satisfies : AccountData → Bool
  contains : AccountFilter → Bool

/-- `inmemory_account_store.rs` 32-36; the `BTreeSet<usize>` is a sorted list. -/
structure SlotStatus where
  commitment : Commitment
  accountsUpdated : List Nat
  parent : Option Nat
deriving DecidableEq, Repr

/-- `inmemory_account_store.rs` 39-45 (without the filters, see `Filters`). -/
structure Store where
  index : Pubkey → Option Nat
  byOwner : Pubkey → Option (List Nat)
  slots : BMap SlotStatus
  accounts : List ByCommitment

namespace Store

/-- `inmemory_account_store.rs` 48-56. -/
def empty : Store := ⟨fun _ => none, fun _ => none, [], []⟩

/-- `BTreeSet<usize>::insert`. -/
def setInsert (l : List Nat) (i : Nat) : List Nat := sinsert natLt i l

/-- `inmemory_account_store.rs` 58-69. -/
def addAccountOwner (s : Store) (i : Nat) (owner : Pubkey) : Store :=
  { s with byOwner := fun o => if o = owner then some (setInsert ((s.byOwner owner).getD []) i)
                               else s.byOwner o }

/-- `inmemory_account_store.rs` 84-94: drop the account from the old owner's set. -/
def removeAccountOwner (s : Store) (i : Nat) (owner : Pubkey) : Store :=
  { s with byOwner := fun o => if o = owner then (s.byOwner owner).map (·.filter (· ≠ i))
                               else s.byOwner o }

/-- `inmemory_account_store.rs` 164-166. -/
def isDeleted (a : AccountData) : Bool := a.account.lamports == 0

/-- `inmemory_account_store.rs` 74-107. -/
def updateOwnerDeleteIfNecessary (F : Filters) (s : Store) (prev new : AccountData) (i : Nat)
    (c : Commitment) : Run (Store × Bool) :=
  if prev.pubkey ≠ new.pubkey then .panic
  else if prev.account.owner ≠ new.account.owner then
    if c = .finalized then
      let s := s.removeAccountOwner i prev.account.owner
      if isDeleted new || !F.satisfies new then .ok (s, true)
      else if !isDeleted new && F.satisfies new then
        .ok (s.addAccountOwner i new.account.owner, false)
      else .ok (s, false)
    else if !isDeleted new && F.satisfies new then
      .ok (s.addAccountOwner i new.account.owner, false)
    else .ok (s, false)
  else .ok (s, false)

/-- `inmemory_account_store.rs` 110-139. -/
def addIndexToSlot (s : Store) (slot i : Nat) (c : Commitment) : Store × Commitment :=
  let st := (BMap.find s.slots slot).getD ⟨c, [], none⟩
  match c with
  | .finalized => ({ s with slots := BMap.insert s.slots slot st }, c)
  | _ =>
    let st' := { st with accountsUpdated := setInsert st.accountsUpdated i }
    ({ s with slots := BMap.insert s.slots slot st' }, st.commitment)

/-- `inmemory_account_store.rs` 141-158. -/
def maybeUpdateSlotStatus (s : Store) (a : AccountData) (c : Commitment) : Store × Commitment :=
  match s.index a.pubkey with
  | some i => s.addIndexToSlot a.slot i c
  | none => (s, c)

/-- `inmemory_account_store.rs` 168-170. -/
def containsKey (s : Store) (pk : Pubkey) : Bool := (s.index pk).isSome

/-- `DashMap::remove` on `pubkey_to_account_index`. -/
def dropKey (s : Store) (pk : Pubkey) : Store :=
  { s with index := fun k => if k = pk then none else s.index k }

/-- Write the per-account state at an index (through the lock obtained for it). -/
def setAt (s : Store) (i : Nat) (e : ByCommitment) : Store := { s with accounts := s.accounts.set i e }

/-- `inmemory_account_store.rs` 221-243: the account is tracked at index `i`. -/
def updateOccupied (F : Filters) (s : Store) (a : AccountData) (c : Commitment) (i : Nat) :
    Run (Store × Bool) := do
  let e ← Run.unwrap (s.accounts[i]?)
  let prev := e.get c
  let (e', up) := e.update a c
  let s := s.setAt i e'
  if up then
    match prev with
    | some prev =>
      let (s, del) ← updateOwnerDeleteIfNecessary F s prev a i c
      if del then return ((s.setAt i e'.delete).dropKey a.pubkey, true) else return (s, true)
    | none => return (s, true)
  else return (s, false)

/-- `inmemory_account_store.rs` 244-261: the account is not tracked. -/
def updateVacant (F : Filters) (s : Store) (a : AccountData) (c : Commitment) : Store × Bool :=
  if F.satisfies a then
    let s := { s with accounts := s.accounts ++ [ByCommitment.new a c] }
    let i := s.accounts.length - 1
    let s := s.addAccountOwner i a.account.owner
    let s := (s.addIndexToSlot a.slot i c).1
    ({ s with index := fun k => if k = a.pubkey then some i else s.index k }, true)
  else (s, false)

/-- `inmemory_account_store.rs` 205-264. -/
def updateAccount (F : Filters) (s : Store) (a : AccountData) (c : Commitment) : Run (Store × Bool) :=
  if !isDeleted a && !F.satisfies a && !s.containsKey a.pubkey then .ok (s, false)
  else
    let (s, c) := s.maybeUpdateSlotStatus a c
    match s.index a.pubkey with
    | some i => updateOccupied F s a c i
    | none => .ok (updateVacant F s a c)

/-- `inmemory_account_store.rs` 266-268. -/
def initializeOrUpdate (F : Filters) (s : Store) (a : AccountData) : Run Store := do
  let r ← s.updateAccount F a .finalized
  return r.1

/-- `inmemory_account_store.rs` 270-292. -/
def getAccount (s : Store) (pk : Pubkey) (c : Commitment) : Run (Option AccountData) :=
  match s.index pk with
  | none => .ok none
  | some i => do
    let e ← Run.unwrap (s.accounts[i]?)
    match e.get c with
    | some a => if a.account.lamports > 0 then return some a else return none
    | none => return none

/-- `inmemory_account_store.rs` 172-201: what one account contributes to the answer. -/
def gpaOne (X : Codecs) (e : ByCommitment) (c : Commitment) (program : Pubkey)
    (filters : Option (List AccountFilterType)) : Run (List AccountData) :=
  match filters with
  | some fs => do
    match ← e.getFiltered X c fs with
    | some a => if a.account.lamports > 0 ∧ a.account.owner = program then return [a] else return []
    | none => return []
  | none =>
    match e.get c with
    | some a => if program = a.account.owner then .ok [a] else .ok []
    | none => .ok []

/-- One pass of `inmemory_account_store.rs` 318-333 / 335-344 over the given indexes. -/
def gpaPass (X : Codecs) (s : Store) (c : Commitment) (program : Pubkey)
    (filters : Option (List AccountFilterType)) : List Nat → Run (List AccountData)
  | [] => .ok []
  | i :: is => do
    let e ← Run.unwrap (s.accounts[i]?)
    let r ← gpaOne X e c program filters
    let rs ← gpaPass X s c program filters is
    return r ++ rs

/-- `inmemory_account_store.rs` 294-347. `busy` tells which per-account locks fail `try_read` in the
first pass; those accounts are visited in a second pass. -/
def getProgramAccounts (X : Codecs) (F : Filters) (busy : Nat → Bool) (s : Store) (program : Pubkey)
    (filters : Option (List AccountFilterType)) (c : Commitment) :
    Run (Except LoadError (List AccountData)) :=
  if !F.contains ⟨[], some program, filters⟩ then
    .ok (.error .configDoesNotContainRequiredFilters)
  else match s.byOwner program with
    | none => .ok (.ok [])
    | some idxs => do
      let r1 ← gpaPass X s c program filters (idxs.filter (fun i => !busy i))
      let r2 ← gpaPass X s c program filters (idxs.filter (fun i => busy i))
      return .ok (r1 ++ r2)

/-- `HashMap<AccountIndex, Slot>` entries of `writable_accounts`, in some order. -/
abbrev Writable := List (Nat × Nat)

/-- `inmemory_account_store.rs` 367-376: keep the slot of an account already present. -/
def addWritable (w : Writable) (slot i : Nat) : Writable :=
  if w.any (fun e => e.1 == i) then w else w ++ [(i, slot)]

/-- `inmemory_account_store.rs` 355-410: the walk over `slot` and its recorded ancestors.  `fuel` bounds
the number of iterations; running out of it is `diverge` (shown not to happen). -/
def walk (info : SlotInfo) (c : Commitment) :
    Nat → BMap SlotStatus → Writable → Nat → Option Nat → Run (BMap SlotStatus × Writable)
  | 0, _, _, _, _ => .diverge
  | fuel + 1, slots, w, slot, parent =>
    match BMap.find slots slot with
    | some st =>
      if st.commitment = c then .ok (slots, w)
      else
        let par := if parent.isSome then parent else st.parent
        let slots := BMap.insert slots slot { st with commitment := c, parent := par }
        let w := st.accountsUpdated.foldl (fun w i => addWritable w slot i) w
        if c = .confirmed ∨ c = .finalized then
          match par with
          | some p => walk info c fuel slots w p none
          | none => .ok (slots, w)
        else .ok (slots, w)
    | none =>
      if c = .confirmed ∨ c = .processed then
        .ok (BMap.insert slots slot ⟨c, [], some info.parent⟩, w)
      else .ok (slots, w)

/-- `inmemory_account_store.rs` 413-422: drop the status of slots below the finalized one. -/
def dropOldSlots (slots : BMap SlotStatus) (slot : Nat) (c : Commitment) : BMap SlotStatus :=
  if c = .finalized then slots.dropWhile (fun e => e.1 < slot) else slots

/-- `inmemory_account_store.rs` 431-452: promote one account; returns what is pushed to the answer. -/
def promoteOne (F : Filters) (c : Commitment) (s : Store) (i slot : Nat) :
    Run (Store × List AccountData) := do
  let e ← Run.unwrap (s.accounts[i]?)
  let (e', r) := e.promote slot c
  let s := s.setAt i e'
  match r with
  | none => return (s, [])
  | some (a, none) => return (s, [a])
  | some (a, some prev) =>
    if prev.account.owner ≠ a.account.owner ∨ a.account.lamports = 0 then
      let (s, del) ← updateOwnerDeleteIfNecessary F s prev a i c
      if del then return ((s.dropKey a.pubkey).setAt i e'.delete, [a]) else return (s, [a])
    else return (s, [a])

/-- `inmemory_account_store.rs` 430-453: the promotion loop over the writable accounts. -/
def promoteAll (F : Filters) (c : Commitment) : Store → Writable → Run (Store × List AccountData)
  | s, [] => .ok (s, [])
  | s, (i, slot) :: w => do
    let (s, r) ← promoteOne F c s i slot
    let (s, rs) ← promoteAll F c s w
    return (s, r ++ rs)

/-- Iteration order of a hash map: an arbitrary permutation of its entries. -/
structure Order where
  arrange : Writable → Writable
  perm : ∀ w, (arrange w).Perm w

/-- The order in which entries were inserted. -/
def Order.asIs : Order := ⟨id, fun w => .refl w⟩

/-- `inmemory_account_store.rs` 349-455. `σ` is the iteration order of `writable_accounts`. -/
def processSlotData (F : Filters) (σ : Order) (s : Store) (info : SlotInfo) (c : Commitment) :
    Run (Store × List AccountData) := do
  let (slots, w) ← walk info c (s.slots.length + 1) s.slots [] info.slot (some info.parent)
  let s := { s with slots := dropOldSlots slots info.slot c }
  promoteAll F c s (σ.arrange w)

end Store

/-- A call that changes the store.  `initilize_or_update_account` is `update` at `finalized`, and
`load_from_snapshot` is a sequence of those. -/
inductive Op where
  | update (F : Filters) (a : AccountData) (c : Commitment)
  | slot (F : Filters) (σ : Store.Order) (info : SlotInfo) (c : Commitment)

/-- Effect of one call. -/
def Store.step (s : Store) : Op → Run Store
  | .update F a c => do let r ← s.updateAccount F a c; return r.1
  | .slot F σ info c => do let r ← s.processSlotData F σ info c; return r.1

/-- Effect of a history of calls. -/
def Store.run (s : Store) : List Op → Run Store
  | [] => .ok s
  | op :: ops => do let s' ← s.step op; s'.run ops

end LAM
