import Verif.Model.Store
/-!
# Concurrent calls of the in-memory account store (`account_storage/src/inmemory_account_store.rs`)

A transition system of any number of threads that call `update_account`, `process_slot_data`, `get_account` and
`get_program_accounts` on one store (`initilize_or_update_account`, `create_snapshot` and `load_from_snapshot` are made of
these).  Three kinds of locks are held while other ones are waited for, and are part of the model:

* the shard of the `DashMap` `pubkey_to_account_index` that a pubkey falls in, write-locked by `entry` (220) until the end of
  the `match`;
* the `RwLock` `accounts_store`;
* the `RwLock` of one account.

Which of them a thread holds is read off its program counter (`Pc.shard`, `Pc.reads`, `Pc.writes`).  The mutex `slots_status`
and the locks of `accounts_by_owner` are only held while nothing else is waited for; what is done under them is one step.  So
are reads of a shard or of one account, and pushing an account with `accounts_store` write-locked.  `get_program_accounts`
keeps the set of an owner read-locked during its first loop, in which it waits for nothing: it works on the set as it was at the
beginning of the loop.
-/
namespace LAM.Conc
open Store

/-- The calls. -/
inductive Call where
  | update (a : AccountData) (c : Commitment)
  | process (info : SlotInfo) (c : Commitment)
  | get (pk : Pubkey) (c : Commitment)
  | gpa (program : Pubkey) (fs : Option (List AccountFilterType)) (c : Commitment)

/-- What they return; a panic ends the call too. -/
inductive Reply where
  | updated (b : Bool)
  | reported (l : List AccountData)
  | account (a : Option AccountData)
  | accounts (r : Except LoadError (List AccountData))
  | panicked

/-- What can be seen from outside. -/
inductive Event where
  | call (k : Call)
  | ret (r : Reply)

/-- Where a thread is, with its local variables. -/
inductive Pc where
  /-- not in a call -/
  | idle
  /-- `update_account`: about to check whether the account is of interest (209-214) -/
  | upCheck (a : AccountData) (c : Commitment)
  /-- about to look up the index (147-156) -/
  | upLookup (a : AccountData) (c : Commitment)
  /-- about to lock `slots_status` (116) -/
  | upSlot (a : AccountData) (c : Commitment) (i : Nat)
  /-- about to lock the shard (220) -/
  | upEntry (a : AccountData) (c : Commitment)
  /-- has the shard, the account is at index `i`, about to read-lock `accounts_store` (223) -/
  | upStore (a : AccountData) (c : Commitment) (i : Nat)
  /-- about to write-lock the account (224) -/
  | upAccount (a : AccountData) (c : Commitment) (i : Nat)
  /-- has all three locks (225-227) -/
  | upWrite (a : AccountData) (c : Commitment) (i : Nat)
  /-- the owner changed at finalized: about to leave the set of the old owner (84-94), then 97 -/
  | upUnown (a prev : AccountData) (i : Nat)
  /-- about to join the set of the new owner (101-104) -/
  | upOwn (a : AccountData) (i : Nat)
  /-- about to delete the account and its entry (235-236) -/
  | upDrop (a : AccountData) (i : Nat)
  /-- has the shard, the account is unknown and of interest, about to write-lock `accounts_store` (247) -/
  | upPush (a : AccountData) (c : Commitment)
  /-- pushed as index `i`, about to join the set of its owner (254) -/
  | upNewOwn (a : AccountData) (c : Commitment) (i : Nat)
  /-- about to lock `slots_status` (255) -/
  | upNewSlot (a : AccountData) (c : Commitment) (i : Nat)
  /-- about to insert the entry (256) -/
  | upInsert (a : AccountData) (i : Nat)
  /-- `process_slot_data`: about to lock `slots_status` (352) -/
  | prWalk (info : SlotInfo) (c : Commitment)
  /-- about to read-lock `accounts_store` (429) -/
  | prStore (c : Commitment) (l : Writable)
  /-- at the head of the loop (430-431); `l` is left to do, `out` was pushed -/
  | prNext (c : Commitment) (l : Writable) (out : List AccountData)
  /-- has the account at `i` write-locked (432-433) -/
  | prPromote (c : Commitment) (i slot : Nat) (l : Writable) (out : List AccountData)
  /-- the owner changed at finalized: about to leave the set of the old owner (84-94), then 97 -/
  | prUnown (c : Commitment) (i : Nat) (a prev : AccountData) (l : Writable) (out : List AccountData)
  /-- about to join the set of the new owner (101-104) -/
  | prOwn (c : Commitment) (i : Nat) (a : AccountData) (l : Writable) (out : List AccountData)
  /-- about to remove the entry, which locks the shard (446) -/
  | prDrop (c : Commitment) (i : Nat) (a : AccountData) (l : Writable) (out : List AccountData)
  /-- about to delete the account (447) -/
  | prClear (c : Commitment) (i : Nat) (a : AccountData) (l : Writable) (out : List AccountData)
  /-- `get_account`: about to look up the index (275) -/
  | geLookup (pk : Pubkey) (c : Commitment)
  /-- about to read-lock `accounts_store` (279) -/
  | geStore (pk : Pubkey) (c : Commitment) (i : Nat)
  /-- about to read the account (279-282) -/
  | geRead (pk : Pubkey) (c : Commitment) (i : Nat)
  /-- `get_program_accounts`: about to ask the filters (300-306) -/
  | gpContains (p : Pubkey) (fs : Option (List AccountFilterType)) (c : Commitment)
  /-- about to look for the set of the owner (307-312) -/
  | gpOwner (p : Pubkey) (fs : Option (List AccountFilterType)) (c : Commitment)
  /-- about to read-lock `accounts_store` (315) -/
  | gpStore (p : Pubkey) (fs : Option (List AccountFilterType)) (c : Commitment)
  /-- about to read-lock the set (318) -/
  | gpSet (p : Pubkey) (fs : Option (List AccountFilterType)) (c : Commitment)
  /-- in the first loop (318-333); `l` is left to do, `retry` was busy, `out` was found -/
  | gpScan (p : Pubkey) (fs : Option (List AccountFilterType)) (c : Commitment) (l retry : List Nat) (out : List AccountData)
  /-- in the second loop (335-344) -/
  | gpRetry (p : Pubkey) (fs : Option (List AccountFilterType)) (c : Commitment) (l : List Nat) (out : List AccountData)

/-- The entry of this pubkey, and with it its shard, is held. -/
def Pc.shard : Pc → Option Pubkey
  | .upStore a .. | .upAccount a .. | .upWrite a .. | .upUnown a .. | .upOwn a .. | .upDrop a .. | .upPush a ..
  | .upNewOwn a .. | .upNewSlot a .. | .upInsert a .. => some a.pubkey
  | _ => none

/-- `accounts_store` is read-locked. -/
def Pc.reads : Pc → Bool
  | .upAccount .. | .upWrite .. | .upUnown .. | .upOwn .. | .upDrop .. | .prNext .. | .prPromote .. | .prUnown ..
  | .prOwn .. | .prDrop .. | .prClear .. | .geRead .. | .gpSet .. | .gpScan .. | .gpRetry .. => true
  | _ => false

/-- This account is write-locked. -/
def Pc.writes : Pc → Option Nat
  | .upWrite _ _ i | .upUnown _ _ i | .upOwn _ i | .upDrop _ i | .prPromote _ i .. | .prUnown _ i .. | .prOwn _ i ..
  | .prDrop _ i .. | .prClear _ i .. => some i
  | _ => none

/-- The thread waits to write-lock `accounts_store`. -/
def Pc.pushes : Pc → Bool
  | .upPush .. => true
  | _ => false

/-- The shards of the `DashMap`; whether an `RwLock` lets waiting writers pass new readers (left open by `std`); codecs. -/
structure Env where
  shardOf : Pubkey → Nat
  writersFirst : Bool
  codecs : Codecs

/-- The store, the filters at the moment, the threads, and what happened so far (only recorded). -/
structure World where
  st : Store
  filters : Filters
  pc : Nat → Pc
  log : List (Nat × Event)

/-- Function update. -/
def upd (f : Nat → Pc) (t : Nat) (p : Pc) : Nat → Pc := fun x => if x = t then p else f x

namespace World

/-- Thread `t` goes on at `p` with the store `s`. -/
def go (w : World) (t : Nat) (s : Store) (p : Pc) : World := { w with st := s, pc := upd w.pc t p }

/-- Thread `t` returns `r` and leaves the store `s`. -/
def ret (w : World) (t : Nat) (s : Store) (r : Reply) : World :=
  { w with st := s, pc := upd w.pc t .idle, log := w.log ++ [(t, .ret r)] }

/-- No other thread has the shard of `pk`. -/
def ShardFree (E : Env) (w : World) (pk : Pubkey) : Prop :=
  ∀ t pk', (w.pc t).shard = some pk' → E.shardOf pk' ≠ E.shardOf pk

/-- No thread has the account at `i` write-locked. -/
def AccountFree (w : World) (i : Nat) : Prop := ∀ t, (w.pc t).writes ≠ some i

/-- No thread has `accounts_store` read-locked. -/
def NoReader (w : World) : Prop := ∀ t, (w.pc t).reads = false

/-- `accounts_store` can be read-locked: a writer is in the way only while it waits and is preferred. -/
def CanRead (E : Env) (w : World) : Prop := E.writersFirst = true → ∀ t, (w.pc t).pushes = false

end World
open World

/-- Where a call begins. -/
def Call.start : Call → Pc
  | .update a c => .upCheck a c
  | .process info c => .prWalk info c
  | .get pk c => .geLookup pk c
  | .gpa p fs c => .gpContains p fs c

/-- `inmemory_account_store.rs` 225-242 up to the changes of `accounts_by_owner`; with `assert_eq` (81). -/
def doWrite (w : World) (t : Nat) (a : AccountData) (c : Commitment) (i : Nat) : World :=
  match w.st.accounts[i]? with
  | none => w.ret t w.st .panicked
  | some e =>
    let (e', up) := e.update a c
    let s := w.st.setAt i e'
    if up then
      match e.get c with
      | none => w.ret t s (.updated true)
      | some prev =>
        if prev.pubkey ≠ a.pubkey then w.ret t s .panicked
        else if prev.account.owner ≠ a.account.owner then
          if c = .finalized then w.go t s (.upUnown a prev i) else w.go t s (.upOwn a i)
        else w.ret t s (.updated true)
    else w.ret t s (.updated false)

/-- `inmemory_account_store.rs` 432-452 up to the changes of `accounts_by_owner`; with `assert_eq` (81). -/
def doPromote (w : World) (t : Nat) (c : Commitment) (i slot : Nat) (l : Writable) (out : List AccountData) : World :=
  match w.st.accounts[i]? with
  | none => w.ret t w.st .panicked
  | some e =>
    let (e', r) := e.promote slot c
    let s := w.st.setAt i e'
    match r with
    | none => w.go t s (.prNext c l out)
    | some (a, none) => w.go t s (.prNext c l (out ++ [a]))
    | some (a, some prev) =>
      if prev.account.owner ≠ a.account.owner ∨ a.account.lamports = 0 then
        if prev.pubkey ≠ a.pubkey then w.ret t s .panicked
        else if prev.account.owner ≠ a.account.owner then
          if c = .finalized then w.go t s (.prUnown c i a prev l out) else w.go t s (.prOwn c i a l out)
        else w.go t s (.prNext c l (out ++ [a]))
      else w.go t s (.prNext c l (out ++ [a]))

/-- `inmemory_account_store.rs` 279-291. -/
def doRead (w : World) (t : Nat) (c : Commitment) (i : Nat) : World :=
  match w.st.accounts[i]? with
  | none => w.ret t w.st .panicked
  | some e => w.ret t w.st (.account ((e.get c).filter (fun a => a.account.lamports > 0)))

/-- `inmemory_account_store.rs` 172-201 for the account at `i`; then the thread goes on as `next` says. -/
def doVisit (E : Env) (w : World) (t : Nat) (p : Pubkey) (fs : Option (List AccountFilterType)) (c : Commitment) (i : Nat)
    (next : List AccountData → Pc) : World :=
  match w.st.accounts[i]? with
  | none => w.ret t w.st .panicked
  | some e =>
    match gpaOne E.codecs e c p fs with
    | .ok r => w.go t w.st (next r)
    | _ => w.ret t w.st .panicked

/-- `inmemory_account_store.rs` 101-104. -/
def own (w : World) (i : Nat) (a : AccountData) : Store :=
  if !isDeleted a && w.filters.satisfies a then w.st.addAccountOwner i a.account.owner else w.st

/-- One step of one thread, or a change of the filters. -/
inductive Step (E : Env) : World → World → Prop where
  /-- the filters change -/
  | env (w F) : Step E w { w with filters := F }
  /-- a thread makes a call -/
  | call (w t k) : w.pc t = .idle →
      Step E w { w with pc := upd w.pc t (Call.start k), log := w.log ++ [(t, .call k)] }
  /-- 209-214: not of interest -/
  | upSkip (w t a c) : w.pc t = .upCheck a c → w.ShardFree E a.pubkey →
      (!isDeleted a && !w.filters.satisfies a && !w.st.containsKey a.pubkey) = true →
      Step E w (w.ret t w.st (.updated false))
  /-- 209-214: go on -/
  | upTake (w t a c) : w.pc t = .upCheck a c → w.ShardFree E a.pubkey →
      (!isDeleted a && !w.filters.satisfies a && !w.st.containsKey a.pubkey) = false →
      Step E w (w.go t w.st (.upLookup a c))
  /-- 147-151: the account is known -/
  | upKnown (w t a c i) : w.pc t = .upLookup a c → w.ShardFree E a.pubkey → w.st.index a.pubkey = some i →
      Step E w (w.go t w.st (.upSlot a c i))
  /-- 153-155: the account is unknown -/
  | upUnknown (w t a c) : w.pc t = .upLookup a c → w.ShardFree E a.pubkey → w.st.index a.pubkey = none →
      Step E w (w.go t w.st (.upEntry a c))
  /-- 116-138 -/
  | upSlot (w t a c i) : w.pc t = .upSlot a c i →
      Step E w (w.go t (w.st.addIndexToSlot a.slot i c).1 (.upEntry a (w.st.addIndexToSlot a.slot i c).2))
  /-- 220-222 -/
  | upOccupied (w t a c i) : w.pc t = .upEntry a c → w.ShardFree E a.pubkey → w.st.index a.pubkey = some i →
      Step E w (w.go t w.st (.upStore a c i))
  /-- 244-245 -/
  | upVacant (w t a c) : w.pc t = .upEntry a c → w.ShardFree E a.pubkey → w.st.index a.pubkey = none →
      w.filters.satisfies a = true → Step E w (w.go t w.st (.upPush a c))
  /-- 258-260 -/
  | upIgnore (w t a c) : w.pc t = .upEntry a c → w.ShardFree E a.pubkey → w.st.index a.pubkey = none →
      w.filters.satisfies a = false → Step E w (w.ret t w.st (.updated false))
  /-- 223 -/
  | upStore (w t a c i) : w.pc t = .upStore a c i → w.CanRead E → Step E w (w.go t w.st (.upAccount a c i))
  /-- 224 -/
  | upAccount (w t a c i) : w.pc t = .upAccount a c i → w.AccountFree i → Step E w (w.go t w.st (.upWrite a c i))
  /-- 225-227 -/
  | upWrite (w t a c i) : w.pc t = .upWrite a c i → Step E w (doWrite w t a c i)
  /-- 84-99 -/
  | upUnown (w t a prev i) : w.pc t = .upUnown a prev i →
      Step E w (w.go t (w.st.removeAccountOwner i prev.account.owner)
        (if isDeleted a || !w.filters.satisfies a then .upDrop a i else .upOwn a i))
  /-- 101-104, and the end of the call -/
  | upOwn (w t a i) : w.pc t = .upOwn a i → Step E w (w.ret t (own w i a) (.updated true))
  /-- 235-236, and the end of the call -/
  | upDrop (w t a i) : w.pc t = .upDrop a i →
      Step E w (w.ret t ((w.st.setAt i ⟨[], none, none⟩).dropKey a.pubkey) (.updated true))
  /-- 247-253 -/
  | upPush (w t a c) : w.pc t = .upPush a c → w.NoReader →
      Step E w (w.go t { w.st with accounts := w.st.accounts ++ [ByCommitment.new a c] }
        (.upNewOwn a c w.st.accounts.length))
  /-- 254 -/
  | upNewOwn (w t a c i) : w.pc t = .upNewOwn a c i →
      Step E w (w.go t (w.st.addAccountOwner i a.account.owner) (.upNewSlot a c i))
  /-- 255 -/
  | upNewSlot (w t a c i) : w.pc t = .upNewSlot a c i →
      Step E w (w.go t (w.st.addIndexToSlot a.slot i c).1 (.upInsert a i))
  /-- 256 -/
  | upInsert (w t a i) : w.pc t = .upInsert a i →
      Step E w (w.ret t { w.st with index := fun k => if k = a.pubkey then some i else w.st.index k } (.updated true))
  /-- 351-426; the hash map is iterated in any order -/
  | prWalk (w t info c slots wl l) : w.pc t = .prWalk info c →
      walk info c (w.st.slots.length + 1) w.st.slots [] info.slot (some info.parent) = .ok (slots, wl) → l.Perm wl →
      Step E w (w.go t { w.st with slots := dropOldSlots slots info.slot c } (.prStore c l))
  /-- the walk does not end -/
  | prEndless (w t info c) : w.pc t = .prWalk info c →
      (∀ r, walk info c (w.st.slots.length + 1) w.st.slots [] info.slot (some info.parent) ≠ .ok r) →
      Step E w (w.ret t w.st .panicked)
  /-- 429 -/
  | prStore (w t c l) : w.pc t = .prStore c l → w.CanRead E → Step E w (w.go t w.st (.prNext c l []))
  /-- 454 -/
  | prReturn (w t c out) : w.pc t = .prNext c [] out → Step E w (w.ret t w.st (.reported out))
  /-- 431 -/
  | prNext (w t c i slot l out) : w.pc t = .prNext c ((i, slot) :: l) out → w.AccountFree i →
      Step E w (w.go t w.st (.prPromote c i slot l out))
  /-- 432-434 -/
  | prPromote (w t c i slot l out) : w.pc t = .prPromote c i slot l out → Step E w (doPromote w t c i slot l out)
  /-- 84-99 -/
  | prUnown (w t c i a prev l out) : w.pc t = .prUnown c i a prev l out →
      Step E w (w.go t (w.st.removeAccountOwner i prev.account.owner)
        (if isDeleted a || !w.filters.satisfies a then .prDrop c i a l out else .prOwn c i a l out))
  /-- 101-104, 451 -/
  | prOwn (w t c i a l out) : w.pc t = .prOwn c i a l out →
      Step E w (w.go t (own w i a) (.prNext c l (out ++ [a])))
  /-- 446 -/
  | prDrop (w t c i a l out) : w.pc t = .prDrop c i a l out → w.ShardFree E a.pubkey →
      Step E w (w.go t (w.st.dropKey a.pubkey) (.prClear c i a l out))
  /-- 447, 451 -/
  | prClear (w t c i a l out) : w.pc t = .prClear c i a l out →
      Step E w (w.go t (w.st.setAt i ⟨[], none, none⟩) (.prNext c l (out ++ [a])))
  /-- 275 -/
  | geFound (w t pk c i) : w.pc t = .geLookup pk c → w.ShardFree E pk → w.st.index pk = some i →
      Step E w (w.go t w.st (.geStore pk c i))
  /-- 276-278 -/
  | geNone (w t pk c) : w.pc t = .geLookup pk c → w.ShardFree E pk → w.st.index pk = none →
      Step E w (w.ret t w.st (.account none))
  /-- 279 -/
  | geStore (w t pk c i) : w.pc t = .geStore pk c i → w.CanRead E → Step E w (w.go t w.st (.geRead pk c i))
  /-- 279-291 -/
  | geRead (w t pk c i) : w.pc t = .geRead pk c i → w.AccountFree i → Step E w (doRead w t c i)
  /-- 305 -/
  | gpRefused (w t p fs c) : w.pc t = .gpContains p fs c → w.filters.contains ⟨[], some p, fs⟩ = false →
      Step E w (w.ret t w.st (.accounts (.error .configDoesNotContainRequiredFilters)))
  /-- 300-304 -/
  | gpContains (w t p fs c) : w.pc t = .gpContains p fs c → w.filters.contains ⟨[], some p, fs⟩ = true →
      Step E w (w.go t w.st (.gpOwner p fs c))
  /-- 309-311 -/
  | gpNone (w t p fs c) : w.pc t = .gpOwner p fs c → w.st.byOwner p = none → Step E w (w.ret t w.st (.accounts (.ok [])))
  /-- 308 -/
  | gpOwner (w t p fs c) : w.pc t = .gpOwner p fs c → w.st.byOwner p ≠ none → Step E w (w.go t w.st (.gpStore p fs c))
  /-- 315 -/
  | gpStore (w t p fs c) : w.pc t = .gpStore p fs c → w.CanRead E → Step E w (w.go t w.st (.gpSet p fs c))
  /-- 318 -/
  | gpSet (w t p fs c) : w.pc t = .gpSet p fs c →
      Step E w (w.go t w.st (.gpScan p fs c ((w.st.byOwner p).getD []) [] []))
  /-- 319-332: `try_read` succeeds -/
  | gpVisit (w t p fs c i l retry out) : w.pc t = .gpScan p fs c (i :: l) retry out → w.AccountFree i →
      Step E w (doVisit E w t p fs c i (fun r => .gpScan p fs c l retry (out ++ r)))
  /-- 321-324: `try_read` fails (it may also do so when a writer only waits) -/
  | gpBusy (w t p fs c i l retry out) : w.pc t = .gpScan p fs c (i :: l) retry out →
      Step E w (w.go t w.st (.gpScan p fs c l (retry ++ [i]) out))
  /-- the first loop ends -/
  | gpAgain (w t p fs c retry out) : w.pc t = .gpScan p fs c [] retry out →
      Step E w (w.go t w.st (.gpRetry p fs c retry out))
  /-- 336-343 -/
  | gpRetry (w t p fs c i l out) : w.pc t = .gpRetry p fs c (i :: l) out → w.AccountFree i →
      Step E w (doVisit E w t p fs c i (fun r => .gpRetry p fs c l (out ++ r)))
  /-- 346 -/
  | gpReturn (w t p fs c out) : w.pc t = .gpRetry p fs c [] out → Step E w (w.ret t w.st (.accounts (.ok out)))

/-- Any number of steps. -/
inductive Steps (E : Env) : World → World → Prop where
  | refl (w) : Steps E w w
  | tail {w w' w''} : Steps E w w' → Step E w' w'' → Steps E w w''

/-- `inmemory_account_store.rs` 48-56: an empty store that nobody has called yet. -/
def World.init (F : Filters) : World := ⟨Store.empty, F, fun _ => .idle, []⟩

/-- Reachable from a new store. -/
def Reachable (E : Env) (w : World) : Prop := ∃ F, Steps E (World.init F) w

end LAM.Conc
