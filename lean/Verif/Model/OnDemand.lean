import Verif.Model.Filter
/-!
# Loading accounts on demand (`accounts_on_demand/src/accounts_on_demand.rs`)

A transition system of any number of threads that call `get_account` and `get_program_accounts` on one
`AccountsOnDemand`.  The wrapped storage, the filters and the source are arbitrary: their answers are
functions of states that may change at any moment (step `env`), and the outcomes of `subscribe_*` and
`save_snapshot` are chosen freely.  What happens under one mutex without releasing it in between is one step,
except that the lock is held across the call of `subscribe_*`.  Calls of the source and the storage are assumed to return; a panic
in them (which would poison a mutex) is not modelled.  `Condvar::wait_timeout` returns `Ok` also after the time-out,
so `OperationTimeOut` (line 79, 156) needs a poisoned mutex and does not occur.
The calls that are only passed on to the storage (lines 55-63, 198-214) are left out.
-/
namespace LAM.OnDemand

/-- A call of `get_account` (65-69) or `get_program_accounts` (127-132). -/
inductive Query where
  | account (pk : Pubkey) (c : Commitment)
  | program (p : Pubkey) (fs : Option (List AccountFilterType)) (c : Commitment)
deriving DecidableEq

/-- Keys of `accounts_in_loading` (34) and `gpa_in_loading` (28, 35). -/
inductive Key where
  | account (pk : Pubkey)
  | program (p : Pubkey) (fs : List AccountFilterType)
deriving DecidableEq

/-- The key a call is loaded under: `account_pk`, or `(program_id, filters.unwrap_or_default())` (145). -/
def Query.key : Query → Key
  | .account pk _ => .account pk
  | .program p fs _ => .program p (fs.getD [])

/-- The two mutexes: `accounts_in_loading` and `gpa_in_loading`. -/
inductive Mutex where
  | accounts
  | gpa
deriving DecidableEq

/-- The mutex a call takes. -/
def Query.mutex : Query → Mutex
  | .account .. => .accounts
  | .program .. => .gpa

/-- What `accounts_storage` answers. -/
inductive Answer where
  | error (e : LoadError)
  | account (a : Option AccountData)
  | accounts (l : List AccountData)
deriving DecidableEq

/-- What a call does, as far as it can be seen from outside. -/
inductive Event where
  | call (q : Query)
  | read (a : Answer)
  | filtered (b : Bool)
  | waited
  | subscribe (ok : Bool)
  | addFilter
  | save (ok : Bool)
  | ret (a : Answer)
deriving DecidableEq

/-- Where a thread is. -/
inductive Pc where
  /-- not in a call -/
  | idle
  /-- entered the function (70 / 133) -/
  | start (q : Query)
  /-- about to lock (76 / 144) -/
  | locking (q : Query)
  /-- in `wait_timeout` on a condition variable (79 / 150), lock released -/
  | waiting (q : Query) (cv : Nat)
  /-- woken up or timed out, wants the lock back -/
  | woken (q : Query)
  /-- has the lock back, about to read (80 / 151) -/
  | rereadLocked (q : Query)
  /-- inserted its condition variable, holds the lock, in `subscribe_*` (95-97 / 170-172) -/
  | subscribing (q : Query) (cv : Nat)
  /-- about to add the filter (174-175) -/
  | adding (q : Query) (cv : Nat)
  /-- in `save_snapshot` (106-108 / 177-179) -/
  | saving (q : Query) (cv : Nat)
  /-- about to remove its entry (111-112 / 182-184) -/
  | finishing (q : Query) (cv : Nat)
  /-- removed the entry, about to notify (114-116 / 186-188) -/
  | notifying (q : Query) (cv : Option Nat)
  /-- about to read the storage without lock (118 / 190, 138) -/
  | reread (q : Query)
deriving DecidableEq

/-- Answers of the wrapped storage in state `σ`, and of the filters in state `φ`. -/
structure Env (σ φ : Type) where
  answer : σ → Query → Answer
  /-- `contains_account` (85) or `contains_filter` (137) -/
  filtered : φ → Query → Bool
  /-- `add_account_filters` (174-175) -/
  addFilter : φ → Query → φ

/-- The shared state and the threads.  `hist` (events of the current or last call of each thread) and
`failed` (condition variables of failed loads) are only recorded, never read by a step. -/
structure World (σ φ : Type) where
  store : σ
  filters : φ
  lock : Mutex → Option Nat
  table : Key → Option Nat
  fresh : Nat
  pc : Nat → Pc
  hist : Nat → List Event
  failed : List Nat

/-- Function update. -/
def upd [DecidableEq α] (f : α → β) (a : α) (b : β) : α → β := fun x => if x = a then b else f x

/-- `notify_all` on a condition variable. -/
def notifyAll (pc : Nat → Pc) (cv : Option Nat) : Nat → Pc := fun t =>
  match pc t with
  | .waiting q c => if cv = some c then .woken q else .waiting q c
  | x => x

variable {σ φ : Type}

/-- Thread `t` moves to `p` and records `es`. -/
def World.move (w : World σ φ) (t : Nat) (p : Pc) (es : List Event) : World σ φ :=
  { w with pc := upd w.pc t p, hist := upd w.hist t (w.hist t ++ es) }

/-- One step of one thread, or of the environment. -/
inductive Step (E : Env σ φ) : World σ φ → World σ φ → Prop where
  /-- the storage, the filters, or the source change -/
  | env (w) (x : σ) (f : φ) : Step E w { w with store := x, filters := f }
  /-- a thread makes a call -/
  | call (w t q) : w.pc t = .idle →
      Step E w { w with pc := upd w.pc t (.start q), hist := upd w.hist t [.call q] }
  /-- 70-71: found, or an error -/
  | hit (w t pk c) : w.pc t = .start (.account pk c) → E.answer w.store (.account pk c) ≠ .account none →
      Step E w (w.move t .idle [.read (E.answer w.store (.account pk c)), .ret (E.answer w.store (.account pk c))])
  /-- 72: not found -/
  | miss (w t pk c) : w.pc t = .start (.account pk c) → E.answer w.store (.account pk c) = .account none →
      Step E w (w.move t (.locking (.account pk c)) [.read (.account none)])
  /-- 137: the filters contain the query -/
  | contained (w t p fs c) : w.pc t = .start (.program p fs c) → E.filtered w.filters (.program p fs c) = true →
      Step E w (w.move t (.reread (.program p fs c)) [.filtered true])
  /-- 140 -/
  | notContained (w t p fs c) : w.pc t = .start (.program p fs c) →
      E.filtered w.filters (.program p fs c) = false →
      Step E w (w.move t (.locking (.program p fs c)) [.filtered false])
  /-- 76-79 / 144-150: the key is being loaded; wait, which releases the lock -/
  | wait (w t q cv) : w.pc t = .locking q → w.lock q.mutex = none → w.table q.key = some cv →
      Step E w (w.move t (.waiting q cv) [.waited])
  /-- 83-87: the account is filtered already -/
  | known (w t pk c) : w.pc t = .locking (.account pk c) → w.lock .accounts = none →
      w.table (.account pk) = none → E.filtered w.filters (.account pk c) = true →
      Step E w (w.move t .idle [.filtered true, .ret (.account none)])
  /-- 88-91: start loading an account; the lock is kept -/
  | insertAccount (w t pk c) : w.pc t = .locking (.account pk c) → w.lock .accounts = none →
      w.table (.account pk) = none → E.filtered w.filters (.account pk c) = false →
      Step E w { w.move t (.subscribing (.account pk c) w.fresh) [.filtered false] with
        lock := upd w.lock .accounts (some t), table := upd w.table (.account pk) (some w.fresh),
        fresh := w.fresh + 1 }
  /-- 160-169: start loading a program query; the lock is kept -/
  | insertProgram (w t p fs c) : w.pc t = .locking (.program p fs c) → w.lock .gpa = none →
      w.table (.program p (fs.getD [])) = none →
      Step E w { w.move t (.subscribing (.program p fs c) w.fresh) [] with
        lock := upd w.lock .gpa (some t), table := upd w.table (.program p (fs.getD [])) (some w.fresh),
        fresh := w.fresh + 1 }
  /-- 95-98: subscribed an account; unlock -/
  | subscribedAccount (w t pk c cv) : w.pc t = .subscribing (.account pk c) cv →
      Step E w { w.move t (.saving (.account pk c) cv) [.subscribe true] with lock := upd w.lock .accounts none }
  /-- 170-173: subscribed a program query; unlock -/
  | subscribedProgram (w t p fs c cv) : w.pc t = .subscribing (.program p fs c) cv →
      Step E w { w.move t (.adding (.program p fs c) cv) [.subscribe true] with lock := upd w.lock .gpa none }
  /-- 97 / 172: subscribing failed; the guard is dropped on return -/
  | subscribeFailed (w t q cv) : w.pc t = .subscribing q cv →
      Step E w { w.move t .idle [.subscribe false, .ret (.error .errorSubscribingAccount)] with
        lock := upd w.lock q.mutex none, failed := cv :: w.failed }
  /-- 174-175 -/
  | added (w t q cv) : w.pc t = .adding q cv →
      Step E w { w.move t (.saving q cv) [.addFilter] with filters := E.addFilter w.filters q }
  /-- 106-108 / 177-179 -/
  | saved (w t q cv) : w.pc t = .saving q cv → Step E w (w.move t (.finishing q cv) [.save true])
  /-- 108 / 179: the snapshot failed -/
  | saveFailed (w t q cv) : w.pc t = .saving q cv →
      Step E w { w.move t .idle [.save false, .ret (.error .errorCreatingSnapshot)] with failed := cv :: w.failed }
  /-- 111-113 / 182-185: lock, remove, unlock -/
  | removed (w t q cv) : w.pc t = .finishing q cv → w.lock q.mutex = none →
      Step E w { w.move t (.notifying q (w.table q.key)) [] with table := upd w.table q.key none }
  /-- 114-116 / 186-188 -/
  | notified (w t q cv) : w.pc t = .notifying q cv →
      Step E w { w with pc := upd (notifyAll w.pc cv) t (.reread q) }
  /-- 118 / 190, 138: read without lock -/
  | reread (w t q) : w.pc t = .reread q →
      Step E w (w.move t .idle [.read (E.answer w.store q), .ret (E.answer w.store q)])
  /-- time-out or spurious wake-up -/
  | timeout (w t q cv) : w.pc t = .waiting q cv → Step E w (w.move t (.woken q) [])
  /-- a woken thread gets the lock back -/
  | relock (w t q) : w.pc t = .woken q → w.lock q.mutex = none →
      Step E w { w.move t (.rereadLocked q) [] with lock := upd w.lock q.mutex (some t) }
  /-- 80 / 151-155: read with the lock, then unlock -/
  | rereadLocked (w t q) : w.pc t = .rereadLocked q →
      Step E w { w.move t .idle [.read (E.answer w.store q), .ret (E.answer w.store q)] with
        lock := upd w.lock q.mutex none }

/-- Any number of steps. -/
inductive Steps (E : Env σ φ) : World σ φ → World σ φ → Prop where
  | refl (w) : Steps E w w
  | tail {w w' w''} : Steps E w w' → Step E w' w'' → Steps E w w''

/-- `accounts_on_demand.rs` 39-51: nothing is loading, no thread has called yet. -/
def World.init (x : σ) (f : φ) : World σ φ where
  store := x
  filters := f
  lock := fun _ => none
  table := fun _ => none
  fresh := 0
  pc := fun _ => .idle
  hist := fun _ => []
  failed := []

/-- Reachable from a fresh `AccountsOnDemand` around any storage, filters and source. -/
def Reachable (E : Env σ φ) (w : World σ φ) : Prop := ∃ x f, Steps E (World.init x f) w

end LAM.OnDemand
