import Verif.Model.StoreConc
import Verif.Spec.Query
import Verif.Spec.Version
/-!
# Concurrent calls of the in-memory account store: what is asked of them

Everything here is about the events of an execution (which thread made which call, and what it returned), not about how far a
thread has come inside a call.
-/
namespace LAM.Conc
open Store Spec

/-- The state was submitted by an `update_account` call. -/
def Submitted (log : List (Nat × Event)) (a : AccountData) : Prop := ∃ t c, (t, Event.call (.update a c)) ∈ log

/-- The last thing thread `t` did is to make the call `k`, which has not returned yet. -/
def LastCall (log : List (Nat × Event)) (t : Nat) (k : Call) : Prop :=
  ∃ pre mid, log = pre ++ (t, .call k) :: mid ∧ ∀ e ∈ mid, e.1 ≠ t

/-- The answers that are in order when the calls of `log` have been made before. -/
def ReplyOK (E : Env) (log : List (Nat × Event)) : Call → Reply → Prop
  | .update .., .updated _ => True
  | .process _ _, .reported l => ∀ a ∈ l, Submitted log a
  | .get pk _, .account o => ∀ a, o = some a → a.pubkey = pk ∧ 0 < a.account.lamports ∧ Submitted log a
  | .gpa p fs _, .accounts (.ok l) => ∀ b ∈ l, ∃ a, Submitted log a ∧ SameAccount E.codecs a b ∧ Selected E.codecs fs a ∧
      a.account.owner = p
  | .gpa .., .accounts (.error _) => True
  | .gpa _ (some fs) _, .panicked => ¬ QueryWellFormed E.codecs (some fs) ∨ ∃ a, Submitted log a ∧ ¬ Honest E.codecs a
  | _, _ => False

/-- A call that writes. -/
def Call.modifies : Call → Bool
  | .update .. | .process .. => true
  | _ => false

/-- The writing calls in a log. -/
def writeCalls (log : List (Nat × Event)) : List Call :=
  log.filterMap fun e => match e.2 with
    | .call k => if k.modifies then some k else none
    | .ret _ => none

/-- The answers of writing calls in a log. -/
def writeReplies (log : List (Nat × Event)) : List Reply :=
  log.filterMap fun e => match e.2 with
    | .ret (.updated b) => some (.updated b)
    | .ret (.reported l) => some (.reported l)
    | _ => none

/-- The call of an operation. -/
def opCall : Op → Call
  | .update _ a c => .update a c
  | .slot _ _ info c => .process info c

/-- The filters an operation is executed under. -/
def opFilters : Op → Filters
  | .update F .. => F
  | .slot F .. => F

/-- An operation on its own, with what it returns. -/
def opResult (s : Store) : Op → Run (Store × Reply)
  | .update F a c => do let r ← s.updateAccount F a c; return (r.1, .updated r.2)
  | .slot F σ info c => do let r ← s.processSlotData F σ info c; return (r.1, .reported r.2)

/-- Operations one after the other, with what they return. -/
def seqRun (s : Store) : List Op → Run (Store × List Reply)
  | [] => .ok (s, [])
  | op :: ops => do
    let r ← opResult s op
    let q ← seqRun r.1 ops
    return (q.1, r.2 :: q.2)

/-- No call is being executed. -/
def Quiet (w : World) : Prop := ∀ t k, ¬ LastCall w.log t k

/-- No writing call is being executed. -/
def NoWriter (w : World) : Prop := ∀ t k, LastCall w.log t k → k.modifies = false

/-- At most one writing call is being executed. -/
def OneCall (w : World) : Prop :=
  ∀ t t' k k', LastCall w.log t k → LastCall w.log t' k' → k.modifies = true → k'.modifies = true → t = t'

/-- No update is executed at the same time as a notification of a finalized slot. -/
def Separate (w : World) : Prop :=
  ∀ t t' a c info, LastCall w.log t (.update a c) → ¬ LastCall w.log t' (.process info .finalized)

/-- Steps in which at most one writing call at a time is executed, and the filters only change while none is; with the filters
that were in force at each step. -/
inductive SingleWriter (E : Env) : List Filters → World → World → Prop where
  | refl (w) : SingleWriter E [] w w
  | tail {Fs w w' w''} : SingleWriter E Fs w w' → Step E w' w'' → OneCall w'' → (w''.filters = w'.filters ∨ NoWriter w') →
      SingleWriter E (Fs ++ [w'.filters]) w w''

/-- Steps from `w1` on, with all the states passed through. -/
inductive Trace (E : Env) (w1 : World) : List World → World → Prop where
  | refl : Trace E w1 [w1] w1
  | tail {vs w w'} : Trace E w1 vs w → Step E w w' → Trace E w1 (vs ++ [w']) w'

/-- Thread `t` makes the call `k`, the execution passes through the states `vs`, and the call returns `r`; nothing is said of what
other threads do meanwhile. -/
def Performed (E : Env) (t : Nat) (k : Call) (vs : List World) (r : Reply) : Prop :=
  ∃ w0 w1 w w', Reachable E w0 ∧ Step E w0 w1 ∧ w1.log = w0.log ++ [(t, .call k)] ∧ Trace E w1 vs w ∧
    (∀ l, w.log = w1.log ++ l → ∀ e ∈ l, e.1 ≠ t) ∧ Step E w w' ∧ w'.log = w.log ++ [(t, .ret r)]

end LAM.Conc
