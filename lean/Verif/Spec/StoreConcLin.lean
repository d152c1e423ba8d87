import Verif.Spec.StoreConc
/-!
# Concurrent calls of the in-memory account store: calls that take effect one after the other

What it means that writing calls, though executed at the same time, took effect at single moments between call and return.
Everything is about the events of an execution.
-/
namespace LAM.Conc
open Store Spec

/-- A writing call that took effect: who made it, what it did, and what it answered. -/
structure Done where
  thread : Nat
  op : Op
  reply : Reply

/-- The calls and answers of thread `t` that belong to writing calls. -/
def writeEvents (t : Nat) (log : List (Nat × Event)) : List Event :=
  log.filterMap fun e =>
    if e.1 = t then
      match e.2 with
      | .call k => if k.modifies then some (.call k) else none
      | .ret (.updated b) => some (.ret (.updated b))
      | .ret (.reported l) => some (.ret (.reported l))
      | .ret _ => none
    else none

/-- What thread `t` would see if the calls were made in this order. -/
def doneEvents (t : Nat) (ds : List Done) : List Event :=
  (ds.filter (·.thread = t)).flatMap fun d => [.call (opCall d.op), .ret d.reply]

/-- The calls of `ds` took effect, and no others: of every thread all calls that returned, with the answers it got, and perhaps the
one it is in. -/
def TookEffect (log : List (Nat × Event)) (ds : List Done) : Prop :=
  ∀ t, writeEvents t log = doneEvents t ds ∨ (∃ k, writeEvents t log = doneEvents t ds ++ [.call k]) ∨
    ∃ r, writeEvents t log ++ [.ret r] = doneEvents t ds

/-- Writing calls executed at the same time are updates of different accounts. -/
def Keyed (w : World) : Prop :=
  ∀ t t' k k', t ≠ t' → LastCall w.log t k → LastCall w.log t' k' → k.modifies = true → k'.modifies = true →
    ∃ a c a' c', k = .update a c ∧ k' = .update a' c' ∧ a.pubkey ≠ a'.pubkey

/-- Steps in which writing calls executed at the same time are updates of different accounts, and the filters only change while no
writing call is executed; with the filters that were in force at each step. -/
inductive KeyedWriters (E : Env) : List Filters → World → World → Prop where
  | refl (w) : KeyedWriters E [] w w
  | tail {Fs w w' w''} : KeyedWriters E Fs w w' → Step E w' w'' → Keyed w'' → (w''.filters = w'.filters ∨ NoWriter w') →
      KeyedWriters E (Fs ++ [w'.filters]) w w''

end LAM.Conc
