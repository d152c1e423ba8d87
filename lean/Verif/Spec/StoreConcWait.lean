import Verif.Spec.StoreConc
/-!
# Concurrent calls of the in-memory account store: states that wait for their slot to be confirmed

Everything here is about the events of an execution.
-/
namespace LAM.Conc
open Store Spec

/-- The slot was neither confirmed nor finalized by what happened so far: its own updates were all submitted as processed, itself
and later slots were at most notified as processed, and earlier slots were not notified as descendants of it. -/
structure Awaits (slot : Nat) (log : List (Nat × Event)) : Prop where
  updated : ∀ t a c, (t, Event.call (.update a c)) ∈ log → a.slot = slot → c = .processed
  notified : ∀ t info c, (t, Event.call (.process info c)) ∈ log →
    (info.slot < slot ∧ info.parent < slot) ∨ (slot ≤ info.slot ∧ c = .processed)

/-- No two updates of the same account are executed at the same time. -/
def ApartUpdates (w : World) : Prop :=
  ∀ t t' a a' c c', t ≠ t' → LastCall w.log t (.update a c) → LastCall w.log t' (.update a' c') → a.pubkey ≠ a'.pubkey

/-- Steps in which no two updates of the same account are executed at the same time. -/
inductive ApartSteps (E : Env) : World → World → Prop where
  | refl (w) : ApartSteps E w w
  | tail {w w' w''} : ApartSteps E w w' → Step E w' w'' → ApartUpdates w'' → ApartSteps E w w''

end LAM.Conc
