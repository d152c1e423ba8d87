import Verif.Spec.StoreConcSettled
/-!
# Concurrent calls of the in-memory account store: who has heard of a state
-/
namespace LAM.Conc
open Store Spec

/-- The slot may be considered to have this commitment, after the calls of the log. -/
def SlotIs (F : Filters) (log : List (Nat × Event)) (k : Nat) : Commitment → Prop
  | .processed => True
  | .confirmed => Settled .confirmed (told F log) k
  | .finalized => ∃ x, Reported .finalized (told F log) x ∧ Linked (told F log) x k

/-- The state is in the answer to a notification of commitment `c` or a higher one. -/
def HeardOf (c : Commitment) (log : List (Nat × Event)) (a : AccountData) : Prop :=
  ∃ pre t l post info c', log = pre ++ (t, .ret (.reported l)) :: post ∧ LastCall pre t (.process info c') ∧ c ≤ c' ∧ a ∈ l

/-- When the update with this state returned, its slot could already be considered to have this commitment. -/
def LateUpdate (F : Filters) (c : Commitment) (log : List (Nat × Event)) (a : AccountData) : Prop :=
  ∃ pre t b post d, log = pre ++ (t, .ret (.updated b)) :: post ∧ LastCall pre t (.update a d) ∧ SlotIs F pre a.slot c

/-- A notification of this commitment or a higher one is being executed, or such a late update. -/
def Telling (F : Filters) (c : Commitment) (log : List (Nat × Event)) (a : AccountData) : Prop :=
  (∃ t info c', LastCall log t (.process info c') ∧ c ≤ c') ∨ ∃ t d, LastCall log t (.update a d) ∧ SlotIs F log a.slot c

end LAM.Conc
