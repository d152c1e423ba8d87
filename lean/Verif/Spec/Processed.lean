import Verif.Model.Processed
/-!
# The recorded ancestor chain of a slot

Defined on the table of unfinalized accounts alone; none of its functions is used.
-/
namespace LAM.Spec
open Token

/-- `k` is a known slot reached from `s` along recorded parents. -/
inductive OnChain (P : ProcStore) : Nat → Nat → Prop where
  | here {s e} : BMap.find P s = some e → OnChain P s s
  | up {s e p k} : BMap.find P s = some e → e.parent = some p → OnChain P p k → OnChain P s k

/-- `x`, recorded at slot `k`, is the first state of `pk` met on the way from `s` along recorded parents. -/
inductive NewestOn (P : ProcStore) (pk : Pubkey) : Nat → Processed → Nat → Prop where
  | here {s e x} : BMap.find P s = some e → e.accounts.find pk = some x → NewestOn P pk s x s
  | up {s e p x k} : BMap.find P s = some e → e.accounts.find pk = none → e.parent = some p → NewestOn P pk p x k →
      NewestOn P pk s x k

/-- `x`, recorded at slot `k`, is the state of `pk` that a processed read shows: of the highest slot above the confirmed
one, else the newest on the confirmed chain. -/
def NewestProcessed (P : ProcStore) (pk : Pubkey) (confirmed : Nat) (x : Processed) (k : Nat) : Prop :=
  (confirmed < k ∧ (∃ e, BMap.find P k = some e ∧ e.accounts.find pk = some x) ∧
    ∀ k' e', k < k' → BMap.find P k' = some e' → e'.accounts.find pk = none) ∨
  ((∀ k' e', confirmed < k' → BMap.find P k' = some e' → e'.accounts.find pk = none) ∧ NewestOn P pk confirmed x k)

/-- Recorded parents are older than their slot. -/
def ParentsBelow (P : ProcStore) : Prop := ∀ s e p, BMap.find P s = some e → e.parent = some p → p < s

end LAM.Spec
