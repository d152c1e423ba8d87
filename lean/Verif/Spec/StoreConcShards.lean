import Verif.Spec.StoreConc
/-!
# Concurrent calls of the in-memory account store: which calls can wait for each other
-/
namespace LAM.Conc
open Store Spec

/-- States of the account with different owners were submitted. -/
def OwnerChanged (log : List (Nat × Event)) (pk : Pubkey) : Prop :=
  ∃ a b, Submitted log a ∧ Submitted log b ∧ a.pubkey = pk ∧ b.pubkey = pk ∧ a.account.owner ≠ b.account.owner

/-- While a notification of a finalized slot is executed, no update is executed of an account in the shard of one that changed its
owner. -/
def SeparateShards (E : Env) (w : World) : Prop :=
  ∀ t t' a c info pk, LastCall w.log t (.update a c) → LastCall w.log t' (.process info .finalized) → OwnerChanged w.log pk →
    E.shardOf a.pubkey ≠ E.shardOf pk

end LAM.Conc
