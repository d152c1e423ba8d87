import Verif.Spec.StoreConcTime
/-!
# Concurrent calls of the in-memory account store: why an account is tracked
-/
namespace LAM.Conc
open Store Spec

/-- In one of these states an update of the account was being executed, the account was not tracked, and the filters accepted the
update. -/
def TakenIn (vs : List World) (pk : Pubkey) : Prop :=
  ∃ v ∈ vs, ∃ t a c, LastCall v.log t (.update a c) ∧ a.pubkey = pk ∧ v.st.containsKey pk = false ∧ v.filters.satisfies a = true

/-- The answer contains a state of the account. -/
def Shows (pk : Pubkey) : Reply → Prop
  | .account o => ∃ a, o = some a ∧ a.pubkey = pk
  | .accounts (.ok l) | .reported l => ∃ a ∈ l, a.pubkey = pk
  | _ => False

end LAM.Conc
