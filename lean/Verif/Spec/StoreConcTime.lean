import Verif.Spec.StoreConc
/-!
# Concurrent calls of the in-memory account store: calls made one after the other
-/
namespace LAM.Conc
open Store Spec

/-- In `w0` thread `t` makes the call `k`, the execution passes through the states `vs`, and the call returns `r`, which leads to
`w'`; nothing is said of what other threads do meanwhile. -/
def During (E : Env) (t : Nat) (k : Call) (w0 : World) (vs : List World) (r : Reply) (w' : World) : Prop :=
  ∃ w1 w, Step E w0 w1 ∧ w1.log = w0.log ++ [(t, .call k)] ∧ Trace E w1 vs w ∧ (∀ l, w.log = w1.log ++ l → ∀ e ∈ l, e.1 ≠ t) ∧
    Step E w w' ∧ w'.log = w.log ++ [(t, .ret r)]

/-- The account is tracked in all these states. -/
def TrackedIn (pk : Pubkey) (vs : List World) : Prop := ∀ v ∈ vs, v.st.containsKey pk = true

end LAM.Conc
