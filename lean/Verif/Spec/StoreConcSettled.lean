import Verif.Spec.StoreConcTime
import Verif.Spec.History
/-!
# Concurrent calls of the in-memory account store: what the store was told
-/
namespace LAM.Conc
open Store Spec

/-- The updates and notifications of a log, in the order in which the calls were made.  (The filters and the order of iteration that an
operation of a history carries are of no importance to what is said about slots.) -/
def told (F : Filters) (log : List (Nat × Event)) : List Op :=
  log.filterMap fun e => match e.2 with
    | .call (.update a c) => some (.update F a c)
    | .call (.process info c) => some (.slot F .asIs info c)
    | _ => none

end LAM.Conc
