import Verif.Model.Gauges
import Verif.Spec.Memory
/-!
# What the gauges are meant to show
-/
namespace LAM.Spec

/-- `ks` are the accounts the store tracks, each once. -/
def TrackedAre (s : Store) (ks : List Pubkey) : Prop := ks.Nodup ∧ ∀ pk, pk ∈ ks ↔ (s.index pk).isSome

/-- The slot of the last account submitted, 0 if there is none. -/
def lastSubmitted (h : List Op) : Nat := (((updates h).getLast?).map (·.slot)).getD 0

/-- The highest slot of an account submitted, 0 if there is none. -/
def highestSubmitted (h : List Op) : Nat := (updates h).foldl (fun m a => max m a.slot) 0

/-- Every account is submitted with a slot no less than those before. -/
def Ascending (h : List Op) : Prop := (updates h).Pairwise (fun a b => a.slot ≤ b.slot)

end LAM.Spec
