import Verif.Model.Store
import Verif.Spec.History
/-!
# What the account store keeps, and what it has reason to keep
-/
namespace LAM.Spec

/-- Every account submitted in the history is one of `keys`. -/
def Among (keys : List Pubkey) (h : List Op) : Prop := ∀ F a c, Op.update F a c ∈ h → a.pubkey ∈ keys

/-- The account states submitted in the history. -/
def updates (h : List Op) : List AccountData :=
  h.filterMap fun op => match op with
    | .update _ a _ => some a
    | .slot .. => none

/-- The entry of an account holds no state of it. -/
def Vacated (e : ByCommitment) : Prop := e.processed = [] ∧ e.confirmed = none ∧ e.finalized = none

instance (e : ByCommitment) : Decidable (Vacated e) := by unfold Vacated; infer_instance

/-- The filters of a call. -/
def filtersOf : Op → Filters
  | .update F _ _ => F
  | .slot F _ _ _ => F

/-- No submitted state closes an account or leaves the filters of any call. -/
def NoneLeaves (h : List Op) : Prop :=
  ∀ a ∈ updates h, a.account.lamports ≠ 0 ∧ ∀ op ∈ h, (filtersOf op).satisfies a = true

/-- At most one state of a slot up to `k`. -/
def OneUpTo (k : Nat) (m : BMap AccountData) : Prop := (m.filter (fun e => e.1 ≤ k)).length ≤ 1

end LAM.Spec
