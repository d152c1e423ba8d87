import Verif.Tests.Harness
/-!
# Unit tests of the per-account states

Generated by `tools/gen_tests.py` from the text of `account_data_by_commitment.rs`.  
These are checks of the model against expectations written by the authors, not proofs of properties.
-/
namespace LAM.Tests.ByCommitment

open LAM.Tests LAM.Tests.Cell

/-- `account_data_by_commitment.rs` 312-355. -/
def test_promote_slot_commitment : List (Step ByCommitment) :=
  [update (fixed (K 1) (K 2) 1 1) .processed,
   promoteIs 1 .confirmed (some ((fixed (K 1) (K 2) 1 1), none)),
   readIs .confirmed (some (fixed (K 1) (K 2) 1 1)),
   promoteIs 1 .finalized (some ((fixed (K 1) (K 2) 1 1), none)),
   readIs .confirmed (some (fixed (K 1) (K 2) 1 1)),
   readIs .finalized (some (fixed (K 1) (K 2) 1 1)),
   update (fixed (K 3) (K 4) 2 2) .processed,
   promoteIs 2 .finalized (some ((fixed (K 3) (K 4) 2 2), (some (fixed (K 1) (K 2) 1 1)))),
   readIs .confirmed (some (fixed (K 3) (K 4) 2 2)),
   readIs .finalized (some (fixed (K 3) (K 4) 2 2))]

example : failsAt test_promote_slot_commitment = none := by decide +kernel

/-- `account_data_by_commitment.rs` 358-380. -/
def test_update_and_get_account_data : List (Step ByCommitment) :=
  [update (fixed (K 1) (K 2) 1 1) .processed,
   getIs .processed (some (fixed (K 1) (K 2) 1 1)),
   update (fixed (K 1) (K 2) 1 1) .confirmed,
   getIs .confirmed (some (fixed (K 1) (K 2) 1 1)),
   update (fixed (K 1) (K 2) 1 1) .finalized,
   getIs .finalized (some (fixed (K 1) (K 2) 1 1))]

example : failsAt test_update_and_get_account_data = none := by decide +kernel

/-- `account_data_by_commitment.rs` 383-403. -/
def test_update_finalized_account : List (Step ByCommitment) :=
  [update (fixed (K 1) (K 2) 1 10) .finalized,
   getIs .processed (some (fixed (K 1) (K 2) 1 10)),
   getIs .confirmed (some (fixed (K 1) (K 2) 1 10)),
   getIs .finalized (some (fixed (K 1) (K 2) 1 10))]

example : failsAt test_update_finalized_account = none := by decide +kernel

/-- `account_data_by_commitment.rs` 406-426. -/
def test_update_confirmed_account : List (Step ByCommitment) :=
  [update (fixed (K 1) (K 2) 1 10) .confirmed,
   getIs .processed (some (fixed (K 1) (K 2) 1 10)),
   getIs .confirmed (some (fixed (K 1) (K 2) 1 10)),
   getIs .finalized none]

example : failsAt test_update_confirmed_account = none := by decide +kernel

/-- `account_data_by_commitment.rs` 429-579. -/
def test_update_processed_account : List (Step ByCommitment) :=
  [update (fixed (K 1) (K 2) 5 10) .processed,
   getIs .processed (some (fixed (K 1) (K 2) 5 10)),
   getIs .confirmed none,
   getIs .finalized none,
   update (fixed (K 3) (K 4) 5 9) .processed,
   getIs .processed (some (fixed (K 1) (K 2) 5 10)),
   getIs .confirmed none,
   getIs .finalized none,
   update (fixed (K 5) (K 6) 5 11) .processed,
   getIs .processed (some (fixed (K 5) (K 6) 5 11)),
   getIs .confirmed none,
   getIs .finalized none,
   update (fixed (K 7) (K 8) 4 8) .processed,
   getIs .processed (some (fixed (K 5) (K 6) 5 11)),
   getIs .confirmed none,
   getIs .finalized none,
   promoteIs 3 .confirmed none,
   getIs .processed (some (fixed (K 5) (K 6) 5 11)),
   getIs .confirmed none,
   getIs .finalized none,
   promoteIs 4 .confirmed (some ((fixed (K 7) (K 8) 4 8), none)),
   getIs .processed (some (fixed (K 5) (K 6) 5 11)),
   getIs .confirmed (some (fixed (K 7) (K 8) 4 8)),
   getIs .finalized none,
   promoteIs 5 .confirmed (some ((fixed (K 5) (K 6) 5 11), (some (fixed (K 7) (K 8) 4 8)))),
   getIs .processed (some (fixed (K 5) (K 6) 5 11)),
   getIs .confirmed (some (fixed (K 5) (K 6) 5 11)),
   getIs .finalized none,
   promoteIs 5 .finalized (some ((fixed (K 5) (K 6) 5 11), none)),
   getIs .processed (some (fixed (K 5) (K 6) 5 11)),
   getIs .confirmed (some (fixed (K 5) (K 6) 5 11)),
   getIs .finalized (some (fixed (K 5) (K 6) 5 11))]

example : failsAt test_update_processed_account = none := by decide +kernel

/-- `account_data_by_commitment.rs` 582-604. -/
def test_update_and_get_account_data_old_slot_and_write_version : List (Step ByCommitment) :=
  [update (fixed (K 1) (K 2) 1 10) .processed,
   getIs .processed (some (fixed (K 1) (K 2) 1 10)),
   update (fixed (K 1) (K 2) 1 10) .confirmed,
   getIs .confirmed (some (fixed (K 1) (K 2) 1 10)),
   update (fixed (K 1) (K 2) 1 10) .finalized,
   getIs .finalized (some (fixed (K 1) (K 2) 1 10))]

example : failsAt test_update_and_get_account_data_old_slot_and_write_version = none := by decide +kernel

/-- `account_data_by_commitment.rs` 607-624. -/
def test_get_account_data_filtered : List (Step ByCommitment) :=
  [update (fixed (K 1) (K 2) 1 1) .processed,
   filteredIs .processed [.datasize 32] (some (fixed (K 1) (K 2) 1 1)),
   filteredIs .processed [.datasize 64] none]

example : failsAt test_get_account_data_filtered = none := by decide +kernel

/-- `account_data_by_commitment.rs` 627-643. -/
def test_initialize : List (Step ByCommitment) :=
  [start (fixed (K 1) (K 2) 1 1),
   getIs .processed (some (fixed (K 1) (K 2) 1 1)),
   getIs .confirmed (some (fixed (K 1) (K 2) 1 1)),
   getIs .finalized (some (fixed (K 1) (K 2) 1 1))]

example : failsAt test_initialize = none := by decide +kernel

/-- `account_data_by_commitment.rs` 646-666. -/
def test_delete : List (Step ByCommitment) :=
  [update (fixed (K 1) (K 2) 1 1) .processed,
   erase,
   getIs .processed none,
   getIs .confirmed none,
   getIs .finalized none]

example : failsAt test_delete = none := by decide +kernel

end LAM.Tests.ByCommitment
