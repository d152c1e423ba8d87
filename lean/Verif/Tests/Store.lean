import Verif.Tests.Harness
/-!
# Unit tests of the account store

Generated by `tools/gen_tests.py` from the text of `inmemory_account_store.rs`.  
These are checks of the model against expectations written by the authors, not proofs of properties.
-/
namespace LAM.Tests.Store

open LAM.Tests LAM.Tests.Accounts

/-- `inmemory_account_store.rs` 574-690. -/
def test_account_store : Script :=
  script [⟨[], (some (K 1)), none⟩]
  [init (rnd 1 0 (K 2) (K 1) 0),
   init (rnd 2 0 (K 3) (K 1) 0),
   getIs (K 2) .processed (some (rnd 1 0 (K 2) (K 1) 0)),
   getIs (K 2) .confirmed (some (rnd 1 0 (K 2) (K 1) 0)),
   getIs (K 2) .finalized (some (rnd 1 0 (K 2) (K 1) 0)),
   getIs (K 3) .processed (some (rnd 2 0 (K 3) (K 1) 0)),
   getIs (K 3) .confirmed (some (rnd 2 0 (K 3) (K 1) 0)),
   getIs (K 3) .finalized (some (rnd 2 0 (K 3) (K 1) 0)),
   update (rnd 3 1 (K 2) (K 1) 0) .processed,
   update (rnd 4 2 (K 2) (K 1) 0) .processed,
   update (rnd 5 3 (K 2) (K 1) 0) .processed,
   update (rnd 6 4 (K 2) (K 1) 0) .processed,
   getIs (K 2) .processed (some (rnd 6 4 (K 2) (K 1) 0)),
   getIs (K 2) .confirmed (some (rnd 1 0 (K 2) (K 1) 0)),
   getIs (K 2) .finalized (some (rnd 1 0 (K 2) (K 1) 0)),
   slot (slotInfo 1) .confirmed,
   getIs (K 2) .processed (some (rnd 6 4 (K 2) (K 1) 0)),
   getIs (K 2) .confirmed (some (rnd 3 1 (K 2) (K 1) 0)),
   getIs (K 2) .finalized (some (rnd 1 0 (K 2) (K 1) 0)),
   slot (slotInfo 2) .confirmed,
   getIs (K 2) .processed (some (rnd 6 4 (K 2) (K 1) 0)),
   getIs (K 2) .confirmed (some (rnd 4 2 (K 2) (K 1) 0)),
   getIs (K 2) .finalized (some (rnd 1 0 (K 2) (K 1) 0)),
   slot (slotInfo 1) .finalized,
   getIs (K 2) .processed (some (rnd 6 4 (K 2) (K 1) 0)),
   getIs (K 2) .confirmed (some (rnd 4 2 (K 2) (K 1) 0)),
   getIs (K 2) .finalized (some (rnd 3 1 (K 2) (K 1) 0))]

example : failsAt test_account_store = none := by decide +kernel

/-- `inmemory_account_store.rs` 693-789. -/
def test_account_store_if_finalized_clears_old_processed_slots : Script :=
  script [⟨[], (some (K 1)), none⟩]
  [init (rnd 1 0 (K 2) (K 1) 0),
   update (rnd 2 1 (K 2) (K 1) 0) .processed,
   update (rnd 3 1 (K 2) (K 1) 0) .processed,
   update (rnd 4 2 (K 2) (K 1) 0) .processed,
   update (rnd 5 3 (K 2) (K 1) 0) .processed,
   update (rnd 6 4 (K 2) (K 1) 0) .processed,
   update (rnd 7 5 (K 2) (K 1) 0) .processed,
   update (rnd 8 6 (K 2) (K 1) 0) .processed,
   update (rnd 9 7 (K 2) (K 1) 0) .processed,
   update (rnd 10 8 (K 2) (K 1) 0) .processed,
   update (rnd 11 9 (K 2) (K 1) 0) .processed,
   update (rnd 12 10 (K 2) (K 1) 0) .processed,
   update (rnd 13 11 (K 2) (K 1) 0) .processed,
   stored (K 2) 12,
   slot (slotInfo 11) .finalized,
   stored (K 2) 1,
   getIs (K 2) .finalized (some (rnd 13 11 (K 2) (K 1) 0)),
   slot (slotInfo 8) .finalized,
   getIs (K 2) .finalized (some (rnd 13 11 (K 2) (K 1) 0))]

example : failsAt test_account_store_if_finalized_clears_old_processed_slots = none := by decide +kernel

/-- `inmemory_account_store.rs` 792-933. -/
def test_get_program_account : Script :=
  script [⟨[], (some (K 1)), none⟩, ⟨[], (some (K 2)), none⟩, ⟨[], (some (K 3)), none⟩, ⟨[], (some (K 4)), none⟩]
  [update (rnd 1 1 (K 5) (K 1) 0) .confirmed,
   update (rnd 2 1 (K 6) (K 1) 0) .confirmed,
   update (rnd 3 1 (K 7) (K 1) 0) .confirmed,
   update (rnd 4 1 (K 8) (K 1) 0) .confirmed,
   update (rnd 5 1 (K 9) (K 2) 0) .confirmed,
   gpaOk (K 1) none .processed,
   gpaLen (K 1) none .processed 4,
   gpaOk (K 1) none .confirmed,
   gpaLen (K 1) none .confirmed 4,
   gpaOk (K 1) none .finalized,
   gpaIs (K 1) none .finalized [],
   gpaOk (K 2) none .processed,
   gpaLen (K 2) none .processed 1,
   gpaOk (K 2) none .confirmed,
   gpaLen (K 2) none .confirmed 1,
   gpaOk (K 2) none .finalized,
   gpaIs (K 2) none .finalized [],
   gpaErr (K 10) none .processed,
   gpaErr (K 11) none .confirmed,
   gpaErr (K 12) none .finalized,
   slot (slotInfo 1) .finalized,
   gpaOk (K 1) none .finalized,
   gpaLen (K 1) none .finalized 4,
   gpaOk (K 2) none .finalized,
   gpaLen (K 2) none .finalized 1,
   update (rnd 6 2 (K 13) (K 3) 0) .finalized,
   slot (slotInfo 2) .finalized,
   update (rnd 7 3 (K 13) (K 3) 0) .confirmed,
   update (rnd 8 4 (K 13) (K 4) 0) .processed,
   gpaIs (K 3) none .confirmed [(rnd 7 3 (K 13) (K 3) 0)],
   gpaIs (K 3) none .processed [],
   gpaIs (K 4) none .processed [(rnd 8 4 (K 13) (K 4) 0)],
   gpaIs (K 3) none .finalized [(rnd 6 2 (K 13) (K 3) 0)],
   slot (slotInfo 3) .finalized,
   slot (slotInfo 4) .confirmed,
   gpaIs (K 3) none .finalized [(rnd 7 3 (K 13) (K 3) 0)],
   gpaIs (K 3) none .confirmed [],
   gpaIs (K 4) none .confirmed [(rnd 8 4 (K 13) (K 4) 0)],
   slot (slotInfo 4) .finalized,
   gpaIs (K 3) none .finalized [],
   gpaIs (K 4) none .finalized [(rnd 8 4 (K 13) (K 4) 0)]]

example : failsAt test_get_program_account = none := by decide +kernel

/-- `inmemory_account_store.rs` 936-1154. -/
def test_get_program_account_2 : Script :=
  script [⟨[], (some (K 1)), none⟩]
  [init (rndData 6 1 (K 2) (K 1) (bytes 1 100) (.lz4 8)),
   init (rndData 7 1 (K 3) (K 1) (bytes 1 100) .none),
   init (rndData 8 1 (K 4) (K 1) (bytes 2 200) (.lz4 3)),
   init (rndData 9 1 (K 5) (K 1) (bytes 2 200) .none),
   init (rndData 10 1 (K 6) (K 1) (bytes 3 300) (.lz4 10)),
   init (rndData 11 1 (K 7) (K 1) (bytes 3 300) (.lz4 5)),
   init (rndData 12 1 (K 8) (K 1) (bytes 4 400) (.lz4 4)),
   init (rndData 13 1 (K 9) (K 1) (bytes 4 400) (.lz4 2)),
   init (rndData 14 1 (K 10) (K 1) (bytes 5 400) (.lz4 1)),
   gpaKeys (K 1) none .finalized [(K 2), (K 3), (K 4), (K 5), (K 6), (K 7), (K 8), (K 9), (K 10)],
   gpaKeys (K 1) (some [.datasize 100]) .finalized [(K 2), (K 3)],
   gpaKeys (K 1) (some [.memcmp ⟨0, .bytes (cut (bytes 1 100) 0 30)⟩]) .finalized [(K 2), (K 3)],
   gpaKeys (K 1) (some [.memcmp ⟨10, .base64 (text64 (cut (bytes 1 100) 10 30))⟩]) .finalized [(K 2), (K 3)],
   gpaKeys (K 1) (some [.memcmp ⟨20, .base58 (text58 (cut (bytes 1 100) 20 60))⟩]) .finalized [(K 2), (K 3)],
   gpaKeys (K 1) (some [.datasize 300]) .finalized [(K 6), (K 7)],
   gpaKeys (K 1) (some [.memcmp ⟨10, .base64 (text64 (cut (bytes 3 300) 10 30))⟩]) .finalized [(K 6), (K 7)],
   gpaKeys (K 1) (some [.memcmp ⟨20, .base58 (text58 (cut (bytes 3 300) 20 60))⟩]) .finalized [(K 6), (K 7)]]

example : failsAt test_get_program_account_2 = none := by decide +kernel

/-- `inmemory_account_store.rs` 1157-1287. -/
def writing_old_account_state : Script :=
  script [⟨[], (some (K 1)), none⟩]
  [init (rnd 1 0 (K 2) (K 1) 0),
   getIs (K 2) .processed (some (rnd 1 0 (K 2) (K 1) 0)),
   getIs (K 2) .confirmed (some (rnd 1 0 (K 2) (K 1) 0)),
   update (rnd 2 3 (K 2) (K 1) 0) .processed,
   getIs (K 2) .processed (some (rnd 2 3 (K 2) (K 1) 0)),
   getIs (K 2) .confirmed (some (rnd 1 0 (K 2) (K 1) 0)),
   update (rnd 3 2 (K 2) (K 1) 0) .processed,
   getIs (K 2) .processed (some (rnd 2 3 (K 2) (K 1) 0)),
   getIs (K 2) .confirmed (some (rnd 1 0 (K 2) (K 1) 0)),
   slotIs (slotInfo 2) .confirmed [(rnd 3 2 (K 2) (K 1) 0)],
   getIs (K 2) .processed (some (rnd 2 3 (K 2) (K 1) 0)),
   getIs (K 2) .confirmed (some (rnd 3 2 (K 2) (K 1) 0)),
   getIs (K 2) .finalized (some (rnd 1 0 (K 2) (K 1) 0)),
   update (rnd 4 1 (K 2) (K 1) 0) .confirmed,
   getIs (K 2) .processed (some (rnd 2 3 (K 2) (K 1) 0)),
   getIs (K 2) .confirmed (some (rnd 3 2 (K 2) (K 1) 0)),
   getIs (K 2) .finalized (some (rnd 1 0 (K 2) (K 1) 0)),
   slotIs (slotInfo 3) .finalized [(rnd 2 3 (K 2) (K 1) 0)],
   getIs (K 2) .processed (some (rnd 2 3 (K 2) (K 1) 0)),
   getIs (K 2) .confirmed (some (rnd 2 3 (K 2) (K 1) 0)),
   getIs (K 2) .finalized (some (rnd 2 3 (K 2) (K 1) 0)),
   slotIs (slotInfo 2) .finalized [],
   getIs (K 2) .processed (some (rnd 2 3 (K 2) (K 1) 0)),
   getIs (K 2) .confirmed (some (rnd 2 3 (K 2) (K 1) 0)),
   getIs (K 2) .finalized (some (rnd 2 3 (K 2) (K 1) 0)),
   update (rnd 5 1 (K 2) (K 1) 0) .processed,
   update (rnd 6 2 (K 2) (K 1) 0) .confirmed,
   getIs (K 2) .processed (some (rnd 2 3 (K 2) (K 1) 0)),
   getIs (K 2) .confirmed (some (rnd 2 3 (K 2) (K 1) 0)),
   getIs (K 2) .finalized (some (rnd 2 3 (K 2) (K 1) 0))]

example : failsAt writing_old_account_state = none := by decide +kernel

/-- `inmemory_account_store.rs` 1290-1365. -/
def account_states_with_different_write_version : Script :=
  script [⟨[], (some (K 1)), none⟩]
  [update (rnd 1 1 (K 2) (K 1) 10) .processed,
   getIs (K 2) .processed (some (rnd 1 1 (K 2) (K 1) 10)),
   getIs (K 2) .confirmed none,
   getIs (K 2) .finalized none,
   update (rnd 2 1 (K 2) (K 1) 11) .processed,
   getIs (K 2) .processed (some (rnd 2 1 (K 2) (K 1) 11)),
   getIs (K 2) .confirmed none,
   getIs (K 2) .finalized none,
   update (rnd 3 1 (K 2) (K 1) 9) .processed,
   getIs (K 2) .processed (some (rnd 2 1 (K 2) (K 1) 11)),
   getIs (K 2) .confirmed none,
   getIs (K 2) .finalized none,
   slot (slotInfo 1) .finalized,
   getIs (K 2) .processed (some (rnd 2 1 (K 2) (K 1) 11)),
   getIs (K 2) .confirmed (some (rnd 2 1 (K 2) (K 1) 11)),
   getIs (K 2) .finalized (some (rnd 2 1 (K 2) (K 1) 11)),
   update (rnd 4 1 (K 2) (K 1) 12) .processed,
   getIs (K 2) .processed (some (rnd 4 1 (K 2) (K 1) 12)),
   getIs (K 2) .confirmed (some (rnd 4 1 (K 2) (K 1) 12)),
   getIs (K 2) .finalized (some (rnd 4 1 (K 2) (K 1) 12))]

example : failsAt account_states_with_different_write_version = none := by decide +kernel

/-- `inmemory_account_store.rs` 1368-2129. -/
def test_owner_changes : Script :=
  script [⟨[], (some (K 1)), none⟩, ⟨[], (some (K 2)), none⟩]
  [init (rnd 1 0 (K 4) (K 1) 0),
   update (rnd 2 1 (K 5) (K 2) 0) .processed,
   update (rnd 3 1 (K 6) (K 3) 0) .processed,
   getIs (K 4) .finalized (some (rnd 1 0 (K 4) (K 1) 0)),
   getIs (K 4) .confirmed (some (rnd 1 0 (K 4) (K 1) 0)),
   getIs (K 4) .processed (some (rnd 1 0 (K 4) (K 1) 0)),
   getIs (K 5) .processed (some (rnd 2 1 (K 5) (K 2) 0)),
   getIs (K 5) .confirmed none,
   getIs (K 5) .finalized none,
   getIs (K 6) .processed none,
   getIs (K 6) .confirmed none,
   getIs (K 6) .processed none,
   gpaIs (K 1) none .processed [(rnd 1 0 (K 4) (K 1) 0)],
   gpaIs (K 1) none .confirmed [(rnd 1 0 (K 4) (K 1) 0)],
   gpaIs (K 1) none .finalized [(rnd 1 0 (K 4) (K 1) 0)],
   gpaIs (K 2) none .processed [(rnd 2 1 (K 5) (K 2) 0)],
   gpaIs (K 2) none .confirmed [],
   gpaIs (K 2) none .finalized [],
   gpaError (K 3) none .processed .configDoesNotContainRequiredFilters,
   gpaError (K 3) none .confirmed .configDoesNotContainRequiredFilters,
   gpaError (K 3) none .finalized .configDoesNotContainRequiredFilters,
   slot (slotInfo 1) .confirmed,
   update (rnd 4 2 (K 4) (K 2) 0) .processed,
   update (rnd 5 2 (K 5) (K 1) 0) .processed,
   getIs (K 4) .finalized (some (rnd 1 0 (K 4) (K 1) 0)),
   getIs (K 4) .confirmed (some (rnd 1 0 (K 4) (K 1) 0)),
   getIs (K 4) .processed (some (rnd 4 2 (K 4) (K 2) 0)),
   getIs (K 5) .processed (some (rnd 5 2 (K 5) (K 1) 0)),
   getIs (K 5) .confirmed (some (rnd 2 1 (K 5) (K 2) 0)),
   getIs (K 5) .finalized none,
   gpaIs (K 1) none .processed [(rnd 5 2 (K 5) (K 1) 0)],
   gpaIs (K 1) none .confirmed [(rnd 1 0 (K 4) (K 1) 0)],
   gpaIs (K 1) none .finalized [(rnd 1 0 (K 4) (K 1) 0)],
   gpaIs (K 2) none .processed [(rnd 4 2 (K 4) (K 2) 0)],
   gpaIs (K 2) none .confirmed [(rnd 2 1 (K 5) (K 2) 0)],
   gpaIs (K 2) none .finalized [],
   slot (slotInfo 1) .finalized,
   slot (slotInfo 2) .confirmed,
   getIs (K 4) .finalized (some (rnd 1 0 (K 4) (K 1) 0)),
   getIs (K 4) .confirmed (some (rnd 4 2 (K 4) (K 2) 0)),
   getIs (K 4) .processed (some (rnd 4 2 (K 4) (K 2) 0)),
   getIs (K 5) .processed (some (rnd 5 2 (K 5) (K 1) 0)),
   getIs (K 5) .confirmed (some (rnd 5 2 (K 5) (K 1) 0)),
   getIs (K 5) .finalized (some (rnd 2 1 (K 5) (K 2) 0)),
   gpaIs (K 1) none .processed [(rnd 5 2 (K 5) (K 1) 0)],
   gpaIs (K 1) none .confirmed [(rnd 5 2 (K 5) (K 1) 0)],
   gpaIs (K 1) none .finalized [(rnd 1 0 (K 4) (K 1) 0)],
   gpaIs (K 2) none .processed [(rnd 4 2 (K 4) (K 2) 0)],
   gpaIs (K 2) none .confirmed [(rnd 4 2 (K 4) (K 2) 0)],
   gpaIs (K 2) none .finalized [(rnd 2 1 (K 5) (K 2) 0)],
   slot (slotInfo 2) .finalized,
   getIs (K 4) .finalized (some (rnd 4 2 (K 4) (K 2) 0)),
   getIs (K 4) .confirmed (some (rnd 4 2 (K 4) (K 2) 0)),
   getIs (K 4) .processed (some (rnd 4 2 (K 4) (K 2) 0)),
   getIs (K 5) .processed (some (rnd 5 2 (K 5) (K 1) 0)),
   getIs (K 5) .confirmed (some (rnd 5 2 (K 5) (K 1) 0)),
   getIs (K 5) .finalized (some (rnd 5 2 (K 5) (K 1) 0)),
   gpaIs (K 1) none .processed [(rnd 5 2 (K 5) (K 1) 0)],
   gpaIs (K 1) none .confirmed [(rnd 5 2 (K 5) (K 1) 0)],
   gpaIs (K 1) none .finalized [(rnd 5 2 (K 5) (K 1) 0)],
   gpaIs (K 2) none .processed [(rnd 4 2 (K 4) (K 2) 0)],
   gpaIs (K 2) none .confirmed [(rnd 4 2 (K 4) (K 2) 0)],
   gpaIs (K 2) none .finalized [(rnd 4 2 (K 4) (K 2) 0)],
   update (rnd 6 5 (K 4) (K 3) 0) .processed,
   update (rnd 7 5 (K 5) (K 3) 0) .processed,
   update (rnd 8 5 (K 6) (K 1) 0) .processed,
   getIs (K 4) .processed (some (rnd 6 5 (K 4) (K 3) 0)),
   getIs (K 4) .confirmed (some (rnd 4 2 (K 4) (K 2) 0)),
   getIs (K 4) .finalized (some (rnd 4 2 (K 4) (K 2) 0)),
   getIs (K 5) .processed (some (rnd 7 5 (K 5) (K 3) 0)),
   getIs (K 5) .confirmed (some (rnd 5 2 (K 5) (K 1) 0)),
   getIs (K 5) .finalized (some (rnd 5 2 (K 5) (K 1) 0)),
   getIs (K 6) .processed (some (rnd 8 5 (K 6) (K 1) 0)),
   getIs (K 6) .confirmed none,
   getIs (K 6) .finalized none,
   gpaIs (K 1) none .processed [(rnd 8 5 (K 6) (K 1) 0)],
   gpaIs (K 1) none .confirmed [(rnd 5 2 (K 5) (K 1) 0)],
   gpaIs (K 1) none .finalized [(rnd 5 2 (K 5) (K 1) 0)],
   gpaIs (K 2) none .processed [],
   gpaIs (K 2) none .confirmed [(rnd 4 2 (K 4) (K 2) 0)],
   gpaIs (K 2) none .finalized [(rnd 4 2 (K 4) (K 2) 0)],
   gpaError (K 3) none .processed .configDoesNotContainRequiredFilters,
   gpaError (K 3) none .confirmed .configDoesNotContainRequiredFilters,
   gpaError (K 3) none .finalized .configDoesNotContainRequiredFilters,
   slot (slotInfo 5) .confirmed,
   getIs (K 4) .processed (some (rnd 6 5 (K 4) (K 3) 0)),
   getIs (K 4) .confirmed (some (rnd 6 5 (K 4) (K 3) 0)),
   getIs (K 4) .finalized (some (rnd 4 2 (K 4) (K 2) 0)),
   getIs (K 5) .processed (some (rnd 7 5 (K 5) (K 3) 0)),
   getIs (K 5) .confirmed (some (rnd 7 5 (K 5) (K 3) 0)),
   getIs (K 5) .finalized (some (rnd 5 2 (K 5) (K 1) 0)),
   getIs (K 6) .processed (some (rnd 8 5 (K 6) (K 1) 0)),
   getIs (K 6) .confirmed (some (rnd 8 5 (K 6) (K 1) 0)),
   getIs (K 6) .finalized none,
   gpaIs (K 1) none .processed [(rnd 8 5 (K 6) (K 1) 0)],
   gpaIs (K 1) none .confirmed [(rnd 8 5 (K 6) (K 1) 0)],
   gpaIs (K 1) none .finalized [(rnd 5 2 (K 5) (K 1) 0)],
   gpaIs (K 2) none .processed [],
   gpaIs (K 2) none .confirmed [],
   gpaIs (K 2) none .finalized [(rnd 4 2 (K 4) (K 2) 0)],
   gpaError (K 3) none .processed .configDoesNotContainRequiredFilters,
   gpaError (K 3) none .confirmed .configDoesNotContainRequiredFilters,
   gpaError (K 3) none .finalized .configDoesNotContainRequiredFilters,
   slot (slotInfo 5) .finalized,
   getIs (K 4) .processed none,
   getIs (K 4) .confirmed none,
   getIs (K 4) .finalized none,
   getIs (K 5) .processed none,
   getIs (K 5) .confirmed none,
   getIs (K 5) .finalized none,
   getIs (K 6) .processed (some (rnd 8 5 (K 6) (K 1) 0)),
   getIs (K 6) .confirmed (some (rnd 8 5 (K 6) (K 1) 0)),
   getIs (K 6) .finalized (some (rnd 8 5 (K 6) (K 1) 0)),
   gpaIs (K 1) none .processed [(rnd 8 5 (K 6) (K 1) 0)],
   gpaIs (K 1) none .confirmed [(rnd 8 5 (K 6) (K 1) 0)],
   gpaIs (K 1) none .finalized [(rnd 8 5 (K 6) (K 1) 0)],
   gpaIs (K 2) none .processed [],
   gpaIs (K 2) none .confirmed [],
   gpaIs (K 2) none .finalized [],
   gpaError (K 3) none .processed .configDoesNotContainRequiredFilters,
   gpaError (K 3) none .confirmed .configDoesNotContainRequiredFilters,
   gpaError (K 3) none .finalized .configDoesNotContainRequiredFilters,
   update (rnd 9 6 (K 5) (K 1) 0) .processed,
   getIs (K 4) .processed none,
   getIs (K 4) .confirmed none,
   getIs (K 4) .finalized none,
   getIs (K 5) .processed (some (rnd 9 6 (K 5) (K 1) 0)),
   getIs (K 5) .confirmed none,
   getIs (K 5) .finalized none,
   getIs (K 6) .processed (some (rnd 8 5 (K 6) (K 1) 0)),
   getIs (K 6) .confirmed (some (rnd 8 5 (K 6) (K 1) 0)),
   getIs (K 6) .finalized (some (rnd 8 5 (K 6) (K 1) 0)),
   gpaHas (K 1) none .processed (rnd 9 6 (K 5) (K 1) 0),
   gpaHas (K 1) none .processed (rnd 8 5 (K 6) (K 1) 0),
   gpaIs (K 1) none .confirmed [(rnd 8 5 (K 6) (K 1) 0)],
   gpaIs (K 1) none .finalized [(rnd 8 5 (K 6) (K 1) 0)],
   gpaIs (K 2) none .processed [],
   gpaIs (K 2) none .confirmed [],
   gpaIs (K 2) none .finalized [],
   gpaError (K 3) none .processed .configDoesNotContainRequiredFilters,
   gpaError (K 3) none .confirmed .configDoesNotContainRequiredFilters,
   gpaError (K 3) none .finalized .configDoesNotContainRequiredFilters,
   slot (slotInfo 6) .confirmed,
   getIs (K 4) .processed none,
   getIs (K 4) .confirmed none,
   getIs (K 4) .finalized none,
   getIs (K 5) .processed (some (rnd 9 6 (K 5) (K 1) 0)),
   getIs (K 5) .confirmed (some (rnd 9 6 (K 5) (K 1) 0)),
   getIs (K 5) .finalized none,
   getIs (K 6) .processed (some (rnd 8 5 (K 6) (K 1) 0)),
   getIs (K 6) .confirmed (some (rnd 8 5 (K 6) (K 1) 0)),
   getIs (K 6) .finalized (some (rnd 8 5 (K 6) (K 1) 0)),
   gpaHas (K 1) none .processed (rnd 9 6 (K 5) (K 1) 0),
   gpaHas (K 1) none .processed (rnd 8 5 (K 6) (K 1) 0),
   gpaHas (K 1) none .confirmed (rnd 9 6 (K 5) (K 1) 0),
   gpaHas (K 1) none .confirmed (rnd 8 5 (K 6) (K 1) 0),
   gpaIs (K 1) none .finalized [(rnd 8 5 (K 6) (K 1) 0)],
   gpaIs (K 2) none .processed [],
   gpaIs (K 2) none .confirmed [],
   gpaIs (K 2) none .finalized [],
   gpaError (K 3) none .processed .configDoesNotContainRequiredFilters,
   gpaError (K 3) none .confirmed .configDoesNotContainRequiredFilters,
   gpaError (K 3) none .finalized .configDoesNotContainRequiredFilters,
   slot (slotInfo 6) .finalized,
   getIs (K 4) .processed none,
   getIs (K 4) .confirmed none,
   getIs (K 4) .finalized none,
   getIs (K 5) .processed (some (rnd 9 6 (K 5) (K 1) 0)),
   getIs (K 5) .confirmed (some (rnd 9 6 (K 5) (K 1) 0)),
   getIs (K 5) .finalized (some (rnd 9 6 (K 5) (K 1) 0)),
   getIs (K 6) .processed (some (rnd 8 5 (K 6) (K 1) 0)),
   getIs (K 6) .confirmed (some (rnd 8 5 (K 6) (K 1) 0)),
   getIs (K 6) .finalized (some (rnd 8 5 (K 6) (K 1) 0)),
   gpaHas (K 1) none .processed (rnd 9 6 (K 5) (K 1) 0),
   gpaHas (K 1) none .processed (rnd 8 5 (K 6) (K 1) 0),
   gpaHas (K 1) none .confirmed (rnd 9 6 (K 5) (K 1) 0),
   gpaHas (K 1) none .confirmed (rnd 8 5 (K 6) (K 1) 0),
   gpaHas (K 1) none .finalized (rnd 9 6 (K 5) (K 1) 0),
   gpaHas (K 1) none .finalized (rnd 8 5 (K 6) (K 1) 0),
   gpaIs (K 2) none .processed [],
   gpaIs (K 2) none .confirmed [],
   gpaIs (K 2) none .finalized [],
   gpaError (K 3) none .processed .configDoesNotContainRequiredFilters,
   gpaError (K 3) none .confirmed .configDoesNotContainRequiredFilters,
   gpaError (K 3) none .finalized .configDoesNotContainRequiredFilters]

example : failsAt test_owner_changes = none := by decide +kernel

/-- `inmemory_account_store.rs` 2132-2302. -/
def test_account_deletions : Script :=
  script [⟨[], (some (K 1)), none⟩]
  [init (rnd 1 1 (K 2) (K 1) 1),
   getIs (K 2) .processed (some (rnd 1 1 (K 2) (K 1) 1)),
   getIs (K 2) .confirmed (some (rnd 1 1 (K 2) (K 1) 1)),
   getIs (K 2) .finalized (some (rnd 1 1 (K 2) (K 1) 1)),
   gpaIs (K 1) none .processed [(rnd 1 1 (K 2) (K 1) 1)],
   gpaIs (K 1) none .confirmed [(rnd 1 1 (K 2) (K 1) 1)],
   gpaIs (K 1) none .finalized [(rnd 1 1 (K 2) (K 1) 1)],
   update (rnd 2 2 (K 2) (K 1) 2) .processed,
   update (⟨(K 2), ⟨0, .uncompressed [], Pubkey.default, false, 18446744073709551615⟩, 2, 3⟩) .processed,
   update (⟨(K 3), ⟨0, .uncompressed [], Pubkey.default, false, 18446744073709551615⟩, 2, 4⟩) .processed,
   getIs (K 2) .processed none,
   getIs (K 2) .confirmed (some (rnd 1 1 (K 2) (K 1) 1)),
   getIs (K 2) .finalized (some (rnd 1 1 (K 2) (K 1) 1)),
   getIs (K 3) .processed none,
   getIs (K 3) .confirmed none,
   getIs (K 3) .finalized none,
   gpaIs (K 1) none .processed [],
   gpaIs (K 1) none .confirmed [(rnd 1 1 (K 2) (K 1) 1)],
   gpaIs (K 1) none .finalized [(rnd 1 1 (K 2) (K 1) 1)],
   slotIs (slotInfo 2) .confirmed [⟨(K 2), ⟨0, .uncompressed [], Pubkey.default, false,
     18446744073709551615⟩, 2, 3⟩],
   getIs (K 2) .processed none,
   getIs (K 2) .confirmed none,
   getIs (K 2) .finalized (some (rnd 1 1 (K 2) (K 1) 1)),
   getIs (K 3) .processed none,
   getIs (K 3) .confirmed none,
   getIs (K 3) .finalized none,
   gpaIs (K 1) none .processed [],
   gpaIs (K 1) none .confirmed [],
   gpaIs (K 1) none .finalized [(rnd 1 1 (K 2) (K 1) 1)],
   slotIs (slotInfo 2) .finalized [⟨(K 2), ⟨0, .uncompressed [], Pubkey.default, false,
     18446744073709551615⟩, 2, 3⟩],
   getIs (K 2) .processed none,
   getIs (K 2) .confirmed none,
   getIs (K 2) .finalized none,
   getIs (K 3) .processed none,
   getIs (K 3) .confirmed none,
   getIs (K 3) .finalized none,
   gpaIs (K 1) none .processed [],
   gpaIs (K 1) none .confirmed [],
   gpaIs (K 1) none .finalized []]

example : failsAt test_account_deletions = none := by decide +kernel

end LAM.Tests.Store
