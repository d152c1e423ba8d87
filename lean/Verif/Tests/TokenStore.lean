import Verif.Tests.Harness
/-!
# Integration test of the token store

Generated by `tools/gen_tests.py` from the text of `tests/token_program_tests.rs`.  
These are checks of the model against expectations written by the authors, not proofs of properties.
-/
namespace LAM.Tests.TokenStore

open LAM.Tests LAM.Tests.Tokens

/-- `tests/token_program_tests.rs` 18-493. -/
def test_saving_and_loading_token_account : List (Step Token.TokenStore) :=
  [init (mintData (K 1) (mintParams 100) 1 1),
   init (tokenData (K 3) (tokenParams (K 2) (K 1) 50) 2 2),
   tokenIs (K 3) .confirmed (tokenParams (K 2) (K 1) 50),
   tokenIs (K 3) .processed (tokenParams (K 2) (K 1) 50),
   tokenIs (K 3) .finalized (tokenParams (K 2) (K 1) 50),
   mintIs (K 1) .confirmed (mintParams 100),
   mintIs (K 1) .processed (mintParams 100),
   mintIs (K 1) .finalized (mintParams 100),
   update (tokenData (K 3) (tokenRandom 1 (K 4) (K 5) (K 2) (K 1) 50) 3 3) .processed,
   update (tokenData (K 3) (tokenRandom 2 (K 6) (K 7) (K 2) (K 1) 100) 4 4) .processed,
   slotIs ⟨3, 2, 0⟩ .processed [],
   slotIs ⟨4, 3, 0⟩ .processed [],
   slotIs ⟨3, 2, 0⟩ .confirmed [(tokenData (K 3) (tokenRandom 1 (K 4) (K 5) (K 2) (K 1) 50) 3 3)],
   tokenIs (K 3) .processed (tokenRandom 2 (K 6) (K 7) (K 2) (K 1) 100),
   tokenIs (K 3) .confirmed (tokenRandom 1 (K 4) (K 5) (K 2) (K 1) 50),
   tokenIs (K 3) .finalized (tokenParams (K 2) (K 1) 50),
   mintIs (K 1) .confirmed (mintParams 100),
   mintIs (K 1) .processed (mintParams 100),
   mintIs (K 1) .finalized (mintParams 100),
   slotIs ⟨4, 3, 0⟩ .confirmed [(tokenData (K 3) (tokenRandom 2 (K 6) (K 7) (K 2) (K 1) 100) 4 4)],
   slotIs ⟨3, 2, 0⟩ .finalized [(tokenData (K 3) (tokenRandom 1 (K 4) (K 5) (K 2) (K 1) 50) 3 3)],
   update (mintData (K 1) (mintRandom 3 (K 8) (K 9) 2000) 5 5) .processed,
   tokenIs (K 3) .processed (tokenRandom 2 (K 6) (K 7) (K 2) (K 1) 100),
   tokenIs (K 3) .confirmed (tokenRandom 2 (K 6) (K 7) (K 2) (K 1) 100),
   tokenIs (K 3) .finalized (tokenRandom 1 (K 4) (K 5) (K 2) (K 1) 50),
   mintIs (K 1) .confirmed (mintParams 100),
   mintIs (K 1) .processed (mintRandom 3 (K 8) (K 9) 2000),
   mintIs (K 1) .finalized (mintParams 100),
   update (⟨(K 3), ⟨0, .uncompressed [], Pubkey.default, false, 18446744073709551615⟩, 6, 6⟩) .processed,
   getIs (K 3) .processed none,
   tokenIs (K 3) .confirmed (tokenRandom 2 (K 6) (K 7) (K 2) (K 1) 100),
   tokenIs (K 3) .finalized (tokenRandom 1 (K 4) (K 5) (K 2) (K 1) 50),
   slotIs ⟨6, 5, 0⟩ .confirmed [],
   slotOneOf ⟨5, 4, 0⟩ .finalized [(mintData (K 1) (mintRandom 3 (K 8) (K 9) 2000) 5 5), (tokenData (K 3)
     (tokenRandom 2 (K 6) (K 7) (K 2) (K 1) 100) 4 4)] [(tokenData (K 3) (tokenRandom 2 (K 6) (K 7) (K 2) (K
     1) 100) 4 4), (mintData (K 1) (mintRandom 3 (K 8) (K 9) 2000) 5 5)],
   getIs (K 3) .processed none,
   getIs (K 3) .confirmed none,
   tokenIs (K 3) .finalized (tokenRandom 2 (K 6) (K 7) (K 2) (K 1) 100),
   slotIs ⟨6, 5, 0⟩ .finalized [],
   getIs (K 3) .processed none,
   getIs (K 3) .confirmed none,
   getIs (K 3) .finalized none]

example : failsAt test_saving_and_loading_token_account = none := by decide +kernel

end LAM.Tests.TokenStore
