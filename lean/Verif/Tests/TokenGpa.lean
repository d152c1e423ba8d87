import Verif.Tests.Harness
/-!
# Integration test of token queries

Generated by `tools/gen_tests.py` from the text of `tests/token_program_gpa_tests.rs`.  
These are checks of the model against expectations written by the authors, not proofs of properties.
-/
namespace LAM.Tests.TokenGpa

open LAM.Tests LAM.Tests.Tokens

/-- `tests/token_program_gpa_tests.rs` 17-231. -/
def test_gpa_token_account : List (Step Token.TokenStore) :=
  [init (tokenData (K 6) (tokenParams (K 3) (K 1) 100) 0 0),
   init (tokenData (K 7) (tokenParams (K 3) (K 2) 200) 0 0),
   init (tokenData (K 8) (tokenParams (K 3) (K 2) 300) 0 0),
   init (tokenData (K 9) (tokenParams (K 4) (K 1) 400) 0 0),
   init (tokenData (K 10) (tokenParams (K 4) (K 1) 500) 0 0),
   init (tokenData (K 11) (tokenParams (K 5) (K 1) 600) 0 0),
   init (tokenData (K 12) (tokenParams (K 5) (K 1) 700) 0 0),
   init (tokenData (K 13) (tokenParams (K 5) (K 2) 800) 0 0),
   init (tokenData (K 14) (tokenParams (K 5) (K 2) 900) 0 0),
   init (tokenData (K 15) (tokenParams (K 5) (K 1) 1000) 0 0),
   init (mintData (K 1) (mintParams 100) 0 0),
   init (mintData (K 2) (mintParams 100) 0 0),
   gpaLen Spl.tokenId (some [.datasize 165, .memcmp ⟨32, .bytes ((K 3).bytes)⟩]) .processed 3,
   gpaHas Spl.tokenId (some [.datasize 165, .memcmp ⟨32, .bytes ((K 3).bytes)⟩]) .processed (tokenData (K 6)
     (tokenParams (K 3) (K 1) 100) 0 0),
   gpaHas Spl.tokenId (some [.datasize 165, .memcmp ⟨32, .bytes ((K 3).bytes)⟩]) .processed (tokenData (K 7)
     (tokenParams (K 3) (K 2) 200) 0 0),
   gpaHas Spl.tokenId (some [.datasize 165, .memcmp ⟨32, .bytes ((K 3).bytes)⟩]) .processed (tokenData (K 8)
     (tokenParams (K 3) (K 2) 300) 0 0),
   gpaLen Spl.tokenId (some [.datasize 165, .memcmp ⟨32, .bytes ((K 4).bytes)⟩]) .processed 2,
   gpaHas Spl.tokenId (some [.datasize 165, .memcmp ⟨32, .bytes ((K 4).bytes)⟩]) .processed (tokenData (K 9)
     (tokenParams (K 4) (K 1) 400) 0 0),
   gpaHas Spl.tokenId (some [.datasize 165, .memcmp ⟨32, .bytes ((K 4).bytes)⟩]) .processed (tokenData (K
     10) (tokenParams (K 4) (K 1) 500) 0 0),
   gpaLen Spl.tokenId (some [.datasize 165, .memcmp ⟨32, .bytes ((K 5).bytes)⟩]) .processed 5,
   gpaHas Spl.tokenId (some [.datasize 165, .memcmp ⟨32, .bytes ((K 5).bytes)⟩]) .processed (tokenData (K
     11) (tokenParams (K 5) (K 1) 600) 0 0),
   gpaHas Spl.tokenId (some [.datasize 165, .memcmp ⟨32, .bytes ((K 5).bytes)⟩]) .processed (tokenData (K
     12) (tokenParams (K 5) (K 1) 700) 0 0),
   gpaHas Spl.tokenId (some [.datasize 165, .memcmp ⟨32, .bytes ((K 5).bytes)⟩]) .processed (tokenData (K
     13) (tokenParams (K 5) (K 2) 800) 0 0),
   gpaHas Spl.tokenId (some [.datasize 165, .memcmp ⟨32, .bytes ((K 5).bytes)⟩]) .processed (tokenData (K
     14) (tokenParams (K 5) (K 2) 900) 0 0),
   gpaHas Spl.tokenId (some [.datasize 165, .memcmp ⟨32, .bytes ((K 5).bytes)⟩]) .processed (tokenData (K
     15) (tokenParams (K 5) (K 1) 1000) 0 0),
   gpaLen Spl.tokenId (some [.datasize 165, .memcmp ⟨32, .bytes ((K 5).bytes)⟩, .memcmp ⟨0, .bytes ((K
     1).bytes)⟩]) .processed 3,
   gpaHas Spl.tokenId (some [.datasize 165, .memcmp ⟨32, .bytes ((K 5).bytes)⟩, .memcmp ⟨0, .bytes ((K
     1).bytes)⟩]) .processed (tokenData (K 11) (tokenParams (K 5) (K 1) 600) 0 0),
   gpaHas Spl.tokenId (some [.datasize 165, .memcmp ⟨32, .bytes ((K 5).bytes)⟩, .memcmp ⟨0, .bytes ((K
     1).bytes)⟩]) .processed (tokenData (K 12) (tokenParams (K 5) (K 1) 700) 0 0),
   gpaHas Spl.tokenId (some [.datasize 165, .memcmp ⟨32, .bytes ((K 5).bytes)⟩, .memcmp ⟨0, .bytes ((K
     1).bytes)⟩]) .processed (tokenData (K 15) (tokenParams (K 5) (K 1) 1000) 0 0),
   gpaLen Spl.tokenId (some [.datasize 165, .memcmp ⟨0, .bytes ((K 1).bytes)⟩]) .confirmed 6,
   gpaHas Spl.tokenId (some [.datasize 165, .memcmp ⟨0, .bytes ((K 1).bytes)⟩]) .confirmed (tokenData (K 6)
     (tokenParams (K 3) (K 1) 100) 0 0),
   gpaHas Spl.tokenId (some [.datasize 165, .memcmp ⟨0, .bytes ((K 1).bytes)⟩]) .confirmed (tokenData (K 9)
     (tokenParams (K 4) (K 1) 400) 0 0),
   gpaHas Spl.tokenId (some [.datasize 165, .memcmp ⟨0, .bytes ((K 1).bytes)⟩]) .confirmed (tokenData (K 10)
     (tokenParams (K 4) (K 1) 500) 0 0),
   gpaHas Spl.tokenId (some [.datasize 165, .memcmp ⟨0, .bytes ((K 1).bytes)⟩]) .confirmed (tokenData (K 11)
     (tokenParams (K 5) (K 1) 600) 0 0),
   gpaHas Spl.tokenId (some [.datasize 165, .memcmp ⟨0, .bytes ((K 1).bytes)⟩]) .confirmed (tokenData (K 12)
     (tokenParams (K 5) (K 1) 700) 0 0),
   gpaHas Spl.tokenId (some [.datasize 165, .memcmp ⟨0, .bytes ((K 1).bytes)⟩]) .confirmed (tokenData (K 15)
     (tokenParams (K 5) (K 1) 1000) 0 0),
   gpaLen Spl.tokenId (some [.datasize 165, .memcmp ⟨0, .bytes ((K 2).bytes)⟩]) .confirmed 4,
   gpaHas Spl.tokenId (some [.datasize 165, .memcmp ⟨0, .bytes ((K 2).bytes)⟩]) .confirmed (tokenData (K 7)
     (tokenParams (K 3) (K 2) 200) 0 0),
   gpaHas Spl.tokenId (some [.datasize 165, .memcmp ⟨0, .bytes ((K 2).bytes)⟩]) .confirmed (tokenData (K 8)
     (tokenParams (K 3) (K 2) 300) 0 0),
   gpaHas Spl.tokenId (some [.datasize 165, .memcmp ⟨0, .bytes ((K 2).bytes)⟩]) .confirmed (tokenData (K 13)
     (tokenParams (K 5) (K 2) 800) 0 0),
   gpaHas Spl.tokenId (some [.datasize 165, .memcmp ⟨0, .bytes ((K 2).bytes)⟩]) .confirmed (tokenData (K 14)
     (tokenParams (K 5) (K 2) 900) 0 0),
   gpaLen Spl.tokenId (some [.datasize 82]) .processed 2,
   gpaHas Spl.tokenId (some [.datasize 82]) .processed (mintData (K 1) (mintParams 100) 0 0),
   gpaHas Spl.tokenId (some [.datasize 82]) .processed (mintData (K 2) (mintParams 100) 0 0)]

example : failsAt test_gpa_token_account = none := by decide +kernel

end LAM.Tests.TokenGpa
