import Verif.Tests.Harness
/-!
# Unit tests of the filter store

Generated by `tools/gen_tests.py` from the text of `simple_filter_store.rs`.  
These are checks of the model against expectations written by the authors, not proofs of properties.
-/
namespace LAM.Tests.Filters

open LAM.Tests LAM.Tests.Simple

/-- `simple_filter_store.rs` 175-213. -/
def test_program_that_allows_all : List (Step SimpleFilterStore) :=
  [add [⟨[], (some (K 1)), none⟩],
   contains ⟨[], (some (K 1)), none⟩ true,
   contains ⟨[], (some (K 2)), none⟩ false,
   contains ⟨[], (some (K 1)), (some [.datasize 100])⟩ true,
   contains ⟨[], (some (K 1)), (some [.datasize 100, .memcmp ⟨2, .bytes [123]⟩])⟩ true]

example : failsAt test_program_that_allows_all = none := by decide +kernel

/-- `simple_filter_store.rs` 216-291. -/
def test_program_that_partial_filtering : List (Step SimpleFilterStore) :=
  [add [⟨[], (some (K 1)), (some [.datasize 100, .memcmp ⟨2, .bytes [123]⟩])⟩],
   contains ⟨[], (some (K 1)), none⟩ false,
   contains ⟨[], (some (K 2)), none⟩ false,
   contains ⟨[], (some (K 1)), (some [.datasize 100])⟩ false,
   contains ⟨[], (some (K 1)), (some [.datasize 100, .memcmp ⟨2, .bytes [123]⟩])⟩ true,
   contains ⟨[], (some (K 1)), (some [.memcmp ⟨2, .bytes [123]⟩, .datasize 100])⟩ true,
   contains ⟨[], (some (K 1)), (some [.memcmp ⟨5, .bytes [8, 9, 10]⟩, .memcmp ⟨2, .bytes [123]⟩, .datasize
     100])⟩ true]

example : failsAt test_program_that_partial_filtering = none := by decide +kernel

/-- `simple_filter_store.rs` 294-428. -/
def test_program_that_partial_filtering_2 : List (Step SimpleFilterStore) :=
  [add [⟨[], (some (K 1)), (some [.datasize 100, .memcmp ⟨2, .bytes [1, 2, 3]⟩, .memcmp ⟨10, .bytes [5, 6,
     7]⟩])⟩],
   contains ⟨[], (some (K 1)), none⟩ false,
   contains ⟨[], (some (K 2)), none⟩ false,
   contains ⟨[], (some (K 1)), (some [.datasize 100])⟩ false,
   contains ⟨[], (some (K 1)), (some [.datasize 100, .memcmp ⟨2, .bytes [123]⟩])⟩ false,
   contains ⟨[], (some (K 1)), (some [.datasize 100, .memcmp ⟨2, .bytes [1, 2, 3]⟩, .memcmp ⟨10, .bytes [5,
     6, 7]⟩])⟩ true,
   contains ⟨[], (some (K 1)), (some [.memcmp ⟨2, .bytes [1, 2, 3]⟩, .datasize 100, .memcmp ⟨10, .bytes [5,
     6, 7]⟩])⟩ true,
   contains ⟨[], (some (K 1)), (some [.memcmp ⟨2, .bytes [1, 2, 3]⟩, .memcmp ⟨10, .bytes [5, 6, 7]⟩,
     .datasize 100])⟩ true,
   contains ⟨[], (some (K 1)), (some [.memcmp ⟨10, .bytes [5, 6, 7]⟩, .memcmp ⟨2, .bytes [1, 2, 3]⟩,
     .datasize 100])⟩ true,
   contains ⟨[], (some (K 1)), (some [.memcmp ⟨10, .bytes [5, 6, 7]⟩, .memcmp ⟨2, .bytes [1, 2, 3]⟩, .memcmp
     ⟨20, .bytes [4, 5, 6]⟩, .datasize 100])⟩ true]

example : failsAt test_program_that_partial_filtering_2 = none := by decide +kernel

end LAM.Tests.Filters
