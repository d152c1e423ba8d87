import Verif.Tests.Harness
/-!
# Unit test of the filter store that excludes

Generated by `tools/gen_tests.py` from the text of `except_filter_store.rs`.  
These are checks of the model against expectations written by the authors, not proofs of properties.
-/
namespace LAM.Tests.Except

open LAM.Tests LAM.Tests.Excl

/-- `except_filter_store.rs` 45-169. -/
def test_except_filter_store : List (Step ExceptFilterStore) :=
  [add [⟨[], (some (K 1)), none⟩, ⟨[], (some (K 2)), none⟩],
   contains ⟨[], (some (K 3)), none⟩ true,
   contains ⟨[], (some (K 4)), (some [.datasize 100])⟩ true,
   contains ⟨[], (some (K 5)), (some [.datasize 200, .memcmp ⟨100, .bytes [1, 2, 3]⟩])⟩ true,
   contains ⟨[], (some (K 1)), none⟩ false,
   contains ⟨[], (some (K 1)), (some [.datasize 100])⟩ false,
   contains ⟨[], (some (K 1)), (some [.datasize 200, .memcmp ⟨100, .bytes [1, 2, 3]⟩])⟩ false,
   contains ⟨[], (some (K 2)), none⟩ false,
   contains ⟨[], (some (K 2)), (some [.datasize 100])⟩ false,
   contains ⟨[], (some (K 2)), (some [.datasize 200, .memcmp ⟨100, .bytes [1, 2, 3]⟩])⟩ false,
   satisfies ⟨(K 6), ⟨1234, .uncompressed [5, 6, 7], (K 7), false, 873872⟩, 1, 0⟩ true,
   satisfies ⟨(K 8), ⟨1234, .uncompressed [5, 6, 7], (K 1), false, 873872⟩, 1, 0⟩ false,
   satisfies ⟨(K 9), ⟨1234, .uncompressed [5, 6, 7], (K 2), false, 873872⟩, 1, 0⟩ false]

example : failsAt test_except_filter_store = none := by decide +kernel

end LAM.Tests.Except
