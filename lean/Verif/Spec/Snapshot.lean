import Verif.Model.Types
/-!
# Values representable in the Rust types
-/
namespace LAM.Spec

/-- A `u64` (or `usize`). -/
def U64 (n : Nat) : Prop := n < 2 ^ 64

/-- The lengths fit in a `usize`. -/
def DataFits : Data → Prop
  | .uncompressed d => U64 d.length
  | .lz4 b len => U64 b.length ∧ U64 len
  | .zstd b len => U64 b.length ∧ U64 len

/-- All integers of the account fit in their Rust types. -/
structure Fits (a : AccountData) : Prop where
  lamports : U64 a.account.lamports
  data : DataFits a.account.data
  rentEpoch : U64 a.account.rentEpoch
  slot : U64 a.slot
  wv : U64 a.wv

/-- A `Vec` of representable accounts. -/
def AllFit (l : List AccountData) : Prop := U64 l.length ∧ ∀ a ∈ l, Fits a

instance (n : Nat) : Decidable (U64 n) := inferInstanceAs (Decidable (_ < _))

end LAM.Spec
