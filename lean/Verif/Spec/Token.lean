import Verif.Model.TokenAccount
/-!
# Ranges and layout of token account binaries
-/
namespace LAM.Spec
open Token

/-- All integers fit in their Rust types and the additional data has a 32-bit length. -/
structure TokenFits (t : TokenAccount) : Prop where
  mint : t.mint < 2 ^ 32
  amount : t.amount < 2 ^ 64
  delegate : ∀ d n, t.delegate = some (d, n) → n < 2 ^ 64
  native : ∀ n, t.isNative = some n → n < 2 ^ 64
  additional : ∀ d, t.additionalData = some d → d.length < 2 ^ 32

/-- Bit `i` of the byte at offset `off`. -/
def bitAt (v : Bytes) (off i : Nat) : Bool := ((v[off]?).getD 0).toNat / 2 ^ i % 2 = 1

/-- Offset of the additional data: 78 bytes of header, then 40 bytes of delegate, 8 bytes of native amount and 32
bytes of close authority, each if flagged. -/
def extraOffset (v : Bytes) : Nat :=
  78 + (if bitAt v 0 4 then 40 else 0) + (if bitAt v 0 5 then 8 else 0) + (if bitAt v 0 6 then 32 else 0)

/-- Number of bytes that the binary describes, if it is long enough to tell. -/
def binarySize (v : Bytes) : Nat :=
  extraOffset v + if bitAt v 0 7 then 4 + leNat ((v.drop (extraOffset v)).take 4) else 0

/-- Long enough, state bits not 3, deleted byte 0 or 1. -/
def WellFormedBinary (v : Bytes) : Prop :=
  extraOffset v + (if bitAt v 0 7 then 4 else 0) ≤ v.length ∧ binarySize v ≤ v.length ∧
    ¬ (bitAt v 0 2 ∧ bitAt v 0 3) ∧ ((v[1]?).getD 0).toNat ≤ 1

/-- Nothing after the described bytes, and the unused flag is clear. -/
def CanonicalBinary (v : Bytes) : Prop := WellFormedBinary v ∧ v.length = binarySize v ∧ bitAt v 0 1 = false

end LAM.Spec
