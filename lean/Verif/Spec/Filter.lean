import Verif.Model.Filter
/-!
# What filters mean

Definitions used to state the filter properties.  They use the data types of the model (and the
external decoders) but none of its functions.
-/
namespace LAM.Spec

/-- The bytes a memcmp pattern denotes; `none` if the text is malformed. -/
def pattern (X : Codecs) : MemcmpData → Option Bytes
  | .bytes b => some b
  | .base58 s => X.b58 s
  | .base64 s => X.b64 s

/-- `pat` occurs in `d` at position `off`. -/
def WindowAt (off : Nat) (pat d : Bytes) : Prop :=
  ∃ pre suf, d = pre ++ pat ++ suf ∧ pre.length = off

/-- The account data `d` passes the filter. -/
def Allows (X : Codecs) (f : AccountFilterType) (d : Bytes) : Prop :=
  match f with
  | .datasize n => d.length = n
  | .memcmp m => ∃ pat, pattern X m.data = some pat ∧ WindowAt m.offset pat d

/-- The filter's text (if any) decodes. -/
def WellFormed (X : Codecs) (f : AccountFilterType) : Prop :=
  match f with
  | .datasize _ => True
  | .memcmp m => (pattern X m.data).isSome

instance (X : Codecs) (f : AccountFilterType) : Decidable (WellFormed X f) := by
  cases f <;> simp only [WellFormed] <;> infer_instance

/-- All sub-filters of an account filter decode. -/
def FilterWellFormed (X : Codecs) (f : AccountFilter) : Prop :=
  ∀ l, f.filters = some l → ∀ x ∈ l, WellFormed X x

/-- The uncompressed contents of stored data; `none` if it does not decompress. -/
def contents (X : Codecs) : Data → Option Bytes
  | .uncompressed d => some d
  | .lz4 b _ => X.lz4d b
  | .zstd b _ => X.zstdd b (64 * 1024 * 1024)

/-- Account `a`, whose uncompressed data is `d`, matches the filter `f`. -/
def Matches (X : Codecs) (f : AccountFilter) (a : AccountData) (d : Bytes) : Prop :=
  a.pubkey ∈ f.accounts ∨
  (f.programId = some a.account.owner ∧ ∀ l, f.filters = some l → ∀ x ∈ l, Allows X x d)

end LAM.Spec
