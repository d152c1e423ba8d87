import Verif.Spec.Filter

/-! The order of filters and when a set of them is covered by a query, without sort keys or sorted lists. -/

namespace LAM.Spec

/-- `Bytes`, then `Base58`, then `Base64`; equal forms by their bytes (`common/src/account_filter.rs` 8-14, derived `Ord`). -/
inductive PatternBefore : MemcmpData → MemcmpData → Prop
  | bytes58 (b c) : PatternBefore (.bytes b) (.base58 c)
  | bytes64 (b c) : PatternBefore (.bytes b) (.base64 c)
  | base58_64 (b c) : PatternBefore (.base58 b) (.base64 c)
  | inBytes {b c} : b < c → PatternBefore (.bytes b) (.bytes c)
  | in58 {b c} : b < c → PatternBefore (.base58 b) (.base58 c)
  | in64 {b c} : b < c → PatternBefore (.base64 b) (.base64 c)

/-- Sizes before comparisons, comparisons by offset and then by pattern (`common/src/account_filter.rs` 16-21, 61-66). -/
inductive Before : AccountFilterType → AccountFilterType → Prop
  | size {m n} : m < n → Before (.datasize m) (.datasize n)
  | kind (n f) : Before (.datasize n) (.memcmp f)
  | offset {o o' : Nat} (d e) : o < o' → Before (.memcmp ⟨o, d⟩) (.memcmp ⟨o', e⟩)
  | pattern (o : Nat) {d e} : PatternBefore d e → Before (.memcmp ⟨o, d⟩) (.memcmp ⟨o, e⟩)

/-- All of `l` is asked for by `q`, and whatever else `q` asks for comes after all of `l`. -/
def Covered (l q : List AccountFilterType) : Prop :=
  (∀ x ∈ l, x ∈ q) ∧ ∀ x ∈ q, x ∉ l → ∀ y ∈ l, Before y x

/-- The filters of `l` with every pattern as raw bytes. -/
inductive Decoded (X : Codecs) : List AccountFilterType → List AccountFilterType → Prop
  | nil : Decoded X [] []
  | size (n) {l l'} : Decoded X l l' → Decoded X (.datasize n :: l) (.datasize n :: l')
  | compare (o) {d b l l'} : pattern X d = some b → Decoded X l l' →
      Decoded X (.memcmp ⟨o, d⟩ :: l) (.memcmp ⟨o, .bytes b⟩ :: l')

end LAM.Spec
