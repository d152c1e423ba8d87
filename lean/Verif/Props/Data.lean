import Verif.Lemmas.Filter
import Verif.Basic.Toy
/-!
# Properties C09 and C64: account data compression, commitment levels
-/
namespace LAM.Props
open Spec

/-! ## C09 -/

/-- **C09**. `Data::new` then `data` gives the bytes back for every method (zstd within the size the
decompressor is given), and `len`/`is_empty` describe the uncompressed bytes. -/
theorem C09_data_roundtrip (X : Codecs) (hX : X.Lawful) (d : Bytes) (m : CompressionMethod)
    (hz : ∀ l, m = .zstd l → d.length ≤ 64 * 1024 * 1024) (x : Data) (hx : Data.new X d m = .ok x) :
    x.data X = .ok d ∧ x.len = d.length ∧ (x.isEmpty = true ↔ d = []) := by
  cases m with
  | none =>
    simp [Data.new] at hx; subst hx
    simp [Data.data, Data.len, Data.isEmpty]
  | lz4 l =>
    cases hc : X.lz4c l d with
    | none => simp [Data.new, hc] at hx
    | some b =>
      simp [Data.new, hc] at hx; subst hx
      simp [Data.data, Data.len, Data.isEmpty, hX.lz4 l d b hc]
  | zstd l =>
    cases hc : X.zstdc l d with
    | none => simp [Data.new, hc] at hx
    | some b =>
      simp [Data.new, hc] at hx; subst hx
      have := hX.zstd l d b (64 * 1024 * 1024) hc
      rw [if_pos (hz l rfl)] at this
      simp [Data.data, Data.len, Data.isEmpty, MAX_ACCOUNT_SIZE, this]

/-- **C09**. Compressing an account and converting it back gives the original account. -/
theorem C09_account_roundtrip (X : Codecs) (hX : X.Lawful) (a : SolanaAccount) (m : CompressionMethod)
    (hz : ∀ l, m = .zstd l → a.data.length ≤ 64 * 1024 * 1024) (b : Account)
    (hb : Account.fromSolana X a m = .ok b) : b.toSolana X = .ok a := by
  simp only [Account.fromSolana, Run.bind_eq_ok, Run.pure_eq, Run.ok.injEq] at hb
  obtain ⟨x, hx, rfl⟩ := hb
  obtain ⟨h1, -, -⟩ := C09_data_roundtrip X hX a.data m hz x hx
  simp [Account.toSolana, h1]

/-- **C09**. Without compression the conversion never fails; with compression it panics exactly when the
compressor reports an error. -/
theorem C09_compress_total (X : Codecs) (d : Bytes) (m : CompressionMethod) :
    (∃ x, Data.new X d m = .ok x) ∨
    (∃ l, (m = .lz4 l ∧ X.lz4c l d = none) ∨ (m = .zstd l ∧ X.zstdc l d = none)) := by
  cases m with
  | none => exact Or.inl ⟨_, rfl⟩
  | lz4 l =>
    cases hc : X.lz4c l d with
    | none => exact Or.inr ⟨l, Or.inl ⟨rfl, hc⟩⟩
    | some b => exact Or.inl ⟨.lz4 b d.length, by simp [Data.new, hc]⟩
  | zstd l =>
    cases hc : X.zstdc l d with
    | none => exact Or.inr ⟨l, Or.inr ⟨rfl, hc⟩⟩
    | some b => exact Or.inl ⟨.zstd b d.length, by simp [Data.new, hc]⟩

/-- **C09** limit: zstd data beyond 64 MB can be stored but reading it back panics. -/
theorem C09_zstd_oversize_panics (X : Codecs) (hX : X.Lawful) (d : Bytes) (l : Int) (x : Data)
    (hx : Data.new X d (.zstd l) = .ok x) (hd : 64 * 1024 * 1024 < d.length) : x.data X = .panic := by
  cases hc : X.zstdc l d with
  | none => simp [Data.new, hc] at hx
  | some b =>
    simp [Data.new, hc] at hx; subst hx
    have := hX.zstd l d b (64 * 1024 * 1024) hc
    rw [if_neg (by omega)] at this
    simp [Data.data, MAX_ACCOUNT_SIZE, this]

example : Toy.codecs.Lawful ∧
    Account.fromSolana Toy.codecs ⟨7, [1, 2, 3], Toy.alice, true, 9⟩ (.lz4 1) =
      .ok ⟨7, .lz4 [4, 1, 2, 3] 3, Toy.alice, true, 9⟩ ∧
    Account.fromSolana Toy.codecs ⟨7, [], Toy.alice, true, 9⟩ (.zstd 3) =
      .ok ⟨7, .zstd [5] 0, Toy.alice, true, 9⟩ :=
  ⟨Toy.lawful, by decide, by decide⟩

/-! ## C64 -/

/-- **C64**. The three levels are linearly ordered, processed < confirmed < finalized. -/
theorem C64_commitment_order :
    Commitment.processed < .confirmed ∧ Commitment.confirmed < .finalized ∧
    (∀ a b : Commitment, a ≤ b ∨ b ≤ a) ∧ (∀ a b : Commitment, a ≤ b → b ≤ a → a = b) ∧
    (∀ a b c : Commitment, a ≤ b → b ≤ c → a ≤ c) ∧ (∀ a : Commitment, .processed ≤ a ∧ a ≤ .finalized) := by
  refine ⟨by decide, by decide, ?_, ?_, ?_, ?_⟩
  · intro a b; cases a <;> cases b <;> decide
  · intro a b; cases a <;> cases b <;> decide
  · intro a b c; cases a <;> cases b <;> cases c <;> decide
  · intro a; cases a <;> decide

/-- **C64**. RPC commitments map to the level that gives at least the requested guarantee. -/
theorem C64_of_config (v : CommitmentLevel) :
    (Commitment.ofConfig v = .finalized ↔ v = .finalized ∨ v = .max ∨ v = .root) ∧
    (Commitment.ofConfig v = .confirmed ↔ v = .confirmed ∨ v = .single ∨ v = .singleGossip) ∧
    (Commitment.ofConfig v = .processed ↔ v = .processed ∨ v = .recent) := by
  cases v <;> decide

/-- Display names are distinct. -/
theorem C64_display_injective (a b : Commitment) (h : a.display = b.display) : a = b := by
  cases a <;> cases b <;> first | rfl | (revert h; decide)

end LAM.Props
