import Verif.Props.Data
/-!
# C117: when states of accounts are equal
-/
namespace LAM.Props

/-- What a state says: the account, its contents as Solana accounts have them, and the slot. -/
structure SameState (X : Codecs) (a b : AccountData) : Prop where
  pubkey : a.pubkey = b.pubkey
  slot : a.slot = b.slot
  contents : a.account.toSolana X = b.account.toSolana X

/-- **C117**, as claimed: two states that can be read are equal if and only if they say the same. -/
def C117_statement : Prop :=
  ∀ (X : Codecs) (a b : AccountData) (x y : SolanaAccount), X.Lawful → a.account.toSolana X = .ok x → b.account.toSolana X = .ok y →
    (a.eq b = true ↔ SameState X a b)

theorem eq_iff (a b : AccountData) : a.eq b = true ↔ a.pubkey = b.pubkey ∧ a.account = b.account ∧ a.slot = b.slot := by
  simp [AccountData.eq, and_assoc]

/-- The state of `alice` at slot 3, compressed. -/
def packedAlice : AccountData := ⟨Toy.alice, ⟨5, .lz4 [4, 1, 2, 3] 3, Toy.prog, false, 0⟩, 3, 1⟩

/-- C117 is false: the same state, compressed and not, is not equal. -/
theorem C117_refuted : ¬ C117_statement := by
  intro h
  have := (h Toy.codecs packedAlice (Toy.acct Toy.alice Toy.prog 5 3 1) _ _ Toy.lawful rfl rfl).2 ⟨rfl, rfl, rfl⟩
  exact absurd this (by decide +kernel)

/-- **C117**, the part that holds: equality is an equivalence; equal states say the same; and states made from Solana accounts by the
same compression method are equal if they say the same, whatever their write versions. What is missing: states compressed in different
ways are not equal. -/
theorem C117_partial (X : Codecs) (hX : X.Lawful) :
    (∀ a : AccountData, a.eq a = true) ∧ (∀ a b : AccountData, a.eq b = b.eq a) ∧
    (∀ a b c : AccountData, a.eq b = true → b.eq c = true → a.eq c = true) ∧
    (∀ a b : AccountData, a.eq b = true → SameState X a b) ∧
    ∀ (a b : AccountData) (x y : SolanaAccount) (m : CompressionMethod), (∀ l, m = .zstd l → x.data.length ≤ 64 * 1024 * 1024) →
      (∀ l, m = .zstd l → y.data.length ≤ 64 * 1024 * 1024) → Account.fromSolana X x m = .ok a.account →
      Account.fromSolana X y m = .ok b.account → (a.eq b = true ↔ a.pubkey = b.pubkey ∧ a.slot = b.slot ∧ x = y) := by
  refine ⟨fun a => by simp [eq_iff], fun a b => ?_, fun a b c h1 h2 => ?_, fun a b h => ?_, fun a b x y m zx zy hx hy => ?_⟩
  · rw [Bool.eq_iff_iff, eq_iff, eq_iff]
    exact ⟨fun ⟨h1, h2, h3⟩ => ⟨h1.symm, h2.symm, h3.symm⟩, fun ⟨h1, h2, h3⟩ => ⟨h1.symm, h2.symm, h3.symm⟩⟩
  · rw [eq_iff] at *
    exact ⟨h1.1.trans h2.1, h1.2.1.trans h2.2.1, h1.2.2.trans h2.2.2⟩
  · rw [eq_iff] at h
    exact ⟨h.1, h.2.2, by rw [h.2.1]⟩
  · rw [eq_iff]
    have ex := C09_account_roundtrip X hX x m zx _ hx
    have ey := C09_account_roundtrip X hX y m zy _ hy
    constructor
    · rintro ⟨h1, h2, h3⟩
      rw [h2, ey] at ex
      cases ex
      exact ⟨h1, h3, rfl⟩
    · rintro ⟨h1, h2, rfl⟩
      rw [hx] at hy
      exact ⟨h1, Run.ok.inj hy, h2⟩

/-- States of different write versions are equal, of different lamports not. -/
example : (Toy.acct Toy.alice Toy.prog 5 3 1).eq (Toy.acct Toy.alice Toy.prog 5 3 2) = true ∧
    (Toy.acct Toy.alice Toy.prog 5 3 1).eq (Toy.acct Toy.alice Toy.prog 6 3 1) = false := by
  have h := (C117_partial Toy.codecs Toy.lawful).2.2.2.2
  refine ⟨(h (Toy.acct Toy.alice Toy.prog 5 3 1) (Toy.acct Toy.alice Toy.prog 5 3 2) ⟨5, [1, 2, 3], Toy.prog, false, 0⟩
    ⟨5, [1, 2, 3], Toy.prog, false, 0⟩ .none (by simp) (by simp) rfl rfl).2 ⟨rfl, rfl, rfl⟩, ?_⟩
  rw [Bool.eq_false_iff]
  intro e
  have := (h (Toy.acct Toy.alice Toy.prog 5 3 1) (Toy.acct Toy.alice Toy.prog 6 3 1) ⟨5, [1, 2, 3], Toy.prog, false, 0⟩
    ⟨6, [1, 2, 3], Toy.prog, false, 0⟩ .none (by simp) (by simp) rfl rfl).1 e
  simp at this

end LAM.Props
