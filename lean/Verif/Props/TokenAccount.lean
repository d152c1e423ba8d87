import Verif.Lemmas.TokenAccount
import Verif.Basic.Toy
/-!
# The binary form of token accounts: C42 – C44
-/
namespace LAM.Props
open Spec Token

/-- A token account with every optional part. -/
def richToken : TokenAccount where
  program := .token2022Program
  isDeleted := false
  pubkey := Toy.alice
  owner := Toy.bob
  mint := 7
  amount := 1000
  state := .frozen
  delegate := some (Toy.prog, 5)
  isNative := some 9
  closeAuthority := some Toy.prog2
  additionalData := some [1, 2, 3]

theorem richToken_fits : TokenFits richToken := by
  constructor <;> simp [richToken]

/-- **C42**. Decoding what was encoded gives the token account back, also when more bytes follow. -/
theorem C42_token_roundtrip (t : TokenAccount) (h : TokenFits t) (rest : Bytes) :
    TokenAccount.fromBytes (t.toBytes ++ rest) = .ok t :=
  fromBytes_eq_ok.2 ⟨rest, decode_toBytes h rest⟩

example : TokenAccount.fromBytes richToken.toBytes = .ok richToken := by
  simpa using C42_token_roundtrip richToken richToken_fits []

/-- **C42**. The bound on the additional data is needed: the length is stored in 32 bits.  Whatever is decoded has at most
`2 ^ 32 - 1` additional bytes. -/
theorem C42_decoded_fits (v : Bytes) (t : TokenAccount) (h : TokenAccount.fromBytes v = .ok t) : TokenFits t := by
  obtain ⟨rest, h⟩ := fromBytes_eq_ok.1 h
  exact ((decode_iff _ _ _).1 h).1

/-- **C43**. The accessors read the fields of the encoded account. -/
theorem C43_accessors (t : TokenAccount) (h : TokenFits t) :
    getPubkeyFromBinary t.toBytes = .ok t.pubkey ∧ getOwnerFromBinary t.toBytes = .ok t.owner ∧
      getMintIndexFromBinary t.toBytes = .ok t.mint :=
  ⟨getPubkey_toBytes t, getOwner_toBytes t, getMint_toBytes t h.mint⟩

/-- **C43**. On any bytes: each accessor panics exactly if the bytes end before its field does, and otherwise reads the field
where it is. -/
theorem C43_short (v : Bytes) :
    (getPubkeyFromBinary v = .panic ↔ v.length < 34) ∧ (getOwnerFromBinary v = .panic ↔ v.length < 66) ∧
      (getMintIndexFromBinary v = .panic ↔ v.length < 70) ∧
      (∀ a k c, v = a ++ k.bytes ++ c → a.length = 2 → getPubkeyFromBinary v = .ok k) ∧
      (∀ a k c, v = a ++ k.bytes ++ c → a.length = 34 → getOwnerFromBinary v = .ok k) ∧
      (∀ a m c, v = a ++ m ++ c → a.length = 66 → m.length = 4 → getMintIndexFromBinary v = .ok (leNat m)) := by
  have hp : ∀ k : Pubkey, pubkeyOf k.bytes = .ok k := fun k => by simp [pubkeyOf, k.size]
  refine ⟨?_, ?_, ?_, ?_, ?_, ?_⟩
  · unfold getPubkeyFromBinary slice
    by_cases h : 34 ≤ v.length
    · have : 32 ≤ v.length - 2 := by omega
      simp [h, pubkeyOf, this]
    · simp [h]; omega
  · unfold getOwnerFromBinary slice
    by_cases h : 66 ≤ v.length
    · have : 32 ≤ v.length - 34 := by omega
      simp [h, pubkeyOf, this]
    · simp [h]; omega
  · unfold getMintIndexFromBinary slice
    by_cases h : 70 ≤ v.length
    · simp [h]
    · simp [h]; omega
  · rintro a k c rfl ha
    have := slice_mid a k.bytes c
    rw [k.size, ha, List.append_assoc] at this
    simp [getPubkeyFromBinary, this, hp]
  · rintro a k c rfl ha
    have := slice_mid a k.bytes c
    rw [k.size, ha, List.append_assoc] at this
    simp [getOwnerFromBinary, this, hp]
  · rintro a m c rfl ha hm
    have := slice_mid a m c
    rw [hm, ha, List.append_assoc] at this
    simp [getMintIndexFromBinary, this]

example : getMintIndexFromBinary (richToken.toBytes.take 69) = .panic ∧
    getMintIndexFromBinary (richToken.toBytes.take 70) = .ok 7 := by decide +kernel

/-- **C43**. Different accounts have different binaries. -/
theorem C43_injective (t t' : TokenAccount) (h : TokenFits t) (h' : TokenFits t') (he : t.toBytes = t'.toBytes) :
    t = t' := by
  have h1 := fromBytes_toBytes h
  rw [he, fromBytes_toBytes h'] at h1
  exact (Run.ok.inj h1).symm

/-- **C43**. The length of the binary: 78 bytes, and 40, 8, 32 and `4 + n` bytes for the optional parts. -/
theorem C43_length (t : TokenAccount) :
    t.toBytes.length = 78 + (if t.delegate.isSome then 40 else 0) + (if t.isNative.isSome then 8 else 0) +
      (if t.closeAuthority.isSome then 32 else 0) + (match t.additionalData with | some d => 4 + d.length | none => 0) := by
  rw [length_toBytes]
  unfold fixedLen extra
  cases t.additionalData <;> simp [encOpt]

example : richToken.toBytes.length = 165 := by rw [C43_length]; rfl

/-- **C44**. The decoder accepts exactly the well-formed binaries and panics on all others. -/
theorem C44_accepts_wellformed (v : Bytes) :
    (WellFormedBinary v ↔ ∃ t, TokenAccount.fromBytes v = .ok t) ∧
      (¬ WellFormedBinary v ↔ TokenAccount.fromBytes v = .panic) := by
  have h1 : WellFormedBinary v ↔ ∃ t, TokenAccount.fromBytes v = .ok t := by
    constructor
    · intro h
      obtain ⟨t, rest, h⟩ := decode_ok h
      exact ⟨t, fromBytes_eq_ok.2 ⟨rest, h⟩⟩
    · rintro ⟨t, h⟩
      obtain ⟨rest, h⟩ := fromBytes_eq_ok.1 h
      exact (decode_size h).1
  refine ⟨h1, ?_⟩
  rw [h1]
  have hd := fromBytes_ne_diverge v
  cases h : TokenAccount.fromBytes v <;> simp_all

/-- **C44**. Re-encoding what a canonical binary decodes to gives the same bytes. -/
theorem C44_canonical_reencodes (v : Bytes) (h : CanonicalBinary v) (t : TokenAccount)
    (ht : TokenAccount.fromBytes v = .ok t) : t.toBytes = v := by
  obtain ⟨rest, hd⟩ := fromBytes_eq_ok.1 ht
  have hs := (decode_size hd).2
  have hr : rest = [] := by
    have := h.2.1
    exact List.length_eq_zero_iff.1 (by omega)
  subst hr
  obtain ⟨hf, f, hc, rfl⟩ := (decode_iff _ _ _).1 hd
  have hb := h.2.2
  have : bitAt (f :: body t ++ []) 0 1 = decide (f.toNat / 2 ^ 1 % 2 = 1) := by simp [bitAt]
  rw [this] at hb
  rw [clear_of_bit f (by simpa using hb)] at hc
  rw [toBytes_eq, hc]
  simp

/-- **C44**. Encodings are canonical. -/
theorem C44_encodings_canonical (t : TokenAccount) (h : TokenFits t) : CanonicalBinary t.toBytes := by
  have hd := decode_toBytes h []
  rw [List.append_nil] at hd
  obtain ⟨h1, h2⟩ := decode_size hd
  refine ⟨h1, by simpa using h2, ?_⟩
  rw [toBytes_eq]
  have : bitAt (t.flags :: body t) 0 1 = decide (t.flags.toNat / 2 ^ 1 % 2 = 1) := by simp [bitAt]
  rw [this]
  unfold TokenAccount.flags
  cases t.program <;> cases t.state <;> cases t.delegate.isSome <;> cases t.isNative.isSome <;>
    cases t.closeAuthority.isSome <;> cases t.additionalData.isSome <;> decide +kernel

/-- Three binaries that are rejected: too short, state bits 3, deleted byte 2. -/
example : TokenAccount.fromBytes (List.replicate 77 0) = .panic ∧
    TokenAccount.fromBytes (12 :: List.replicate 77 0) = .panic ∧
    TokenAccount.fromBytes (0 :: 2 :: List.replicate 76 0) = .panic := by
  decide +kernel

end LAM.Props
