import Verif.Spec.Spl
import Verif.Lemmas.Bincode
/-!
# Unpacking by offsets
-/
namespace LAM.Spl
open Spec
open Token (TokenState)

/-- `d` reads exactly `k` bytes; `f` is the value read from the front of the input. -/
def Fixed (k : Nat) (d : Decoder α) (f : Bytes → Option α) : Prop :=
  ∀ bs, d bs = if bs.length < k then none else (f bs).map (fun a => (a, bs.drop k))

theorem fixed_takeN (k : Nat) : Fixed k (takeN k) (fun bs => some (bs.take k)) := by
  intro bs; simp [takeN]

theorem fixed_nat (k : Nat) : Fixed k (decNat k) (fun bs => some (leNat (bs.take k))) := by
  intro bs
  simp only [decNat, takeN]
  split <;> simp

theorem fixed_map {d : Decoder α} {f : Bytes → Option α} (h : Fixed k d f) (g : α → Option β) :
    Fixed k (decMap d g) (fun bs => (f bs).bind g) := by
  intro bs
  simp only [decMap, h bs]
  split
  · simp
  · cases f bs with
    | none => simp
    | some a => cases hg : g a <;> simp [hg]

theorem fixed_pair {d : Decoder α} {f : Bytes → Option α} {e : Decoder β} {g : Bytes → Option β}
    (h : Fixed k d f) (h' : Fixed l e g) :
    Fixed (k + l) (decPair d e) (fun bs => (f bs).bind fun a => (g (bs.drop k)).map fun b => (a, b)) := by
  intro bs
  simp only [decPair, h bs]
  by_cases h1 : bs.length < k
  · rw [if_pos h1, if_pos (by omega)]; simp
  · rw [if_neg h1]
    cases f bs with
    | none => simp
    | some a =>
      simp only [Option.map_some, Option.bind_eq_bind, Option.bind_some, h' (bs.drop k), List.length_drop]
      by_cases h2 : bs.length - k < l
      · rw [if_pos h2, if_pos (by omega)]; simp
      · rw [if_neg h2, if_neg (by omega)]
        cases g (bs.drop k) <;> simp

theorem fixed_byte : Fixed 1 decByte (fun bs => bs.head?) := by
  intro bs
  cases bs <;> simp [decByte]

theorem Fixed.mono {d : Decoder α} {f g : Bytes → Option α} (h : Fixed k d f) (hfg : ∀ bs, k ≤ bs.length → f bs = g bs) :
    Fixed k d g := by
  intro bs
  rw [h bs]
  split
  · rfl
  · rw [hfg bs (by omega)]

/-- The value read determines the bytes, in the form used by the layouts. -/
theorem fixed_unpack {d : Decoder α} {f : Bytes → Option α} (h : Fixed k d f) (bs : Bytes) (a : α) :
    unpackUnchecked k d bs = some a ↔ bs.length = k ∧ f bs = some a := by
  simp only [unpackUnchecked, h bs]
  by_cases hl : bs.length = k
  · rw [if_neg (by omega), if_neg (by omega)]
    cases f bs <;> simp [hl]
  · rw [if_pos hl]; simp [hl]

/-- Public key at the front. -/
def keyF (bs : Bytes) : Option Pubkey := if h : (bs.take 32).length = 32 then some ⟨bs.take 32, h⟩ else none

theorem keyF_eq (bs : Bytes) (k : Pubkey) : keyF bs = some k ↔ bs.take 32 = k.bytes := by
  unfold keyF
  have hk := k.size
  constructor
  · intro h
    split at h
    · simp at h; rw [← h]
    · simp at h
  · intro h
    have : (bs.take 32).length = 32 := by rw [h, hk]
    rw [dif_pos this]
    cases k; simp_all

theorem fixed_pubkey : Fixed 32 Bincode.decPubkey keyF :=
  fixed_map (fixed_takeN 32) fun b => if h : b.length = 32 then some (⟨b, h⟩ : Pubkey) else none

/-- Optional key at the front. -/
def optKeyF (bs : Bytes) : Option (Option Pubkey) :=
  (keyF (bs.drop 4)).bind fun k => if leNat (bs.take 4) = 0 then some none
    else if leNat (bs.take 4) = 1 then some (some k) else none

theorem fixed_key : Fixed 36 decKey optKeyF := by
  have h := fixed_map (fixed_pair (fixed_nat 4) fixed_pubkey) (fun (x : Nat × Pubkey) =>
    if x.1 = 0 then some none else if x.1 = 1 then some (some x.2) else none)
  refine (Fixed.mono (k := 36) (d := decKey) h ?_)
  intro bs _
  simp only [Option.bind_some]
  unfold optKeyF
  cases keyF (bs.drop 4) <;> simp

theorem optKeyF_eq (bs : Bytes) (hl : 36 ≤ bs.length) (k : Option Pubkey) : optKeyF bs = some k ↔ KeyAt bs 0 k := by
  have hlen : ((bs.drop 4).take 32).length = 32 := by simp; omega
  unfold optKeyF KeyAt field
  simp only [Nat.zero_add, List.drop_zero]
  have hk : keyF (bs.drop 4) = some ⟨(bs.drop 4).take 32, hlen⟩ := by rw [keyF_eq]
  rw [hk, Option.bind_some]
  split
  · rename_i h
    cases k <;> simp_all
  · rename_i h
    split
    · rename_i h1
      cases k with
      | none => simp_all
      | some x => cases x; simp_all
    · cases k <;> simp_all

/-- Optional `u64` at the front. -/
def optU64F (bs : Bytes) : Option (Option Nat) :=
  if leNat (bs.take 4) = 0 then some none
    else if leNat (bs.take 4) = 1 then some (some (leNat ((bs.drop 4).take 8))) else none

theorem fixed_optU64 : Fixed 12 decOptU64 optU64F := by
  have h := fixed_map (fixed_pair (fixed_nat 4) (fixed_nat 8)) (fun (x : Nat × Nat) =>
    if x.1 = 0 then some none else if x.1 = 1 then some (some x.2) else none)
  refine (Fixed.mono (k := 12) (d := decOptU64) h ?_)
  intro bs _
  simp [optU64F]

theorem optU64F_eq (bs : Bytes) (n : Option Nat) : optU64F bs = some n ↔ OptU64At bs 0 n := by
  unfold optU64F OptU64At field
  simp only [Nat.zero_add, List.drop_zero]
  split
  · cases n <;> simp_all
  · split
    · cases n with
      | none => simp_all
      | some x => simp_all
    · cases n <;> simp_all

/-- State at the front. -/
def stateF (bs : Bytes) : Option TokenState := bs.head?.bind fun b =>
  if b = 0 then some .uninitialized else if b = 1 then some .initialized else if b = 2 then some .frozen else none

theorem fixed_state : Fixed 1 decState stateF := fixed_map fixed_byte _

theorem stateF_eq (bs : Bytes) (hl : 1 ≤ bs.length) (s : TokenState) :
    stateF bs = some s ↔ leNat (bs.take 1) = stateCode s := by
  cases bs with
  | nil => simp at hl
  | cons b t =>
    simp only [stateF, List.head?_cons, Option.bind_some, List.take_succ_cons, List.take_zero, leNat, Nat.mul_zero, Nat.add_zero]
    have h0 : b = 0 ↔ b.toNat = 0 := by rw [← UInt8.toNat_inj]; rfl
    have h1 : b = 1 ↔ b.toNat = 1 := by rw [← UInt8.toNat_inj]; rfl
    have h2 : b = 2 ↔ b.toNat = 2 := by rw [← UInt8.toNat_inj]; rfl
    simp only [h0, h1, h2]
    cases s <;> simp only [stateCode] <;> grind

/-- Bool at the front. -/
def boolF (bs : Bytes) : Option Bool := bs.head?.bind fun b =>
  if b = 0 then some false else if b = 1 then some true else none

theorem fixed_bool : Fixed 1 Bincode.decBool boolF := fixed_map fixed_byte _

theorem boolF_eq (bs : Bytes) (hl : 1 ≤ bs.length) (s : Bool) :
    boolF bs = some s ↔ leNat (bs.take 1) = if s then 1 else 0 := by
  cases bs with
  | nil => simp at hl
  | cons b t =>
    simp only [boolF, List.head?_cons, Option.bind_some, List.take_succ_cons, List.take_zero, leNat, Nat.mul_zero, Nat.add_zero]
    have h0 : b = 0 ↔ b.toNat = 0 := by rw [← UInt8.toNat_inj]; rfl
    have h1 : b = 1 ↔ b.toNat = 1 := by rw [← UInt8.toNat_inj]; rfl
    simp only [h0, h1]
    cases s <;> grind

theorem byteF_eq (bs : Bytes) (b : UInt8) : bs.head? = some b ↔ bs.take 1 = [b] := by
  cases bs <;> simp

theorem keyAt_drop (bs : Bytes) (off : Nat) (k : Option Pubkey) : KeyAt (bs.drop off) 0 k ↔ KeyAt bs off k := by
  unfold KeyAt field; simp [List.drop_drop]

theorem optU64At_drop (bs : Bytes) (off : Nat) (k : Option Nat) : OptU64At (bs.drop off) 0 k ↔ OptU64At bs off k := by
  unfold OptU64At field; simp [List.drop_drop]

theorem unpackAccount_iff (bs : Bytes) (a : Account) : unpackAccount bs = some a ↔ AccountLayout bs a := by
  have h := fixed_map (fixed_pair fixed_pubkey (fixed_pair fixed_pubkey (fixed_pair (fixed_nat 8) (fixed_pair fixed_key
    (fixed_pair fixed_state (fixed_pair fixed_optU64 (fixed_pair (fixed_nat 8) fixed_key)))))))
    (fun (mint, owner, amount, delegate, state, isNative, delegatedAmount, closeAuthority) =>
      some ({ mint, owner, amount, delegate, state, isNative, delegatedAmount, closeAuthority } : Account))
  rw [unpackAccount, accountLen, decAccount, fixed_unpack h]
  constructor
  · rintro ⟨hl, h⟩
    simp only [Option.bind_eq_some_iff, Option.map_eq_some_iff, List.drop_drop, Option.some.injEq] at h
    obtain ⟨x, ⟨k, hk, y, ⟨o, ho, z, ⟨n, hn, w, ⟨dk, hdk, u, ⟨s, hs, v, ⟨nat, hnat, q, ⟨da, hda, ca, hca, rfl⟩, rfl⟩, rfl⟩, rfl⟩, rfl⟩, rfl⟩, rfl⟩, rfl⟩ := h
    simp only [Nat.reduceAdd] at hn hdk hs hnat hda hca
    rw [keyF_eq] at hk ho
    rw [optKeyF_eq _ (by simp; omega), keyAt_drop] at hdk hca
    rw [stateF_eq _ (by simp; omega)] at hs
    rw [optU64F_eq, optU64At_drop] at hnat
    exact ⟨hl, by simpa [field] using hk, ho, hn, hdk, hs, hnat, hda, hca⟩
  · rintro ⟨hl, h1, h2, h3, h4, h5, h6, h7, h8⟩
    refine ⟨hl, ?_⟩
    have hk : keyF bs = some a.mint := (keyF_eq _ _).2 (by simpa [field] using h1)
    have ho : keyF (bs.drop 32) = some a.owner := (keyF_eq _ _).2 h2
    have hdk : optKeyF (bs.drop 72) = some a.delegate := by
      rw [optKeyF_eq _ (by simp; omega), keyAt_drop]; exact h4
    have hca : optKeyF (bs.drop 129) = some a.closeAuthority := by
      rw [optKeyF_eq _ (by simp; omega), keyAt_drop]; exact h8
    have hs : stateF (bs.drop 108) = some a.state := by
      rw [stateF_eq _ (by simp; omega)]; exact h5
    have hn : optU64F (bs.drop 109) = some a.isNative := by
      rw [optU64F_eq, optU64At_drop]; exact h6
    simp only [field] at h3 h7
    simp [List.drop_drop, hk, ho, hdk, hca, hs, hn, h3, h7]

theorem unpackMint_iff (bs : Bytes) (m : Mint) : unpackMint bs = some m ↔ MintLayout bs m := by
  have h := fixed_map (fixed_pair fixed_key (fixed_pair (fixed_nat 8) (fixed_pair fixed_byte (fixed_pair fixed_bool fixed_key))))
    (fun (mintAuthority, supply, decimals, isInitialized, freezeAuthority) =>
      some ({ mintAuthority, supply, decimals, isInitialized, freezeAuthority } : Mint))
  rw [unpackMint, mintLen, decMint, fixed_unpack h]
  constructor
  · rintro ⟨hl, h⟩
    simp only [Option.bind_eq_some_iff, Option.map_eq_some_iff, List.drop_drop, Option.some.injEq] at h
    obtain ⟨x, ⟨k, hk, y, ⟨n, hn, z, ⟨d, hd, w, ⟨i, hi, f, hf, rfl⟩, rfl⟩, rfl⟩, rfl⟩, rfl⟩ := h
    simp only [Nat.reduceAdd] at hd hi hf
    rw [optKeyF_eq _ (by omega)] at hk
    rw [optKeyF_eq _ (by simp; omega), keyAt_drop] at hf
    rw [boolF_eq _ (by simp; omega)] at hi
    rw [byteF_eq] at hd
    exact ⟨hl, hk, hn, hd, hi, hf⟩
  · rintro ⟨hl, h1, h2, h3, h4, h5⟩
    refine ⟨hl, ?_⟩
    have hk : optKeyF bs = some m.mintAuthority := (optKeyF_eq _ (by omega) _).2 h1
    have hf : optKeyF (bs.drop 46) = some m.freezeAuthority := by
      rw [optKeyF_eq _ (by simp; omega), keyAt_drop]; exact h5
    have hi : boolF (bs.drop 45) = some m.isInitialized := by
      rw [boolF_eq _ (by simp; omega)]; exact h4
    have hd : (bs.drop 44).head? = some m.decimals := (byteF_eq _ _).2 h3
    simp only [field] at h2
    simp only [List.drop_drop, hk, hf, hi, h2, Option.bind_some, Nat.reduceAdd, hd, Option.map_some]

theorem fixed_times {d : Decoder α} {f : Bytes → Option α} (h : Fixed k d f) (n : Nat) :
    Fixed (n * k) (decTimes d n) (fun bs => (List.range n).mapM (fun i => f (bs.drop (k * i)))) := by
  induction n with
  | zero => intro bs; simp [decTimes]
  | succ n ih =>
    have hp := fixed_map (fixed_pair h ih) (fun x => some (x.1 :: x.2))
    have he : decTimes d (n + 1) = decMap (decPair d (decTimes d n)) (fun x => some (x.1 :: x.2)) := by
      funext bs
      simp only [decTimes, decMap, decPair]
      cases d bs with
      | none => rfl
      | some x =>
        simp only [Option.bind_eq_bind, Option.bind_some]
        cases decTimes d n x.2 <;> rfl
    rw [he, show (n + 1) * k = k + n * k by rw [Nat.succ_mul, Nat.add_comm]]
    refine hp.mono ?_
    intro bs _
    rw [List.range_succ_eq_map]
    simp only [List.mapM_cons, List.mapM_map, Nat.mul_zero, List.drop_zero, Option.bind_eq_bind, Function.comp_def, List.drop_drop,
      Nat.mul_succ]
    cases f bs with
    | none => rfl
    | some a =>
      simp only [Option.bind_some, Nat.add_comm k]
      cases (List.range n).mapM (fun i => f (bs.drop (k * i + k))) <;> rfl

theorem mapM_eq_some (f : Nat → Option α) (n : Nat) (l : List α) :
    (List.range n).mapM f = some l ↔ l.length = n ∧ ∀ i (h : i < l.length), f i = some l[i] := by
  induction n generalizing f l with
  | zero => cases l <;> simp
  | succ n ih =>
    rw [List.range_succ_eq_map, List.mapM_cons, List.mapM_map]
    simp only [Option.bind_eq_bind, Option.bind_eq_some_iff, Function.comp_def, Option.pure_def, Option.some.injEq]
    constructor
    · rintro ⟨a, ha, t, ht, rfl⟩
      obtain ⟨hl, hi⟩ := (ih _ _).1 ht
      refine ⟨by simp [hl], ?_⟩
      intro i h
      cases i with
      | zero => exact ha
      | succ i => exact hi i (by simpa using h)
    · rintro ⟨hl, hi⟩
      cases l with
      | nil => simp at hl
      | cons a t =>
        refine ⟨a, hi 0 (by simp), t, (ih _ _).2 ⟨by simpa using hl, ?_⟩, rfl⟩
        intro i h
        exact hi (i + 1) (by simpa using h)

theorem unpackMultisig_iff (bs : Bytes) (m : Multisig) : unpackMultisig bs = some m ↔ MultisigLayout bs m := by
  have h := fixed_map (fixed_pair fixed_byte (fixed_pair fixed_byte (fixed_pair fixed_bool (fixed_times fixed_pubkey 11))))
    (fun (m, n, isInitialized, signers) => some ({ m, n, isInitialized, signers } : Multisig))
  rw [unpackMultisig, multisigLen, decMultisig, fixed_unpack h]
  constructor
  · rintro ⟨hl, h⟩
    simp only [Option.bind_eq_some_iff, Option.map_eq_some_iff, List.drop_drop, Option.some.injEq] at h
    obtain ⟨x, ⟨k, hk, y, ⟨n, hn, z, ⟨d, hd, w, hw, rfl⟩, rfl⟩, rfl⟩, rfl⟩ := h
    simp only [Nat.reduceAdd] at hd hw
    rw [byteF_eq] at hk hn
    rw [boolF_eq _ (by simp; omega)] at hd
    obtain ⟨hc, hs⟩ := (mapM_eq_some _ _ _).1 hw
    refine ⟨hl, hk, hn, hd, hc, ?_⟩
    intro i hi
    exact (keyF_eq _ _).1 (hs i hi)
  · rintro ⟨hl, h1, h2, h3, h4, h5⟩
    refine ⟨hl, ?_⟩
    have hi : boolF (bs.drop 2) = some m.isInitialized := by
      rw [boolF_eq _ (by simp; omega)]; exact h3
    have hm : bs.head? = some m.m := (byteF_eq _ _).2 h1
    have hn : (bs.drop 1).head? = some m.n := (byteF_eq _ _).2 h2
    have hs := (mapM_eq_some (fun i => keyF (bs.drop (3 + 32 * i))) 11 m.signers).2
      ⟨h4, fun i hi => (keyF_eq _ _).2 (h5 i hi)⟩
    simp only [List.drop_drop, hi, hm, Option.bind_some, Nat.reduceAdd, hn, hs, Option.map_some]

end LAM.Spl
