import Verif.Spec.Token
import Verif.Lemmas.Bincode
/-!
# The token account codec
-/
namespace LAM.Token
open Spec

/-- An optional part. -/
def encOpt (enc : α → Bytes) : Option α → Bytes
  | some a => enc a
  | none => []

theorem exact_opt {enc : α → Bytes} {d : Decoder α} {p : α → Prop} (h : Exact enc d p) (b : Bool) :
    Exact (encOpt enc) (decOpt b d)
      (fun o => o.isSome = b ∧ ∀ a, o = some a → p a) := by
  intro bs o rest
  cases b with
  | false =>
    simp only [decOpt, Bool.false_eq_true, if_false, Option.some.injEq, Prod.mk.injEq]
    constructor
    · rintro ⟨rfl, rfl⟩; simp [encOpt]
    · rintro ⟨⟨h1, -⟩, rfl⟩
      cases o <;> simp_all [encOpt]
  | true =>
    simp only [decOpt, if_true, Option.bind_eq_bind, Option.bind_eq_some_iff, Prod.exists, Option.pure_def,
      Option.some.injEq, Prod.mk.injEq]
    constructor
    · rintro ⟨a, r, ha, rfl, rfl⟩
      obtain ⟨pa, rfl⟩ := (h _ _ _).1 ha
      exact ⟨⟨rfl, by simpa using pa⟩, rfl⟩
    · rintro ⟨⟨h1, h2⟩, rfl⟩
      cases o with
      | none => simp at h1
      | some a => exact ⟨a, rest, (h _ _ _).2 ⟨h2 a rfl, rfl⟩, rfl, rfl⟩

theorem exact_bytes4 : Exact (fun d : Bytes => leBytes 4 d.length ++ d) decBytes4 (fun d => d.length < 2 ^ 32) := by
  intro bs d rest
  simp only [decBytes4, Option.bind_eq_bind, Option.bind_eq_some_iff, Prod.exists]
  constructor
  · rintro ⟨n, r, hn, ht⟩
    obtain ⟨hlt, rfl⟩ := (exact_nat 4 _ _ _).1 hn
    obtain ⟨rfl, rfl⟩ := (exact_takeN n _ _ _).1 ht
    exact ⟨by simpa using hlt, by simp⟩
  · rintro ⟨hlt, rfl⟩
    exact ⟨d.length, d ++ rest, (exact_nat 4 _ _ _).2 ⟨by simpa using hlt, by simp⟩,
      (exact_takeN _ _ _ _).2 ⟨rfl, rfl⟩⟩

/-- The flag byte without the unused bit. -/
def clear (f : UInt8) : UInt8 := f &&& 0xFD

/-- What the decoder reads from the flag byte. -/
def readFlags (f : UInt8) : Program × Option TokenState × Bool × Bool × Bool × Bool :=
  (if f &&& 0x1 = 0 then .tokenProgram else .token2022Program, stateOfBits ((f >>> 2) &&& 0x3),
    (f >>> 4) &&& 0x1 = 0x1, (f >>> 5) &&& 0x1 = 0x1, (f >>> 6) &&& 0x1 = 0x1, (f >>> 7) &&& 0x1 = 0x1)

theorem clear_eq_iff (f : UInt8) (p : Program) (s : TokenState) (d n c a : Bool) :
    clear f = flagByte p s d n c a ↔ readFlags f = (p, some s, d, n, c, a) := by
  have k1 : ∀ g : Fin 256, readFlags (clear (UInt8.ofNat g)) = readFlags (UInt8.ofNat g) := by decide +kernel
  have k2 : ∀ g : Fin 256, match readFlags (UInt8.ofNat g) with
      | (p, some s, d, n, c, a) => (clear (UInt8.ofNat g) == flagByte p s d n c a) = true
      | _ => true := by
    have : ∀ g : Fin 256, (match readFlags (UInt8.ofNat g) with
      | (p, some s, d, n, c, a) => clear (UInt8.ofNat g) == flagByte p s d n c a
      | _ => true) = true := by decide +kernel
    intro g
    have h := this g
    split
    · rename_i heq; rw [heq] at h; exact h
    · rfl
  have k3 : readFlags (flagByte p s d n c a) = (p, some s, d, n, c, a) := by
    cases p <;> cases s <;> cases d <;> cases n <;> cases c <;> cases a <;> decide +kernel
  have h1 := k1 ⟨f.toNat, f.toNat_lt⟩
  have h2 := k2 ⟨f.toNat, f.toNat_lt⟩
  simp only [UInt8.ofNat_toNat] at h1 h2
  constructor
  · intro h; rw [← h1, h, k3]
  · intro h; rw [h] at h2; simpa using h2

/-- Everything after the flag byte. -/
def body (t : TokenAccount) : Bytes :=
  Bincode.encBool t.isDeleted ++ (Bincode.encPubkey t.pubkey ++ (Bincode.encPubkey t.owner ++ (leBytes 4 t.mint ++
  (leBytes 8 t.amount ++
  (encOpt (fun x : Pubkey × Nat => Bincode.encPubkey x.1 ++ leBytes 8 x.2) t.delegate ++
  (encOpt (leBytes 8) t.isNative ++ (encOpt Bincode.encPubkey t.closeAuthority ++
  encOpt (fun d : Bytes => leBytes 4 d.length ++ d) t.additionalData)))))))

theorem toBytes_eq (t : TokenAccount) : t.toBytes = t.flags :: body t := by
  unfold TokenAccount.toBytes body Bincode.encBool Bincode.encPubkey
  cases t.delegate <;> cases t.isNative <;> cases t.closeAuthority <;> cases t.additionalData <;>
    simp [encOpt]

theorem decode_iff (bs : Bytes) (t : TokenAccount) (rest : Bytes) :
    TokenAccount.decode bs = some (t, rest) ↔
      TokenFits t ∧ ∃ f, clear f = t.flags ∧ bs = f :: body t ++ rest := by
  have eD := fun b => exact_opt (exact_pair Bincode.exact_pubkey (exact_nat 8)) b
  have eN := fun b => exact_opt (exact_nat 8) b
  have eC := fun b => exact_opt Bincode.exact_pubkey b
  have eA := fun b => exact_opt exact_bytes4 b
  simp only [TokenAccount.decode, Option.bind_eq_bind, Option.bind_eq_some_iff, Prod.exists, Option.pure_def,
    Option.some.injEq, Prod.mk.injEq]
  constructor
  · rintro ⟨f, b0, h0, del, b1, h1, pk, b2, h2, ow, b3, h3, mi, b4, h4, am, b5, h5, st, hst, de, b6, h6, na, b7, h7,
      cl, b8, h8, ad, b9, h9, rfl, rfl⟩
    obtain ⟨-, rfl⟩ := (exact_byte _ _ _).1 h0
    obtain ⟨-, rfl⟩ := (Bincode.exact_bool _ _ _).1 h1
    obtain ⟨-, rfl⟩ := (Bincode.exact_pubkey _ _ _).1 h2
    obtain ⟨-, rfl⟩ := (Bincode.exact_pubkey _ _ _).1 h3
    obtain ⟨hm, rfl⟩ := (exact_nat 4 _ _ _).1 h4
    obtain ⟨ha, rfl⟩ := (exact_nat 8 _ _ _).1 h5
    obtain ⟨⟨hd1, hd2⟩, rfl⟩ := (eD _ _ _ _).1 h6
    obtain ⟨⟨hn1, hn2⟩, rfl⟩ := (eN _ _ _ _).1 h7
    obtain ⟨⟨hc1, -⟩, rfl⟩ := (eC _ _ _ _).1 h8
    obtain ⟨⟨ha1, ha2⟩, rfl⟩ := (eA _ _ _ _).1 h9
    refine ⟨⟨by simpa using hm, by simpa using ha, fun d n h => by simpa using (hd2 (d, n) h).2,
      fun n h => by simpa using hn2 n h, fun d h => ha2 d h⟩, f, ?_, by simp [body]⟩
    unfold TokenAccount.flags
    rw [clear_eq_iff]
    simp only [readFlags, hst, hd1, hn1, hc1, ha1]
  · rintro ⟨hf, f, hc, rfl⟩
    unfold TokenAccount.flags at hc
    rw [clear_eq_iff] at hc
    simp only [readFlags, Prod.mk.injEq] at hc
    obtain ⟨c1, c2, c3, c4, c5, c6⟩ := hc
    simp only [body, List.append_assoc, List.cons_append]
    refine ⟨f, _, (exact_byte _ _ _).2 ⟨trivial, rfl⟩, t.isDeleted, _,
      (Bincode.exact_bool _ _ _).2 ⟨trivial, by rfl⟩, t.pubkey, _,
      (Bincode.exact_pubkey _ _ _).2 ⟨trivial, by rfl⟩, t.owner, _,
      (Bincode.exact_pubkey _ _ _).2 ⟨trivial, by rfl⟩, t.mint, _,
      (exact_nat 4 _ _ _).2 ⟨by simpa using hf.mint, rfl⟩, t.amount, _,
      (exact_nat 8 _ _ _).2 ⟨by simpa using hf.amount, rfl⟩, t.state, c2, t.delegate, _,
      (eD _ _ _ _).2 ⟨⟨c3.symm, ?_⟩, rfl⟩, t.isNative, _,
      (eN _ _ _ _).2 ⟨⟨c4.symm, ?_⟩, rfl⟩, t.closeAuthority, _,
      (eC _ _ _ _).2 ⟨⟨c5.symm, fun _ _ => trivial⟩, rfl⟩, t.additionalData, _,
      (eA _ _ _ _).2 ⟨⟨c6.symm, hf.additional⟩, rfl⟩, ?_, rfl⟩
    · rintro ⟨d, n⟩ h
      exact ⟨trivial, by simpa using hf.delegate d n h⟩
    · intro n h; simpa using hf.native n h
    · simp only [c1]

end LAM.Token

namespace LAM.Token
open Spec

/-- Length of the part before the additional data. -/
def fixedLen (t : TokenAccount) : Nat :=
  78 + (if t.delegate.isSome then 40 else 0) + (if t.isNative.isSome then 8 else 0) +
    (if t.closeAuthority.isSome then 32 else 0)

/-- The additional data and its length. -/
def extra (t : TokenAccount) : Bytes := encOpt (fun d : Bytes => leBytes 4 d.length ++ d) t.additionalData

theorem body_split (t : TokenAccount) : ∃ b, body t = b ++ extra t ∧ b.length + 1 = fixedLen t := by
  refine ⟨Bincode.encBool t.isDeleted ++ (Bincode.encPubkey t.pubkey ++ (Bincode.encPubkey t.owner ++ (leBytes 4 t.mint ++
    (leBytes 8 t.amount ++ (encOpt (fun x : Pubkey × Nat => Bincode.encPubkey x.1 ++ leBytes 8 x.2) t.delegate ++
    (encOpt (leBytes 8) t.isNative ++ (encOpt Bincode.encPubkey t.closeAuthority))))))), ?_, ?_⟩
  · simp [body, extra]
  · have h1 := t.pubkey.size
    have h2 := t.owner.size
    have h3 : (encOpt (fun x : Pubkey × Nat => Bincode.encPubkey x.1 ++ leBytes 8 x.2) t.delegate).length =
        if t.delegate.isSome then 40 else 0 := by
      cases h : t.delegate with
      | none => simp [encOpt]
      | some x => have := x.1.size; simp [encOpt, Bincode.encPubkey, this]
    have h4 : (encOpt (leBytes 8) t.isNative).length = if t.isNative.isSome then 8 else 0 := by
      cases h : t.isNative <;> simp [encOpt]
    have h5 : (encOpt Bincode.encPubkey t.closeAuthority).length = if t.closeAuthority.isSome then 32 else 0 := by
      cases h : t.closeAuthority with
      | none => simp [encOpt]
      | some x => have := x.size; simp [encOpt, Bincode.encPubkey, this]
    have h6 : (Bincode.encPubkey t.pubkey).length = 32 := h1
    have h7 : (Bincode.encPubkey t.owner).length = 32 := h2
    simp only [List.length_append, h3, h4, h5, length_leBytes, Bincode.encBool, h6, h7, fixedLen,
      List.length_cons, List.length_nil]
    omega

theorem bit_iff (f : UInt8) (i : Nat) (hi : i < 8) :
    ((f >>> (UInt8.ofNat i)) &&& 0x1 = 0x1) ↔ f.toNat / 2 ^ i % 2 = 1 := by
  have k : ∀ (g : Fin 256) (i : Fin 8), (((UInt8.ofNat g) >>> (UInt8.ofNat i)) &&& 0x1 = 0x1) ↔
      (UInt8.ofNat g).toNat / 2 ^ i.1 % 2 = 1 := by decide +kernel
  have := k ⟨f.toNat, f.toNat_lt⟩ ⟨i, hi⟩
  simpa only [UInt8.ofNat_toNat] using this

theorem state_bits (f : UInt8) : (stateOfBits ((f >>> 2) &&& 0x3)).isSome =
    !(decide (f.toNat / 2 ^ 2 % 2 = 1) && decide (f.toNat / 2 ^ 3 % 2 = 1)) := by
  have k : ∀ (g : Fin 256), (stateOfBits (((UInt8.ofNat g) >>> 2) &&& 0x3)).isSome =
    !(decide ((UInt8.ofNat g).toNat / 2 ^ 2 % 2 = 1) && decide ((UInt8.ofNat g).toNat / 2 ^ 3 % 2 = 1)) := by decide +kernel
  have := k ⟨f.toNat, f.toNat_lt⟩
  simpa only [UInt8.ofNat_toNat] using this

theorem bitAt_cons (f : UInt8) (bs : Bytes) (i : Nat) (hi : i < 8) :
    bitAt (f :: bs) 0 i = decide ((f >>> (UInt8.ofNat i)) &&& 0x1 = 0x1) := by
  simp only [bitAt, List.length_cons, Nat.zero_lt_succ, getElem?_pos, List.getElem_cons_zero, Option.getD_some, bit_iff f i hi]

theorem decNat_ok {k : Nat} {bs : Bytes} (h : k ≤ bs.length) : decNat k bs = some (leNat (bs.take k), bs.drop k) := by
  simp [decNat, takeN, Nat.not_lt.2 h]

theorem decPubkey_ok {bs : Bytes} (h : 32 ≤ bs.length) : ∃ p, Bincode.decPubkey bs = some (p, bs.drop 32) := by
  refine ⟨⟨bs.take 32, by simp; omega⟩, ?_⟩
  have hl : (bs.take 32).length = 32 := by simp; omega
  simp only [Bincode.decPubkey, decMap, takeN, Nat.not_lt.2 h, if_false, Option.bind_eq_bind, Option.bind_some, hl, dif_pos,
    Option.pure_def]

theorem decBool_ok {bs : Bytes} {b : UInt8} (h : b.toNat ≤ 1) : ∃ x, Bincode.decBool (b :: bs) = some (x, bs) := by
  have : b = 0 ∨ b = 1 := by
    rcases Nat.le_one_iff_eq_zero_or_eq_one.1 h with h | h
    · left; exact UInt8.toNat_inj.1 h
    · right; exact UInt8.toNat_inj.1 h
  rcases this with rfl | rfl
  · exact ⟨false, rfl⟩
  · exact ⟨true, rfl⟩

theorem decOpt_ok {d : Decoder α} {k : Nat} (b : Bool) {bs : Bytes} (hd : k ≤ bs.length → ∃ a, d bs = some (a, bs.drop k))
    (h : (if b then k else 0) ≤ bs.length) : ∃ a, decOpt b d bs = some (a, bs.drop (if b then k else 0)) := by
  cases b with
  | false => exact ⟨none, by simp [decOpt]⟩
  | true =>
    obtain ⟨a, ha⟩ := hd h
    exact ⟨some a, by simp [decOpt, ha]⟩

theorem decode_ok {v : Bytes} (h : WellFormedBinary v) : ∃ t rest, TokenAccount.decode v = some (t, rest) := by
  obtain ⟨h1, h2, h3, h4⟩ := h
  cases v with
  | nil => simp [extraOffset] at h1
  | cons f v =>
    cases v with
    | nil => simp only [extraOffset, List.length_cons, List.length_nil] at h1; omega
    | cons b v =>
      have b4 := bitAt_cons f (b :: v) 4 (by omega)
      have b5 := bitAt_cons f (b :: v) 5 (by omega)
      have b6 := bitAt_cons f (b :: v) 6 (by omega)
      have b7 := bitAt_cons f (b :: v) 7 (by omega)
      have b2 : (stateOfBits ((f >>> 2) &&& 0x3)).isSome := by
        rw [state_bits]
        have e2 : bitAt (f :: b :: v) 0 2 = decide (f.toNat / 2 ^ 2 % 2 = 1) := by simp [bitAt]
        have e3 : bitAt (f :: b :: v) 0 3 = decide (f.toNat / 2 ^ 3 % 2 = 1) := by simp [bitAt]
        rw [e2, e3] at h3
        revert h3
        cases decide (f.toNat / 2 ^ 2 % 2 = 1) <;> cases decide (f.toNat / 2 ^ 3 % 2 = 1) <;> simp
      obtain ⟨st, hst⟩ := Option.isSome_iff_exists.1 b2
      simp only [UInt8.reduceOfNat] at b4 b5 b6 b7
      simp only [List.length_cons, extraOffset, binarySize] at h1 h2
      rw [b4, b5, b6, b7] at h1 h2
      generalize e4 : decide (f >>> 4 &&& 1 = 1) = x4 at *
      generalize e5 : decide (f >>> 5 &&& 1 = 1) = x5 at *
      generalize e6 : decide (f >>> 6 &&& 1 = 1) = x6 at *
      generalize e7 : decide (f >>> 7 &&& 1 = 1) = x7 at *
      have hb : b.toNat ≤ 1 := by simpa using h4
      obtain ⟨del, hdel⟩ := decBool_ok (bs := v) hb
      obtain ⟨pk, hpk⟩ := decPubkey_ok (bs := v) (by omega)
      obtain ⟨ow, how⟩ := decPubkey_ok (bs := v.drop 32) (by simp; omega)
      simp only [List.drop_drop, Nat.reduceAdd] at how
      have hmi := decNat_ok (k := 4) (bs := v.drop 64) (by simp; omega)
      have ham := decNat_ok (k := 8) (bs := v.drop 68) (by simp; omega)
      simp only [List.drop_drop, Nat.reduceAdd] at hmi ham
      obtain ⟨de, hde⟩ := decOpt_ok (d := decPair Bincode.decPubkey (decNat 8)) (k := 40) x4 (bs := v.drop 76)
        (by
          intro hk
          obtain ⟨p, hp⟩ := decPubkey_ok (bs := v.drop 76) (by omega)
          have := decNat_ok (k := 8) (bs := (v.drop 76).drop 32) (by simp at hk ⊢; omega)
          refine ⟨(p, leNat (((v.drop 76).drop 32).take 8)), ?_⟩
          simp only [decPair, hp, Option.bind_eq_bind, Option.bind_some, this, Option.pure_def]
          simp only [List.drop_drop])
        (by simp; omega)
      obtain ⟨na, hna⟩ := decOpt_ok (d := decNat 8) (k := 8) x5 (bs := (v.drop 76).drop (if x4 then 40 else 0))
        (fun hk => ⟨_, decNat_ok hk⟩) (by simp; omega)
      obtain ⟨cl, hcl⟩ := decOpt_ok (d := Bincode.decPubkey) (k := 32) x6
        (bs := ((v.drop 76).drop (if x4 then 40 else 0)).drop (if x5 then 8 else 0))
        (fun hk => decPubkey_ok hk) (by simp; omega)
      have hadd : ∃ ad r, decOpt x7 decBytes4
          ((((v.drop 76).drop (if x4 then 40 else 0)).drop (if x5 then 8 else 0)).drop (if x6 then 32 else 0)) =
            some (ad, r) := by
        cases x7 with
        | false => exact ⟨none, _, by simp only [decOpt]; rfl⟩
        | true =>
          simp only [if_true] at h1 h2
          have hd : (((v.drop 76).drop (if x4 then 40 else 0)).drop (if x5 then 8 else 0)).drop (if x6 then 32 else 0) =
              (f :: b :: v).drop (78 + (if x4 then 40 else 0) + (if x5 then 8 else 0) + (if x6 then 32 else 0)) := by
            rw [show 78 + (if x4 then 40 else 0) + (if x5 then 8 else 0) + (if x6 then 32 else 0) =
              (76 + (if x4 then 40 else 0) + (if x5 then 8 else 0) + (if x6 then 32 else 0)) + 1 + 1 by omega]
            simp only [List.drop_succ_cons, List.drop_drop]
          rw [hd]
          generalize hB : (f :: b :: v).drop (78 + (if x4 then 40 else 0) + (if x5 then 8 else 0) + (if x6 then 32 else 0)) = B at *
          have hBl : B.length = v.length + 2 - (78 + (if x4 then 40 else 0) + (if x5 then 8 else 0) + (if x6 then 32 else 0)) := by
            rw [← hB]; simp
          refine ⟨some ((B.drop 4).take (leNat (B.take 4))), (B.drop 4).drop (leNat (B.take 4)), ?_⟩
          simp only [decOpt, if_true, decBytes4, decNat_ok (k := 4) (bs := B) (by omega), Option.bind_eq_bind,
            Option.bind_some, takeN, List.length_drop]
          rw [if_neg (by omega)]
          simp only [Option.bind_some, Option.pure_def]
      obtain ⟨ad, r, had⟩ := hadd
      refine ⟨{ program := if f &&& 0x1 = 0 then Program.tokenProgram else .token2022Program, isDeleted := del,
                pubkey := pk, owner := ow, mint := leNat (List.take 4 (List.drop 64 v)),
                amount := leNat (List.take 8 (List.drop 68 v)), state := st, delegate := de, isNative := na,
                closeAuthority := cl, additionalData := ad }, r, ?_⟩
      simp only [TokenAccount.decode, decByte, Option.bind_eq_bind, Option.bind_some, hdel, hpk, how, hmi, ham, hst, e4, e5, e6,
          e7, hde, hna, hcl, had, Option.pure_def]

theorem decode_size {v : Bytes} {t : TokenAccount} {rest : Bytes} (h : TokenAccount.decode v = some (t, rest)) :
    WellFormedBinary v ∧ v.length = binarySize v + rest.length := by
  obtain ⟨hf, f, hc, rfl⟩ := (decode_iff _ _ _).1 h
  unfold TokenAccount.flags at hc
  rw [clear_eq_iff] at hc
  simp only [readFlags, Prod.mk.injEq] at hc
  obtain ⟨c1, c2, c3, c4, c5, c6⟩ := hc
  obtain ⟨b, hb, hl⟩ := body_split t
  rw [List.cons_append]
  have b4 := bitAt_cons f (body t ++ rest) 4 (by omega)
  have b5 := bitAt_cons f (body t ++ rest) 5 (by omega)
  have b6 := bitAt_cons f (body t ++ rest) 6 (by omega)
  have b7 := bitAt_cons f (body t ++ rest) 7 (by omega)
  simp only [UInt8.reduceOfNat, c3, c4, c5, c6] at b4 b5 b6 b7
  have ho : extraOffset (f :: (body t ++ rest)) = fixedLen t := by
    unfold extraOffset fixedLen
    rw [b4, b5, b6]
  have hdrop : (f :: (body t ++ rest)).drop (fixedLen t) = extra t ++ rest := by
    rw [hb, ← hl]
    simp only [List.drop_succ_cons, List.append_assoc]
    rw [List.drop_left]
  have hlen : (f :: (body t ++ rest)).length = fixedLen t + (extra t).length + rest.length := by
    rw [hb]; simp only [List.length_cons, List.length_append]; omega
  have hs : binarySize (f :: (body t ++ rest)) = fixedLen t + (extra t).length ∧
      fixedLen t + (if bitAt (f :: (body t ++ rest)) 0 7 then 4 else 0) ≤ fixedLen t + (extra t).length := by
    unfold binarySize
    rw [ho, hdrop, b7]
    cases ha : t.additionalData with
    | none => simp [extra, ha, encOpt]
    | some d =>
      have hd := hf.additional d ha
      have : (leBytes 4 d.length ++ (d ++ rest)).take 4 = leBytes 4 d.length := by
        have := List.take_left (l₁ := leBytes 4 d.length) (l₂ := d ++ rest)
        rwa [length_leBytes] at this
      simp only [extra, ha, encOpt, Option.isSome_some, if_true, List.append_assoc, this, List.length_append,
        length_leBytes]
      rw [leNat_leBytes_of_lt (by simpa using hd)]
      omega
  refine ⟨⟨?_, ?_, ?_, ?_⟩, ?_⟩
  · rw [ho, hlen]; omega
  · rw [hs.1, hlen]; omega
  · have hb2 := state_bits f
    rw [c2] at hb2
    have e2 : bitAt (f :: (body t ++ rest)) 0 2 = decide (f.toNat / 2 ^ 2 % 2 = 1) := by simp [bitAt]
    have e3 : bitAt (f :: (body t ++ rest)) 0 3 = decide (f.toNat / 2 ^ 3 % 2 = 1) := by simp [bitAt]
    rw [e2, e3]
    revert hb2
    cases decide (f.toNat / 2 ^ 2 % 2 = 1) <;> cases decide (f.toNat / 2 ^ 3 % 2 = 1) <;> simp
  · simp only [body, Bincode.encBool]
    cases t.isDeleted <;> simp
  · rw [hs.1, hlen]

theorem fromBytes_eq_ok {v : Bytes} {t : TokenAccount} :
    TokenAccount.fromBytes v = .ok t ↔ ∃ rest, TokenAccount.decode v = some (t, rest) := by
  unfold TokenAccount.fromBytes
  cases h : TokenAccount.decode v with
  | none => simp
  | some x => obtain ⟨t', r⟩ := x; simp

theorem fromBytes_ne_diverge (v : Bytes) : TokenAccount.fromBytes v ≠ .diverge := by
  unfold TokenAccount.fromBytes
  cases h : TokenAccount.decode v <;> simp

theorem clear_flagByte (p : Program) (s : TokenState) (d n c a : Bool) :
    clear (flagByte p s d n c a) = flagByte p s d n c a := by
  cases p <;> cases s <;> cases d <;> cases n <;> cases c <;> cases a <;> decide +kernel

theorem clear_of_bit (f : UInt8) (h : f.toNat / 2 ^ 1 % 2 ≠ 1) : clear f = f := by
  have k : ∀ g : Fin 256, (UInt8.ofNat g).toNat / 2 ^ 1 % 2 ≠ 1 → clear (UInt8.ofNat g) = UInt8.ofNat g := by
    decide +kernel
  have := k ⟨f.toNat, f.toNat_lt⟩
  simp only [UInt8.ofNat_toNat] at this
  exact this h

theorem decode_toBytes {t : TokenAccount} (h : TokenFits t) (rest : Bytes) :
    TokenAccount.decode (t.toBytes ++ rest) = some (t, rest) := by
  rw [decode_iff]
  refine ⟨h, t.flags, clear_flagByte _ _ _ _ _ _, ?_⟩
  rw [toBytes_eq]

theorem fromBytes_toBytes {t : TokenAccount} (h : TokenFits t) : TokenAccount.fromBytes t.toBytes = .ok t :=
  fromBytes_eq_ok.2 ⟨[], by simpa using decode_toBytes h []⟩

theorem pubkeyOf_bytes (p : Pubkey) : pubkeyOf p.bytes = .ok p := by
  unfold pubkeyOf
  rw [dif_pos p.size]

theorem slice_mid (a m b : Bytes) : slice (a ++ m ++ b) a.length (a.length + m.length) = .ok m := by
  unfold slice
  rw [if_pos (by simp)]
  congr 1
  rw [List.append_assoc, List.drop_left, Nat.add_sub_cancel_left, List.take_left]

theorem getPubkey_toBytes (t : TokenAccount) : getPubkeyFromBinary t.toBytes = .ok t.pubkey := by
  have h := slice_mid ([t.flags] ++ Bincode.encBool t.isDeleted) t.pubkey.bytes
    (t.owner.bytes ++ (leBytes 4 t.mint ++ (leBytes 8 t.amount ++
      (encOpt (fun x : Pubkey × Nat => Bincode.encPubkey x.1 ++ leBytes 8 x.2) t.delegate ++
    (encOpt (leBytes 8) t.isNative ++ (encOpt Bincode.encPubkey t.closeAuthority ++ extra t))))))
  have e1 : ([t.flags] ++ Bincode.encBool t.isDeleted).length = 2 := rfl
  rw [e1, t.pubkey.size] at h
  unfold getPubkeyFromBinary
  have : t.toBytes = [t.flags] ++ Bincode.encBool t.isDeleted ++ t.pubkey.bytes ++
    (t.owner.bytes ++ (leBytes 4 t.mint ++ (leBytes 8 t.amount ++
      (encOpt (fun x : Pubkey × Nat => Bincode.encPubkey x.1 ++ leBytes 8 x.2) t.delegate ++
    (encOpt (leBytes 8) t.isNative ++ (encOpt Bincode.encPubkey t.closeAuthority ++ extra t)))))) := by
    rw [toBytes_eq]; simp [body, Bincode.encPubkey, extra, Bincode.encBool]
  rw [this, h]
  exact pubkeyOf_bytes _

theorem getOwner_toBytes (t : TokenAccount) : getOwnerFromBinary t.toBytes = .ok t.owner := by
  have h := slice_mid ([t.flags] ++ Bincode.encBool t.isDeleted ++ t.pubkey.bytes) t.owner.bytes
    (leBytes 4 t.mint ++ (leBytes 8 t.amount ++
      (encOpt (fun x : Pubkey × Nat => Bincode.encPubkey x.1 ++ leBytes 8 x.2) t.delegate ++
    (encOpt (leBytes 8) t.isNative ++ (encOpt Bincode.encPubkey t.closeAuthority ++ extra t)))))
  have e1 : ([t.flags] ++ Bincode.encBool t.isDeleted ++ t.pubkey.bytes).length = 34 := by
    simp [Bincode.encBool, t.pubkey.size]
  rw [e1, t.owner.size] at h
  unfold getOwnerFromBinary
  have : t.toBytes = [t.flags] ++ Bincode.encBool t.isDeleted ++ t.pubkey.bytes ++ t.owner.bytes ++
    (leBytes 4 t.mint ++ (leBytes 8 t.amount ++
      (encOpt (fun x : Pubkey × Nat => Bincode.encPubkey x.1 ++ leBytes 8 x.2) t.delegate ++
    (encOpt (leBytes 8) t.isNative ++ (encOpt Bincode.encPubkey t.closeAuthority ++ extra t))))) := by
    rw [toBytes_eq]; simp [body, Bincode.encPubkey, extra, Bincode.encBool]
  rw [this, h]
  exact pubkeyOf_bytes _

theorem getMint_toBytes (t : TokenAccount) (hm : t.mint < 2 ^ 32) : getMintIndexFromBinary t.toBytes = .ok t.mint := by
  have h := slice_mid ([t.flags] ++ Bincode.encBool t.isDeleted ++ t.pubkey.bytes ++ t.owner.bytes) (leBytes 4 t.mint)
    (leBytes 8 t.amount ++
      (encOpt (fun x : Pubkey × Nat => Bincode.encPubkey x.1 ++ leBytes 8 x.2) t.delegate ++
    (encOpt (leBytes 8) t.isNative ++ (encOpt Bincode.encPubkey t.closeAuthority ++ extra t))))
  have e1 : ([t.flags] ++ Bincode.encBool t.isDeleted ++ t.pubkey.bytes ++ t.owner.bytes).length = 66 := by
    simp [Bincode.encBool, t.pubkey.size, t.owner.size]
  rw [e1, length_leBytes] at h
  unfold getMintIndexFromBinary
  have : t.toBytes = [t.flags] ++ Bincode.encBool t.isDeleted ++ t.pubkey.bytes ++ t.owner.bytes ++
    leBytes 4 t.mint ++ (leBytes 8 t.amount ++
      (encOpt (fun x : Pubkey × Nat => Bincode.encPubkey x.1 ++ leBytes 8 x.2) t.delegate ++
    (encOpt (leBytes 8) t.isNative ++ (encOpt Bincode.encPubkey t.closeAuthority ++ extra t)))) := by
    rw [toBytes_eq]; simp [body, Bincode.encPubkey, extra, Bincode.encBool]
  rw [this, h]
  simp [leNat_leBytes_of_lt (k := 4) (n := t.mint) (by simpa using hm)]

theorem length_toBytes (t : TokenAccount) : t.toBytes.length = fixedLen t + (extra t).length := by
  obtain ⟨b, hb, hl⟩ := body_split t
  rw [toBytes_eq, hb]
  simp
  omega

end LAM.Token
