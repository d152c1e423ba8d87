import Verif.Lemmas.Spl
import Verif.Lemmas.TokenAccount
import Verif.Model.TokenUtils
/-!
# Packing, classification and mint indexes
-/
namespace LAM.Spl
open Spec
open Token (TokenState)

theorem length_encKey (k : Option Pubkey) : (encKey k).length = 36 := by
  cases k with
  | none => simp [encKey]
  | some k => simp [encKey, k.size]

theorem length_encOptU64 (k : Option Nat) : (encOptU64 k).length = 12 := by
  cases k <;> simp [encOptU64]

theorem length_encState (s : TokenState) : (encState s).length = 1 := by cases s <;> rfl

theorem length_pack (a : Account) : a.pack.length = 165 := by
  simp [Account.pack, a.mint.size, a.owner.size, length_encKey, length_encOptU64, length_encState]

theorem length_packMint (m : Mint) : m.pack.length = 82 := by
  simp [Mint.pack, length_encKey, Bincode.encBool]

theorem decKey_encKey (k : Option Pubkey) (rest : Bytes) : decKey (encKey k ++ rest) = some (k, rest) := by
  cases k with
  | some k =>
    simp only [encKey, decKey, decMap, List.append_assoc]
    have := (exact_pair (exact_nat 4) Bincode.exact_pubkey).roundtrip (a := (1, k)) ⟨by simp, trivial⟩ rest
    simp only [List.append_assoc, Bincode.encPubkey] at this
    rw [this]
    rfl
  | none =>
    have he : List.replicate 36 (0 : UInt8) = leBytes 4 0 ++ (Pubkey.default).bytes := by decide
    simp only [encKey, decKey, decMap, he, List.append_assoc]
    have := (exact_pair (exact_nat 4) Bincode.exact_pubkey).roundtrip (a := (0, Pubkey.default)) ⟨by decide, trivial⟩ rest
    simp only [List.append_assoc, Bincode.encPubkey] at this
    rw [this]
    rfl

theorem decOptU64_enc (n : Option Nat) (h : ∀ x, n = some x → x < 2 ^ 64) (rest : Bytes) :
    decOptU64 (encOptU64 n ++ rest) = some (n, rest) := by
  cases n with
  | some n =>
    simp only [encOptU64, decOptU64, decMap, List.append_assoc]
    have := (exact_pair (exact_nat 4) (exact_nat 8)).roundtrip (a := (1, n)) ⟨by simp, h n rfl⟩ rest
    simp only [List.append_assoc] at this
    rw [this]
    rfl
  | none =>
    have he : List.replicate 12 (0 : UInt8) = leBytes 4 0 ++ leBytes 8 0 := by decide
    simp only [encOptU64, decOptU64, decMap, he, List.append_assoc]
    have := (exact_pair (exact_nat 4) (exact_nat 8)).roundtrip (a := (0, 0)) ⟨by decide, by decide⟩ rest
    simp only [List.append_assoc] at this
    rw [this]
    rfl

theorem decState_enc (s : TokenState) (rest : Bytes) : decState (encState s ++ rest) = some (s, rest) := by
  cases s <;> rfl

theorem decPubkey_enc (k : Pubkey) (rest : Bytes) : Bincode.decPubkey (k.bytes ++ rest) = some (k, rest) :=
  Bincode.exact_pubkey.roundtrip (a := k) trivial rest

theorem decNat8_enc {n : Nat} (h : n < 2 ^ 64) (rest : Bytes) : decNat 8 (leBytes 8 n ++ rest) = some (n, rest) :=
  (exact_nat 8).roundtrip h rest

theorem decBool_enc (b : Bool) (rest : Bytes) : Bincode.decBool (Bincode.encBool b ++ rest) = some (b, rest) :=
  Bincode.exact_bool.roundtrip (a := b) trivial rest

theorem unpack_pack {a : Account} (h : AccountFits a) : unpackAccount a.pack = some a := by
  have h1 : decKey (encKey a.closeAuthority) = some (a.closeAuthority, []) := by
    simpa using decKey_encKey a.closeAuthority []
  rw [unpackAccount, unpackUnchecked, if_neg (by rw [length_pack]; decide)]
  simp [Account.pack, decAccount, decMap, decPair, decPubkey_enc, decNat8_enc h.amount, decKey_encKey,
    decState_enc, decOptU64_enc _ h.native, decNat8_enc h.delegatedAmount, h1]

theorem unpack_packMint {m : Mint} (h : m.supply < 2 ^ 64) : unpackMint m.pack = some m := by
  have h1 : decKey (encKey m.freezeAuthority) = some (m.freezeAuthority, []) := by
    simpa using decKey_encKey m.freezeAuthority []
  rw [unpackMint, unpackUnchecked, if_neg (by rw [length_packMint]; decide)]
  simp [Mint.pack, decMint, decMap, decPair, decNat8_enc h, decKey_encKey, decByte, decBool_enc, h1]

theorem length_flatten_keys (l : List Pubkey) : (l.map Pubkey.bytes).flatten.length = 32 * l.length := by
  induction l with
  | nil => rfl
  | cons a l ih =>
    have := a.size
    simp only [List.map_cons, List.flatten_cons, List.length_append, ih, List.length_cons]
    omega

theorem length_packMultisig {m : Multisig} (h : m.signers.length = 11) : m.pack.length = 355 := by
  simp only [Multisig.pack, List.length_append, length_flatten_keys, Bincode.encBool, h, List.length_singleton]

theorem unpack_packMultisig {m : Multisig} (h : m.signers.length = 11) : unpackMultisig m.pack = some m := by
  have h1 : decTimes Bincode.decPubkey 11 (m.signers.map Bincode.encPubkey).flatten = some (m.signers, []) := by
    have := (exact_times Bincode.exact_pubkey 11).roundtrip (a := m.signers) ⟨h, fun _ _ => trivial⟩ []
    simpa using this
  rw [unpackMultisig, unpackUnchecked, if_neg (by rw [length_packMultisig h]; decide)]
  change decTimes Bincode.decPubkey 11 (m.signers.map Pubkey.bytes).flatten = _ at h1
  simp [Multisig.pack, decMultisig, decMap, decPair, decByte, decBool_enc, h1]

end LAM.Spl

namespace LAM.Token
open Spec Spl

theorem ids_ne : tokenId ≠ token2022Id := by decide

theorem owned_not_deleted {a : AccountData} {p : Program} (h : TokenProgramOwned a p) :
    ¬ (a.account.lamports = 0 ∨ (a.account.owner ≠ tokenId ∧ a.account.owner ≠ token2022Id)) := by
  obtain ⟨h1, h2⟩ := h
  cases p <;> simp_all

theorem classify_deleted (X : Codecs) (T : MintTable) {a : AccountData}
    (h : a.account.lamports = 0 ∨ (a.account.owner ≠ tokenId ∧ a.account.owner ≠ token2022Id)) :
    classify X T a = .ok (some (.deleted a.pubkey), T) := by
  rw [classify, if_pos h]

theorem unpackAccount_none {bs : Bytes} (h : bs.length ≠ 165) : Spl.unpackAccount bs = none := by
  simp [Spl.unpackAccount, unpackUnchecked, accountLen, h]

theorem unpackMint_none {bs : Bytes} (h : bs.length ≠ 82) : Spl.unpackMint bs = none := by
  simp [Spl.unpackMint, unpackUnchecked, mintLen, h]

theorem unpackMultisig_none {bs : Bytes} (h : bs.length ≠ 355) : Spl.unpackMultisig bs = none := by
  simp [Spl.unpackMultisig, unpackUnchecked, multisigLen, h]

/-- The classification of a live account of a token program by its length. -/
theorem classify_eq (X : Codecs) (T : MintTable) {a : AccountData} {p : Program} {bs : Bytes}
    (ho : TokenProgramOwned a p) (hd : HonestData X a.account.data bs) :
    classify X T a = .ok (
      if bs.length = 82 then ((Spl.unpackMint bs).map (fun m => .mint (mintOf a p m none)), T)
      else if bs.length = 165 then
        match Spl.unpackAccount bs with
        | none => (none, T)
        | some s => (some (.token (tokenOf a p s (T.getOrCreate s.mint).1 none)), (T.getOrCreate s.mint).2)
      else if bs.length = 355 then ((Spl.unpackMultisig bs).map (fun m => .multisig (multisigOf a p m) a.pubkey), T)
      else (none, T)) := by
  obtain ⟨hd, hl⟩ := hd
  rw [classify, if_neg (owned_not_deleted ho)]
  cases p with
  | token2022Program =>
    have h2 : a.account.owner = token2022Id := ho.2
    rw [if_pos h2, hd]
    simp only [Run.ok_bind, kind2022, hl]
    by_cases h82 : bs.length = 82
    · simp only [h82, if_true, Run.ok_bind]
      cases Spl.unpackMint bs <;> simp [tail165]
    · rw [if_neg h82, if_neg h82]
      by_cases h165 : bs.length = 165
      · simp only [h165, if_true, Run.ok_bind]
        cases Spl.unpackAccount bs <;> simp [tail165]
      · rw [if_neg h165, if_neg h165]
        by_cases h355 : bs.length = 355
        · simp only [h355, if_true, Run.ok_bind]
          cases Spl.unpackMultisig bs <;> simp
        · rw [if_neg h355, if_neg h355]
          by_cases hgt : bs.length > 165
          · rw [if_pos hgt]
            have : bs[165]? = some bs[165] := by simp [hgt]
            rw [this]
            simp only
            split
            · simp [unpackMint_none h82]
            · split
              · simp [unpackAccount_none h165]
              · simp
          · rw [if_neg hgt]; simp
  | tokenProgram =>
    have h2 : a.account.owner = tokenId := ho.2
    rw [if_neg (by rw [h2]; exact ids_ne), hd]
    simp only [Run.ok_bind, hl]
    by_cases h82 : bs.length = 82
    · simp only [h82, if_true]
      cases Spl.unpackMint bs <;> simp
    · rw [if_neg h82, if_neg h82]
      by_cases h165 : bs.length = 165
      · simp only [h165, if_true]
        cases Spl.unpackAccount bs <;> simp
      · rw [if_neg h165, if_neg h165]
        by_cases h355 : bs.length = 355
        · simp only [h355, if_true]
          cases Spl.unpackMultisig bs <;> simp
        · rw [if_neg h355]
          simp [unpackMultisig_none h355]

theorem length_tokenData_plain (t : TokenAccount) (mint : Pubkey) (h : t.additionalData = none) :
    (tokenData t mint).length = 165 := by
  unfold tokenData
  cases t.program <;> simp [length_pack, h]

theorem realSigners_pad (l : List Pubkey) (h : ∀ k ∈ l, k ≠ Pubkey.default) (n : Nat) :
    realSigners (l ++ List.replicate n Pubkey.default) = l := by
  unfold realSigners
  rw [List.filter_append]
  have h1 : l.filter (fun x => x ≠ Pubkey.default) = l := by
    rw [List.filter_eq_self]; intro k hk; simpa using h k hk
  have h2 : (List.replicate n Pubkey.default).filter (fun x => decide (x ≠ Pubkey.default)) = [] := by
    rw [List.filter_eq_nil_iff]; intro k hk
    simp [List.eq_of_mem_replicate hk]
  rw [h1, h2, List.append_nil]

/-! ## Mint indexes -/

/-- All requests one after the other; the answers in order. -/
def MintTable.requests (T : MintTable) : List Pubkey → List Nat × MintTable
  | [] => ([], T)
  | m :: ms =>
    let (i, T) := T.getOrCreate m
    let (is, T) := T.requests ms
    (i :: is, T)

/-- The table knows the mints `seen`, in this order. -/
structure Knows (T : MintTable) (seen : List Pubkey) : Prop where
  nodup : seen.Nodup
  counter : T.counter = seen.length % 2 ^ 32
  index : ∀ m, T.index.find m = if m ∈ seen then some (seen.idxOf m % 2 ^ 32) else none

theorem Knows.getOrCreate {T : MintTable} {seen : List Pubkey} (h : Knows T seen) (m : Pubkey) :
    Knows (T.getOrCreate m).2 (if m ∈ seen then seen else seen ++ [m]) ∧
    (T.getOrCreate m).1 = (if m ∈ seen then seen else seen ++ [m]).idxOf m % 2 ^ 32 := by
  unfold MintTable.getOrCreate
  by_cases hm : m ∈ seen
  · simp only [h.index m, hm, if_true]
    exact ⟨h, trivial⟩
  · simp only [h.index m, hm, if_false]
    have hi : (seen ++ [m]).idxOf m = seen.length := by simp [List.idxOf_append, hm]
    refine ⟨⟨?_, ?_, ?_⟩, ?_⟩
    · rw [List.nodup_append]
      refine ⟨h.nodup, by simp, ?_⟩
      intro a ha b hb
      simp at hb
      subst hb
      exact fun e => hm (e ▸ ha)
    · simp only [wrap32, h.counter, List.length_append, List.length_singleton]
      omega
    · intro x
      simp only [AMap.find_insert, h.index x, h.counter]
      by_cases hx : m = x
      · subst hx; rw [if_pos rfl, if_pos (by simp), hi]
      · rw [if_neg hx]
        have : x ∈ seen ++ [m] ↔ x ∈ seen := by simp; intro e; exact absurd e.symm hx
        by_cases hxs : x ∈ seen
        · rw [if_pos hxs, if_pos (by simp [hxs])]
          simp [List.idxOf_append, hxs]
        · rw [if_neg hxs, if_neg (by simpa [this] using hxs)]
    · rw [hi, h.counter]

/-- The mints known after further requests. -/
def grow (seen ms : List Pubkey) : List Pubkey := seen ++ (firstSeen ms).filter (fun x => x ∉ seen)

theorem grow_cons (seen : List Pubkey) (m : Pubkey) (ms : List Pubkey) :
    grow seen (m :: ms) = grow (if m ∈ seen then seen else seen ++ [m]) ms := by
  unfold grow
  rw [firstSeen]
  by_cases hm : m ∈ seen
  · rw [if_pos hm, List.filter_cons_of_neg (by simpa using hm), List.filter_filter]
    congr 1
    apply List.filter_congr
    intro x _
    by_cases hx : x ∈ seen
    · simp [hx]
    · have : x ≠ m := fun e => hx (e ▸ hm)
      simp [hx, this]
  · rw [if_neg hm, List.filter_cons_of_pos (by simpa using hm), List.filter_filter]
    simp only [List.append_assoc, List.singleton_append]
    congr 2
    apply List.filter_congr
    intro x _
    simp only [List.mem_append, List.mem_singleton]
    by_cases h1 : x ∈ seen <;> by_cases h2 : x = m <;> simp [h1, h2]

theorem idxOf_grow (seen ms : List Pubkey) {m : Pubkey} (h : m ∈ seen) : (grow seen ms).idxOf m = seen.idxOf m := by
  simp [grow, List.idxOf_append, h]

theorem mem_firstSeen (ms : List Pubkey) (m : Pubkey) : m ∈ firstSeen ms ↔ m ∈ ms := by
  induction ms with
  | nil => simp [firstSeen]
  | cons a t ih =>
    simp only [firstSeen, List.mem_cons, List.mem_filter, ih, decide_eq_true_eq]
    by_cases h : m = a <;> simp [h]

theorem nodup_firstSeen (ms : List Pubkey) : (firstSeen ms).Nodup := by
  induction ms with
  | nil => simp [firstSeen]
  | cons a t ih =>
    simp only [firstSeen, List.nodup_cons]
    exact ⟨by simp, ih.filter _⟩

theorem Knows.requests {T : MintTable} {seen : List Pubkey} (h : Knows T seen) (ms : List Pubkey) :
    Knows (T.requests ms).2 (grow seen ms) ∧
    (T.requests ms).1 = ms.map (fun m => (grow seen ms).idxOf m % 2 ^ 32) := by
  induction ms generalizing T seen with
  | nil => simpa [MintTable.requests, grow, firstSeen] using h
  | cons m ms ih =>
    obtain ⟨h1, h2⟩ := h.getOrCreate m
    obtain ⟨h3, h4⟩ := ih h1
    simp only [MintTable.requests]
    rw [grow_cons]
    refine ⟨h3, ?_⟩
    rw [h4, h2, List.map_cons, idxOf_grow]
    split
    · assumption
    · simp

theorem knows_empty : Knows ⟨[], 0⟩ [] := ⟨by simp, rfl, by simp⟩

end LAM.Token
