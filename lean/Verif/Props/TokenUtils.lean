import Verif.Lemmas.TokenUtils
import Verif.Props.TokenAccount
/-!
# SPL layouts, classification and mint indexes: C45 – C47
-/
namespace LAM.Props
open Spec Token

/-- A mint without extensions. -/
def aMint : MintAccount where
  program := .tokenProgram
  pubkey := Toy.prog
  lamports := 5
  supply := 1000
  decimals := 6
  isInitialized := true
  mintAuthority := some Toy.bob
  freezeAuthority := none
  additionalData := none

/-- A token account without extensions. -/
def plainToken : TokenAccount := { richToken with additionalData := none }

/-- A mint table in which `aMint` has index 7. -/
def aTable : MintTable := ⟨[(Toy.prog, 7)], 8⟩

theorem rent_ne_zero (n : Nat) : Spl.rentMinimum n ≠ 0 := by
  unfold Spl.rentMinimum; omega

/-- **C45**, the full claim for token accounts: written out and classified again, a token account is the same. -/
def C45_statement : Prop :=
  ∀ (X : Codecs) (T : MintTable) (mints : AMap Nat MintAccount) (t : TokenAccount) (m : MintAccount) (slot wv : Nat),
    TokenFits t → t.isDeleted = false → mints.find t.mint = some m → T.index.find m.pubkey = some t.mint →
    (∀ d, t.additionalData = some d → t.program = .token2022Program ∧ d.head? = some 2) →
    ∃ a, tokenToSolana mints t slot wv = .ok (some a) ∧ classify X T a = .ok (some (.token t), T)

/-- Extended accounts are never recognised: live Token-2022 data longer than 165 bytes is an error unless it has the 355
bytes of a multisig. -/
theorem C45_extended_rejected (X : Codecs) (T : MintTable) (a : AccountData) (bs : Bytes)
    (ho : TokenProgramOwned a .token2022Program) (hd : HonestData X a.account.data bs) (hl : 165 < bs.length)
    (h355 : bs.length ≠ 355) : classify X T a = .ok (none, T) := by
  rw [classify_eq X T ho hd, if_neg (by omega), if_neg (by omega), if_neg h355]

theorem C45_refuted : ¬ C45_statement := by
  intro h
  obtain ⟨a, h1, h2⟩ := h Toy.codecs aTable [(7, aMint)] { richToken with additionalData := some [2, 3, 4] } aMint 1 1
    ⟨by simp [richToken], by simp [richToken], by simp [richToken], by simp [richToken], by simp⟩
    rfl rfl rfl (by simp [richToken])
  simp only [tokenToSolana, richToken, AMap.find, if_true, Run.unwrap_some, Run.ok_bind, Bool.false_eq_true, if_false,
    Run.pure_eq, Run.ok.injEq, Option.some.injEq] at h1
  rw [C45_extended_rejected Toy.codecs aTable a (tokenData { richToken with additionalData := some [2, 3, 4] } aMint.pubkey)
    ⟨by rw [← h1]; exact rent_ne_zero _, by rw [← h1]; rfl⟩ ⟨by rw [← h1]; rfl, by rw [← h1]; rfl⟩ ?_ ?_] at h2
  · simp at h2
  · simp [tokenData, richToken, Spl.length_pack]
  · simp [tokenData, richToken, Spl.length_pack]

/-- **C45**, token accounts without extension data: every field survives, for both programs. -/
theorem C45_token_partial (X : Codecs) (T : MintTable) (mints : AMap Nat MintAccount) (t : TokenAccount) (m : MintAccount)
    (slot wv : Nat) (hf : TokenFits t) (hlive : t.isDeleted = false) (hm : mints.find t.mint = some m)
    (hi : T.index.find m.pubkey = some t.mint) (hp : t.additionalData = none) :
    ∃ a, tokenToSolana mints t slot wv = .ok (some a) ∧ classify X T a = .ok (some (.token t), T) := by
  refine ⟨⟨t.pubkey, solanaAccount (Spl.rentMinimum (tokenData t m.pubkey).length) (tokenData t m.pubkey) t.program, slot, wv⟩,
    by simp [tokenToSolana, hlive, hm], ?_⟩
  have ho : TokenProgramOwned ⟨t.pubkey, solanaAccount (Spl.rentMinimum (tokenData t m.pubkey).length) (tokenData t m.pubkey)
      t.program, slot, wv⟩ t.program := by
    refine ⟨?_, ?_⟩
    · exact rent_ne_zero _
    · cases h : t.program <;> rfl
  have hl : (tokenData t m.pubkey).length = 165 := length_tokenData_plain t _ hp
  rw [classify_eq X T ho ⟨rfl, rfl⟩, if_neg (by omega), if_pos hl]
  have hpack : tokenData t m.pubkey = Spl.Account.pack ⟨m.pubkey, t.owner, t.amount, t.delegate.map (·.1), t.state,
      t.isNative, (t.delegate.map (·.2)).getD 0, t.closeAuthority⟩ := by
    unfold tokenData
    cases t.program <;> simp [hp]
  rw [hpack, Spl.unpack_pack]
  · have hg : T.getOrCreate m.pubkey = (t.mint, T) := by simp [MintTable.getOrCreate, hi]
    simp only [hg, tokenOf]
    congr 4
    have h0 : (Spl.rentMinimum (tokenData t m.pubkey).length == 0) = false := by simpa using rent_ne_zero _
    rw [← hpack]
    cases t with
    | mk p d pk o mi am st de na cl ad =>
      simp only at hp hlive
      subst hp hlive
      simp only [solanaAccount] at h0 ⊢
      rw [h0]
      cases de <;> simp
  · refine ⟨hf.amount, hf.native, ?_⟩
    cases h : t.delegate with
    | none => simp
    | some x => simpa [h] using hf.delegate x.1 x.2 h

example : ∃ a, tokenToSolana [(7, aMint)] plainToken 3 4 = .ok (some a) ∧
    classify Toy.codecs aTable a = .ok (some (.token plainToken), aTable) :=
  C45_token_partial Toy.codecs aTable [(7, aMint)] plainToken aMint 3 4
    ⟨by simp [plainToken, richToken], by simp [plainToken, richToken], by simp [plainToken, richToken],
      by simp [plainToken, richToken], by simp [plainToken]⟩ rfl rfl rfl rfl

/-- **C45**, mints without extension data. -/
theorem C45_mint_partial (X : Codecs) (T : MintTable) (m : MintAccount) (slot wv : Nat) (hs : m.supply < 2 ^ 64)
    (hl : m.lamports ≠ 0) (hp : m.additionalData = none) :
    classify X T (mintToSolana m slot wv) = .ok (some (.mint m), T) := by
  have hpack : mintBytes m = Spl.Mint.pack ⟨m.mintAuthority, m.supply, m.decimals, m.isInitialized, m.freezeAuthority⟩ := by
    unfold mintBytes
    cases m.program <;> simp [hp]
  have ho : TokenProgramOwned (mintToSolana m slot wv) m.program := by
    refine ⟨by simpa [mintToSolana, solanaAccount] using hl, ?_⟩
    cases h : m.program <;> simp [mintToSolana, solanaAccount, h, Program.id]
  rw [classify_eq X T (bs := mintBytes m) ho ⟨rfl, rfl⟩, if_pos (by rw [hpack, Spl.length_packMint]), hpack,
    Spl.unpack_packMint hs]
  cases m
  simp only at hp
  subst hp
  rfl

example : classify Toy.codecs aTable (mintToSolana aMint 3 4) = .ok (some (.mint aMint), aTable) :=
  C45_mint_partial Toy.codecs aTable aMint 3 4 (by decide) (by decide) rfl

/-- **C45**, multisigs: at most 11 signers, none of them all zero. -/
theorem C45_multisig_partial (X : Codecs) (T : MintTable) (m : MultiSig) (slot wv : Nat)
    (hl : m.lamports ≠ 0) (h11 : m.signers.length ≤ 11) (hz : ∀ k ∈ m.signers, k ≠ Pubkey.default) :
    ∃ a, multisigToSolana m m.pubkey slot wv = .ok a ∧ classify X T a = .ok (some (.multisig m m.pubkey), T) := by
  refine ⟨⟨m.pubkey, solanaAccount m.lamports (Spl.Multisig.pack ⟨m.m, m.n, m.isInitialized,
    m.signers ++ List.replicate (11 - m.signers.length) Pubkey.default⟩) m.program, slot, wv⟩,
    by simp [multisigToSolana, multisigBytes, h11], ?_⟩
  have h : (m.signers ++ List.replicate (11 - m.signers.length) Pubkey.default).length = 11 := by simp; omega
  rw [classify_eq X T (p := m.program) (bs := Spl.Multisig.pack ⟨m.m, m.n, m.isInitialized,
      m.signers ++ List.replicate (11 - m.signers.length) Pubkey.default⟩) ⟨hl, by cases h : m.program <;> rfl⟩ ⟨rfl, rfl⟩,
    Spl.length_packMultisig h, if_neg (by decide), if_neg (by decide), if_pos rfl,
    Spl.unpack_packMultisig (m := ⟨m.m, m.n, m.isInitialized, _⟩) h]
  simp only [Option.map_some, multisigOf, realSigners_pad _ hz]
  rfl

example : ∃ a, multisigToSolana ⟨.tokenProgram, Toy.alice, 9, 2, 3, true, [Toy.alice, Toy.bob]⟩ Toy.alice 3 4 = .ok a ∧
    classify Toy.codecs aTable a =
      .ok (some (.multisig ⟨.tokenProgram, Toy.alice, 9, 2, 3, true, [Toy.alice, Toy.bob]⟩ Toy.alice), aTable) :=
  C45_multisig_partial Toy.codecs aTable ⟨.tokenProgram, Toy.alice, 9, 2, 3, true, [Toy.alice, Toy.bob]⟩ 3 4
    (by decide) (by decide) (by decide)

/-- **C45**. Unpacking reads exactly the documented layout. -/
theorem C45_unpack_is_layout (bs : Bytes) :
    (∀ s, Spl.unpackAccount bs = some s ↔ AccountLayout bs s) ∧ (∀ m, Spl.unpackMint bs = some m ↔ MintLayout bs m) ∧
      (∀ m, Spl.unpackMultisig bs = some m ↔ MultisigLayout bs m) :=
  ⟨Spl.unpackAccount_iff bs, Spl.unpackMint_iff bs, Spl.unpackMultisig_iff bs⟩

/-- **C45**. Packing writes the documented layout. -/
theorem C45_pack_is_layout :
    (∀ s : Spl.Account, AccountFits s → AccountLayout s.pack s) ∧
      (∀ m : Spl.Mint, m.supply < 2 ^ 64 → MintLayout m.pack m) ∧
      (∀ m : Spl.Multisig, m.signers.length = 11 → MultisigLayout m.pack m) :=
  ⟨fun _ h => (Spl.unpackAccount_iff _ _).1 (Spl.unpack_pack h), fun _ h => (Spl.unpackMint_iff _ _).1 (Spl.unpack_packMint h),
    fun _ h => (Spl.unpackMultisig_iff _ _).1 (Spl.unpack_packMultisig h)⟩

example : AccountFits ⟨Toy.alice, Toy.bob, 12, some Toy.prog, .frozen, none, 5, none⟩ := by constructor <;> simp

/-! ## Classification -/

/-- **C45**. Extension data of a token account is written where Token-2022 has it: from byte 165 on. -/
theorem C45_token_extension_written (t : TokenAccount) (mint : Pubkey) (d : Bytes) (hf : TokenFits t)
    (hp : t.program = .token2022Program) (hd : t.additionalData = some d) :
    AccountLayout ((tokenData t mint).take 165) ⟨mint, t.owner, t.amount, t.delegate.map (·.1), t.state, t.isNative,
      (t.delegate.map (·.2)).getD 0, t.closeAuthority⟩ ∧ (tokenData t mint).drop 165 = d := by
  have h : tokenData t mint = Spl.Account.pack ⟨mint, t.owner, t.amount, t.delegate.map (·.1), t.state, t.isNative,
      (t.delegate.map (·.2)).getD 0, t.closeAuthority⟩ ++ d := by
    unfold tokenData
    rw [hp, hd]; rfl
  rw [h, List.take_left' (Spl.length_pack _), List.drop_left' (Spl.length_pack _)]
  refine ⟨C45_pack_is_layout.1 _ ⟨hf.amount, hf.native, ?_⟩, rfl⟩
  cases h : t.delegate with
  | none => simp
  | some x => simpa [h] using hf.delegate x.1 x.2 h

example : (tokenData { richToken with program := .token2022Program, additionalData := some [2, 3, 4] } Toy.prog).drop 165 = [2, 3, 4] :=
  (C45_token_extension_written _ Toy.prog _ ⟨by simp [richToken], by simp [richToken], by simp [richToken], by simp [richToken],
    by simp⟩ rfl rfl).2

/-- **C45**. Extension data of a mint is written where Token-2022 has it: from byte 165 on, after zeros. -/
theorem C45_mint_extension_written (m : MintAccount) (d : Bytes) (hs : m.supply < 2 ^ 64) (hp : m.program = .token2022Program)
    (hd : m.additionalData = some d) :
    MintLayout ((mintBytes m).take 82) ⟨m.mintAuthority, m.supply, m.decimals, m.isInitialized, m.freezeAuthority⟩ ∧
      ((mintBytes m).drop 82).take 83 = List.replicate 83 0 ∧ (mintBytes m).drop 165 = d := by
  have h : mintBytes m = Spl.Mint.pack ⟨m.mintAuthority, m.supply, m.decimals, m.isInitialized, m.freezeAuthority⟩ ++
      (List.replicate 83 0 ++ d) := by
    unfold mintBytes
    rw [hp, hd]; simp
  rw [h, List.take_left' (Spl.length_packMint _), List.drop_left' (Spl.length_packMint _)]
  refine ⟨C45_pack_is_layout.2.1 _ hs, List.take_left' (by simp), ?_⟩
  rw [← List.append_assoc]
  exact List.drop_left' (by simp [Spl.length_packMint])

example : (mintBytes { aMint with program := .token2022Program, additionalData := some [1, 5] }).drop 165 = [1, 5] :=
  (C45_mint_extension_written _ _ (by decide) rfl rfl).2.2

/-- **C46**. `Deleted` exactly for accounts without lamports or of another owner. -/
theorem C46_deleted_iff (X : Codecs) (T T' : MintTable) (a : AccountData) (x : ProgramAccount)
    (h : classify X T a = .ok (some x, T')) :
    x = .deleted a.pubkey ↔ a.account.lamports = 0 ∨ (a.account.owner ≠ Spl.tokenId ∧ a.account.owner ≠ Spl.token2022Id) := by
  by_cases hd : a.account.lamports = 0 ∨ (a.account.owner ≠ Spl.tokenId ∧ a.account.owner ≠ Spl.token2022Id)
  · rw [classify_deleted X T hd] at h
    simp only [Run.ok.injEq, Prod.mk.injEq, Option.some.injEq] at h
    simp [hd, h.1]
  · refine ⟨fun hx => ?_, fun h' => absurd h' hd⟩
    subst hx
    exfalso
    rw [classify, if_neg hd] at h
    split at h
    · simp only [Run.bind_eq_ok] at h
      obtain ⟨bs, -, k, -, h⟩ := h
      split at h
      · simp at h
      · split at h
        · simp at h
        · simp only [Run.bind_eq_ok] at h
          obtain ⟨e, -, h⟩ := h
          simp at h
      · split at h
        · simp at h
        · simp only [Run.bind_eq_ok] at h
          obtain ⟨e, -, h⟩ := h
          simp at h
      · split at h
        · simp at h
        · simp at h
    · simp only [Run.bind_eq_ok] at h
      obtain ⟨bs, -, h⟩ := h
      split at h
      · split at h <;> simp at h
      · split at h
        · split at h <;> simp at h
        · split at h <;> simp at h

/-- **C46**. A deleted account is recognised whatever its data. -/
theorem C46_deleted (X : Codecs) (T : MintTable) (a : AccountData)
    (h : a.account.lamports = 0 ∨ (a.account.owner ≠ Spl.tokenId ∧ a.account.owner ≠ Spl.token2022Id)) :
    classify X T a = .ok (some (.deleted a.pubkey), T) := classify_deleted X T h

example : classify Toy.codecs aTable (Toy.acct Toy.alice Toy.bob 5 1 1) = .ok (some (.deleted Toy.alice), aTable) :=
  C46_deleted _ _ _ (by decide)

/-- **C46**. A live account of a token program is a mint exactly if its data has the mint layout (82 bytes), and has the
fields of the data. -/
theorem C46_mint_iff (X : Codecs) (T : MintTable) (a : AccountData) (p : Program) (bs : Bytes)
    (ho : TokenProgramOwned a p) (hd : HonestData X a.account.data bs) (m : MintAccount) :
    (∃ T', classify X T a = .ok (some (.mint m), T')) ↔
      m.program = p ∧ m.pubkey = a.pubkey ∧ ∃ s, MintLayout bs s ∧ MintMatches s a.account.lamports m := by
  rw [classify_eq X T ho hd]
  constructor
  · rintro ⟨T', h⟩
    split at h
    · simp only [Run.ok.injEq, Prod.mk.injEq, Option.map_eq_some_iff] at h
      obtain ⟨⟨s, hs, h⟩, -⟩ := h
      cases h
      exact ⟨rfl, rfl, s, (Spl.unpackMint_iff _ _).1 hs, by constructor <;> rfl⟩
    · split at h
      · split at h <;> simp at h
      · split at h <;> simp at h
  · rintro ⟨rfl, hpk, s, hs, hm⟩
    refine ⟨T, ?_⟩
    rw [if_pos hs.length, (Spl.unpackMint_iff _ _).2 hs]
    obtain ⟨h1, h2, h3, h4, h5, h6, h7⟩ := hm
    cases m
    simp_all [mintOf]

example : ∃ T', classify Toy.codecs aTable (mintToSolana aMint 3 4) = .ok (some (.mint aMint), T') :=
  (C46_mint_iff Toy.codecs aTable (mintToSolana aMint 3 4) .tokenProgram (mintBytes aMint) ⟨by decide, rfl⟩ ⟨rfl, rfl⟩ aMint).2
    ⟨rfl, rfl, ⟨some Toy.bob, 1000, 6, true, none⟩, C45_pack_is_layout.2.1 _ (by decide), by constructor <;> rfl⟩

/-- **C46**. A live account of a token program is a token account exactly if its data has the token account layout (165
bytes), and has the fields of the data; the mint gets an index. -/
theorem C46_token_iff (X : Codecs) (T : MintTable) (a : AccountData) (p : Program) (bs : Bytes)
    (ho : TokenProgramOwned a p) (hd : HonestData X a.account.data bs) (t : TokenAccount) (T' : MintTable) :
    classify X T a = .ok (some (.token t), T') ↔
      t.program = p ∧ t.pubkey = a.pubkey ∧ ∃ s, AccountLayout bs s ∧ TokenMatches s (T.getOrCreate s.mint).1 t ∧
        T' = (T.getOrCreate s.mint).2 := by
  have hlam : (a.account.lamports == 0) = false := by simpa using ho.1
  rw [classify_eq X T ho hd]
  constructor
  · intro h
    split at h
    · simp at h
    · split at h
      · split at h
        · simp at h
        · rename_i s hs
          simp only [Run.ok.injEq, Prod.mk.injEq, Option.some.injEq, ProgramAccount.token.injEq] at h
          obtain ⟨rfl, rfl⟩ := h
          refine ⟨rfl, rfl, s, (Spl.unpackAccount_iff _ _).1 hs, ?_, rfl⟩
          constructor <;> simp_all [tokenOf]
      · split at h <;> simp at h
  · rintro ⟨rfl, hpk, s, hs, hm, rfl⟩
    rw [if_neg (by have := hs.length; omega), if_pos hs.length, (Spl.unpackAccount_iff _ _).2 hs]
    obtain ⟨h1, h2, h3, h4, h5, h6, h7, h8, h9, h10⟩ := hm
    cases t with
    | mk pr de pk ow mi am st dl na cl ad =>
      simp only at h1 h2 h3 h4 h5 h6 h7 h8 h9 h10 hpk
      subst h1 h2 h3 h4 h7 h8 h9 h10 hpk
      simp only [Run.ok.injEq, Prod.mk.injEq, Option.some.injEq, ProgramAccount.token.injEq, and_true]
      unfold tokenOf
      congr 1
      cases hdl : s.delegate with
      | none => simp [h5 hdl]
      | some k => simp [h6 k hdl]

/-- An SPL token account of the mint `aMint`. -/
def splAccount : Spl.Account := ⟨Toy.prog, Toy.bob, 12, some Toy.prog2, .frozen, none, 5, none⟩

example : classify Toy.codecs aTable (Toy.acct Toy.alice Spl.tokenId 7 1 1 splAccount.pack) =
    .ok (some (.token ⟨.tokenProgram, false, Toy.alice, Toy.bob, 7, 12, .frozen, some (Toy.prog2, 5), none, none, none⟩), aTable) :=
  (C46_token_iff Toy.codecs aTable (Toy.acct Toy.alice Spl.tokenId 7 1 1 splAccount.pack) .tokenProgram splAccount.pack
    ⟨by decide, rfl⟩ ⟨rfl, rfl⟩ _ _).2
    ⟨rfl, rfl, splAccount, C45_pack_is_layout.1 _ (by constructor <;> simp [splAccount]),
      by constructor <;> simp [splAccount, MintTable.getOrCreate, aTable, AMap.find], rfl⟩

/-- **C46**. A live account of a token program is a multisig exactly if its data has the multisig layout (355 bytes), and
has the fields of the data. -/
theorem C46_multisig_iff (X : Codecs) (T : MintTable) (a : AccountData) (p : Program) (bs : Bytes)
    (ho : TokenProgramOwned a p) (hd : HonestData X a.account.data bs) (m : MultiSig) (pk : Pubkey) :
    (∃ T', classify X T a = .ok (some (.multisig m pk), T')) ↔
      m.program = p ∧ m.pubkey = a.pubkey ∧ pk = a.pubkey ∧ ∃ s, MultisigLayout bs s ∧ MultisigMatches s a.account.lamports m := by
  rw [classify_eq X T ho hd]
  constructor
  · rintro ⟨T', h⟩
    split at h
    · simp at h
    · split at h
      · split at h <;> simp at h
      · split at h
        · simp only [Run.ok.injEq, Prod.mk.injEq, Option.map_eq_some_iff] at h
          obtain ⟨⟨s, hs, h⟩, -⟩ := h
          cases h
          exact ⟨rfl, rfl, rfl, s, (Spl.unpackMultisig_iff _ _).1 hs, by constructor <;> rfl⟩
        · simp at h
  · rintro ⟨rfl, hpk, rfl, s, hs, hm⟩
    refine ⟨T, ?_⟩
    have := hs.length
    rw [if_neg (by omega), if_neg (by omega), if_pos this, (Spl.unpackMultisig_iff _ _).2 hs]
    obtain ⟨h1, h2, h3, h4, h5⟩ := hm
    cases m
    simp_all [multisigOf, realSigners]

example : ∃ T', classify Toy.codecs aTable (Toy.acct Toy.alice Spl.token2022Id 7 1 1
      (Spl.Multisig.pack ⟨1, 2, true, [Toy.bob, Toy.prog] ++ List.replicate 9 Pubkey.default⟩)) =
    .ok (some (.multisig ⟨.token2022Program, Toy.alice, 7, 1, 2, true, [Toy.bob, Toy.prog]⟩ Toy.alice), T') :=
  (C46_multisig_iff Toy.codecs aTable (Toy.acct Toy.alice Spl.token2022Id 7 1 1 _) .token2022Program _
    ⟨by decide, rfl⟩ ⟨rfl, rfl⟩ _ _).2
    ⟨rfl, rfl, rfl, _, C45_pack_is_layout.2.2 _ rfl, rfl, rfl, rfl, rfl, by decide⟩

/-- **C46**. Any other data of a live account is an error, and no mint index is given out; classification never panics on
data with the right length. -/
theorem C46_other_is_error (X : Codecs) (T : MintTable) (a : AccountData) (p : Program) (bs : Bytes)
    (ho : TokenProgramOwned a p) (hd : HonestData X a.account.data bs) (h1 : ∀ s, ¬ MintLayout bs s)
    (h2 : ∀ s, ¬ AccountLayout bs s) (h3 : ∀ s, ¬ MultisigLayout bs s) : classify X T a = .ok (none, T) := by
  rw [classify_eq X T ho hd]
  have e1 : Spl.unpackMint bs = none := by
    cases h : Spl.unpackMint bs with
    | none => rfl
    | some s => exact absurd ((Spl.unpackMint_iff _ _).1 h) (h1 s)
  have e2 : Spl.unpackAccount bs = none := by
    cases h : Spl.unpackAccount bs with
    | none => rfl
    | some s => exact absurd ((Spl.unpackAccount_iff _ _).1 h) (h2 s)
  have e3 : Spl.unpackMultisig bs = none := by
    cases h : Spl.unpackMultisig bs with
    | none => rfl
    | some s => exact absurd ((Spl.unpackMultisig_iff _ _).1 h) (h3 s)
  simp [e1, e2, e3]

example : classify Toy.codecs aTable (Toy.acct Toy.alice Spl.tokenId 5 1 1) = .ok (none, aTable) :=
  C46_other_is_error _ _ _ .tokenProgram [1, 2, 3] ⟨by decide, rfl⟩ ⟨rfl, rfl⟩
    (fun _ h => by simpa using h.length) (fun _ h => by simpa using h.length) (fun _ h => by simpa using h.length)

/-- **C46**. The public key is kept. -/
theorem C46_pubkey (X : Codecs) (T T' : MintTable) (a : AccountData) (x : ProgramAccount)
    (h : classify X T a = .ok (some x, T')) : x.pubkey = a.pubkey := by
  by_cases hd : a.account.lamports = 0 ∨ (a.account.owner ≠ Spl.tokenId ∧ a.account.owner ≠ Spl.token2022Id)
  · rw [classify_deleted X T hd] at h
    simp only [Run.ok.injEq, Prod.mk.injEq, Option.some.injEq] at h
    rw [← h.1]; rfl
  · rw [classify, if_neg hd] at h
    split at h
    · simp only [Run.bind_eq_ok] at h
      obtain ⟨bs, -, k, -, h⟩ := h
      split at h
      · simp at h
      · split at h
        · simp at h
        · simp only [Run.bind_eq_ok] at h
          obtain ⟨e, -, h⟩ := h
          simp at h
          rw [← h.1]; rfl
      · split at h
        · simp at h
        · simp only [Run.bind_eq_ok] at h
          obtain ⟨e, -, h⟩ := h
          simp at h
          rw [← h.1]; rfl
      · split at h
        · simp at h
        · simp at h
          rw [← h.1]; rfl
    · simp only [Run.bind_eq_ok] at h
      obtain ⟨bs, -, h⟩ := h
      split at h
      · split at h <;> simp at h
        rw [← h.1]; rfl
      · split at h
        · split at h <;> simp at h
          rw [← h.1]; rfl
        · split at h <;> simp at h
          rw [← h.1]; rfl

/-! ## Mint indexes -/

/-- **C47**. The answer to every request is the position of the mint among the distinct mints requested, in order of first
occurrence, modulo `2 ^ 32`. -/
theorem C47_index_is_position (ms : List Pubkey) :
    (MintTable.requests ⟨[], 0⟩ ms).1 = ms.map (fun m => (firstSeen ms).idxOf m % 2 ^ 32) := by
  have := (knows_empty.requests ms).2
  have hg : grow [] ms = firstSeen ms := by
    simp only [grow, List.nil_append, List.filter_eq_self]; simp
  rwa [hg] at this

/-- **C47**. Two requests get the same index exactly if they are for the same mint, as long as at most `2 ^ 32` different
mints were requested. -/
theorem C47_stable_and_unique (ms : List Pubkey) (h : (firstSeen ms).length ≤ 2 ^ 32) (i j : Nat) (x y : Nat)
    (hi : (MintTable.requests ⟨[], 0⟩ ms).1[i]? = some x) (hj : (MintTable.requests ⟨[], 0⟩ ms).1[j]? = some y) :
    x = y ↔ ms[i]? = ms[j]? := by
  rw [C47_index_is_position] at hi hj
  simp only [List.getElem?_map, Option.map_eq_some_iff] at hi hj
  obtain ⟨a, ha, rfl⟩ := hi
  obtain ⟨b, hb, rfl⟩ := hj
  rw [ha, hb]
  have hla := List.idxOf_lt_length_iff.2 ((mem_firstSeen ms a).2 (List.mem_of_getElem? ha))
  have hlb := List.idxOf_lt_length_iff.2 ((mem_firstSeen ms b).2 (List.mem_of_getElem? hb))
  rw [Nat.mod_eq_of_lt (by omega), Nat.mod_eq_of_lt (by omega)]
  simp only [Option.some.injEq]
  constructor
  · intro e
    have h1 := List.getElem_idxOf hla
    have h2 := List.getElem_idxOf hlb
    rw [← h1, ← h2]
    simp [e]
  · rintro rfl; rfl

example : (MintTable.requests ⟨[], 0⟩ [Toy.alice, Toy.bob, Toy.alice, Toy.prog]).1 = [0, 1, 0, 2] := by decide

/-- Different numbers as public keys. -/
def keyOfNat (n : Nat) : Pubkey := ⟨leBytes 32 n, by simp⟩

theorem keyOfNat_inj {a b : Nat} (ha : a < 2 ^ 64) (hb : b < 2 ^ 64) (h : keyOfNat a = keyOfNat b) : a = b := by
  have h : leBytes 32 a = leBytes 32 b := by simpa [keyOfNat] using h
  exact leBytes_inj (k := 32) (by have : (2:Nat)^64 < 256^32 := by decide
                                  omega) (by have : (2:Nat)^64 < 256^32 := by decide
                                             omega) h

theorem firstSeen_of_nodup {ms : List Pubkey} (h : ms.Nodup) : firstSeen ms = ms := by
  induction ms with
  | nil => rfl
  | cons a t ih =>
    rw [List.nodup_cons] at h
    rw [firstSeen, ih h.2]
    congr 1
    rw [List.filter_eq_self]
    intro x hx
    simp only [decide_eq_true_eq]
    rintro rfl
    exact h.1 hx

/-- **C47**. The bound is needed: after `2 ^ 32` other mints the first index is given to a second mint. -/
theorem C47_wraps_around : ∃ ms : List Pubkey, (firstSeen ms).length = 2 ^ 32 + 1 ∧
    ∃ i j x : Nat, (MintTable.requests ⟨[], 0⟩ ms).1[i]? = some x ∧ (MintTable.requests ⟨[], 0⟩ ms).1[j]? = some x ∧
      ms[i]? ≠ ms[j]? := by
  generalize hN : 2 ^ 32 = N
  have hN0 : 0 < N := by rw [← hN]; decide
  have hN1 : N + 1 < 2 ^ 64 := by rw [← hN]; decide
  have hnd : ((List.range (N + 1)).map keyOfNat).Nodup := by
    unfold List.Nodup
    rw [List.pairwise_map]
    have hr : (List.range (N + 1)).Pairwise (· < ·) := List.pairwise_lt_range
    have hmem : (List.range (N + 1)).Pairwise (fun a b => a ∈ List.range (N + 1) ∧ b ∈ List.range (N + 1) ∧ a < b) :=
      (List.Pairwise.and_mem.1 hr)
    refine hmem.imp ?_
    rintro a b ⟨ha, hb, hlt⟩ e
    have := keyOfNat_inj (by simp at ha; omega) (by simp at hb; omega) e
    omega
  refine ⟨(List.range (N + 1)).map keyOfNat, by rw [firstSeen_of_nodup hnd]; simp, 0, N, 0, ?_, ?_, ?_⟩
  · rw [C47_index_is_position, firstSeen_of_nodup hnd]
    have : ((List.range (N + 1)).map keyOfNat)[0]? = some (keyOfNat 0) := by simp
    rw [List.getElem?_map, this]
    simp only [Option.map_some, Option.some.injEq]
    have hidx : ((List.range (N + 1)).map keyOfNat).idxOf (keyOfNat 0) = 0 := by
      have := hnd.idxOf_getElem 0 (by simp)
      simpa using this
    rw [hidx]
  · rw [C47_index_is_position, firstSeen_of_nodup hnd]
    have : ((List.range (N + 1)).map keyOfNat)[N]? = some (keyOfNat N) := by simp
    rw [List.getElem?_map, this]
    simp only [Option.map_some, Option.some.injEq]
    have hidx : ((List.range (N + 1)).map keyOfNat).idxOf (keyOfNat N) = N := by
      have := hnd.idxOf_getElem N (by simp)
      simpa using this
    rw [hidx, hN, Nat.mod_self]
  · have h0 : ((List.range (N + 1)).map keyOfNat)[0]? = some (keyOfNat 0) := by simp
    have h1 : ((List.range (N + 1)).map keyOfNat)[N]? = some (keyOfNat N) := by simp
    rw [h0, h1]
    intro e
    have := keyOfNat_inj (by decide) (by omega) (Option.some.inj e)
    omega

/-- **C46**. The ids of the two token programs are the published ones. -/
theorem C46_program_ids :
    bytesValue Spl.tokenId.bytes = base58Value "TokenkegQfeZyiNwAJbNbGKPFXCWuBvf9Ss623VQ5DA" ∧
    bytesValue Spl.token2022Id.bytes = base58Value "TokenzQdBNbLqP5VEhdkAS6EPFLC1PHnBqCXEpPxuEb" := by
  decide +kernel

end LAM.Props
