import Verif.Lemmas.TokenConc
import Verif.Props.TokenUtils
/-!
# Concurrent calls of the token program store: where the stored accounts come from
-/
namespace LAM.TokConc
open Token Run Spec ProcStore
open Spl (tokenId token2022Id)

/-! ## Indexes of mints -/

/-- `g` lists the mints in the order in which indexes were given to them: `i` was given to `pk`. -/
def Issued (g : List Pubkey) (i : Nat) (pk : Pubkey) : Prop := ∃ j, g[j]? = some pk ∧ i = wrap32 j

theorem Issued.mono {g g' : List Pubkey} (h : g <+: g') {i : Nat} {pk : Pubkey} (hi : Issued g i pk) : Issued g' i pk := by
  obtain ⟨j, hj, rfl⟩ := hi
  obtain ⟨l, rfl⟩ := h
  exact ⟨j, by rw [List.getElem?_append_left (List.getElem?_eq_some_iff.1 hj).1]; exact hj, rfl⟩

theorem Issued.lt {g : List Pubkey} {i : Nat} {pk : Pubkey} (hi : Issued g i pk) : i < 2 ^ 32 := by
  obtain ⟨j, -, rfl⟩ := hi
  exact Nat.mod_lt _ (by decide)

theorem Issued.unique {g : List Pubkey} (hg : g.length ≤ 2 ^ 32) {i : Nat} {pk pk' : Pubkey} (h : Issued g i pk) (h' : Issued g i pk') :
    pk = pk' := by
  obtain ⟨j, hj, rfl⟩ := h
  obtain ⟨j', hj', e⟩ := h'
  have h1 := (List.getElem?_eq_some_iff.1 hj).1
  have h2 := (List.getElem?_eq_some_iff.1 hj').1
  have : j = j' := by
    simp only [wrap32] at e
    rw [Nat.mod_eq_of_lt (by omega), Nat.mod_eq_of_lt (by omega)] at e
    exact e
  subst this
  rw [hj] at hj'
  exact Option.some.inj hj'

/-- The table of mints only holds indexes that were given out, and the counter is right. -/
structure TableOK (g : List Pubkey) (T : MintTable) : Prop where
  counter : T.counter = wrap32 g.length
  index : ∀ pk i, T.index.find pk = some i → Issued g i pk

theorem issued_new (g : List Pubkey) (pk : Pubkey) : Issued (g ++ [pk]) (wrap32 g.length) pk := ⟨g.length, by simp, rfl⟩

theorem wrap32_succ (n : Nat) : wrap32 (wrap32 n + 1) = wrap32 (n + 1) := by simp [wrap32]

/-- At most one index is given out. -/
def Grows (g g' : List Pubkey) : Prop := g' = g ∨ ∃ m, g' = g ++ [m]

theorem Grows.prefix {g g' : List Pubkey} (h : Grows g g') : g <+: g' := by
  rcases h with rfl | ⟨m, rfl⟩
  · exact List.prefix_refl _
  · exact List.prefix_append _ _

theorem Grows.length {g g' : List Pubkey} (h : Grows g g') : g'.length ≤ g.length + 1 := by
  rcases h with rfl | ⟨m, rfl⟩ <;> simp

theorem TableOK.getOrCreate {g : List Pubkey} {T : MintTable} (h : TableOK g T) (mint : Pubkey) :
    ∃ g', Grows g g' ∧ TableOK g' (T.getOrCreate mint).2 ∧ Issued g' (T.getOrCreate mint).1 mint := by
  unfold MintTable.getOrCreate
  cases hf : T.index.find mint with
  | some i => exact ⟨g, .inl rfl, h, h.index _ _ hf⟩
  | none =>
    have hn : Issued (g ++ [mint]) T.counter mint := h.counter ▸ issued_new g mint
    refine ⟨g ++ [mint], .inr ⟨_, rfl⟩, ⟨by simp [h.counter, wrap32_succ], fun pk i hi => ?_⟩, hn⟩
    simp only [AMap.find_insert] at hi
    split at hi
    · rename_i e; cases hi; subst e; exact hn
    · exact (h.index _ _ hi).mono (List.prefix_append _ _)

/-! ## Accounts as they are stored -/

/-- `x` is what is stored of one of the accounts in `S`. -/
inductive From (X : Codecs) (g : List Pubkey) (S : AccountData → Prop) : ProgramAccount → Prop where
  | token {a p bs sa t} : S a → TokenProgramOwned a p → a.account.data.data X = .ok bs → AccountLayout bs sa →
      Issued g t.mint sa.mint → TokenMatches sa t.mint t → t.pubkey = a.pubkey → t.program = p → TokenFits t → From X g S (.token t)
  | mint {a p bs sm m} : S a → TokenProgramOwned a p → a.account.data.data X = .ok bs → MintLayout bs sm →
      MintMatches sm a.account.lamports m → m.pubkey = a.pubkey → m.program = p → From X g S (.mint m)
  | multisig {a p bs sm m} : S a → TokenProgramOwned a p → a.account.data.data X = .ok bs → MultisigLayout bs sm →
      MultisigMatches sm a.account.lamports m → m.program = p → m.pubkey = a.pubkey → From X g S (.multisig m a.pubkey)
  | deleted {a} : S a → (∀ p, ¬ TokenProgramOwned a p) → From X g S (.deleted a.pubkey)

theorem From.mono {X : Codecs} {g g' : List Pubkey} (hg : g <+: g') {S S' : AccountData → Prop} (hS : ∀ a, S a → S' a)
    {x : ProgramAccount} (h : From X g S x) : From X g' S' x := by
  cases h with
  | token h1 h2 h3 h4 h5 h6 h7 h8 h9 => exact .token (hS _ h1) h2 h3 h4 (h5.mono hg) h6 h7 h8 h9
  | mint h1 h2 h3 h4 h5 h6 h7 => exact .mint (hS _ h1) h2 h3 h4 h5 h6 h7
  | multisig h1 h2 h3 h4 h5 h6 h7 => exact .multisig (hS _ h1) h2 h3 h4 h5 h6 h7
  | deleted h1 h2 => exact .deleted (hS _ h1) h2

theorem From.fits {X : Codecs} {g : List Pubkey} {S : AccountData → Prop} {t : TokenAccount} (h : From X g S (.token t)) :
    TokenFits t ∧ t.isDeleted = false := by
  cases h with
  | token h1 h2 h3 h4 h5 h6 h7 h8 h9 => exact ⟨h9, h6.live⟩

theorem tail165_none {data : Bytes} {b : Bool} {e : Option Bytes} {len : Nat} {k : Kind}
    (hk : kind2022 len data = .ok (some (k, b))) (he : tail165 data b = .ok e) (hl : data.length ≤ 165) : e = none := by
  cases b with
  | false => simp [tail165] at he; exact he.symm
  | true =>
    unfold kind2022 at hk
    split at hk
    · simp at hk
    · split at hk
      · simp at hk
      · split at hk
        · simp at hk
        · split at hk
          · rw [List.getElem?_eq_none hl] at hk
            simp at hk
          · simp at hk

theorem tokenOf_matches {a : AccountData} {p : Program} {sa : Spl.Account} {i : Nat} (hl : a.account.lamports ≠ 0) :
    TokenMatches sa (tokenOf a p sa i none).mint (tokenOf a p sa i none) :=
  ⟨rfl, rfl, rfl, rfl, fun h => by simp [tokenOf, h], fun k h => by simp [tokenOf, h], rfl, rfl, by simpa [tokenOf] using hl, rfl⟩

/-- What is stored of an account has its content. -/
theorem classify_from {X : Codecs} {g : List Pubkey} {T T' : MintTable} (hT : TableOK g T) {a : AccountData} {x : ProgramAccount}
    (h : Token.classify X T a = .ok (some x, T')) {S : AccountData → Prop} (hS : S a) :
    ∃ g', Grows g g' ∧ TableOK g' T' ∧ From X g' S x ∧ x.pubkey = a.pubkey := by
  refine (fun (k : ∃ g', Grows g g' ∧ TableOK g' T' ∧ From X g' S x) => ?_) ?_
  · obtain ⟨g', h1, h2, h3⟩ := k
    exact ⟨g', h1, h2, h3, (classify_some h).1⟩
  have token : ∀ (p : Program) (bs : Bytes) (sa : Spl.Account), TokenProgramOwned a p → a.account.data.data X = .ok bs →
      Spl.unpackAccount bs = some sa → x = .token (tokenOf a p sa (T.getOrCreate sa.mint).1 none) →
      T' = (T.getOrCreate sa.mint).2 → ∃ g', Grows g g' ∧ TableOK g' T' ∧ From X g' S x := by
    rintro p bs sa ho hd hu rfl rfl
    obtain ⟨g', h1, h2, h3⟩ := hT.getOrCreate sa.mint
    exact ⟨g', h1, h2, .token hS ho hd ((Spl.unpackAccount_iff _ _).1 hu) h3 (tokenOf_matches ho.1) rfl rfl
      (tokenOf_fits hu a p h3.lt false rfl)⟩
  have mint : ∀ (p : Program) (bs : Bytes) (sm : Spl.Mint), TokenProgramOwned a p → a.account.data.data X = .ok bs →
      Spl.unpackMint bs = some sm → x = .mint (mintOf a p sm none) → T' = T →
      ∃ g', Grows g g' ∧ TableOK g' T' ∧ From X g' S x := by
    rintro p bs sm ho hd hu rfl rfl
    exact ⟨g, .inl rfl, hT, .mint hS ho hd ((Spl.unpackMint_iff _ _).1 hu) ⟨rfl, rfl, rfl, rfl, rfl, rfl, rfl⟩ rfl rfl⟩
  have multisig : ∀ (p : Program) (bs : Bytes) (sm : Spl.Multisig), TokenProgramOwned a p → a.account.data.data X = .ok bs →
      Spl.unpackMultisig bs = some sm → x = .multisig (multisigOf a p sm) a.pubkey → T' = T →
      ∃ g', Grows g g' ∧ TableOK g' T' ∧ From X g' S x := by
    rintro p bs sm ho hd hu rfl rfl
    exact ⟨g, .inl rfl, hT, .multisig hS ho hd ((Spl.unpackMultisig_iff _ _).1 hu) ⟨rfl, rfl, rfl, rfl, rfl⟩ rfl rfl⟩
  unfold Token.classify at h
  split at h
  · rename_i hd
    simp only [Run.ok.injEq, Prod.mk.injEq, Option.some.injEq] at h
    obtain ⟨rfl, rfl⟩ := h
    exact ⟨g, .inl rfl, hT, .deleted hS fun p hp => owned_not_deleted hp hd⟩
  · rename_i hlive
    simp only [not_or, not_and] at hlive
    split at h
    · rename_i ho
      have ho : TokenProgramOwned a .token2022Program := ⟨hlive.1, ho⟩
      simp only [Run.bind_eq_ok] at h
      obtain ⟨bs, hd, k, hk, h⟩ := h
      split at h
      · simp at h
      · split at h
        · simp at h
        · rename_i sm hu
          simp only [Run.bind_eq_ok] at h
          obtain ⟨e, he, h⟩ := h
          simp only [Run.pure_eq, Run.ok.injEq, Prod.mk.injEq, Option.some.injEq] at h
          have he := tail165_none hk he (by rw [((Spl.unpackMint_iff _ _).1 hu).length]; omega)
          subst he
          exact mint _ _ _ ho hd hu h.1.symm h.2.symm
      · split at h
        · simp at h
        · rename_i sa hu
          simp only [Run.bind_eq_ok] at h
          obtain ⟨e, he, h⟩ := h
          simp only [Run.pure_eq, Run.ok.injEq, Prod.mk.injEq, Option.some.injEq] at h
          have he := tail165_none hk he (by rw [((Spl.unpackAccount_iff _ _).1 hu).length])
          subst he
          exact token _ _ _ ho hd hu h.1.symm h.2.symm
      · split at h
        · simp at h
        · rename_i sm hu
          simp only [Run.pure_eq, Run.ok.injEq, Prod.mk.injEq, Option.some.injEq] at h
          exact multisig _ _ _ ho hd hu h.1.symm h.2.symm
    · rename_i ho
      have ho : TokenProgramOwned a .tokenProgram := ⟨hlive.1, by by_contra hc; exact ho (by
        by_contra hc'; exact hlive.2 hc hc')⟩
      simp only [Run.bind_eq_ok] at h
      obtain ⟨bs, hd, h⟩ := h
      split at h
      · split at h
        · simp at h
        · rename_i sm hu
          simp only [Run.pure_eq, Run.ok.injEq, Prod.mk.injEq, Option.some.injEq] at h
          exact mint _ _ _ ho hd hu h.1.symm h.2.symm
      · split at h
        · split at h
          · simp at h
          · rename_i sa hu
            simp only [Run.pure_eq, Run.ok.injEq, Prod.mk.injEq, Option.some.injEq] at h
            exact token _ _ _ ho hd hu h.1.symm h.2.symm
        · split at h
          · simp at h
          · rename_i sm hu
            simp only [Run.pure_eq, Run.ok.injEq, Prod.mk.injEq, Option.some.injEq] at h
            exact multisig _ _ _ ho hd hu h.1.symm h.2.symm

/-- Decoding an account panics only if its data is not what it says. -/
theorem classify_panic {X : Codecs} {T : MintTable} {a : AccountData} (h : Token.classify X T a = .panic) (bs : Bytes) :
    ¬ HonestData X a.account.data bs := by
  intro hd
  by_cases hl : a.account.lamports = 0 ∨ (a.account.owner ≠ tokenId ∧ a.account.owner ≠ token2022Id)
  · rw [Token.classify, if_pos hl] at h; simp at h
  · have ho : ∃ p, TokenProgramOwned a p := by
      simp only [not_or, not_and] at hl
      by_cases h1 : a.account.owner = tokenId
      · exact ⟨.tokenProgram, hl.1, h1⟩
      · exact ⟨.token2022Program, hl.1, by by_contra hc; exact hl.2 h1 hc⟩
    obtain ⟨p, ho⟩ := ho
    rw [classify_eq X T ho hd] at h
    repeat' split at h
    all_goals simp at h

/-! ## Converting them back -/

/-- A token account converted back has the content of the account it comes from, if mint indexes are unique. -/
theorem token_back {X : Codecs} {g : List Pubkey} (hg : g.length ≤ 2 ^ 32) {S : AccountData → Prop} {t : TokenAccount}
    (hx : From X g S (.token t)) {mints : AMap Nat MintAccount} (hm : ∀ i m, mints.find i = some m → Issued g i m.pubkey)
    {slot wv : Nat} {b : AccountData} (h : tokenToSolana mints t slot wv = .ok (some b)) :
    Stems X S b ∧ b.pubkey = t.pubkey ∧ b.slot = slot ∧ b.wv = wv ∧
      ∃ bs sb, HonestData X b.account.data bs ∧ AccountLayout bs sb ∧ sb.owner = t.owner ∧ Issued g t.mint sb.mint := by
  cases hx with
  | @token a p bs sa _ hS ho hd hlay hi hmat hpk hp hf =>
    simp only [tokenToSolana, hmat.live, Bool.false_eq_true, if_false, Run.bind_eq_ok, Run.pure_eq, Run.ok.injEq,
      Option.some.injEq] at h
    obtain ⟨m, hu, rfl⟩ := h
    have hu : mints.find t.mint = some m := by
      cases hf : mints.find t.mint <;> simp [hf, Run.unwrap] at hu
      rw [hu]
    have hk : m.pubkey = sa.mint := (hm _ _ hu).unique hg hi
    have hpack : tokenData t m.pubkey = Spl.Account.pack ⟨m.pubkey, t.owner, t.amount, t.delegate.map (·.1), t.state,
        t.isNative, (t.delegate.map (·.2)).getD 0, t.closeAuthority⟩ := by
      unfold tokenData
      cases t.program <;> simp [hmat.plain]
    have hlay' : AccountLayout (tokenData t m.pubkey) ⟨m.pubkey, t.owner, t.amount, t.delegate.map (·.1), t.state,
        t.isNative, (t.delegate.map (·.2)).getD 0, t.closeAuthority⟩ := by
      rw [hpack]
      refine Props.C45_pack_is_layout.1 _ ⟨hf.amount, hf.native, ?_⟩
      cases h : t.delegate with
      | none => simp
      | some x => simpa [h] using hf.delegate x.1 x.2 h
    have hsame : SameToken sa ⟨m.pubkey, t.owner, t.amount, t.delegate.map (·.1), t.state,
        t.isNative, (t.delegate.map (·.2)).getD 0, t.closeAuthority⟩ := by
      refine ⟨hk.symm, hmat.owner.symm, hmat.amount.symm, ?_, hmat.state.symm, hmat.native.symm, ?_, hmat.close.symm⟩
      · cases hdl : sa.delegate with
        | none => simp [hmat.noDelegate hdl]
        | some k => simp [hmat.delegate k hdl]
      · intro hne
        cases hdl : sa.delegate with
        | none => exact absurd hdl hne
        | some k => simp [hmat.delegate k hdl]
    refine ⟨⟨a, p, hS, ho, hpk, ?_, .token hd ⟨rfl, rfl⟩ hlay hlay' hsame⟩, rfl, rfl, rfl, _, _, ⟨rfl, rfl⟩, hlay', rfl, hk ▸ hi⟩
    simp only [solanaAccount, hp, ho.2]
    cases p <;> rfl

theorem mint_back {X : Codecs} {g : List Pubkey} {S : AccountData → Prop} {m : MintAccount}
    (hx : From X g S (.mint m)) (slot wv : Nat) : Stems X S (mintToSolana m slot wv) := by
  cases hx with
  | @mint a p bs sm _ hS ho hd hlay hmat hpk hp =>
    have hs : m.supply < 2 ^ 64 := by
      rw [hmat.supply, ← hlay.supply]; exact field_lt _ _ 8
    have hpack : mintBytes m = Spl.Mint.pack ⟨m.mintAuthority, m.supply, m.decimals, m.isInitialized, m.freezeAuthority⟩ := by
      unfold mintBytes
      cases m.program <;> simp [hmat.plain]
    have he : sm = ⟨m.mintAuthority, m.supply, m.decimals, m.isInitialized, m.freezeAuthority⟩ := by
      rw [hmat.mintAuthority, hmat.supply, hmat.decimals, hmat.initialized, hmat.freeze]
    refine ⟨a, p, hS, ho, hpk, ?_, .mint (bs' := mintBytes m) hd ⟨rfl, rfl⟩ hlay ?_ hmat.lamports⟩
    · simp only [mintToSolana, solanaAccount, hp, ho.2]
      cases p <;> rfl
    · rw [hpack, he]
      exact Props.C45_pack_is_layout.2.1 _ hs

theorem multisig_back {X : Codecs} {g : List Pubkey} {S : AccountData → Prop} {m : MultiSig} {pk : Pubkey}
    (hx : From X g S (.multisig m pk)) (slot wv : Nat) :
    ∃ b, multisigToSolana m pk slot wv = .ok b ∧ Stems X S b ∧ b.pubkey = pk ∧ b.slot = slot ∧ b.wv = wv := by
  cases hx with
  | @multisig a p bs sm _ hS ho hd hlay hmat hp =>
    have h11 : m.signers.length ≤ 11 := by
      rw [hmat.signers, ← hlay.count]; exact List.length_filter_le _ _
    have hz : ∀ k ∈ m.signers, k ≠ Pubkey.default := by
      intro k hk
      rw [hmat.signers] at hk
      simpa using (List.mem_filter.1 hk).2
    have hlen : (m.signers ++ List.replicate (11 - m.signers.length) Pubkey.default).length = 11 := by simp; omega
    refine ⟨_, multisigToSolana_ok h11 _ slot wv, ⟨a, p, hS, ho, rfl, ?_, .multisig hd ⟨rfl, rfl⟩ hlay
      (Props.C45_pack_is_layout.2.2 _ hlen) hmat.required hmat.total hmat.initialized ?_ hmat.lamports⟩, rfl, rfl, rfl⟩
    · simp only [solanaAccount, hp, ho.2]
      cases p <;> rfl
    · have := realSigners_pad m.signers hz (11 - m.signers.length)
      unfold realSigners at this
      rw [this, hmat.signers]

/-- Any account converted back. -/
theorem back {X : Codecs} {g : List Pubkey} (hg : g.length ≤ 2 ^ 32) {S : AccountData → Prop} {x : ProgramAccount}
    (hx : From X g S x) {mints : AMap Nat MintAccount} (hm : ∀ i m, mints.find i = some m → Issued g i m.pubkey)
    {slot wv : Nat} {b : AccountData} (h : x.toSolana mints slot wv = .ok (some b)) :
    Stems X S b ∧ b.pubkey = x.pubkey ∧ b.slot = slot ∧ b.wv = wv := by
  cases x with
  | token t =>
    obtain ⟨h1, h2, h3, h4, -⟩ := token_back hg hx hm h
    exact ⟨h1, h2, h3, h4⟩
  | mint m =>
    simp only [ProgramAccount.toSolana, Run.ok.injEq, Option.some.injEq] at h
    subst h
    exact ⟨mint_back hx slot wv, rfl, rfl, rfl⟩
  | multisig m pk =>
    obtain ⟨b', h1, h2⟩ := multisig_back hx slot wv
    simp only [ProgramAccount.toSolana, h1, Run.ok_bind, Run.pure_eq, Run.ok.injEq, Option.some.injEq] at h
    subst h
    exact h2
  | deleted pk => simp [ProgramAccount.toSolana] at h

end LAM.TokConc
