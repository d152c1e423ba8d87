import Verif.Lemmas.TokenStoreReady
import Verif.Props.TokenChain
import Verif.Props.Filter
/-!
# The token program store: panics, C56, C70
-/
namespace LAM.Props
open Spec Token
open TokenStore (TOp)

/-! ## Reads -/

/-- **C56**, the full claim: reads do not panic. -/
def C56_statement : Prop :=
  ∀ (X : Codecs) (ops : List TOp) (s : TokenStore), TokenStore.run X ops .empty = .ok s →
    (∀ pk c, s.getAccount pk c ≠ .panic) ∧
    ∀ σ program filters c, QueryWellFormed X filters → s.getProgramAccounts X σ program filters c ≠ .panic

theorem allows_total {X : Codecs} {f : AccountFilterType} (h : WellFormed X f) (d : Bytes) : ∃ b, f.allows X d = .ok b :=
  (C01_filter_exact X f d h).elim fun b hb => ⟨b, hb.1⟩

/-- **C56**. If the mints are loaded first, every token account submitted later belongs to one of them, and none of them is
closed, no read panics (a program query for an owner and a mint must name one of these mints). -/
theorem C56_known_mints_partial (X : Codecs) (loads : List AccountData) (ops : List TOp)
    (hn : loads.length + ops.length < 2 ^ 31) (hl : ∀ a ∈ loads, IsMintAccount X a)
    (ho : ∀ o ∈ ops, ∀ a, o.account = some a → Respects X (fun pk => ∃ a ∈ loads, a.pubkey = pk) (fun _ _ _ => True) a) :
    ∃ s, TokenStore.run X (loads.map TOp.init ++ ops) .empty = .ok s ∧ (∀ pk c, s.getAccount pk c ≠ .panic) ∧
      ∀ σ program filters c, QueryWellFormed X filters →
        (∀ l owner mint, filters = some l → ownerMintFilter program l = (some owner, some mint) → ∃ a ∈ loads, a.pubkey = mint) →
        s.getProgramAccounts X σ program filters c ≠ .panic := by
  obtain ⟨s, I, slots, orig, h1, h2, h3⟩ := loaded_ready _ loads ops hn hl ho
  refine ⟨s, h1, fun pk c => getAccount_ready h3 h2 pk c, fun σ program filters c hq hm => ?_⟩
  refine getProgramAccounts_ready h3 h2 σ program filters c fun l hl => ⟨fun f hf d => allows_total (hq l hl f hf) d, ?_⟩
  intro owner mint hom
  simp [h2.known mint (hm l owner mint hl hom)]

/-- **C56**, exactly: a finalized read panics if and only if no multisig is stored, and either the public key has a mint index
but no mint account is stored, or it has no mint index and its token account's mint account is not stored. -/
theorem C56_finalized_iff (X : Codecs) (ops : List TOp) (s : TokenStore) (hn : ops.length < 2 ^ 31)
    (hr : TokenStore.run X ops .empty = .ok s) (pk : Pubkey) :
    s.getAccount pk .finalized = .panic ↔ s.multisigs.find pk = none ∧
      ((∃ i, s.table.index.find pk = some i ∧ s.mints.find i = none) ∨
       (s.table.index.find pk = none ∧ ∃ t, s.tokens.getByPubkey pk = .ok (some t) ∧ s.mints.find t.mint = none)) := by
  obtain ⟨slots, orig, inv⟩ := reach_inv hn hr
  have h := inv.fin
  obtain ⟨h1, h2, h3, h4, h5⟩ := getFinalized_eq h pk
  have hg : s.getAccount pk .finalized = s.getFinalized pk := by simp [TokenStore.getAccount]
  rw [hg, getByPubkey_eq h.holds]
  simp only [recOf] at h1 h2 h3 h4 h5
  cases hm : s.multisigs.find pk with
  | some m => obtain ⟨r, hr, -⟩ := h1 m hm; simp [hr]
  | none =>
    cases hi : s.table.index.find pk with
    | some i =>
      cases hmi : s.mints.find i with
      | some m => rw [h2 hm m (by simp [hi, hmi])]; simp [hmi]
      | none => rw [h3 hm (by simp [hi, hmi])]; simp [hmi]
    | none =>
      cases ht : view s.tokens slots pk with
      | none => rw [h5 hm (by simp [hi]) ht]; simp
      | some t =>
        obtain ⟨g1, g2⟩ := h4 hm (by simp [hi]) t ht
        rw [g1]
        cases hmt : s.mints.find t.mint with
        | none => simp [tokenToSolana, g2, hmt]
        | some m => rw [tokenToSolana_ok g2 hmt]; simp [hmt]

/-- A token account of a mint that was not seen. -/
def mintless : TokenStore := okStore (TokenStore.run Toy.codecs [.init (tokenAcct Toy.alice 1 1)] .empty)

theorem mintless_eq : TokenStore.run Toy.codecs [.init (tokenAcct Toy.alice 1 1)] .empty = .ok mintless := by decide +kernel

/-- A token account of `owner` and `mint`. -/
def ownerMintQuery : List AccountFilterType :=
  [.datasize 165, .memcmp ⟨0, .bytes Toy.prog.bytes⟩, .memcmp ⟨32, .bytes Toy.bob.bytes⟩]

/-- Reading it panics; so does reading its mint, and querying an owner and an unknown mint. -/
theorem C56_refuted : ¬ C56_statement := by
  intro h
  exact (h Toy.codecs _ _ mintless_eq).1 Toy.alice .finalized (by decide +kernel)

example : mintless.getAccount Toy.prog .finalized = .panic := by decide +kernel

example : ownerMintFilter Spl.tokenId ownerMintQuery = (some Toy.bob, some Toy.prog) := by decide +kernel

theorem C56_unknown_mint_panics :
    TokenStore.empty.getProgramAccounts Toy.codecs plainOrders Spl.tokenId (some ownerMintQuery) .finalized = .panic := by
  decide +kernel

/-- With the mint loaded the same query answers. -/
example : (match loaded.getProgramAccounts Toy.codecs plainOrders Spl.tokenId (some ownerMintQuery) .finalized with
    | .ok (.ok [r]) => some r.pubkey
    | _ => none) = some Toy.alice := by decide +kernel

/-! ## Slot notifications and updates -/

/-- **C70**, the full claim: if all submitted data decodes, updates and slot notifications do not panic. -/
def C70_statement : Prop :=
  ∀ (X : Codecs) (ops : List TOp), ops.length < 2 ^ 31 →
    (∀ o ∈ ops, ∀ a, o.account = some a → ∃ bs, HonestData X a.account.data bs) → TokenStore.run X ops .empty ≠ .panic

/-- **C70**. If the mints are loaded first, every token account submitted later belongs to one of them, and none of them is
closed, no call panics: every history runs to its end. -/
theorem C70_known_mints_partial (X : Codecs) (loads : List AccountData) (ops : List TOp)
    (hn : loads.length + ops.length < 2 ^ 31) (hl : ∀ a ∈ loads, IsMintAccount X a)
    (ho : ∀ o ∈ ops, ∀ a, o.account = some a → Respects X (fun pk => ∃ a ∈ loads, a.pubkey = pk) (fun _ _ _ => True) a) :
    ∃ s, TokenStore.run X (loads.map TOp.init ++ ops) .empty = .ok s := by
  obtain ⟨s, -, -, -, h, -⟩ := loaded_ready _ loads ops hn hl ho
  exact ⟨s, h⟩

/-- **C70**. Updates alone never panic, whatever mints are known. -/
theorem C70_updates (X : Codecs) (ops : List TOp) (hn : ops.length < 2 ^ 31) (hu : ∀ σ i c, TOp.slot σ i c ∉ ops)
    (hd : ∀ o ∈ ops, ∀ a, o.account = some a → ∃ bs, HonestData X a.account.data bs) :
    ∃ s, TokenStore.run X ops .empty = .ok s :=
  updates_total ops (inv_empty _) (by omega) hu hd

/-- A token account of an unseen mint, and the slot confirmed. -/
theorem C70_refuted : ¬ C70_statement := by
  intro h
  refine h Toy.codecs [.update (tokenAcct Toy.alice 1 1) .processed, .slot plainOrders ⟨1, 0, 0⟩ .confirmed] (by simp) ?_
    (by decide +kernel)
  intro o ho a ha
  simp at ho
  rcases ho with rfl | rfl
  · cases ha; exact ⟨splAccount.pack, rfl, by decide +kernel⟩
  · cases ha

/-- The mint may even be finalized by the same notification: accounts are converted before the mint is stored. -/
theorem C70_same_slot_panics :
    TokenStore.run Toy.codecs [.update mintAcct .processed, .update (tokenAcct Toy.alice 1 1) .processed,
      .slot plainOrders ⟨1, 0, 0⟩ .finalized] .empty = .panic := by decide +kernel

/-! ## The hypotheses are satisfied by ordinary histories -/

theorem isMint_mintAcct : IsMintAccount Toy.codecs mintAcct := by
  obtain ⟨sm, h⟩ : ∃ sm, Spl.unpackMint (mintBytes aMint) = some sm := Option.isSome_iff_exists.1 (by decide +kernel)
  exact ⟨.tokenProgram, mintBytes aMint, sm, ⟨by decide +kernel, by decide +kernel⟩, ⟨rfl, by decide +kernel⟩,
    (Spl.unpackMint_iff _ _).1 h⟩

theorem respects_tokenAcct (M : Pubkey → Prop) (hM : M Toy.prog) (pk : Pubkey) (slot wv : Nat) :
    Respects Toy.codecs M (fun _ _ _ => True) (tokenAcct pk slot wv) := by
  refine ⟨⟨splAccount.pack, ⟨rfl, rfl⟩, fun sa h => ?_⟩, fun _ => ⟨by simp [tokenAcct, Toy.acct], .inl rfl⟩⟩
  have h1 : Spl.unpackAccount splAccount.pack = some splAccount := by decide +kernel
  rw [(Spl.unpackAccount_iff _ _).2 h] at h1
  cases h1
  exact ⟨hM, trivial⟩

theorem respects_closedAcct (M : Pubkey → Prop) {pk : Pubkey} (hM : ¬ M pk) (slot wv : Nat) :
    Respects Toy.codecs M (fun _ _ _ => True) (closedAcct pk slot wv) := by
  refine ⟨⟨[], ⟨rfl, rfl⟩, fun sa h => ?_⟩, fun h => absurd h hM⟩
  have := h.length
  simp at this

/-- A token account is opened and closed on an unfinalized slot, which is confirmed and finalized. -/
def ordinary : List TOp :=
  [.update (tokenAcct Toy.alice 2 1) .processed, .slot plainOrders ⟨2, 1, 0⟩ .confirmed,
   .update (closedAcct Toy.alice 3 1) .processed, .update (tokenAcct Toy.bob 3 2) .processed,
   .slot plainOrders ⟨3, 2, 0⟩ .finalized]

example : (∀ a ∈ [mintAcct], IsMintAccount Toy.codecs a) ∧
    ∀ o ∈ ordinary, ∀ a, o.account = some a → Respects Toy.codecs (fun pk => ∃ a ∈ [mintAcct], a.pubkey = pk) (fun _ _ _ => True) a := by
  have hM : ∃ a ∈ [mintAcct], a.pubkey = Toy.prog := ⟨mintAcct, by simp, rfl⟩
  refine ⟨by simpa using isMint_mintAcct, ?_⟩
  intro o ho a ha
  simp only [ordinary, List.mem_cons, List.not_mem_nil, or_false] at ho
  rcases ho with rfl | rfl | rfl | rfl | rfl <;> cases ha
  · exact respects_tokenAcct _ hM _ _ _
  · exact respects_closedAcct _ (by
      rintro ⟨a, ha, h⟩
      simp at ha; subst ha
      exact absurd h (by decide +kernel)) _ _
  · exact respects_tokenAcct _ hM _ _ _

example : ∃ l owner mint, ownerMintFilter Spl.tokenId l = (some owner, some mint) ∧ ∃ a ∈ [mintAcct], a.pubkey = mint :=
  ⟨ownerMintQuery, Toy.bob, Toy.prog, by decide +kernel, mintAcct, by simp, rfl⟩

end LAM.Props
