import Verif.Lemmas.TokenStoreQuery
import Verif.Lemmas.TokenStoreMint
import Verif.Props.TokenPanics
/-!
# Program queries of the token store and mint indexes: C57, C68, C69, C71
-/
namespace LAM.Props
open Spec Token
open TokenStore (TOp)

/-! ## Recognising queries -/

/-- **C71**. The scan of the filters finds exactly the owner and the mint asked for (the last ones, given as 32 raw bytes). -/
theorem C71_recognised (program : Pubkey) (l : List AccountFilterType) :
    (∀ pk, (ownerMintFilter program l).1 = some pk ↔ AsksOwner program l pk) ∧
    ∀ pk, (ownerMintFilter program l).2 = some pk ↔ AsksMint program l pk := ownerMint_iff program l

/-- Queries for `bob` as owner, with and without the mint `prog`. -/
def byBob : List AccountFilterType := [.datasize 165, .memcmp ⟨32, .bytes Toy.bob.bytes⟩]

theorem asks_byBob : AsksOwner Spl.tokenId byBob Toy.bob ∧ ∀ m, ¬ AsksMint Spl.tokenId byBob m := by
  obtain ⟨h1, h2⟩ := C71_recognised Spl.tokenId byBob
  exact ⟨(h1 _).1 (by decide +kernel), fun m hm => absurd ((h2 m).2 hm) (by rw [show (ownerMintFilter Spl.tokenId byBob).2 = none by decide +kernel]; simp)⟩

theorem asks_ownerMint : AsksOwner Spl.tokenId ownerMintQuery Toy.bob ∧ AsksMint Spl.tokenId ownerMintQuery Toy.prog := by
  obtain ⟨h1, h2⟩ := C71_recognised Spl.tokenId ownerMintQuery
  exact ⟨(h1 _).1 (by decide +kernel), (h2 _).1 (by decide +kernel)⟩

/-- **C71**. Without size 165 (or, for Token-2022, the account type) no query asks for token accounts; text patterns are not
recognised. -/
theorem C71_text_ignored (program pk : Pubkey) (l : List AccountFilterType)
    (h : ∀ f ∈ l, ∀ off b, f ≠ .memcmp ⟨off, .bytes b⟩) : ¬ AsksOwner program l pk ∧ ¬ AsksMint program l pk := by
  have key : ∀ off, ¬ LastIs (keyAt? off) l pk := by
    rintro off ⟨pre, f, post, rfl, h1, -⟩
    have := h f (by simp)
    cases f with
    | datasize n => simp [keyAt?, rawAt?] at h1
    | memcmp m =>
      obtain ⟨o, d⟩ := m
      cases d with
      | bytes b => exact this o b rfl
      | base58 b => simp [keyAt?, rawAt?] at h1
      | base64 b => simp [keyAt?, rawAt?] at h1
  exact ⟨fun h => key 32 h.2, fun h => key 0 h.2⟩

/-! ## Answers are sound -/

/-- **C57**, the full claim: every account a program query returns belongs to the program and passes all filters. -/
def C57_statement : Prop :=
  ∀ (X : Codecs) (ops : List TOp) (s : TokenStore) (σ : Orders) (program : Pubkey) (l : List AccountFilterType)
    (c : Commitment) (rs : List AccountData), X.Lawful → ops.length < 2 ^ 31 → TokenStore.run X ops .empty = .ok s →
    QueryWellFormed X (some l) → s.getProgramAccounts X σ program (some l) c = .ok (.ok rs) →
    ∀ r ∈ rs, ∃ bs, HonestData X r.account.data bs ∧ r.account.owner = program ∧ ∀ f ∈ l, Allows X f bs

/-- A finalized query is answered from the finalized tables. -/
theorem gpa_finalized {X : Codecs} {s : TokenStore} {σ : Orders} {program : Pubkey} {fs : Option (List AccountFilterType)}
    {rs : List AccountData} (h : s.getProgramAccounts X σ program fs .finalized = .ok (.ok rs)) :
    (program = Spl.tokenId ∨ program = Spl.token2022Id) ∧ s.gpaFinalized X σ program fs = .ok (.ok rs) := by
  unfold TokenStore.getProgramAccounts at h
  split at h
  · simp at h
  · rename_i hp
    refine ⟨by by_contra hc; exact hp (by simpa using hc), ?_⟩
    simp only [Run.bind_eq_ok] at h
    obtain ⟨r, h1, h⟩ := h
    cases r with
    | error e => simp at h
    | ok l => simp at h; subst h; exact h1

theorem ownerMint_of {program owner : Pubkey} {l : List AccountFilterType} (h : AsksOwner program l owner) :
    ∃ mint, ownerMintFilter program l = (some owner, mint) ∧ ∀ m, mint = some m ↔ AsksMint program l m := by
  obtain ⟨h1, h2⟩ := C71_recognised program l
  refine ⟨(ownerMintFilter program l).2, ?_, h2⟩
  rw [← (h1 owner).2 h]

theorem mint_of {program mint : Pubkey} {l : List AccountFilterType} (h : AsksMint program l mint)
    (hn : ∀ owner, ¬ AsksOwner program l owner) : ownerMintFilter program l = (none, some mint) := by
  obtain ⟨h1, h2⟩ := C71_recognised program l
  have e2 := (h2 mint).2 h
  have e1 : (ownerMintFilter program l).1 = none := by
    cases he : (ownerMintFilter program l).1 with
    | none => rfl
    | some o => exact absurd ((h1 o).1 he) (hn o)
  rw [← e1, ← e2]

/-- **C57**. In every reachable store, the accounts returned by a finalized query for an owner (and a mint) have this owner
(and mint). -/
theorem C57_owner_partial (X : Codecs) (ops : List TOp) (s : TokenStore) (σ : Orders) (program owner : Pubkey)
    (l : List AccountFilterType) (rs : List AccountData) (hn : ops.length < 2 ^ 31) (hr : TokenStore.run X ops .empty = .ok s)
    (ho : AsksOwner program l owner) (hg : s.getProgramAccounts X σ program (some l) .finalized = .ok (.ok rs)) :
    ∀ r ∈ rs, ∃ bs, HonestData X r.account.data bs ∧ 165 ≤ bs.length ∧ Allows X (.memcmp ⟨32, .bytes owner.bytes⟩) bs ∧
      ∀ mint, AsksMint program l mint → Allows X (.memcmp ⟨0, .bytes mint.bytes⟩) bs := by
  obtain ⟨slots, orig, inv⟩ := reach_inv hn hr
  obtain ⟨mint, h1, h2⟩ := ownerMint_of ho
  intro r hmem
  obtain ⟨is, i, t, -, -, -, h3, h4, h5⟩ := (gpa_owner inv.fin h1 (gpa_finalized hg).2 r).1 hmem
  obtain ⟨-, m, h6, rfl⟩ := tokenToSolana_some h5
  obtain ⟨w1, w2, w3⟩ := tokenData_windows t m.pubkey
  refine ⟨_, ⟨rfl, rfl⟩, w3, ⟨_, rfl, h3 ▸ w2⟩, fun mk hmk => ⟨_, rfl, ?_⟩⟩
  have e : m.pubkey = mk := inv.fin.idx_inj _ _ _ (inv.fin.mints_idx _ _ h6) (h4 mk ((h2 mk).2 hmk))
  exact e ▸ w1

example : ∀ r ∈ [(⟨Toy.alice, solanaAccount (Spl.rentMinimum 165) splAccount.pack .tokenProgram, 0, 0⟩ : AccountData)],
    ∃ bs, HonestData Toy.codecs r.account.data bs ∧ 165 ≤ bs.length ∧
      Allows Toy.codecs (.memcmp ⟨32, .bytes Toy.bob.bytes⟩) bs ∧
      ∀ mint, AsksMint Spl.tokenId ownerMintQuery mint → Allows Toy.codecs (.memcmp ⟨0, .bytes mint.bytes⟩) bs :=
  C57_owner_partial Toy.codecs _ loaded plainOrders Spl.tokenId Toy.bob ownerMintQuery _ (by decide) loaded_eq asks_ownerMint.1
    (by decide +kernel)

/-- **C57**. A query for mints (size 82) returns exactly the stored mints that pass all filters. -/
theorem C57_mints (X : Codecs) (s : TokenStore) (σ : Orders) (program : Pubkey) (l : List AccountFilterType)
    (hp : program = Spl.tokenId ∨ program = Spl.token2022Id) (hw : QueryWellFormed X (some l))
    (h1 : ∀ pk, ¬ AsksOwner program l pk) (h2 : ∀ pk, ¬ AsksMint program l pk) (h3 : .datasize 82 ∈ l) :
    ∃ rs, s.getProgramAccounts X σ program (some l) .finalized = .ok (.ok rs) ∧
      ∀ r, r ∈ rs ↔ ∃ i m, (i, m) ∈ s.mints ∧ r = mintToSolana m s.finalizedSlot 0 ∧ ∀ f ∈ l, Allows X f (mintBytes m) := by
  classical
  have e : ownerMintFilter program l = (none, none) := by
    obtain ⟨g1, g2⟩ := C71_recognised program l
    have e1 : (ownerMintFilter program l).1 = none := Option.eq_none_iff_forall_ne_some.2 fun o ho => h1 o ((g1 o).1 ho)
    have e2 : (ownerMintFilter program l).2 = none := Option.eq_none_iff_forall_ne_some.2 fun o ho => h2 o ((g2 o).1 ho)
    exact Prod.ext e1 e2
  have hall : ∀ m : MintAccount, ∃ b, Run.allM (fun f => f.allows X (mintBytes m)) l = .ok b ∧
      (b = true ↔ ∀ f ∈ l, Allows X f (mintBytes m)) := by
    intro m
    have hl : ∀ f ∈ l, WellFormed X f := hw l rfl
    clear hw h1 h2 h3 e
    induction l with
    | nil => exact ⟨true, rfl, by simp⟩
    | cons f l ih =>
      obtain ⟨b, hb1, hb2⟩ := C01_filter_exact X f (mintBytes m) (hl f (by simp))
      obtain ⟨b', hb3, hb4⟩ := ih (fun g hg => hl g (by simp [hg]))
      cases b with
      | false => exact ⟨false, by simp [Run.allM, hb1], by simpa using fun h => absurd (hb2.2 h) (by simp)⟩
      | true => exact ⟨b', by simp [Run.allM, hb1, hb3], by simp [hb4, hb2.1 rfl]⟩
  refine ⟨(s.mints.map (fun e => mintToSolana e.2 s.finalizedSlot 0)).filter
      (fun a => decide (∀ f ∈ l, ∀ d, contents X a.account.data = some d → Allows X f d)), ?_, ?_⟩
  · unfold TokenStore.getProgramAccounts
    rw [if_neg (by rcases hp with rfl | rfl <;> simp)]
    have hg : s.gpaFinalized X σ program (some l) = .ok (.ok ((s.mints.map (fun e => mintToSolana e.2 s.finalizedSlot 0)).filter
      (fun a => decide (∀ f ∈ l, ∀ d, contents X a.account.data = some d → Allows X f d)))) := by
      unfold TokenStore.gpaFinalized
      simp only [e]
      rw [if_pos (by simpa using h3), filterRun_ok]
      · rfl
      · intro a ha
        obtain ⟨⟨i, m⟩, -, rfl⟩ := List.mem_map.1 ha
        obtain ⟨b, hb1, hb2⟩ := hall m
        simp only [mintToSolana, solanaAccount, Data.data, Run.ok_bind, hb1, contents, Option.some.injEq, forall_eq']
        congr 1
        rw [Bool.eq_iff_iff, hb2, decide_eq_true_iff]
    rw [hg]; rfl
  · intro r
    simp only [List.mem_filter, List.mem_map, decide_eq_true_iff]
    constructor
    · rintro ⟨⟨⟨i, m⟩, hm, rfl⟩, hf⟩
      exact ⟨i, m, hm, rfl, fun f hf' => hf f hf' _ rfl⟩
    · rintro ⟨i, m, hm, rfl, hf⟩
      refine ⟨⟨(i, m), hm, rfl⟩, fun f hf' d hd => ?_⟩
      simp only [mintToSolana, solanaAccount, contents, Option.some.injEq] at hd
      subst hd
      exact hf f hf'

/-- **C57**. Exactly the queries of other programs and those that ask for no owner, mint or size 82 are refused. -/
theorem C57_refused_iff (X : Codecs) (s : TokenStore) (σ : Orders) (program : Pubkey) (l : Option (List AccountFilterType))
    (c : Commitment) (e : LoadError) :
    s.getProgramAccounts X σ program l c = .ok (.error e) ↔
      (program ≠ Spl.tokenId ∧ program ≠ Spl.token2022Id ∧ e = .wrongIndex) ∨
      ((program = Spl.tokenId ∨ program = Spl.token2022Id) ∧ e = .shouldContainAnAccountFilter ∧
        ∀ fs, l = some fs → .datasize 82 ∉ fs ∧ ∀ pk, ¬ AsksOwner program fs pk ∧ ¬ AsksMint program fs pk) := by
  unfold TokenStore.getProgramAccounts
  split
  · rename_i h
    simp only [Run.ok.injEq, Except.error.injEq]
    constructor
    · rintro rfl; exact .inl ⟨h.1, h.2, rfl⟩
    · rintro (⟨-, -, rfl⟩ | ⟨h1 | h1, -⟩)
      · rfl
      · exact absurd h1 h.1
      · exact absurd h1 h.2
  · rename_i h
    have hp : program = Spl.tokenId ∨ program = Spl.token2022Id := by
      by_contra hc; exact h (by simpa using hc)
    have h1 : ∀ r : Except LoadError (List AccountData), (do
        match r with
        | .error e => return .error e
        | .ok l =>
          if c = .finalized then return .ok l
          else do
            let r ← s.processed.getAccounts (l.map (·.pubkey)) c s.confirmedSlot
            return .ok (← TokenStore.overlay s.mints l r) : Run (Except LoadError (List AccountData))) = .ok (.error e) ↔
        r = .error e := by
      intro r
      cases r with
      | error e' => simp
      | ok l' =>
        simp only [reduceCtorEq, iff_false]
        intro h
        split at h
        · simp at h
        · simp only [Run.bind_eq_ok, Run.pure_eq, Run.ok.injEq, reduceCtorEq, and_false, exists_false] at h
    have h2 : s.gpaFinalized X σ program l = .ok (.error e) ↔ e = .shouldContainAnAccountFilter ∧
        ∀ fs, l = some fs → .datasize 82 ∉ fs ∧ ∀ pk, ¬ AsksOwner program fs pk ∧ ¬ AsksMint program fs pk := by
      cases l with
      | none => simp [TokenStore.gpaFinalized, eq_comm]
      | some fs =>
        obtain ⟨g1, g2⟩ := C71_recognised program fs
        unfold TokenStore.gpaFinalized
        dsimp only
        cases ho : (ownerMintFilter program fs).1 with
        | some owner =>
          have : ¬ ∀ fs', some fs = some fs' → .datasize 82 ∉ fs' ∧ ∀ pk, ¬ AsksOwner program fs' pk ∧ ¬ AsksMint program fs' pk :=
            fun h => ((h fs rfl).2 owner).1 ((g1 owner).1 ho)
          simp only [this, and_false, iff_false]
          rw [show ownerMintFilter program fs = (some owner, (ownerMintFilter program fs).2) from by rw [← ho]]
          dsimp only
          intro h
          rw [Run.bind_eq_ok] at h
          obtain ⟨mi, _, h'⟩ := h
          split at h'
          · simp only [Run.bind_eq_ok, Run.pure_eq, Run.ok.injEq, reduceCtorEq, and_false, exists_false] at h'
          · simp at h'
        | none =>
          cases hm : (ownerMintFilter program fs).2 with
          | some mint =>
            have : ¬ ∀ fs', some fs = some fs' → .datasize 82 ∉ fs' ∧ ∀ pk, ¬ AsksOwner program fs' pk ∧ ¬ AsksMint program fs' pk :=
              fun h => ((h fs rfl).2 mint).2 ((g2 mint).1 hm)
            simp only [this, and_false, iff_false]
            rw [show ownerMintFilter program fs = (none, some mint) from by rw [← ho, ← hm]]
            dsimp only
            intro h
            split at h
            · split at h
              · simp only [Run.bind_eq_ok, Run.pure_eq, Run.ok.injEq, reduceCtorEq, and_false, exists_false] at h
              · simp at h
            · simp at h
          | none =>
            rw [show ownerMintFilter program fs = (none, none) from Prod.ext ho hm]
            dsimp only
            have n1 : ∀ pk, ¬ AsksOwner program fs pk ∧ ¬ AsksMint program fs pk := fun pk =>
              ⟨fun h => by rw [(g1 pk).2 h] at ho; simp at ho, fun h => by rw [(g2 pk).2 h] at hm; simp at hm⟩
            split
            · rename_i hc
              have hc : AccountFilterType.datasize 82 ∈ fs := by simpa using hc
              have : ¬ ∀ fs', some fs = some fs' → .datasize 82 ∉ fs' ∧ ∀ pk, ¬ AsksOwner program fs' pk ∧ ¬ AsksMint program fs' pk :=
                fun h => (h fs rfl).1 hc
              simp only [this, and_false, iff_false]
              intro h
              simp only [Run.bind_eq_ok, Run.pure_eq, Run.ok.injEq, reduceCtorEq, and_false, exists_false] at h
            · rename_i hc
              have hc : AccountFilterType.datasize 82 ∉ fs := by simpa using hc
              have : ∀ fs', some fs = some fs' → .datasize 82 ∉ fs' ∧ ∀ pk, ¬ AsksOwner program fs' pk ∧ ¬ AsksMint program fs' pk := by
                rintro _ ⟨rfl⟩; exact ⟨hc, n1⟩
              simp only [Run.ok.injEq, Except.error.injEq]
              exact ⟨fun h => ⟨h.symm, this⟩, fun h => h.1.symm⟩
    rw [Run.bind_eq_ok]
    constructor
    · rintro ⟨r, g1, g2⟩
      rw [(h1 r).1 g2] at g1
      exact .inr ⟨hp, h2.1 g1⟩
    · rintro (⟨g1, g2, -⟩ | ⟨-, g⟩)
      · exact absurd hp (by simp [g1, g2])
      · exact ⟨_, h2.2 g, (h1 _).2 rfl⟩

example : loaded.getProgramAccounts Toy.codecs plainOrders Spl.tokenId (some [.datasize 83]) .confirmed =
    .ok (.error .shouldContainAnAccountFilter) :=
  (C57_refused_iff _ _ _ _ _ _ _).2 (.inr ⟨.inl rfl, rfl, by
    rintro _ ⟨rfl⟩
    exact ⟨by simp, fun pk => C71_text_ignored _ _ _ (by simp)⟩⟩)

/-! ### Why the full claim fails -/

/-- `bob`'s accounts with amount 13. -/
def amount13 : List AccountFilterType := byBob ++ [.memcmp ⟨64, .bytes [13]⟩]

/-- Filters other than owner and mint are ignored. -/
theorem C57_refuted : ¬ C57_statement := by
  intro h
  obtain ⟨bs, ⟨hd, -⟩, -, hf⟩ := h Toy.codecs _ loaded plainOrders Spl.tokenId amount13 .finalized
    [⟨Toy.alice, solanaAccount (Spl.rentMinimum 165) splAccount.pack .tokenProgram, 0, 0⟩] Toy.lawful (by decide) loaded_eq
    (by
      intro l hl f hf
      cases hl
      simp only [amount13, byBob, List.cons_append, List.nil_append, List.mem_cons, List.not_mem_nil, or_false] at hf
      rcases hf with rfl | rfl | rfl <;> simp [WellFormed, pattern])
    (by decide +kernel) _ List.mem_cons_self
  simp only [solanaAccount, Data.data, Run.ok.injEq] at hd
  subst hd
  obtain ⟨pat, h1, pre, suf, h2, h3⟩ := hf (.memcmp ⟨64, .bytes [13]⟩) (by simp [amount13])
  simp only [pattern, Option.some.injEq] at h1
  subst h1
  have h3 : pre.length = 64 := h3
  have h4 : (splAccount.pack)[64]? = some 13 := by
    rw [h2, List.append_assoc, List.getElem?_append_right (by omega), h3]; simp
  exact absurd h4 (by decide +kernel)

/-- The program is not compared: a query of Token-2022 returns accounts of the old token program. -/
theorem C57_other_program :
    loaded.getProgramAccounts Toy.codecs plainOrders Spl.token2022Id (some byBob) .finalized =
      .ok (.ok [⟨Toy.alice, solanaAccount (Spl.rentMinimum 165) splAccount.pack .tokenProgram, 0, 0⟩]) := by decide +kernel

/-- Another mint. -/
def bMint : MintAccount := { aMint with pubkey := Toy.prog2 }

/-- `alice`'s account moves to another mint; a query for its old mint still returns it. -/
theorem C57_changed_mint :
    (match TokenStore.run Toy.codecs [.init mintAcct, .init (mintToSolana bMint 1 1), .init (tokenAcct Toy.alice 1 1),
        .init (Toy.acct Toy.alice Spl.tokenId 7 2 2 { splAccount with mint := Toy.prog2 }.pack)] .empty with
      | .ok s => s.getProgramAccounts Toy.codecs plainOrders Spl.tokenId
          (some [.datasize 165, .memcmp ⟨0, .bytes Toy.prog.bytes⟩]) .finalized
      | _ => .panic) =
      .ok (.ok [⟨Toy.alice, solanaAccount (Spl.rentMinimum 165) { splAccount with mint := Toy.prog2 }.pack .tokenProgram, 0, 0⟩]) := by
  decide +kernel

/-- At confirmed commitment the account returned may have another owner than the one asked for. -/
theorem C57_changed_owner :
    (match TokenStore.run Toy.codecs [.init mintAcct, .init (tokenAcct Toy.alice 1 1),
        .update (Toy.acct Toy.alice Spl.tokenId 7 2 2 { splAccount with owner := Toy.prog2 }.pack) .confirmed,
        .slot plainOrders ⟨2, 1, 0⟩ .confirmed] .empty with
      | .ok s => s.getProgramAccounts Toy.codecs plainOrders Spl.tokenId (some byBob) .confirmed
      | _ => .panic) =
      .ok (.ok [⟨Toy.alice, solanaAccount (Spl.rentMinimum 165) { splAccount with owner := Toy.prog2 }.pack .tokenProgram, 2, 2⟩]) := by
  decide +kernel

/-! ## Answers are complete -/

/-- **C69**, the full claim: an account that can be read, belongs to the program and passes all filters of a query for an
owner or a mint is returned by the query. -/
def C69_statement : Prop :=
  ∀ (X : Codecs) (ops : List TOp) (s : TokenStore) (σ : Orders) (program key pk : Pubkey) (l : List AccountFilterType)
    (c : Commitment) (rs : List AccountData) (r : AccountData) (bs : Bytes), X.Lawful → ops.length < 2 ^ 31 →
    TokenStore.run X ops .empty = .ok s →
    AsksOwner program l key ∨ AsksMint program l key → s.getProgramAccounts X σ program (some l) c = .ok (.ok rs) →
    s.getAccount pk c = .ok (some r) → HonestData X r.account.data bs → r.account.owner = program → (∀ f ∈ l, Allows X f bs) →
    ∃ r' ∈ rs, r'.pubkey = pk

/-- Whenever `pk` is submitted, it decodes, and as a token account it has the owner `own`. -/
def OwnerFixed (X : Codecs) (pk own : Pubkey) (ops : List TOp) : Prop :=
  ∀ o ∈ ops, ∀ a, o.account = some a → a.pubkey = pk →
    ∃ bs, HonestData X a.account.data bs ∧ ∀ sa, AccountLayout bs sa → sa.owner = own

theorem classify_token_owner {X : Codecs} {T T' : MintTable} {a : AccountData} {t : TokenAccount} {bs : Bytes}
    (hd : HonestData X a.account.data bs) (h : classify X T a = .ok (some (.token t), T')) :
    t.pubkey = a.pubkey ∧ ∃ sa, AccountLayout bs sa ∧ t.owner = sa.owner := by
  have ho : ∃ p, TokenProgramOwned a p := by
    by_contra hc
    unfold classify at h
    split at h
    · simp at h
    · rename_i hn
      simp only [not_or, not_and, Decidable.not_not] at hn
      by_cases e : a.account.owner = Spl.tokenId
      · exact hc ⟨.tokenProgram, hn.1, e⟩
      · exact hc ⟨.token2022Program, hn.1, hn.2 e⟩
  obtain ⟨p, ho⟩ := ho
  obtain ⟨-, h1, sa, h2, h3, -⟩ := (C46_token_iff X T a p bs ho hd t T').1 h
  exact ⟨h1, sa, h2, h3.owner⟩

theorem window_key {off : Nat} {a b : Pubkey} {d : Bytes} (h1 : WindowAt off a.bytes d) (h2 : WindowAt off b.bytes d) : a = b := by
  obtain ⟨p, q, rfl, hp⟩ := h1
  obtain ⟨p', q', h, hp'⟩ := h2
  rw [List.append_assoc, List.append_assoc] at h
  have h4 := (List.append_inj h (by omega)).2
  have h5 := (List.append_inj h4 (by rw [a.2, b.2])).1
  cases a; cases b; simpa using h5

/-- The finalized token account behind a read. -/
theorem read_token {Q : ProgramAccount → Prop} {s : TokenStore} {slots orig : List TokenAccount} (h : Fin Q s slots orig)
    {pk : Pubkey} {r : AccountData} (h1 : s.multisigs.find pk = none) (h2 : s.table.index.find pk = none)
    (hg : s.getAccount pk .finalized = .ok (some r)) :
    ∃ (i : Nat) (t : TokenAccount) (m : MintAccount), slots[i]? = some t ∧ t.pubkey = pk ∧ t ≠ TokenStorage.tombstone ∧ s.mints.find t.mint = some m ∧
      tokenToSolana s.mints t s.finalizedSlot 0 = .ok (some r) ∧
      r.account.data = .uncompressed (tokenData t m.pubkey) := by
  have hg : s.getFinalized pk = .ok (some r) := by simpa [TokenStore.getAccount] using hg
  obtain ⟨-, -, -, h4, h5⟩ := getFinalized_eq h pk
  simp only [recOf] at h4 h5
  cases ht : view s.tokens slots pk with
  | none => rw [h5 h1 (by simp [h2]) ht] at hg; simp at hg
  | some t =>
    obtain ⟨g1, g2⟩ := h4 h1 (by simp [h2]) t ht
    rw [g1] at hg
    obtain ⟨-, m, hm, hr⟩ := tokenToSolana_some hg
    obtain ⟨hk, i, is, -, -, hi⟩ := (view_eq_some h.holds).1 ht
    exact ⟨i, t, m, hi, hk, by rintro rfl; simp [TokenStorage.tombstone] at g2, hm, hg, by rw [hr]; rfl⟩

/-- **C69**. If the owner of a token account never changes, finalized queries for its owner (and its mint) return the account,
whatever happens to others. -/
theorem C69_owner_partial (X : Codecs) (ops : List TOp) (s : TokenStore) (own : Pubkey) (σ : Orders)
    (program owner pk : Pubkey) (l : List AccountFilterType) (rs : List AccountData) (r : AccountData) (bs : Bytes)
    (hn : ops.length < 2 ^ 31) (hr : TokenStore.run X ops .empty = .ok s) (hown : OwnerFixed X pk own ops)
    (ho : AsksOwner program l owner) (hg : s.getProgramAccounts X σ program (some l) .finalized = .ok (.ok rs))
    (h1 : s.multisigs.find pk = none) (h2 : s.table.index.find pk = none)
    (hread : s.getAccount pk .finalized = .ok (some r)) (hd : HonestData X r.account.data bs)
    (ha : Allows X (.memcmp ⟨32, .bytes owner.bytes⟩) bs)
    (hm : ∀ mint, AsksMint program l mint → Allows X (.memcmp ⟨0, .bytes mint.bytes⟩) bs) : r ∈ rs := by
  obtain ⟨slots, orig, inv⟩ := run_inv (Q := fun x => ∀ t, x = .token t → t.pubkey = pk → t.owner = own) ops (inv_empty _) (by omega)
    (by
      rintro o ho a ha T x T' hc t rfl hpk
      obtain ⟨bs, hb, hsa⟩ := hown o ho a ha (by rw [← (classify_some hc).1]; exact hpk)
      obtain ⟨-, sa, g2, g3⟩ := classify_token_owner hb hc
      rw [g3]
      exact hsa sa g2) hr
  obtain ⟨i, t, m, k1, k2, k3, k4, k5, k6⟩ := read_token inv.fin h1 h2 hread
  obtain ⟨mint, e1, e2⟩ := ownerMint_of ho
  have hbs : bs = tokenData t m.pubkey := by
    have := hd.1
    rw [k6] at this
    simpa [Data.data] using this.symm
  obtain ⟨w1, w2, -⟩ := tokenData_windows t m.pubkey
  obtain ⟨pat, p1, p2⟩ := ha
  simp only [pattern, Option.some.injEq] at p1
  subst p1
  rw [hbs] at p2
  have e3 : t.owner = owner := window_key w2 p2
  obtain ⟨o, ho'⟩ : ∃ o, orig[i]? = some o := by
    have hlt := (List.getElem?_eq_some_iff.1 k1).1
    rw [← inv.fin.orig_len] at hlt
    exact ⟨_, List.getElem?_eq_getElem hlt⟩
  obtain ⟨is, q1, q2⟩ := inv.fin.owner i o ho'
  have e4 : o.owner = owner := by
    rw [(inv.fin.origQ o (List.mem_of_getElem? ho')).1 o rfl (by rw [(inv.fin.orig_key i t o k1 ho').resolve_left k3, k2]), ← e3]
    exact (((inv.fin.slotsQ t (List.mem_of_getElem? k1)).resolve_left k3).1 t rfl k2).symm
  rw [e4] at q1
  refine (gpa_owner inv.fin e1 (gpa_finalized hg).2 r).2 ⟨is, i, t, q1, q2, k1, e3, ?_, k5⟩
  intro mk hmk
  obtain ⟨pat, p1, p2⟩ := hm mk ((e2 mk).1 hmk)
  simp only [pattern, Option.some.injEq] at p1
  subst p1
  rw [hbs] at p2
  rw [← window_key w1 p2]
  exact inv.fin.mints_idx _ _ k4

/-- The account closes its public key. -/
def Closes (a : AccountData) : Prop :=
  a.account.lamports = 0 ∨ (a.account.owner ≠ Spl.tokenId ∧ a.account.owner ≠ Spl.token2022Id)

/-- Whenever `pk` is submitted, it decodes, and as a token account it has the mint `mk`. -/
def MintFixed (X : Codecs) (pk mk : Pubkey) (ops : List TOp) : Prop :=
  ∀ o ∈ ops, ∀ a, o.account = some a → a.pubkey = pk →
    ∃ bs, HonestData X a.account.data bs ∧ ∀ sa, AccountLayout bs sa → sa.mint = mk

/-- `mk` is never closed. -/
def NotClosed (mk : Pubkey) (ops : List TOp) : Prop := ∀ o ∈ ops, ∀ a, o.account = some a → a.pubkey = mk → ¬ Closes a

theorem classify_token_mint {X : Codecs} {T T' : MintTable} {a : AccountData} {t : TokenAccount} {bs : Bytes}
    (hd : HonestData X a.account.data bs) (h : classify X T a = .ok (some (.token t), T')) :
    (a.account.owner = Spl.tokenId ∨ a.account.owner = Spl.token2022Id) ∧
      ∃ sa, AccountLayout bs sa ∧ t.mint = (T.getOrCreate sa.mint).1 ∧ T' = (T.getOrCreate sa.mint).2 := by
  have ho : ∃ p, TokenProgramOwned a p := by
    by_contra hc
    unfold classify at h
    split at h
    · simp at h
    · rename_i hn
      simp only [not_or, not_and, Decidable.not_not] at hn
      by_cases e : a.account.owner = Spl.tokenId
      · exact hc ⟨.tokenProgram, hn.1, e⟩
      · exact hc ⟨.token2022Program, hn.1, hn.2 e⟩
  obtain ⟨p, ho⟩ := ho
  obtain ⟨-, -, sa, h2, h3, h4⟩ := (C46_token_iff X T a p bs ho hd t T').1 h
  refine ⟨?_, sa, h2, h3.mint, h4⟩
  cases p
  · exact .inl ho.2
  · exact .inr ho.2

theorem deletes_of {X : Codecs} {pk : Pubkey} {ops : List TOp} (hc : NotClosed pk ops) :
    ∀ o ∈ ops, ∀ a, o.account = some a → ∀ T x T', classify X T a = .ok (some x, T') → Deletes (fun p => p ≠ pk) x := by
  rintro o ho a ha T x T' hx p rfl
  have h1 := (classify_some hx).1
  simp only [ProgramAccount.pubkey] at h1
  rintro rfl
  exact hc o ho a ha h1.symm ((C46_deleted_iff X T T' a _ hx).1 (by rw [h1]))

theorem mint_inv {X : Codecs} {pk mk : Pubkey} {ops : List TOp} {s : TokenStore} (hn : ops.length < 2 ^ 31)
    (hr : TokenStore.run X ops .empty = .ok s) (hm : MintFixed X pk mk ops) (hc : NotClosed mk ops) :
    ∃ slots orig, Inv (WithMint pk mk s.table) ops.length s slots orig := by
  refine run_mint ops hn (deletes_of hc) ?_ hr
  intro o ho a ha hp T t T' hx
  obtain ⟨bs, hb, hsa⟩ := hm o ho a ha hp
  obtain ⟨g1, sa, g2, g3, g4⟩ := classify_token_mint hb hx
  rw [hsa sa g2] at g3 g4
  exact ⟨g1, g3, g4⟩

/-- **C69**. If the mint of a token account never changes and is never closed, finalized queries for the mint return the
account, whatever happens to others. -/
theorem C69_mint_partial (X : Codecs) (ops : List TOp) (s : TokenStore) (mk : Pubkey) (σ : Orders) (program mint pk : Pubkey)
    (l : List AccountFilterType) (rs : List AccountData) (r : AccountData) (bs : Bytes)
    (hn : ops.length < 2 ^ 31) (hr : TokenStore.run X ops .empty = .ok s) (hmk : MintFixed X pk mk ops) (hc : NotClosed mk ops)
    (hm : AsksMint program l mint) (hno : ∀ owner, ¬ AsksOwner program l owner)
    (hg : s.getProgramAccounts X σ program (some l) .finalized = .ok (.ok rs))
    (h1 : s.multisigs.find pk = none) (h2 : s.table.index.find pk = none)
    (hread : s.getAccount pk .finalized = .ok (some r)) (hd : HonestData X r.account.data bs)
    (ha : Allows X (.memcmp ⟨0, .bytes mint.bytes⟩) bs) : r ∈ rs := by
  obtain ⟨slots, orig, inv⟩ := mint_inv hn hr hmk hc
  obtain ⟨i, t, m, k1, k2, k3, k4, k5, k6⟩ := read_token inv.fin h1 h2 hread
  have hbs : bs = tokenData t m.pubkey := by
    have := hd.1
    rw [k6] at this
    simpa [Data.data] using this.symm
  obtain ⟨w1, -, -⟩ := tokenData_windows t m.pubkey
  obtain ⟨pat, p1, p2⟩ := ha
  simp only [pattern, Option.some.injEq] at p1
  subst p1
  rw [hbs] at p2
  have e3 : m.pubkey = mint := window_key w1 p2
  obtain ⟨o, ho'⟩ : ∃ o, orig[i]? = some o := by
    have hlt := (List.getElem?_eq_some_iff.1 k1).1
    rw [← inv.fin.orig_len] at hlt
    exact ⟨_, List.getElem?_eq_getElem hlt⟩
  have hidx := inv.fin.mints_idx _ _ k4
  rw [e3] at hidx
  have e : o.mint = t.mint := by
    have e1 := (inv.fin.origQ o (List.mem_of_getElem? ho')).1.2 o rfl (by rw [(inv.fin.orig_key i t o k1 ho').resolve_left k3, k2])
    have e2 := ((inv.fin.slotsQ t (List.mem_of_getElem? k1)).resolve_left k3).1.2 t rfl k2
    rw [e1] at e2
    exact Option.some.inj e2
  obtain ⟨is, z1, z2⟩ := inv.fin.mint i o mint ho' (by rw [hidx, e])
  rw [e] at z1
  exact (gpa_mint inv.fin (mint_of hm hno) (gpa_finalized hg).2 r).2 ⟨t.mint, is, i, t, hidx, z1, z2, k1, k5⟩

/-- **C57**. If the mint of a token account never changes and is never closed, a finalized query for a mint alone returns the
account only for this mint, whatever happens to others. -/
theorem C57_mint_partial (X : Codecs) (ops : List TOp) (s : TokenStore) (mk : Pubkey) (σ : Orders) (program mint : Pubkey)
    (l : List AccountFilterType) (rs : List AccountData) (r : AccountData)
    (hn : ops.length < 2 ^ 31) (hr : TokenStore.run X ops .empty = .ok s) (hmk : MintFixed X r.pubkey mk ops) (hc : NotClosed mk ops)
    (hm : AsksMint program l mint) (hno : ∀ owner, ¬ AsksOwner program l owner)
    (hg : s.getProgramAccounts X σ program (some l) .finalized = .ok (.ok rs)) (hmem : r ∈ rs) :
    mint = mk ∧ ∃ bs, HonestData X r.account.data bs ∧ 165 ≤ bs.length ∧ Allows X (.memcmp ⟨0, .bytes mint.bytes⟩) bs := by
  obtain ⟨slots, orig, inv⟩ := mint_inv hn hr hmk hc
  obtain ⟨m, is, i, t, k1, k2, k3, k4, k5⟩ := (gpa_mint inv.fin (mint_of hm hno) (gpa_finalized hg).2 r).1 hmem
  obtain ⟨hd, ma, k6, hreq⟩ := tokenToSolana_some k5
  have hpk : t.pubkey = r.pubkey := by rw [hreq]
  obtain ⟨w1, -, w3⟩ := tokenData_windows t ma.pubkey
  obtain ⟨o, ho1, ho2⟩ := inv.fin.mint_only _ _ k2 i k3
  have hnt : t ≠ TokenStorage.tombstone := by rintro rfl; simp [TokenStorage.tombstone] at hd
  have e1 := (inv.fin.origQ o (List.mem_of_getElem? ho1)).1.2 o rfl (by rw [(inv.fin.orig_key i t o k4 ho1).resolve_left hnt, hpk])
  have e2 := ((inv.fin.slotsQ t (List.mem_of_getElem? k4)).resolve_left hnt).1.2 t rfl hpk
  have e3 : mint = mk := inv.fin.idx_inj _ _ _ k1 (by rw [e1, ho2])
  have e4 : ma.pubkey = mk := inv.fin.idx_inj _ _ _ (inv.fin.mints_idx _ _ k6) e2
  refine ⟨e3, tokenData t ma.pubkey, ⟨by rw [hreq]; rfl, by rw [hreq]; rfl⟩, w3, _, rfl, ?_⟩
  rw [e3, ← e4]
  exact w1

/-- `alice`'s account in `loaded`, as it is read. -/
def aliceRead : AccountData := ⟨Toy.alice, solanaAccount (Spl.rentMinimum 165) splAccount.pack .tokenProgram, 0, 0⟩

theorem windows_splAccount : WindowAt 0 Toy.prog.bytes splAccount.pack ∧ WindowAt 32 Toy.bob.bytes splAccount.pack :=
  ⟨⟨[], splAccount.pack.drop 32, by decide +kernel, rfl⟩, ⟨Toy.prog.bytes, splAccount.pack.drop 64, by decide +kernel, rfl⟩⟩

example : aliceRead ∈ [aliceRead] :=
  C69_owner_partial Toy.codecs [.init mintAcct, .init (tokenAcct Toy.alice 1 1)] loaded Toy.bob plainOrders Spl.tokenId
    Toy.bob Toy.alice ownerMintQuery [aliceRead] aliceRead splAccount.pack (by decide) loaded_eq
    (by
      intro o ho a ha _
      simp only [List.mem_cons, List.not_mem_nil, or_false] at ho
      rcases ho with rfl | rfl <;> cases ha
      · refine ⟨mintBytes aMint, ⟨rfl, by decide +kernel⟩, fun sa h => ?_⟩
        have := h.length
        exact absurd this (by decide +kernel)
      · refine ⟨splAccount.pack, ⟨rfl, rfl⟩, fun sa h => ?_⟩
        have h1 : Spl.unpackAccount splAccount.pack = some splAccount := by decide +kernel
        rw [(Spl.unpackAccount_iff _ _).2 h] at h1
        cases h1
        rfl)
    asks_ownerMint.1 (by decide +kernel) (by decide +kernel) (by decide +kernel) (by decide +kernel) ⟨rfl, rfl⟩
    ⟨_, rfl, windows_splAccount.2⟩
    (fun mint h => by
      have e : mint = Toy.prog := by
        have h1 := ((C71_recognised Spl.tokenId ownerMintQuery).2 mint).2 h
        rw [show (ownerMintFilter Spl.tokenId ownerMintQuery).2 = some Toy.prog by decide +kernel] at h1
        simpa using h1.symm
      subst e
      exact ⟨_, rfl, windows_splAccount.1⟩)

/-- Token accounts of the mint `prog`. -/
def ofProg : List AccountFilterType := [.datasize 165, .memcmp ⟨0, .bytes Toy.prog.bytes⟩]

theorem asks_ofProg : AsksMint Spl.tokenId ofProg Toy.prog ∧ ∀ o, ¬ AsksOwner Spl.tokenId ofProg o := by
  obtain ⟨h1, h2⟩ := C71_recognised Spl.tokenId ofProg
  exact ⟨(h2 _).1 (by decide +kernel), fun m hm => absurd ((h1 m).2 hm) (by
    rw [show (ownerMintFilter Spl.tokenId ofProg).1 = none by decide +kernel]; simp)⟩

theorem respects_alice : ∀ o ∈ [TOp.init (tokenAcct Toy.alice 1 1)], ∀ a, o.account = some a →
    Respects Toy.codecs (fun pk => ∃ a ∈ [mintAcct], a.pubkey = pk) (fun _ _ mint => mint = Toy.prog) a := by
  intro o ho a ha
  simp only [List.mem_cons, List.not_mem_nil, or_false] at ho
  subst ho; cases ha
  refine ⟨⟨splAccount.pack, ⟨rfl, rfl⟩, fun sa h => ?_⟩, fun _ => ⟨by simp [tokenAcct, Toy.acct], .inl rfl⟩⟩
  have h1 : Spl.unpackAccount splAccount.pack = some splAccount := by decide +kernel
  rw [(Spl.unpackAccount_iff _ _).2 h] at h1
  cases h1
  exact ⟨⟨mintAcct, by simp, rfl⟩, rfl⟩

theorem mint_alice : MintFixed Toy.codecs Toy.alice Toy.prog [.init mintAcct, .init (tokenAcct Toy.alice 1 1)] ∧
    NotClosed Toy.prog [.init mintAcct, .init (tokenAcct Toy.alice 1 1)] := by
  constructor
  · intro o ho a ha hp
    simp only [List.mem_cons, List.not_mem_nil, or_false] at ho
    rcases ho with rfl | rfl
    · cases ha; exact absurd hp (by decide +kernel)
    · cases ha
      exact (respects_alice (.init (tokenAcct Toy.alice 1 1)) (by simp) _ rfl).data.imp fun bs h => ⟨h.1, fun sa hsa => (h.2 sa hsa).2⟩
  · intro o ho a ha hp
    simp only [List.mem_cons, List.not_mem_nil, or_false] at ho
    rcases ho with rfl | rfl
    · cases ha
      rintro (h | h)
      · exact absurd h (by decide +kernel)
      · exact h.1 (by decide +kernel)
    · cases ha; exact absurd hp (by decide +kernel)

example : aliceRead ∈ [aliceRead] :=
  C69_mint_partial Toy.codecs [.init mintAcct, .init (tokenAcct Toy.alice 1 1)] loaded Toy.prog plainOrders Spl.tokenId Toy.prog
    Toy.alice ofProg [aliceRead] aliceRead splAccount.pack (by decide) loaded_eq mint_alice.1 mint_alice.2
    asks_ofProg.1 asks_ofProg.2 (by decide +kernel) (by decide +kernel) (by decide +kernel)
    (by decide +kernel) ⟨rfl, rfl⟩ ⟨_, rfl, windows_splAccount.1⟩

example : Toy.prog = Toy.prog ∧ ∃ bs, HonestData Toy.codecs aliceRead.account.data bs ∧ 165 ≤ bs.length ∧
    Allows Toy.codecs (.memcmp ⟨0, .bytes Toy.prog.bytes⟩) bs :=
  C57_mint_partial Toy.codecs [.init mintAcct, .init (tokenAcct Toy.alice 1 1)] loaded Toy.prog plainOrders Spl.tokenId Toy.prog
    ofProg [aliceRead] aliceRead (by decide) loaded_eq mint_alice.1 mint_alice.2 asks_ofProg.1 asks_ofProg.2 (by decide +kernel) (by simp)

/-- The mints with 82 bytes: the stored one passes. -/
example : loaded.getProgramAccounts Toy.codecs plainOrders Spl.tokenId (some [.datasize 82]) .finalized =
    .ok (.ok [mintToSolana aMint 0 0]) := by decide +kernel

/-- `alice`'s account, first of `bob` and then of `prog2`. -/
def changedOwner : List TOp := [.init mintAcct, .init (tokenAcct Toy.alice 1 1),
  .init (Toy.acct Toy.alice Spl.tokenId 7 2 2 { splAccount with owner := Toy.prog2 }.pack)]

/-- `prog2`'s accounts. -/
def byProg2 : List AccountFilterType := [.datasize 165, .memcmp ⟨32, .bytes Toy.prog2.bytes⟩]

/-- The index by owner is not updated when the owner of an account changes. -/
theorem C69_refuted : ¬ C69_statement := by
  intro h
  have hr : TokenStore.run Toy.codecs changedOwner .empty = .ok (okStore (TokenStore.run Toy.codecs changedOwner .empty)) := by
    decide +kernel
  obtain ⟨r', hr', -⟩ := h Toy.codecs changedOwner _ plainOrders Spl.tokenId Toy.prog2 Toy.alice byProg2 .finalized []
    ⟨Toy.alice, solanaAccount (Spl.rentMinimum 165) { splAccount with owner := Toy.prog2 }.pack .tokenProgram, 0, 0⟩
    { splAccount with owner := Toy.prog2 }.pack Toy.lawful (by decide) hr
    (.inl (((C71_recognised Spl.tokenId byProg2).1 _).1 (by decide +kernel))) (by decide +kernel) (by decide +kernel)
    ⟨rfl, rfl⟩ rfl (by
      intro f hf
      simp only [byProg2, List.mem_cons, List.not_mem_nil, or_false] at hf
      rcases hf with rfl | rfl
      · exact Spl.length_pack _
      · refine ⟨_, rfl, Toy.prog.bytes, ({ splAccount with owner := Toy.prog2 }.pack).drop 64, by decide +kernel, rfl⟩)
  simp at hr'

/-- At confirmed commitment accounts that are not finalized yet are not returned. -/
theorem C69_not_finalized :
    (match TokenStore.run Toy.codecs [.init mintAcct, .update (tokenAcct Toy.alice 2 1) .confirmed,
        .slot plainOrders ⟨2, 1, 0⟩ .confirmed] .empty with
      | .ok s => (s.getProgramAccounts Toy.codecs plainOrders Spl.tokenId (some byBob) .confirmed,
          s.getAccount Toy.alice .confirmed != .ok none)
      | _ => (.panic, false)) = (.ok (.ok []), true) := by
  decide +kernel

/-- The write version is only passed on. -/
theorem toSolana_wv {mints : AMap Nat MintAccount} {x : ProgramAccount} {slot wv : Nat} {y : Option AccountData}
    (h : x.toSolana mints slot wv = .ok y) : x.toSolana mints slot 0 = .ok (y.map (fun r => { r with wv := 0 })) := by
  cases x with
  | token t =>
    simp only [ProgramAccount.toSolana, tokenToSolana] at h ⊢
    split at h
    · rename_i hd; simp only [Run.ok.injEq] at h; subst h; simp [hd]
    · rename_i hd
      rw [if_neg hd]
      simp only [Run.bind_eq_ok, Run.pure_eq, Run.ok.injEq] at h ⊢
      obtain ⟨m, hm, rfl⟩ := h
      exact ⟨m, hm, rfl⟩
  | mint m => simp only [ProgramAccount.toSolana, Run.ok.injEq] at h ⊢; subst h; rfl
  | multisig m pk =>
    simp only [ProgramAccount.toSolana, multisigToSolana, Run.bind_eq_ok, Run.pure_eq, Run.ok.injEq] at h ⊢
    obtain ⟨a, ⟨b, hb, rfl⟩, rfl⟩ := h
    exact ⟨_, ⟨b, hb, rfl⟩, rfl⟩
  | deleted pk => simp only [ProgramAccount.toSolana, Run.ok.injEq] at h ⊢; subst h; rfl

/-- What a query at an unfinalized commitment makes of one account `f` of the finalized answer: `f` itself if a read of the
public key at that commitment shows the finalized state, otherwise what this read shows (with its write version). -/
def ShownFor (s : TokenStore) (c : Commitment) (f : AccountData) (y : Option AccountData) : Prop :=
  (y = some f ∧ s.getAccount f.pubkey c = s.getAccount f.pubkey .finalized) ∨
  s.getAccount f.pubkey c = .ok (y.map (fun r => { r with wv := 0 }))

/-- **C69**. A processed or confirmed query returns one account for each account of the finalized query, in the same order: the
one a read of its public key shows. Only those whose read shows nothing are left out. -/
theorem C69_per_account (X : Codecs) (ops : List TOp) (s : TokenStore) (σ : Orders) (program : Pubkey)
    (l : Option (List AccountFilterType)) (c : Commitment) (fs rs : List AccountData) (hn : ops.length < 2 ^ 31)
    (hr : TokenStore.run X ops .empty = .ok s) (hc : c ≠ .finalized)
    (hf : s.getProgramAccounts X σ program l .finalized = .ok (.ok fs))
    (hg : s.getProgramAccounts X σ program l c = .ok (.ok rs)) (he : ∀ f ∈ fs, s.getAccount f.pubkey c ≠ .diverge) :
    ∃ ys, List.Forall₂ (ShownFor s c) fs ys ∧ rs = ys.filterMap id := by
  obtain ⟨slots, orig, inv⟩ := reach_inv hn hr
  obtain ⟨hp, hfin⟩ := gpa_finalized hf
  unfold TokenStore.getProgramAccounts at hg
  rw [if_neg (by rcases hp with rfl | rfl <;> simp), hfin] at hg
  simp only [Run.ok_bind, if_neg hc, Run.bind_eq_ok] at hg
  obtain ⟨ans, ha, rs', ho, hg⟩ := hg
  simp only [Run.pure_eq, Run.ok.injEq, Except.ok.injEq] at hg
  subst hg
  obtain ⟨g1, g2⟩ := getAccounts_spec inv.proc.sorted ha
  have key : ∀ (i : Nat) (f : AccountData) (o : Option (Processed × Nat)), fs[i]? = some f → ans[i]? = some o →
      match o with
      | none => s.getAccount f.pubkey c = s.getAccount f.pubkey .finalized
      | some x => s.getAccount f.pubkey c = x.1.account.toSolana s.mints x.2 0 := by
    intro i f o h1 h2
    have hk := g2 i f.pubkey (by simp [h1])
    have hend := he f (List.mem_of_getElem? h1)
    cases hq : s.processed.getAccounts [f.pubkey] c s.confirmedSlot with
    | panic => exact absurd hq (getAccounts_no_panic _ _ hc _)
    | diverge =>
      refine absurd ?_ hend
      unfold TokenStore.getAccount
      rw [if_neg hc, hq]; rfl
    | ok q =>
      obtain ⟨e1, e2⟩ := getAccount_eq inv.proc.sorted f.pubkey hc hq
      cases o with
      | some x => exact e1 x.1 x.2 ((hk x.1 x.2).1 h2)
      | none =>
        rw [e2 (fun x k hx => by rw [h2] at hk; simpa using (hk x k).2 hx)]
        simp [TokenStore.getAccount]
  clear hfin hf he ha g2
  simp only [List.length_map] at g1
  induction fs generalizing ans rs' with
  | nil =>
    cases ans with
    | nil => simp only [TokenStore.overlay, Run.ok.injEq] at ho; subst ho; exact ⟨[], .nil, rfl⟩
    | cons _ _ => simp at g1
  | cons f fs ih =>
    cases ans with
    | nil => simp at g1
    | cons o ans =>
      have k0 := key 0 f o rfl rfl
      have krest := fun i f' o' h1 h2 => key (i + 1) f' o' h1 h2
      cases o with
      | none =>
        simp only [TokenStore.overlay, Run.bind_eq_ok, Run.pure_eq, Run.ok.injEq] at ho
        obtain ⟨rs1, ho, rfl⟩ := ho
        obtain ⟨ys, i1, rfl⟩ := ih ans rs1 ho krest (by simpa using g1)
        exact ⟨some f :: ys, .cons (.inl ⟨rfl, k0⟩) i1, rfl⟩
      | some x =>
        simp only [TokenStore.overlay, Run.bind_eq_ok, Run.pure_eq, Run.ok.injEq] at ho
        obtain ⟨y, hy, rs1, ho, rfl⟩ := ho
        obtain ⟨ys, i1, rfl⟩ := ih ans rs1 ho krest (by simpa using g1)
        refine ⟨y :: ys, .cons (.inr ?_) i1, by cases y <;> rfl⟩
        rw [k0]
        exact toSolana_wv hy

/-- `alice`'s account changes in slot 2, `prog2`'s does not. -/
def twoOfBob : List TOp := [.init mintAcct, .init (tokenAcct Toy.alice 1 1), .init (tokenAcct Toy.prog2 1 1),
  .update (tokenAcct Toy.alice 2 3) .confirmed, .slot plainOrders ⟨2, 1, 0⟩ .confirmed]

example : ∃ ys, List.Forall₂ (ShownFor (okStore (TokenStore.run Toy.codecs twoOfBob .empty)) .confirmed)
    [aliceRead, { aliceRead with pubkey := Toy.prog2 }] ys ∧
    [{ aliceRead with slot := 2, wv := 3 }, { aliceRead with pubkey := Toy.prog2 }] = ys.filterMap id :=
  C69_per_account Toy.codecs twoOfBob _ plainOrders Spl.tokenId (some byBob) .confirmed _ _ (by decide)
    (by decide +kernel) (by decide) (by decide +kernel) (by decide +kernel) (by decide +kernel)

/-! ## Mint indexes -/

/-- **C68**, the full claim: a mint keeps its index, and no other mint ever has it. -/
def C68_statement : Prop :=
  ∀ (X : Codecs) (ops ops' : List TOp) (s s' : TokenStore) (pk : Pubkey) (i : Nat), ops.length + ops'.length < 2 ^ 31 →
    TokenStore.run X ops .empty = .ok s → TokenStore.run X ops' s = .ok s' → s.table.index.find pk = some i →
    s'.table.index.find pk = some i ∧ ∀ pk', s'.table.index.find pk' = some i → pk' = pk

/-- **C68**. An index is never given to another mint, not even after its mint was closed. -/
theorem C68_never_reused (X : Codecs) (ops ops' : List TOp) (s s' : TokenStore) (pk pk' : Pubkey) (i : Nat)
    (hn : ops.length + ops'.length < 2 ^ 31) (hr : TokenStore.run X ops .empty = .ok s) (hr' : TokenStore.run X ops' s = .ok s')
    (h : s.table.index.find pk = some i) (h' : s'.table.index.find pk' = some i) : pk' = pk := by
  obtain ⟨slots, orig, inv⟩ := run_inv (Q := Deletes (fun _ => True)) ops (inv_empty _) (by omega)
    (fun _ _ _ _ _ _ _ _ _ _ => trivial) hr
  have hg := grows_run ops' inv (by omega) (fun _ _ _ _ _ _ _ _ _ _ => trivial) hr'
  rcases hg.old pk' i h' with h1 | h1
  · exact inv.fin.idx_inj _ _ _ h1 h
  · have := inv.fin.idx_lt _ _ h; omega

/-- **C68**. A mint that is not closed keeps its index. -/
theorem C68_stable_partial (X : Codecs) (ops ops' : List TOp) (s s' : TokenStore) (pk : Pubkey) (i : Nat)
    (hn : ops.length + ops'.length < 2 ^ 31) (hr : TokenStore.run X ops .empty = .ok s) (hr' : TokenStore.run X ops' s = .ok s')
    (hc : ∀ o ∈ ops ++ ops', ∀ a, o.account = some a → a.pubkey = pk → ¬ Closes a)
    (h : s.table.index.find pk = some i) : s'.table.index.find pk = some i := by
  have key : ∀ o ∈ ops ++ ops', ∀ a, o.account = some a → ∀ T x T', classify X T a = .ok (some x, T') →
      Deletes (fun p => p ≠ pk) x := by
    rintro o ho a ha T x T' hx p rfl
    have h1 := (classify_some hx).1
    simp only [ProgramAccount.pubkey] at h1
    rintro rfl
    exact hc o ho a ha h1.symm ((C46_deleted_iff X T T' a _ hx).1 (by rw [h1]))
  obtain ⟨slots, orig, inv⟩ := run_inv ops (inv_empty _) (by omega) (fun o ho => key o (by simp [ho])) hr
  exact (grows_run ops' inv (by omega) (fun o ho => key o (by simp [ho])) hr').keep pk i (by simp) h

example : (okStore (TokenStore.run Toy.codecs [.init (tokenAcct Toy.bob 2 2), .init mintAcct] loaded)).table.index.find Toy.prog = some 0 :=
  C68_stable_partial Toy.codecs [.init mintAcct, .init (tokenAcct Toy.alice 1 1)] [.init (tokenAcct Toy.bob 2 2), .init mintAcct]
    loaded _ Toy.prog 0 (by decide) loaded_eq (by decide +kernel)
    (by
      intro o ho a ha _ hc
      simp only [List.cons_append, List.nil_append, List.mem_cons, List.not_mem_nil, or_false] at ho
      rcases ho with rfl | rfl | rfl | rfl <;> cases ha <;> rcases hc with hc | hc
      all_goals first | exact hc.1 rfl | exact absurd hc (by decide +kernel))
    (by decide +kernel)

/-- A mint closed and created again gets another index. -/
theorem C68_refuted : ¬ C68_statement := by
  intro h
  have := (h Toy.codecs [.init mintAcct, .init (tokenAcct Toy.alice 1 1)] [.init (closedAcct Toy.prog 2 2), .init mintAcct] loaded
    (okStore (TokenStore.run Toy.codecs [.init (closedAcct Toy.prog 2 2), .init mintAcct] loaded)) Toy.prog 0 (by decide)
    loaded_eq (by decide +kernel) (by decide +kernel)).1
  exact absurd this (by decide +kernel)

/-- … and then reading its token accounts panics, although the mint is stored. -/
theorem C68_reopened_panics :
    (match TokenStore.run Toy.codecs [.init (closedAcct Toy.prog 2 2), .init mintAcct] loaded with
      | .ok s => (s.getAccount Toy.prog .finalized != .ok none, s.getAccount Toy.alice .finalized)
      | _ => (false, .ok none)) = (true, .panic) := by
  decide +kernel

end LAM.Props
