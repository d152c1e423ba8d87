import Verif.Lemmas.TokenStoreReady
import Verif.Spec.TokenQuery
/-!
# Program queries of the token store
-/
namespace LAM.Token
open Spec
open TokenStore (TOp)

/-! ## Recognising queries -/

theorem lastIs_snoc {α : Type} {p : AccountFilterType → Option α} {l : List AccountFilterType} {f : AccountFilterType} {x : α} :
    LastIs p (l ++ [f]) x ↔ p f = some x ∨ (p f = none ∧ LastIs p l x) := by
  constructor
  · rintro ⟨pre, g, post, h1, h2, h3⟩
    rcases List.eq_nil_or_concat post with rfl | ⟨post', y, rfl⟩
    · have := List.append_inj' h1 rfl
      obtain ⟨-, h⟩ := this
      cases h
      exact .inl h2
    · rw [List.concat_eq_append] at h1 h3
      have h4 : l ++ [f] = (pre ++ g :: post') ++ [y] := by simp [h1]
      obtain ⟨h5, h6⟩ := List.append_inj' h4 rfl
      cases h6
      exact .inr ⟨h3 f (by simp), pre, g, post', h5, h2, fun z hz => h3 z (by simp [hz])⟩
  · rintro (h | ⟨h, pre, g, post, rfl, h2, h3⟩)
    · exact ⟨l, f, [], by simp, h, by simp⟩
    · refine ⟨pre, g, post ++ [f], by simp, h2, ?_⟩
      intro z hz
      rcases List.mem_append.1 hz with hz | hz
      · exact h3 z hz
      · simp at hz; subst hz; exact h

/-- The variables of the scan. -/
theorem scan_eq (program : Pubkey) (l : List AccountFilterType) :
    (∀ n, (l.foldl (FilterScan.step program) {}).dataSize = some n ↔ LastIs sizeOf? l n) ∧
    (∀ b, (l.foldl (FilterScan.step program) {}).memcmp = some b ↔ program = Spl.token2022Id ∧ LastIs (rawAt? 165) l b) ∧
    (∀ pk, (l.foldl (FilterScan.step program) {}).owner = some pk ↔ LastIs (keyAt? 32) l pk) ∧
    ∀ pk, (l.foldl (FilterScan.step program) {}).mint = some pk ↔ LastIs (keyAt? 0) l pk := by
  induction l using List.reverseRecOn with
  | nil => simp [LastIs]
  | append_singleton l f ih =>
    obtain ⟨h1, h2, h3, h4⟩ := ih
    rw [List.foldl_append]
    generalize hs : l.foldl (FilterScan.step program) {} = s at *
    simp only [List.foldl_cons, List.foldl_nil, lastIs_snoc, ← h3, ← h4, ← h1]
    have hm : ∀ b, (program = Spl.token2022Id ∧ (rawAt? 165 f = some b ∨ rawAt? 165 f = none ∧ LastIs (rawAt? 165) l b)) ↔
        (program = Spl.token2022Id ∧ rawAt? 165 f = some b) ∨ (rawAt? 165 f = none ∧ s.memcmp = some b) := by
      intro b; rw [h2]; constructor
      · rintro ⟨a, b | b⟩
        · exact .inl ⟨a, b⟩
        · exact .inr ⟨b.1, a, b.2⟩
      · rintro (⟨a, b⟩ | ⟨b, a, c⟩)
        · exact ⟨a, .inl b⟩
        · exact ⟨a, .inr ⟨b, c⟩⟩
    simp only [hm]
    have hp : s.memcmp ≠ none → program = Spl.token2022Id := by
      intro h
      obtain ⟨b, hb⟩ := Option.ne_none_iff_exists'.1 h
      exact ((h2 b).1 hb).1
    clear h1 h2 h3 h4 hm hs
    cases f with
    | datasize n => simp [FilterScan.step, sizeOf?, rawAt?, keyAt?]
    | memcmp m =>
      obtain ⟨off, d⟩ := m
      cases d with
      | bytes b =>
        by_cases hl : b.length = 32
        · by_cases e0 : off = 0
          · subst e0
            simp [FilterScan.step, sizeOf?, rawAt?, keyAt?, hl, pubkeyOf?]
          · by_cases e32 : off = 32
            · subst e32
              simp [FilterScan.step, sizeOf?, rawAt?, keyAt?, hl, pubkeyOf?]
            · by_cases e165 : off = 165
              · subst e165
                by_cases ep : program = Spl.token2022Id
                · simp [FilterScan.step, sizeOf?, rawAt?, keyAt?, ep]
                · have : s.memcmp = none := by
                    by_contra h; exact ep (hp h)
                  simp [FilterScan.step, sizeOf?, rawAt?, keyAt?, ep, this]
              · simp [FilterScan.step, sizeOf?, rawAt?, keyAt?, e0, e32, e165]
        · by_cases e165 : off = 165
          · subst e165
            by_cases ep : program = Spl.token2022Id
            · simp [FilterScan.step, sizeOf?, rawAt?, keyAt?, ep]
            · have : s.memcmp = none := by
                by_contra h; exact ep (hp h)
              simp [FilterScan.step, sizeOf?, rawAt?, keyAt?, ep, this]
          · by_cases e0 : off = 0
            · subst e0
              simp [FilterScan.step, sizeOf?, rawAt?, keyAt?, hl]
            · by_cases e32 : off = 32
              · subst e32
                simp [FilterScan.step, sizeOf?, rawAt?, keyAt?, hl]
              · simp [FilterScan.step, sizeOf?, rawAt?, keyAt?, e0, e32, e165]
      | base58 b => simp [FilterScan.step, sizeOf?, rawAt?, keyAt?]
      | base64 b => simp [FilterScan.step, sizeOf?, rawAt?, keyAt?]

theorem ownerMint_iff (program : Pubkey) (l : List AccountFilterType) :
    (∀ pk, (ownerMintFilter program l).1 = some pk ↔ AsksOwner program l pk) ∧
    ∀ pk, (ownerMintFilter program l).2 = some pk ↔ AsksMint program l pk := by
  obtain ⟨h1, h2, h3, h4⟩ := scan_eq program l
  have h : AsksTokens program l ↔ (l.foldl (FilterScan.step program) {}).dataSize = some 165 ∨
      (l.foldl (FilterScan.step program) {}).memcmp = some [2] := by
    rw [h1, h2]; rfl
  unfold ownerMintFilter AsksOwner AsksMint
  simp only [← h3, ← h4, h]
  split
  · rename_i hc; simp [hc]
  · rename_i hc; simp [hc]

/-! ## Answers -/

/-- What a converted token account looks like. -/
theorem tokenToSolana_some {mints : AMap Nat MintAccount} {t : TokenAccount} {slot wv : Nat} {r : AccountData}
    (h : tokenToSolana mints t slot wv = .ok (some r)) :
    t.isDeleted = false ∧ ∃ m, mints.find t.mint = some m ∧
      r = ⟨t.pubkey, solanaAccount (Spl.rentMinimum (tokenData t m.pubkey).length) (tokenData t m.pubkey) t.program, slot, wv⟩ := by
  unfold tokenToSolana at h
  split at h
  · simp at h
  · rename_i hd
    refine ⟨by simpa using hd, ?_⟩
    cases hm : mints.find t.mint with
    | none => rw [hm] at h; exact absurd h (by simp [Run.unwrap])
    | some m =>
      rw [hm] at h
      simp at h
      exact ⟨m, rfl, h.symm⟩

theorem tokensToSolana_mem {mints : AMap Nat MintAccount} {slot : Nat} {l : List TokenAccount} {rs : List AccountData}
    (h : TokenStore.tokensToSolana mints slot l = .ok rs) (r : AccountData) :
    r ∈ rs ↔ ∃ t ∈ l, tokenToSolana mints t slot 0 = .ok (some r) := by
  induction l generalizing rs with
  | nil => simp [TokenStore.tokensToSolana] at h; subst h; simp
  | cons t l ih =>
    simp only [TokenStore.tokensToSolana, Run.bind_eq_ok] at h
    obtain ⟨x, h1, y, h2, h3⟩ := h
    simp at h3
    subst h3
    simp only [List.mem_append, Option.mem_toList, ih h2, List.mem_cons, exists_eq_or_imp, h1, Run.ok.injEq]

/-- The data of a converted token account begins with its mint and its owner. -/
theorem tokenData_windows (t : TokenAccount) (mint : Pubkey) :
    WindowAt 0 mint.bytes (tokenData t mint) ∧ WindowAt 32 t.owner.bytes (tokenData t mint) ∧ 165 ≤ (tokenData t mint).length := by
  have : ∃ rest, tokenData t mint = mint.bytes ++ t.owner.bytes ++ rest ∧ 101 ≤ rest.length := by
    have hp : ∀ a : Spl.Account, ∃ rest, a.pack = a.mint.bytes ++ a.owner.bytes ++ rest ∧ 101 ≤ rest.length := by
      intro a
      have hl := Spl.length_pack a
      have e : ∃ rest, a.pack = a.mint.bytes ++ a.owner.bytes ++ rest := ⟨_, by simp only [Spl.Account.pack, List.append_assoc]; rfl⟩
      obtain ⟨rest, e⟩ := e
      rw [e] at hl
      simp [a.mint.2, a.owner.2] at hl
      exact ⟨rest, e, by omega⟩
    unfold tokenData
    cases t.program
    · exact hp _
    · obtain ⟨rest, h1, h2⟩ := hp {
        mint := mint
        owner := t.owner
        amount := t.amount
        delegate := t.delegate.map (·.1)
        state := t.state
        isNative := t.isNative
        delegatedAmount := (t.delegate.map (·.2)).getD 0
        closeAuthority := t.closeAuthority }
      exact ⟨rest ++ t.additionalData.getD [], by simp only [h1, List.append_assoc], by simp; omega⟩
  obtain ⟨rest, h, hl⟩ := this
  rw [h]
  refine ⟨⟨[], t.owner.bytes ++ rest, by simp, rfl⟩, ⟨mint.bytes, rest, rfl, mint.2⟩, ?_⟩
  simp [mint.2, t.owner.2]; omega

/-- A query for an owner. -/
theorem gpa_owner {X : Codecs} {Q : ProgramAccount → Prop} {s : TokenStore} {slots orig : List TokenAccount} (h : Fin Q s slots orig)
    {σ : Orders} {program owner : Pubkey} {mint : Option Pubkey} {l : List AccountFilterType} {rs : List AccountData}
    (hq : ownerMintFilter program l = (some owner, mint)) (hg : s.gpaFinalized X σ program (some l) = .ok (.ok rs)) (r : AccountData) :
    r ∈ rs ↔ ∃ is i t, s.byOwner.find (prefix4 owner) = some is ∧ i ∈ is ∧ slots[i]? = some t ∧ t.owner = owner ∧
      (∀ m, mint = some m → s.table.index.find m = some t.mint) ∧ tokenToSolana s.mints t s.finalizedSlot 0 = .ok (some r) := by
  unfold TokenStore.gpaFinalized at hg
  simp only [hq] at hg
  have hrest : ∀ mi : Option Nat, (match s.byOwner.find (prefix4 owner) with
          | some l => do
            let ts ← s.tokens.getByIndex (σ.set l)
            let ts := ts.filter (fun t => match mi with
              | some i => t.mint = i && t.owner = owner
              | none => t.owner = owner)
            return .ok (← TokenStore.tokensToSolana s.mints s.finalizedSlot ts)
          | none => return .ok [] : Run (Except LoadError (List AccountData))) = .ok (.ok rs) →
      (r ∈ rs ↔ ∃ is i t, s.byOwner.find (prefix4 owner) = some is ∧ i ∈ is ∧ slots[i]? = some t ∧ t.owner = owner ∧
      (∀ m, mi = some m → t.mint = m) ∧ tokenToSolana s.mints t s.finalizedSlot 0 = .ok (some r)) := by
    clear hg
    intro mi hg
    split at hg
    · rename_i is his
      rw [getByIndex_eq h.holds] at hg
      simp only [Run.ok_bind, Run.bind_eq_ok] at hg
      obtain ⟨rs', hg, he⟩ := hg
      simp at he; subst he
      rw [tokensToSolana_mem hg]
      simp only [List.mem_filter, List.mem_filterMap, σ.set_mem]
      constructor
      · rintro ⟨t, ⟨⟨i, hi, ht⟩, hf⟩, hr⟩
        refine ⟨is, i, t, his, hi, ht, ?_, ?_, hr⟩
        · cases mi <;> simp at hf
          · exact hf
          · exact hf.2
        · rintro m rfl; simp at hf; exact hf.1
      · rintro ⟨is', i, t, hs, hi, ht, ho, hm, hr⟩
        rw [his] at hs; cases hs
        refine ⟨t, ⟨⟨i, hi, ht⟩, ?_⟩, hr⟩
        cases mi with
        | none => simp [ho]
        | some m => simp [ho, hm m rfl]
    · rename_i hn
      simp at hg; subst hg
      simp [hn]
  cases mint with
  | none =>
    rw [hrest none hg]
    simp
  | some m =>
    cases hi : s.table.index.find m with
    | none => simp only [hi] at hg; exact absurd hg (by simp [Run.unwrap])
    | some i =>
      simp only [hi, Run.unwrap_some] at hg
      rw [hrest (some i) hg]
      have e : ∀ t : TokenAccount, (∀ m', some m = some m' → s.table.index.find m' = some t.mint) ↔ ∀ m', some i = some m' → t.mint = m' := by
        intro t
        simp only [Option.some.injEq, forall_eq', hi]
        exact eq_comm
      simp only [e]

/-- A query for a mint. -/
theorem gpa_mint {X : Codecs} {Q : ProgramAccount → Prop} {s : TokenStore} {slots orig : List TokenAccount} (h : Fin Q s slots orig)
    {σ : Orders} {program mint : Pubkey} {l : List AccountFilterType} {rs : List AccountData}
    (hq : ownerMintFilter program l = (none, some mint)) (hg : s.gpaFinalized X σ program (some l) = .ok (.ok rs)) (r : AccountData) :
    r ∈ rs ↔ ∃ m is i t, s.table.index.find mint = some m ∧ s.byMint.find m = some is ∧ i ∈ is ∧ slots[i]? = some t ∧
      tokenToSolana s.mints t s.finalizedSlot 0 = .ok (some r) := by
  unfold TokenStore.gpaFinalized at hg
  simp only [hq] at hg
  split at hg
  · rename_i m hm
    split at hg
    · rename_i is his
      rw [getByIndex_eq h.holds] at hg
      simp only [Run.ok_bind, Run.bind_eq_ok] at hg
      obtain ⟨rs', hg, he⟩ := hg
      simp at he; subst he
      rw [tokensToSolana_mem hg, hm]
      simp only [List.mem_filterMap, σ.set_mem]
      constructor
      · rintro ⟨t, ⟨i, hi, ht⟩, hr⟩
        exact ⟨m, is, i, t, rfl, his, hi, ht, hr⟩
      · rintro ⟨m', is', i, t, hm', his', hi, ht, hr⟩
        cases hm'
        rw [his] at his'; cases his'
        exact ⟨t, ⟨i, hi, ht⟩, hr⟩
    · rename_i his
      simp at hg; subst hg
      constructor
      · simp
      · rintro ⟨m', is', i, t, hm', his', -⟩
        rw [hm] at hm'; cases hm'
        rw [his] at his'; simp at his'
  · rename_i hm
    simp at hg; subst hg
    simp [hm]

end LAM.Token
