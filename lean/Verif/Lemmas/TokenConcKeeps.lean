import Verif.Lemmas.TokenConcDue
import Verif.Lemmas.TokenConcTold
import Verif.Lemmas.TokenConcRun
import Verif.Spec.TokenConcKeeps
/-!
# Concurrent calls of the token program store: finalized token accounts that are not closed are found
-/
namespace LAM.TokConc
open Token Run Spec ProcStore
open Spl (tokenId token2022Id)

/-! ## The place of a token account -/

/-- Place `i` is in the bucket of `pk` and holds a state of `pk`. -/
def FoundAt (pk : Pubkey) (i : Nat) (S : TokenStorage) : Prop :=
  ∃ is t, S.buckets.find (prefix4 pk) = some is ∧ i ∈ is ∧ S.accounts[i]? = some (TokenAccount.toBytes t) ∧ t.pubkey = pk

theorem firstMatch_some {accounts : List Bytes} {pk : Pubkey} : ∀ {is : List Nat} {i : Nat}, firstMatch accounts pk is = .ok (some i) →
    i ∈ is ∧ ∃ b, accounts[i]? = some b ∧ getPubkeyFromBinary b = .ok pk := by
  intro is
  induction is with
  | nil => intro i h; simp [firstMatch] at h
  | cons j is ih =>
    intro i h
    simp only [firstMatch, Run.bind_eq_ok] at h
    obtain ⟨b, hb, k, hk, h⟩ := h
    have hb : accounts[j]? = some b := by
      cases hh : accounts[j]? with
      | none => rw [hh] at hb; simp [Run.unwrap] at hb
      | some b' => rw [hh] at hb; simp at hb; rw [hb]
    split at h
    · simp only [Run.pure_eq, Run.ok.injEq, Option.some.injEq] at h
      subst h
      rename_i e
      exact ⟨by simp, b, hb, e ▸ hk⟩
    · obtain ⟨h1, h2⟩ := ih h
      exact ⟨by simp [h1], h2⟩

theorem firstMatch_none {accounts : List Bytes} {pk : Pubkey} : ∀ {is : List Nat}, firstMatch accounts pk is = .ok none →
    ∀ i ∈ is, ∀ t : TokenAccount, accounts[i]? = some t.toBytes → t.pubkey ≠ pk := by
  intro is
  induction is with
  | nil => intro _ i hi; simp at hi
  | cons j is ih =>
    intro h i hi t ht hp
    simp only [firstMatch, Run.bind_eq_ok] at h
    obtain ⟨b, hb, k, hk, h⟩ := h
    split at h
    · simp at h
    · rename_i hne
      rcases List.mem_cons.1 hi with rfl | hi
      · rw [ht] at hb
        simp at hb
        subst hb
        rw [getPubkey_toBytes] at hk
        simp at hk
        exact hne (hk ▸ hp)
      · exact ih h i hi t ht hp

/-- Another place is written. -/
theorem FoundAt.set {pk q : Pubkey} {i j : Nat} {S : TokenStorage} (h : FoundAt pk i S) {u : TokenAccount} {b : Bytes}
    (hb : S.accounts[j]? = some b) (hq : getPubkeyFromBinary b = .ok q) (hu : u.pubkey = pk ∨ q ≠ pk) :
    FoundAt pk i { S with accounts := S.accounts.set j u.toBytes } := by
  obtain ⟨is, t, h1, h2, h3, h4⟩ := h
  by_cases e : j = i
  · subst e
    rw [h3] at hb
    simp only [Option.some.injEq] at hb
    subst hb
    rw [getPubkey_toBytes] at hq
    simp only [Run.ok.injEq] at hq
    rcases hu with hu | hu
    · exact ⟨is, u, h1, h2, by rw [List.getElem?_set_self (List.getElem?_eq_some_iff.1 h3).1], hu⟩
    · exact absurd (hq ▸ h4) hu
  · exact ⟨is, t, h1, h2, by rw [List.getElem?_set_ne e]; exact h3, h4⟩

theorem FoundAt.save {pk : Pubkey} {i j : Nat} {S T : TokenStorage} {b : Bool} (h : FoundAt pk i S) {u : TokenAccount}
    (hs : S.save u = .ok ((j, b), T)) : FoundAt pk i T := by
  have app : ∀ is', (S.buckets.find (prefix4 u.pubkey) = some is' ∨ (S.buckets.find (prefix4 u.pubkey) = none ∧ is' = [])) →
      FoundAt pk i ⟨S.buckets.insert (prefix4 u.pubkey) (is' ++ [wrap32 S.accounts.length]), S.accounts ++ [u.toBytes]⟩ := by
    intro is' hi
    obtain ⟨is, t, h1, h2, h3, h4⟩ := h
    have h3' : (S.accounts ++ [u.toBytes])[i]? = some t.toBytes := by
      rw [List.getElem?_append_left (List.getElem?_eq_some_iff.1 h3).1]; exact h3
    by_cases e : prefix4 u.pubkey = prefix4 pk
    · rw [e] at hi ⊢
      rcases hi with hi | ⟨hi, -⟩
      · rw [h1] at hi
        simp only [Option.some.injEq] at hi
        subst hi
        exact ⟨is ++ [wrap32 S.accounts.length], t, by simp [AMap.find_insert], by simp [h2], h3', h4⟩
      · rw [h1] at hi; simp at hi
    · exact ⟨is, t, by simp [AMap.find_insert, e, h1], h2, h3', h4⟩
  unfold TokenStorage.save at hs
  split at hs
  · rename_i is' hi
    simp only [Run.bind_eq_ok] at hs
    obtain ⟨o, ho, hs⟩ := hs
    split at hs <;> simp only [Run.pure_eq, Run.ok.injEq, Prod.mk.injEq] at hs <;> obtain ⟨-, rfl⟩ := hs
    · obtain ⟨-, b, hb, hq⟩ := firstMatch_some ho
      refine h.set hb hq ?_
      by_cases e : u.pubkey = pk
      · exact .inl e
      · exact .inr e
    · exact app is' (.inl hi)
  · rename_i hi
    simp only [Run.ok.injEq, Prod.mk.injEq] at hs
    obtain ⟨-, rfl⟩ := hs
    exact app [] (.inr ⟨hi, rfl⟩)

/-- Where a token account is saved, it is found. -/
theorem save_found {X : Codecs} {log : List (Nat × Event)} {g : List Pubkey} {s : TokenStore} (h : StoreOK X log g s) {u : TokenAccount}
    {j : Nat} {b : Bool} {T : TokenStorage} (hs : s.tokens.save u = .ok ((j, b), T)) (hlen : T.accounts.length ≤ 2 ^ 32) :
    FoundAt u.pubkey j T ∧ ∀ pk i, FoundAt pk i T → FoundAt pk i s.tokens ∨ (b = true ∧ i = j ∧ u.pubkey = pk) := by
  have app : ∀ is', (s.tokens.buckets.find (prefix4 u.pubkey) = some is' ∨ (s.tokens.buckets.find (prefix4 u.pubkey) = none ∧ is' = [])) →
      (s.tokens.accounts ++ [u.toBytes]).length ≤ 2 ^ 32 → wrap32 s.tokens.accounts.length = s.tokens.accounts.length ∧
      FoundAt u.pubkey (wrap32 s.tokens.accounts.length)
        ⟨s.tokens.buckets.insert (prefix4 u.pubkey) (is' ++ [wrap32 s.tokens.accounts.length]), s.tokens.accounts ++ [u.toBytes]⟩ ∧
      ∀ pk i, FoundAt pk i ⟨s.tokens.buckets.insert (prefix4 u.pubkey) (is' ++ [wrap32 s.tokens.accounts.length]),
        s.tokens.accounts ++ [u.toBytes]⟩ → FoundAt pk i s.tokens ∨ (i = wrap32 s.tokens.accounts.length ∧ u.pubkey = pk) := by
    intro is' hi hl
    have hw : wrap32 s.tokens.accounts.length = s.tokens.accounts.length := by
      simp only [List.length_append, List.length_singleton] at hl
      unfold wrap32
      exact Nat.mod_eq_of_lt (by omega)
    refine ⟨hw, ⟨is' ++ [wrap32 s.tokens.accounts.length], u, by simp [AMap.find_insert], by simp, ?_, rfl⟩, fun pk i hf => ?_⟩
    · rw [hw]; simp
    · obtain ⟨is, t, h1, h2, h3, h4⟩ := hf
      by_cases hlt : i < s.tokens.accounts.length
      · left
        rw [List.getElem?_append_left hlt] at h3
        by_cases e : prefix4 u.pubkey = prefix4 pk
        · simp only [AMap.find_insert, e, if_true, Option.some.injEq] at h1
          subst h1
          rcases List.mem_append.1 h2 with h2 | h2
          · rcases hi with hi | ⟨-, rfl⟩
            · exact ⟨is', t, e ▸ hi, h2, h3, h4⟩
            · simp at h2
          · simp only [List.mem_singleton] at h2; omega
        · simp only [AMap.find_insert, e, if_false] at h1
          exact ⟨is, t, h1, h2, h3, h4⟩
      · right
        have hi' := (List.getElem?_eq_some_iff.1 h3).1
        simp only [List.length_append, List.length_singleton] at hi'
        have hi' : i = s.tokens.accounts.length := by omega
        subst hi'
        simp only [List.getElem?_concat_length, Option.some.injEq] at h3
        have h5 := congrArg getPubkeyFromBinary h3
        rw [getPubkey_toBytes, getPubkey_toBytes] at h5
        simp only [Run.ok.injEq] at h5
        exact ⟨hw.symm, h5.trans h4⟩
  unfold TokenStorage.save at hs
  split at hs
  · rename_i is' hi
    simp only [Run.bind_eq_ok] at hs
    obtain ⟨o, ho, hs⟩ := hs
    split at hs <;> simp only [Run.pure_eq, Run.ok.injEq, Prod.mk.injEq] at hs <;> obtain ⟨⟨rfl, rfl⟩, rfl⟩ := hs
    · rename_i j
      obtain ⟨hm, b, hb, hq⟩ := firstMatch_some ho
      have hlt := (List.getElem?_eq_some_iff.1 hb).1
      refine ⟨⟨is', u, hi, hm, by rw [List.getElem?_set_self hlt], rfl⟩, fun pk i hf => .inl ?_⟩
      obtain ⟨is, t, h1, h2, h3, h4⟩ := hf
      by_cases e : j = i
      · subst e
        rw [List.getElem?_set_self hlt] at h3
        simp only [Option.some.injEq] at h3
        have h5 := congrArg getPubkeyFromBinary h3
        rw [getPubkey_toBytes, getPubkey_toBytes] at h5
        simp only [Run.ok.injEq] at h5
        obtain ⟨slots, h6, -⟩ := h.tokens
        rw [h6, List.getElem?_map] at hb
        simp only [Option.map_eq_some_iff] at hb
        obtain ⟨v, hv, rfl⟩ := hb
        rw [getPubkey_toBytes] at hq
        simp only [Run.ok.injEq] at hq
        exact ⟨is, v, h1, h2, by rw [h6, List.getElem?_map, hv]; rfl, by rw [hq, h5, h4]⟩
      · rw [List.getElem?_set_ne e] at h3
        exact ⟨is, t, h1, h2, h3, h4⟩
    · obtain ⟨-, h2, h3⟩ := app is' (.inl hi) hlen
      exact ⟨h2, fun pk i hf => (h3 pk i hf).imp id fun h => ⟨rfl, h⟩⟩
  · rename_i hi
    simp only [Run.ok.injEq, Prod.mk.injEq] at hs
    obtain ⟨⟨rfl, rfl⟩, rfl⟩ := hs
    obtain ⟨-, h2, h3⟩ := app [] (.inr ⟨hi, rfl⟩) hlen
    exact ⟨h2, fun pk i hf => (h3 pk i hf).imp id fun h => ⟨rfl, h⟩⟩

/-! ## Accounts that are not closed -/

/-- The thread does not remove the bucket of `pk`. -/
def Away (pk : Pubkey) : Pc → Prop
  | .again q _ | .dropBucket q _ | .entomb q _ _ => prefix4 q ≠ prefix4 pk
  | _ => True

theorem Away.add {pk : Pubkey} {n : Next} (h : (∃ x k, n = .go (.add x k)) ∨ ∃ r, n = .ret r) : ∀ p, n = .go p → Away pk p := by
  rintro p rfl
  rcases h with ⟨x, k, h⟩ | ⟨r, h⟩ <;> cases h
  trivial

theorem After.next_cases (k : After) : (∃ x f, k.next = .go (.add x f)) ∨ k.next = .ret k.reply := by
  unfold After.next
  split
  · exact .inr rfl
  · exact .inl ⟨_, _, rfl⟩

/-- What is not closed is stored as it is. -/
theorem From.open {X : Codecs} {g : List Pubkey} {S : AccountData → Prop} {x : ProgramAccount} (h : From X g S x)
    (hS : ∀ b, S b → prefix4 b.pubkey = prefix4 x.pubkey → ∃ p, TokenProgramOwned b p) : ∀ q, x ≠ .deleted q := by
  rintro q rfl
  cases h with
  | deleted h1 h2 =>
    obtain ⟨p, hp⟩ := hS _ h1 rfl
    exact h2 p hp

theorem NoneGone.open {pk : Pubkey} {log : List (Nat × Event)} (h : NoneGone pk log) {b : AccountData} (hb : Submitted log b)
    (hp : prefix4 b.pubkey = prefix4 pk) : ∃ p, TokenProgramOwned b p := by
  by_contra hn
  exact h b hb hp fun p hq => hn ⟨p, hq⟩

theorem out_away {E : Env} {log : List (Nat × Event)} {g : List Pubkey} {σ : Orders} {s s' : TokenStore} {n : Nat} {k : Call} {p : Pc}
    {pk : Pubkey} (hn : NoneGone pk log) (hv : Serves E.codecs log g n k p) (ha : Away pk p) {nx : Next} (ho : Out E σ s p s' nx) :
    ∀ p', nx = .go p' → Away pk p' := by
  cases ho
  case addDeleted q f hq =>
    rintro p' ⟨⟩
    cases hv with
    | add h1 h2 =>
      intro e
      exact h1.open (fun b hb he => hn.open hb.submitted (he.trans e)) _ rfl
  case again => rintro p' ⟨⟩; exact ha
  case dropBucket => rintro p' ⟨⟩; exact ha
  all_goals
    intro p' hn
    first
    | (cases hn; done)
    | (cases hn; trivial)
    | (obtain ⟨x, k'', h⟩ := after_next hn; subst h; trivial)
    | (rcases job_next hn with ⟨x, k'', h⟩ | ⟨x, k'', h⟩ <;> subst h <;> trivial)
    | (rename_i hj; rcases scan_next hj with ⟨l, out, j, h⟩ | ⟨pk, h⟩ <;> rw [h] at hn <;> cases hn <;> trivial)

theorem out_found {E : Env} {σ : Orders} {s s' : TokenStore} {p : Pc} {nx : Next} {pk : Pubkey} {i : Nat} (ha : Away pk p)
    (ho : Out E σ s p s' nx) (hf : FoundAt pk i s.tokens) : FoundAt pk i s'.tokens := by
  cases ho
  case saveNew hs => exact hf.save hs
  case saveOld hs => exact hf.save hs
  case dropBucket q f is hi =>
    obtain ⟨is', t, h1, h2⟩ := hf
    have ha : prefix4 q ≠ prefix4 pk := ha
    exact ⟨is', t, by simp [AMap.find_erase, ha, h1], h2⟩
  case entomb q is f j hj =>
    have ha : prefix4 q ≠ prefix4 pk := ha
    obtain ⟨-, b, hb, hq⟩ := firstMatch_some hj
    exact hf.set hb hq (.inr fun e => ha (e ▸ rfl))
  all_goals exact hf

/-! ## Storing the account -/

/-- A thread that stores the finalized account `a`. -/
def Storing (a : AccountData) (S : TokenStorage) : Pc → Prop
  | .chkIndex .. | .chkMultisig .. | .chkBucket .. | .chkAccounts .. | .classify .. => True
  | .add x _ => (∃ t, x = .token t ∧ t.pubkey = a.pubkey) ∨ ∃ i, FoundAt a.pubkey i S
  | .save t _ => t.pubkey = a.pubkey ∨ ∃ i, FoundAt a.pubkey i S
  | _ => ∃ i, FoundAt a.pubkey i S

theorem Storing.mono {a : AccountData} {S T : TokenStorage} (h : ∀ i, FoundAt a.pubkey i S → FoundAt a.pubkey i T) {p : Pc}
    (hp : Storing a S p) : Storing a T p := by
  have h' : (∃ i, FoundAt a.pubkey i S) → ∃ i, FoundAt a.pubkey i T := fun ⟨i, hi⟩ => ⟨i, h i hi⟩
  cases p <;> first | trivial | exact h' hp | exact Or.imp id h' hp

/-- Of what is found, it goes on. -/
theorem Storing.of {a : AccountData} {S : TokenStorage} (h : ∃ i, FoundAt a.pubkey i S) (p : Pc) : Storing a S p := by
  cases p <;> first | trivial | exact h | exact .inr h

theorem classify_token {X : Codecs} {g : List Pubkey} {T T' : MintTable} (hT : TableOK g T') {a : AccountData} {x : ProgramAccount}
    (h : Token.classify X T a = .ok (some x, T')) (ht : IsToken X a) (ho : ∃ p, TokenProgramOwned a p) :
    ∃ t, x = .token t ∧ t.pubkey = a.pubkey := by
  obtain ⟨bs, sa, hd, hl⟩ := ht
  obtain ⟨p, hp⟩ := ho
  cases classify_stored hT h (S := (· = a)) rfl with
  | token h1 _ _ _ _ _ h7 => subst h1; exact ⟨_, rfl, h7⟩
  | mint h1 h2 h3 h4 =>
    subst h1; rw [hd] at h3; cases h3
    have := hl.length; have := h4.length; omega
  | multisig h1 h2 h3 h4 =>
    subst h1; rw [hd] at h3; cases h3
    have := hl.length; have := h4.length; omega
  | deleted h1 h2 => subst h1; exact absurd hp (h2 p)

theorem out_storing {E : Env} {log : List (Nat × Event)} {g g' : List Pubkey} {σ : Orders} {s s' : TokenStore} {n : Nat} {p : Pc}
    {a : AccountData} {c : Option Commitment} (hc : c = none ∨ c = some .finalized) (hn : NoneGone a.pubkey log) (ht : IsToken E.codecs a)
    (ha : Submitted log a) (hs : StoreOK E.codecs log g s) (hs' : StoreOK E.codecs log g' s')
    (hv : Serves E.codecs log g n (.submit a c) p) (hw : Away a.pubkey p) (hlen : s'.tokens.accounts.length ≤ 2 ^ 32)
    (hp : Storing a s.tokens p) {nx : Next} (ho : Out E σ s p s' nx) :
    (∀ p', nx = .go p' → Storing a s'.tokens p') ∧ (nx = .ret (.updated true) → ∃ i, FoundAt a.pubkey i s'.tokens) := by
  have found : (∃ i, FoundAt a.pubkey i s.tokens) → ∃ i, FoundAt a.pubkey i s'.tokens :=
    fun ⟨i, hi⟩ => ⟨i, out_found hw ho hi⟩
  have all : (∃ i, FoundAt a.pubkey i s'.tokens) → (∀ p', nx = .go p' → Storing a s'.tokens p') ∧
      (nx = .ret (.updated true) → ∃ i, FoundAt a.pubkey i s'.tokens) := fun h => ⟨fun p' _ => .of h p', fun _ => h⟩
  have ret : nx = .ret (.updated false) → (∀ p', nx = .go p' → Storing a s'.tokens p') ∧
      (nx = .ret (.updated true) → ∃ i, FoundAt a.pubkey i s'.tokens) := by rintro rfl; exact ⟨by simp, by simp⟩
  cases ho
  case chkIndex => exact ⟨by rintro p' ⟨⟩; trivial, by simp⟩
  case chkIndexT => exact ⟨by rintro p' ⟨⟩; trivial, by simp⟩
  case chkMultisig => exact ⟨by rintro p' ⟨⟩; trivial, by simp⟩
  case chkMultisigT => exact ⟨by rintro p' ⟨⟩; trivial, by simp⟩
  case chkBucket => exact ⟨by rintro p' ⟨⟩; trivial, by simp⟩
  case chkBucketT => exact ⟨by rintro p' ⟨⟩; trivial, by simp⟩
  case chkAccountsT => exact ⟨by rintro p' ⟨⟩; trivial, by simp⟩
  case chkBucketF => exact ret rfl
  case chkAccountsF => exact ret rfl
  case classifyN => exact ret rfl
  case classifyI x T h h' => cases hv; rcases hc with rfl | rfl <;> simp at h'
  case classifyA x T h h' =>
    cases hv
    refine ⟨?_, by simp⟩
    rintro p' ⟨⟩
    exact .inl (classify_token hs'.table h ht (hn.open ha rfl))
  case addToken t f =>
    rcases hp with ⟨t', h1, h2⟩ | h
    · cases h1
      exact ⟨by rintro p' ⟨⟩; exact .inl h2, by simp⟩
    · exact all h
  case saveNew t f i T h =>
    rcases hp with h1 | h1
    · exact all ⟨i, h1 ▸ (save_found hs h hlen).1⟩
    · exact all (found h1)
  case saveOld t f i T h =>
    rcases hp with h1 | h1
    · exact all ⟨i, h1 ▸ (save_found hs h hlen).1⟩
    · exact all (found h1)
  case addMint => rcases hp with ⟨t', h1, -⟩ | h1; (· cases h1); exact all h1
  case addMintNew => rcases hp with ⟨t', h1, -⟩ | h1; (· cases h1); exact all h1
  case addMultisig => rcases hp with ⟨t', h1, -⟩ | h1; (· cases h1); exact all h1
  case addDeletedMint => rcases hp with ⟨t', h1, -⟩ | h1; (· cases h1); exact all h1
  case addDeleted => rcases hp with ⟨t', h1, -⟩ | h1; (· cases h1); exact all h1
  all_goals exact all (found hp)

/-! ## Reading the account -/

/-- The account is shown when it is converted. -/
def Solid (x : ProgramAccount) : Prop :=
  ∀ (M : AMap Nat MintAccount) (slot wv : Nat) (r : Option AccountData), x.toSolana M slot wv = .ok r →
    ∃ b, r = some b ∧ b.pubkey = x.pubkey

/-- What is not closed is shown. -/
theorem From.solid {X : Codecs} {g : List Pubkey} {S : AccountData → Prop} {x : ProgramAccount} (h : From X g S x)
    (hS : ∀ b, S b → prefix4 b.pubkey = prefix4 x.pubkey → ∃ p, TokenProgramOwned b p) : Solid x := by
  intro M slot wv r hr
  have hd := h.open hS
  cases x with
  | token t =>
    have := h.fits.2
    simp only [ProgramAccount.toSolana, tokenToSolana, this, Bool.false_eq_true, if_false, Run.bind_eq_ok, Run.pure_eq, Run.ok.injEq] at hr
    obtain ⟨_, -, hr⟩ := hr
    exact ⟨_, hr.symm, rfl⟩
  | mint m => simp [ProgramAccount.toSolana] at hr; exact ⟨_, hr.symm, rfl⟩
  | multisig m pk =>
    simp only [ProgramAccount.toSolana, multisigToSolana, Run.bind_eq_ok, Run.pure_eq, Run.ok.injEq] at hr
    obtain ⟨_, ⟨_, -, rfl⟩, hr⟩ := hr
    exact ⟨_, hr.symm, rfl⟩
  | deleted q => exact absurd rfl (hd q)

theorem ConvOK.solid {X : Codecs} {log : List (Nat × Event)} {g : List Pubkey} {c : Commitment} {x : ProgramAccount} {slot : Nat}
    (h : ConvOK X log g c x slot) (hn : NoneGone x.pubkey log) : Solid x := by
  rcases h with ⟨h, -⟩ | ⟨-, h, -⟩
  · exact h.solid fun b hb he => hn.open hb.submitted he
  · exact h.solid fun b hb he => hn.open hb.1.submitted he

/-- The account that is found at a place. -/
theorem found_from {X : Codecs} {log : List (Nat × Event)} {g : List Pubkey} {s : TokenStore} (h : StoreOK X log g s) {pk : Pubkey}
    (hpk : pk ≠ Pubkey.default) {i : Nat} (hf : FoundAt pk i s.tokens) :
    ∃ t, s.tokens.accounts[i]? = some (TokenAccount.toBytes t) ∧ t.pubkey = pk ∧ From X g (Settled log) (.token t) := by
  obtain ⟨slots, h1, h2⟩ := h.tokens
  obtain ⟨is, t, h3, h4, h5, h6⟩ := hf
  rw [h1, List.getElem?_map] at h5
  simp only [Option.map_eq_some_iff] at h5
  obtain ⟨v, hv, h7⟩ := h5
  have h8 := congrArg getPubkeyFromBinary h7
  rw [getPubkey_toBytes, getPubkey_toBytes] at h8
  simp only [Run.ok.injEq] at h8
  refine ⟨v, by rw [h1, List.getElem?_map, hv]; rfl, h8.trans h6, (h2 v (List.mem_of_getElem? hv)).resolve_left ?_⟩
  rintro rfl
  exact hpk (h6.symm.trans h8.symm)

theorem getByPubkey_found {X : Codecs} {log : List (Nat × Event)} {g : List Pubkey} {s : TokenStore} (h : StoreOK X log g s) {pk : Pubkey}
    (hpk : pk ≠ Pubkey.default) {i : Nat} (hf : FoundAt pk i s.tokens) :
    ∃ t, s.tokens.getByPubkey pk = .ok (some t) ∧ t.isDeleted = false := by
  obtain ⟨o, h1, h2⟩ := getByPubkey_ok h pk
  cases o with
  | some t =>
    obtain ⟨h3, h4⟩ := h2 t rfl
    refine ⟨t, h1, (h4.resolve_left ?_).fits.2⟩
    rintro rfl
    exact hpk h3.symm
  | none =>
    exfalso
    obtain ⟨is, t, h3, h4, h5, h6⟩ := hf
    unfold TokenStorage.getByPubkey at h1
    rw [h3] at h1
    simp only [Run.bind_eq_ok] at h1
    obtain ⟨o, ho, h1⟩ := h1
    split at h1
    · simp only [Run.bind_eq_ok, Run.pure_eq, Run.ok.injEq] at h1
      obtain ⟨_, -, _, -, h1⟩ := h1
      cases h1
    · exact firstMatch_none ho i h4 t h5 h6

/-- A read of an account that is found. -/
def Reading : Pc → Prop
  | .convert items out .one => items ≠ [] ∨ out ≠ []
  | _ => True

theorem scan_reading {X : Codecs} {log : List (Nat × Event)} {pk : Pubkey} {c c' : Commitment} {j : Scan} (hj : ScanOK X log (.get pk c) c' j)
    {r : Answers} {nx : Next} (h : j.next r = .ok nx) : (∀ p', nx = .go p' → Reading p') ∧ nx ≠ .ret (.account none) := by
  cases j with
  | overlay l => exact hj.elim
  | one pk' =>
    simp only [Scan.next, Run.bind_eq_ok] at h
    obtain ⟨o, -, h⟩ := h
    split at h <;> simp only [Run.pure_eq, Run.ok.injEq] at h <;> subst h
    · exact ⟨by rintro p' ⟨⟩; exact .inl (by simp), by simp⟩
    · exact ⟨by rintro p' ⟨⟩; trivial, by simp⟩

theorem exec_reading {E : Env} {log : List (Nat × Event)} {g : List Pubkey} {σ : Orders} {s s' : TokenStore} {n : Nat} {p : Pc}
    {pk : Pubkey} {c : Commitment} (hn : NoneGone pk log) (hpk : pk ≠ Pubkey.default) (hs : StoreOK E.codecs log g s)
    (hv : Serves E.codecs log g n (.get pk c) p) (hm : p.modifies = false) (hf : ∃ i, FoundAt pk i s.tokens) (hp : Reading p)
    {nx : Next}
    (he : p.exec E σ s = .ok (s', nx)) : (∀ p', nx = .go p' → Reading p') ∧ nx ≠ .ret (.account none) := by
  obtain ⟨i, hf⟩ := hf
  have ho := exec_out he
  cases ho
  case finBucketN h =>
    cases hv
    obtain ⟨is, t, h1, -⟩ := hf
    rw [h1] at h; simp at h
  case finAccountsN =>
    cases hv
    obtain ⟨t, h1, h2⟩ := getByPubkey_found hs hpk hf
    simp [Pc.exec, h1, h2] at he
  case finSlot => exact ⟨by rintro p' ⟨⟩; exact .inl (by simp), by simp⟩
  case scanConfirmed h1 h2 => cases hv with | scan hj => exact scan_reading hj h2
  case scanDone h1 h2 => cases hv with | scan hj => exact scan_reading hj h2
  case rescan h1 h2 => cases hv with | rescan hj => exact scan_reading hj h2
  case convertEnd out j =>
    cases hv with
    | convert h1 h2 h3 =>
      cases j <;> try exact h1.elim
      have hp : out ≠ [] := hp.resolve_left (by simp)
      cases out with
      | nil => exact absurd rfl hp
      | cons b out => exact ⟨by simp [Job.next], by simp [Job.next]⟩
  case keep j =>
    refine ⟨?_, by simp⟩
    rintro p' ⟨⟩
    cases j <;> first | trivial | exact .inr (by simp)
  case conv x slot wv l out j r hr =>
    refine ⟨?_, by simp⟩
    rintro p' ⟨⟩
    cases hv with
    | convert h1 h2 h3 =>
      cases j <;> try exact h1.elim
      have h4 : ConvOK E.codecs log g c x slot ∧ x.pubkey = pk := h2 (.conv x slot wv) (by simp)
      obtain ⟨b, rfl, -⟩ := h4.1.solid (h4.2 ▸ hn) _ _ _ _ hr
      exact .inr (by simp)
  all_goals first
    | exact ⟨by rintro p' ⟨⟩; trivial, by simp⟩
    | (cases hm; done)
    | exact ⟨by simp, by simp⟩

/-! ## Queries for the owner -/

/-- The account is in the answer, or will be when it is converted. -/
def InAnswer (pk : Pubkey) (items : List Item) (out : List AccountData) : Prop :=
  (∃ b ∈ out, b.pubkey = pk) ∨ (∃ b, Item.keep b ∈ items ∧ b.pubkey = pk) ∨
    ∃ x slot wv, Item.conv x slot wv ∈ items ∧ Solid x ∧ x.pubkey = pk

/-- A query for the owner of an account that is found. -/
def Listing (pk : Pubkey) (s : TokenStore) : Pc → Prop
  | .loops _ | .gpaStart .. | .gpaOwner .. => True
  | .gpaIndex _ _ _ _ o => ∃ is, o = some is ∧ ∃ i ∈ is, FoundAt pk i s.tokens
  | .gpaGet _ _ _ mi is => mi = none ∧ ∃ i ∈ is, FoundAt pk i s.tokens
  | .scanSlot _ (.overlay l) | .scan _ _ (.overlay l) | .rescan _ _ (.overlay l) => ∃ b ∈ l, b.pubkey = pk
  | .convert items out _ => InAnswer pk items out
  | _ => False

theorem Listing.mono {pk : Pubkey} {s s' : TokenStore} (h : ∀ i, FoundAt pk i s.tokens → FoundAt pk i s'.tokens) {p : Pc}
    (hp : Listing pk s p) : Listing pk s' p := by
  cases p <;> try exact hp
  case scanSlot j => cases j <;> exact hp
  case scan j => cases j <;> exact hp
  case rescan j => cases j <;> exact hp
  case gpaIndex => obtain ⟨is, h1, i, h2, h3⟩ := hp; exact ⟨is, h1, i, h2, h i h3⟩
  case gpaGet => obtain ⟨h1, i, h2, h3⟩ := hp; exact ⟨h1, i, h2, h i h3⟩

theorem overlayItems_at {pk : Pubkey} : ∀ (l : List AccountData) (r : Answers) (i : Nat) (b : AccountData), l[i]? = some b →
    b.pubkey = pk → (∀ x k, r[i]? = some (some (x, k)) → Solid x.account ∧ x.account.pubkey = pk) → InAnswer pk (overlayItems l r) [] := by
  intro l
  induction l with
  | nil => intro r i b h; simp at h
  | cons a l ih =>
    intro r i b hi hb hr
    cases r with
    | nil => exact .inr (.inl ⟨b, by simp only [overlayItems, List.mem_map]; exact ⟨b, List.mem_of_getElem? hi, rfl⟩, hb⟩)
    | cons o r =>
      have lift : ∀ y, InAnswer pk (overlayItems l r) [] → InAnswer pk (y :: overlayItems l r) [] := by
        rintro y (⟨c, hc, -⟩ | ⟨c, hc, h⟩ | ⟨x, k, v, hc, h⟩)
        · simp at hc
        · exact .inr (.inl ⟨c, by simp [hc], h⟩)
        · exact .inr (.inr ⟨x, k, v, by simp [hc], h⟩)
      cases i with
      | zero =>
        simp only [List.getElem?_cons_zero, Option.some.injEq] at hi
        subst hi
        cases o with
        | none => exact .inr (.inl ⟨a, by simp [overlayItems], hb⟩)
        | some v =>
          obtain ⟨x, k⟩ := v
          exact .inr (.inr ⟨x.account, k, x.wv, by simp [overlayItems], hr x k (by simp)⟩)
      | succ i =>
        have ih := ih r i b (by simpa using hi) hb fun x k h => hr x k (by simpa using h)
        cases o with
        | none => exact lift _ ih
        | some v => exact lift _ ih

theorem scan_listing {X : Codecs} {log : List (Nat × Event)} {g : List Pubkey} {pk : Pubkey} (hn : NoneGone pk log) {c : Commitment}
    {l : List AccountData} (hl : ∃ b ∈ l, b.pubkey = pk) {r : Answers} (hr : AnsOK X log g c (Scan.overlay l).keys r) :
    InAnswer pk (overlayItems l r) [] := by
  obtain ⟨b, hb, hp⟩ := hl
  obtain ⟨i, hi⟩ := List.getElem?_of_mem hb
  refine overlayItems_at l r i b hi hp fun x k hx => ?_
  obtain ⟨h1, h2, -⟩ := hr.2 i pk x k (by simp [Scan.keys, hi, hp]) hx
  exact ⟨h2.solid fun a ha he => hn.open ha.1.submitted (he.trans (h1 ▸ rfl)), h1⟩

theorem mapRun_mem {α β : Type} {f : α → Run β} : ∀ {l : List α} {r : List β}, mapRun f l = .ok r → ∀ x ∈ l, ∃ y ∈ r, f x = .ok y := by
  intro l
  induction l with
  | nil => intro r _ x hx; simp at hx
  | cons a l ih =>
    intro r h x hx
    simp only [mapRun, Run.bind_eq_ok, Run.pure_eq, Run.ok.injEq] at h
    obtain ⟨y, hy, ys, hys, rfl⟩ := h
    rcases List.mem_cons.1 hx with rfl | hx
    · exact ⟨y, by simp, hy⟩
    · obtain ⟨z, hz, h⟩ := ih hys x hx
      exact ⟨z, by simp [hz], h⟩

theorem out_listing {E : Env} {log : List (Nat × Event)} {g : List Pubkey} {σ : Orders} {s s' : TokenStore} {n : Nat} {p : Pc}
    {pk owner program : Pubkey} {fs : List AccountFilterType} {c : Commitment} (hn : NoneGone pk log) (hpk : pk ≠ Pubkey.default)
    (hh : HeldOnlyBy E.codecs pk owner log) (hs : StoreOK E.codecs log g s) (ha : AsksOwner program fs owner)
    (hm : ∀ m, ¬ AsksMint program fs m) (hv : Serves E.codecs log g n (.gpa program (some fs) c) p)
    (hf : ∃ i, FoundAt pk i s.tokens ∧ i ∈ (s.byOwner.find (prefix4 owner)).getD []) (hp : Listing pk s p) {nx : Next}
    (ho : Out E σ s p s' nx) : (∀ p', nx = .go p' → Listing pk s p') ∧ ∀ l, nx = .ret (.accounts (.ok l)) → ∃ b ∈ l, b.pubkey = pk := by
  obtain ⟨hom, hmm⟩ := ownerMint_iff program fs
  have own : ∀ {o m}, ownerMintFilter program fs = (some o, m) → o = owner ∧ m = none := by
    intro o m h
    have h1 := (hom owner).2 ha
    rw [h] at h1
    refine ⟨by simpa using h1, ?_⟩
    cases m with
    | none => rfl
    | some m => exact absurd ((hmm m).1 (by rw [h])) (hm m)
  have go : ∀ {q}, nx = .go q → Listing pk s q → (∀ p', nx = .go p' → Listing pk s p') ∧
      ∀ l, nx = .ret (.accounts (.ok l)) → ∃ b ∈ l, b.pubkey = pk := by
    rintro q rfl h
    exact ⟨by rintro p' ⟨⟩; exact h, by simp⟩
  cases ho
  case gpaErr => exact ⟨by simp, by simp⟩
  case gpaOwner => exact go rfl trivial
  case gpaMint h => cases hv; exact absurd ha (noOwner h _)
  case gpaMints h _ => cases hv; exact absurd ha (noOwner h _)
  case owner =>
    refine go rfl ?_
    cases hv with
    | gpaOwner _ _ h =>
      obtain ⟨e, -⟩ := own h
      rw [e]
      obtain ⟨i, h1, h2⟩ := hf
      cases hb : s.byOwner.find (prefix4 owner) with
      | none => rw [hb] at h2; simp at h2
      | some is => exact ⟨is, rfl, i, by rw [hb] at h2; simpa using h2, h1⟩
  case indexMint =>
    cases hv with
    | gpaIndex _ _ h => have := (own h).2; cases this
  case index =>
    obtain ⟨is, h1, h⟩ := hp
    cases h1
    exact go rfl ⟨rfl, h⟩
  case indexNone =>
    obtain ⟨is, h1, h⟩ := hp
    cases h1
  case get is ts h =>
    obtain ⟨rfl, i, hi, hfi⟩ := hp
    cases hv with
    | gpaGet _ _ h' =>
      obtain ⟨rfl, -⟩ := own h'
      obtain ⟨t, h1, h2, h3⟩ := found_from hs hpk hfi
      obtain ⟨u, hu, h4⟩ := mapRun_mem h (TokenAccount.toBytes t) (List.mem_filterMap.2 ⟨i, (σ.set_mem _ _).2 hi, h1⟩)
      rw [fromBytes_toBytes h3.fits.1] at h4
      simp only [Run.ok.injEq] at h4
      subst h4
      have mem : ∀ (l : List TokenAccount) (slot : Nat), t ∈ l → Item.conv (.token t) slot 0 ∈ tokenItems slot l :=
        fun l slot h => List.mem_map.2 ⟨t, h, rfl⟩
      refine go rfl (.inr (.inr ⟨.token t, _, 0, mem _ _ (List.mem_filter.2 ⟨hu, ?_⟩),
        h3.solid fun b hb he => hn.open hb.submitted (he.trans (h2 ▸ rfl)), h2⟩))
      ·
        cases h3 with
        | token k1 k2 k3 k4 k5 k6 k7 => simpa using k6.owner.trans (hh _ _ _ k1.submitted (k7.symm.trans h2) k3 k4)
  case scanSlot j =>
    cases j with
    | one => exact hp.elim
    | overlay l => exact go rfl hp
  case scanConfirmed m j r h1 h2 =>
    cases j with
    | one => exact hp.elim
    | overlay l =>
      simp only [Scan.next, Run.ok.injEq] at h2
      cases hv with
      | scan hj hi => exact go h2.symm (scan_listing (c := .confirmed) hn hp (confirmed_ok hs (ans_nil _ _ _ _ _) (fun _ => hi) h1))
  case scanAgain m j r h1 =>
    cases j with
    | one => exact hp.elim
    | overlay l => exact go rfl hp
  case scanDone m j r h1 h2 =>
    cases j with
    | one => exact hp.elim
    | overlay l =>
      simp only [Scan.next, Run.ok.injEq] at h2
      exact go h2.symm (scan_listing hn hp (scan_ok hs _ (fun e he => by simpa using he) (ans_nil _ _ _ _ _) h1))
  case rescan m ret j r h1 h2 =>
    cases j with
    | one => exact hp.elim
    | overlay l =>
      simp only [Scan.next, Run.ok.injEq] at h2
      cases hv with
      | rescan hj hr => exact go h2.symm (scan_listing hn hp (confirmed_ok hs hr (by simp) h1))
  case convertEnd out j =>
    have hout : ∃ b ∈ out, b.pubkey = pk := by
      rcases hp with h | ⟨b, h, -⟩ | ⟨x, k, v, h, -⟩
      · exact h
      · simp at h
      · simp at h
    cases hv with
    | convert h1 h2 h3 =>
      cases j <;> try exact h1.elim
      · simp only [Job.next]
        split
        · exact ⟨by simp, by rintro l ⟨⟩; exact hout⟩
        · exact ⟨by rintro p' ⟨⟩; exact hout, by simp⟩
      · exact ⟨by simp [Job.next], by rintro l ⟨⟩; exact hout⟩
  case keep b l out j =>
    refine go rfl ?_
    rcases hp with ⟨b', h, h'⟩ | ⟨b', h, h'⟩ | ⟨x, k, v, h, h'⟩
    · exact .inl ⟨b', by simp [h], h'⟩
    · rcases List.mem_cons.1 h with h | h
      · cases h; exact .inl ⟨b, by simp, h'⟩
      · exact .inr (.inl ⟨b', h, h'⟩)
    · rcases List.mem_cons.1 h with h | h
      · cases h
      · exact .inr (.inr ⟨x, k, v, h, h'⟩)
  case conv y slot wv l out j r hr =>
    refine go rfl ?_
    rcases hp with ⟨b', h, h'⟩ | ⟨b', h, h'⟩ | ⟨x, k, v, h, h'⟩
    · exact .inl ⟨b', by simp [h], h'⟩
    · rcases List.mem_cons.1 h with h | h
      · cases h
      · exact .inr (.inl ⟨b', h, h'⟩)
    · rcases List.mem_cons.1 h with h | h
      · cases h
        obtain ⟨b, rfl, hb⟩ := h'.1 _ _ _ _ hr
        exact .inl ⟨b, by simp, hb.trans h'.2⟩
      · exact .inr (.inr ⟨x, k, v, h, h'⟩)
  all_goals exact hp.elim

/-! ## Executions -/

theorem installed_snoc {log : List (Nat × Event)} {t : Nat} {v : Event} {a : AccountData} (h : Installed (log ++ [(t, v)]) a) :
    Installed log a ∨ (v = .ret (.updated true) ∧ ∃ c, LastCall log t (.submit a c) ∧ (c = none ∨ c = some .finalized)) := by
  obtain ⟨pre, post, u, c, he, hk, hc⟩ := h
  rcases snoc_ret he with ⟨rfl, rfl, h⟩ | ⟨post', h⟩
  · exact .inr ⟨h, c, hk, hc⟩
  · exact .inl ⟨pre, post', u, c, h, hk, hc⟩

theorem Installed.mono {log log' : List (Nat × Event)} (h : log <+: log') {a : AccountData} (ha : Installed log a) : Installed log' a := by
  obtain ⟨l, rfl⟩ := h
  obtain ⟨pre, post, t, c, rfl, hk, hc⟩ := ha
  exact ⟨pre, post ++ l, t, c, by simp, hk, hc⟩

theorem Rested.mono {log log' : List (Nat × Event)} (h : log <+: log') {a : AccountData} (ha : Rested log a) : Rested log' a := by
  obtain ⟨l, rfl⟩ := h
  obtain ⟨pre, post, rfl, h⟩ := ha
  exact ⟨pre, post ++ l, by simp, h⟩

theorem rested_snoc {log : List (Nat × Event)} {e : Nat × Event} {a : AccountData} (h : Rested (log ++ [e]) a) :
    Rested log a ∨ (Installed (log ++ [e]) a ∧ ∀ t k, LastCall (log ++ [e]) t k → k.modifies = false) := by
  obtain ⟨pre, post, he, h⟩ := h
  rcases List.eq_nil_or_concat post with rfl | ⟨post', e', rfl⟩
  · rw [List.append_nil] at he
    subst he
    exact .inr h
  · have h6 : log ++ [e] = (pre ++ post') ++ [e'] := by simpa using he
    exact .inl ⟨pre, post', (List.append_inj' h6 rfl).1, h⟩

theorem NoneGone.anti {pk : Pubkey} {log log' : List (Nat × Event)} (h : log <+: log') (hn : NoneGone pk log') : NoneGone pk log :=
  fun b hb => hn b (hb.mono h)

theorem HeldOnlyBy.anti {X : Codecs} {pk o : Pubkey} {log log' : List (Nat × Event)} (h : log <+: log') (hn : HeldOnlyBy X pk o log') :
    HeldOnlyBy X pk o log := fun b bs sb hb => hn b bs sb (hb.mono h)

theorem step_prefix {E : Env} {w w' : World} (h : Step E w w') : w.log <+: w'.log := by
  rcases step_log h with e | ⟨x, e⟩
  · rw [e]
  · rw [e]; exact List.prefix_append _ _

/-- What holds of the account `a`. -/
structure Keeps (a : AccountData) (w : World) : Prop where
  away : ∀ t, Away a.pubkey (w.pc t)
  store : ∀ t c, LastCall w.log t (.submit a c) → c = none ∨ c = some .finalized →
    Storing a w.st.tokens (w.pc t) ∨ ∃ l, w.pc t = .loops l
  kept : Installed w.log a → ∃ i, FoundAt a.pubkey i w.st.tokens
  read : ∀ t c, Since w.log t (.get a.pubkey c) (Installed · a) → Reading (w.pc t)
  reads : ∀ pre post t c, w.log = pre ++ (t, .ret (.account none)) :: post → ¬ Since pre t (.get a.pubkey c) (Installed · a)

theorem keeps_step {E : Env} {w w' : World} (reach : Reachable E w) (hs : Step E w w')
    {g g' : List Pubkey} {a : AccountData} (hinv : InvAt E w g) (hinv' : InvAt E w' g') (hpk : a.pubkey ≠ Pubkey.default)
    (ht : IsToken E.codecs a) (hn : NoneGone a.pubkey w'.log) (hlen : w'.st.tokens.accounts.length ≤ 2 ^ 32) (hd : Keeps a w) :
    Keeps a w' := by
  have hnw := hn.anti (step_prefix hs)
  obtain ⟨N, -, hc, hst, hsv, -⟩ := hinv
  obtain ⟨N', -, hc', hst', -, -⟩ := hinv'
  have reads' : ∀ {x r}, (r = .account none → ∀ c, ¬ Since w.log x (.get a.pubkey c) (Installed · a)) →
      ∀ pre post t c, w.log ++ [(x, .ret r)] = pre ++ (t, .ret (.account none)) :: post →
        ¬ Since pre t (.get a.pubkey c) (Installed · a) := by
    intro x r h pre post t c he
    rcases snoc_ret he with ⟨rfl, rfl, h'⟩ | ⟨post', h'⟩
    · exact h (Event.ret.inj h') c
    · exact hd.reads pre post' t c h'
  -- the end of a call
  have ret : ∀ t s r, (∀ i, FoundAt a.pubkey i w.st.tokens → FoundAt a.pubkey i s.tokens) →
      (r = .updated true → ∀ c, LastCall w.log t (.submit a c) → c = none ∨ c = some .finalized → ∃ i, FoundAt a.pubkey i s.tokens) →
      (r = .account none → ∀ c, ¬ Since w.log t (.get a.pubkey c) (Installed · a)) →
      Keeps a { st := s, pc := upd w.pc t .idle, log := w.log ++ [(t, .ret r)] } := by
    intro t s r h1 h2 h3
    refine ⟨fun u => ?_, fun u c hu hcc => ?_, fun hi => ?_, fun u c hu => ?_, reads' h3⟩
    · show Away a.pubkey (upd w.pc t .idle u)
      by_cases e : u = t
      · subst e; rw [upd_self]; trivial
      · rw [upd_other e]; exact hd.away u
    · rcases lastCall_snoc.1 hu with ⟨-, h⟩ | ⟨hne, hu⟩
      · cases h
      · show Storing a s.tokens (upd w.pc t .idle u) ∨ ∃ l, upd w.pc t .idle u = .loops l
        rw [upd_other (Ne.symm hne)]
        exact (hd.store u c hu hcc).imp (Storing.mono h1) id
    · rcases installed_snoc hi with hi | ⟨h, c, hl, hcc⟩
      · obtain ⟨i, hi⟩ := hd.kept hi
        exact ⟨i, h1 i hi⟩
      · exact h2 (Event.ret.inj h) c hl hcc
    · rcases since_snoc hu with ⟨-, h, -⟩ | ⟨hne, hu⟩
      · cases h
      · show Reading (upd w.pc t .idle u)
        rw [upd_other (Ne.symm hne)]
        exact hd.read u c hu
  -- a step inside a call
  have go : ∀ t s p, (∀ i, FoundAt a.pubkey i w.st.tokens → FoundAt a.pubkey i s.tokens) → Away a.pubkey p →
      (∀ c, LastCall w.log t (.submit a c) → c = none ∨ c = some .finalized → Storing a s.tokens p ∨ ∃ l, p = .loops l) →
      (∀ c, Since w.log t (.get a.pubkey c) (Installed · a) → Reading p) →
      Keeps a { w with st := s, pc := upd w.pc t p } := by
    intro t s p h1 h2 h3 h4
    refine ⟨fun u => ?_, fun u c hu hcc => ?_, fun hi => ?_, fun u c hu => ?_, hd.reads⟩
    · show Away a.pubkey (upd w.pc t p u)
      by_cases e : u = t
      · subst e; rw [upd_self]; exact h2
      · rw [upd_other e]; exact hd.away u
    · show Storing a s.tokens (upd w.pc t p u) ∨ ∃ l, upd w.pc t p u = .loops l
      by_cases e : u = t
      · subst e; rw [upd_self]; exact h3 c hu hcc
      · rw [upd_other e]
        exact (hd.store u c hu hcc).imp (Storing.mono h1) id
    · obtain ⟨i, hi⟩ := hd.kept hi
      exact ⟨i, h1 i hi⟩
    · show Reading (upd w.pc t p u)
      by_cases e : u = t
      · subst e; rw [upd_self]; exact h4 c hu
      · rw [upd_other e]; exact hd.read u c hu
  cases hs with
  | work hwk =>
    obtain ⟨t, σ, hi, h⟩ := work_exec hwk
    obtain ⟨k, hk⟩ := (busy_iff reach t).1 (active_ne hi)
    have hv : Serves E.codecs w.log g w.st.tokens.accounts.length k (w.pc t) := by
      rcases hsv t k hk with h | ⟨l, h⟩
      · exact h
      · rw [h] at hi; exact hi.elim
    have storing : ∀ c, LastCall w.log t (.submit a c) → c = none ∨ c = some .finalized → Storing a w.st.tokens (w.pc t) := by
      intro c hl hcc
      rcases hd.store t c hl hcc with h | ⟨l, h⟩
      · exact h
      · rw [h] at hi; exact hi.elim
    have sub : ∀ c, LastCall w.log t (.submit a c) → Submitted w.log a := by
      intro c hl
      obtain ⟨u, hu⟩ := lastCall_mem hl
      exact ⟨u, c, hu⟩
    have serves : ∀ {k'}, LastCall w.log t k' → Serves E.codecs w.log g w.st.tokens.accounts.length k' (w.pc t) := by
      intro k' hl
      rw [lastCall_unique hl hk]; exact hv
    have rd : ∀ {c s nx}, (w.pc t).exec E σ w.st = .ok (s, nx) → Since w.log t (.get a.pubkey c) (Installed · a) →
        (∀ p', nx = .go p' → Reading p') ∧ nx ≠ .ret (.account none) := by
      intro c s nx he hsi
      obtain ⟨pre, hpre, hpi⟩ := hsi.prefix
      exact exec_reading hnw hpk hst (serves hsi.lastCall) (reading reach t _ hsi.lastCall rfl) (hd.kept (hpi.mono hpre))
        (hd.read t c hsi) he
    rcases h with ⟨s, p, he, rfl⟩ | ⟨s, r, he, rfl⟩ | ⟨-, rfl⟩ | ⟨-, l, rfl⟩
    · have ho := exec_out he
      exact go t s p (fun i => out_found (hd.away t) ho) (out_away hnw hv (hd.away t) ho p rfl)
        (fun c hl hcc => .inl ((out_storing hcc hnw ht (sub c hl) hst hst' (serves hl) (hd.away t) hlen (storing c hl hcc) ho).1 p rfl))
        fun c hsi => (rd he hsi).1 p rfl
    · have ho := exec_out he
      have hst'' : StoreOK E.codecs (w.log ++ [(t, .ret r)]) g' s := hst'
      refine ret t s r (fun i => out_found (hd.away t) ho) (fun e c hl hcc => ?_) fun e c hsi => ?_
      · exact (out_storing hcc hn ht ((sub c hl).mono (List.prefix_append _ _)) (hst.log (List.prefix_append _ _)) hst''
          ((serves hl).mono (List.prefix_append _ _) (List.prefix_refl _) (le_refl _)) (hd.away t) hlen (storing c hl hcc) ho).2
          (by rw [e])
      · exact (rd he hsi).2 (by rw [e])
    · exact ret t w.st .panicked (fun _ h => h) (by simp) (by simp)
    · exact go t w.st (.loops l) (fun _ h => h) trivial (fun _ _ _ => .inr ⟨l, rfl⟩) fun _ _ => trivial
  | call t k hidle =>
    refine ⟨fun u => ?_, fun u c hu hcc => ?_, fun hi => ?_, fun u c hu => ?_, fun pre post u c he => ?_⟩
    · show Away a.pubkey (upd w.pc t k.start u)
      by_cases e : u = t
      · subst e; rw [upd_self]
        cases k <;> simp only [Call.start] <;> try trivial
        split <;> trivial
      · rw [upd_other e]; exact hd.away u
    · show Storing a w.st.tokens (upd w.pc t k.start u) ∨ ∃ l, upd w.pc t k.start u = .loops l
      rcases lastCall_snoc.1 hu with ⟨rfl, h⟩ | ⟨hne, hu⟩
      · cases h; rw [upd_self]; exact .inl trivial
      · rw [upd_other (Ne.symm hne)]; exact hd.store u c hu hcc
    · rcases installed_snoc hi with hi | ⟨h, -⟩
      · exact hd.kept hi
      · cases h
    · show Reading (upd w.pc t k.start u)
      rcases since_snoc hu with ⟨rfl, h, -⟩ | ⟨hne, hu⟩
      · cases h; rw [upd_self]
        simp only [Call.start]; split <;> trivial
      · rw [upd_other (Ne.symm hne)]; exact hd.read u c hu
    · rcases snoc_ret he with ⟨-, -, h⟩ | ⟨post', h⟩
      · cases h
      · exact hd.reads pre post' u c h

theorem keeps_init (a : AccountData) : Keeps a World.init := by
  have nolast : ∀ t k, ¬ LastCall [] t k := by rintro t k ⟨pre, mid, h, -⟩; simp at h
  refine ⟨fun t => trivial, fun t c h => absurd h (nolast _ _), ?_, fun t c h => absurd h.lastCall (nolast _ _), ?_⟩
  · rintro ⟨pre, post, t, c, h, -⟩; simp [World.init] at h
  · intro pre post t c h; simp [World.init] at h

/-! ## The places in the index by owner -/

/-- A place is only found if it was found or is new. -/
theorem out_unfound {E : Env} {log : List (Nat × Event)} {g : List Pubkey} {σ : Orders} {s s' : TokenStore} {n : Nat} {k : Call} {p : Pc}
    {pk owner : Pubkey} (hpk : pk ≠ Pubkey.default) (hh : HeldOnlyBy E.codecs pk owner log) (hs : StoreOK E.codecs log g s)
    (hv : Serves E.codecs log g n k p) (ha : Away pk p) (hlen : s'.tokens.accounts.length ≤ 2 ^ 32) {nx : Next}
    (ho : Out E σ s p s' nx) {i : Nat} (hf : FoundAt pk i s'.tokens) :
    FoundAt pk i s.tokens ∨ ∃ x f, nx = .go (.pushMint x i f) ∧ x.owner = owner := by
  cases ho
  case saveNew t f j T h =>
    rcases (save_found hs h hlen).2 pk i hf with h1 | ⟨-, rfl, h1⟩
    · exact .inl h1
    · refine .inr ⟨t, f, rfl, ?_⟩
      cases hv with
      | save h' _ =>
        cases h' with
        | token k1 k2 k3 k4 k5 k6 k7 => exact k6.owner.trans (hh _ _ _ k1.submitted (k7.symm.trans h1) k3 k4)
  case saveOld t f j T h =>
    rcases (save_found hs h hlen).2 pk i hf with h1 | ⟨h1, -⟩
    · exact .inl h1
    · cases h1
  case dropBucket q f is hi =>
    obtain ⟨is', t, h1, h2⟩ := hf
    have ha : prefix4 q ≠ prefix4 pk := ha
    exact .inl ⟨is', t, by simpa [AMap.find_erase, ha] using h1, h2⟩
  case entomb q is f j hj =>
    obtain ⟨is', t, h1, h2, h3, h4⟩ := hf
    refine .inl ⟨is', t, h1, h2, ?_, h4⟩
    by_cases e : j = i
    · subst e
      obtain ⟨-, b, hb, -⟩ := firstMatch_some hj
      simp only at h3
      rw [List.getElem?_set_self (List.getElem?_eq_some_iff.1 hb).1] at h3
      simp only [Option.some.injEq] at h3
      have h5 := congrArg getPubkeyFromBinary h3
      rw [getPubkey_toBytes, getPubkey_toBytes] at h5
      simp only [Run.ok.injEq] at h5
      exact absurd (h4.symm.trans h5.symm) hpk
    · simp only at h3
      rwa [List.getElem?_set_ne e] at h3
  all_goals exact .inl hf

theorem mem_push {m : AMap Bytes (List Nat)} {p q : Bytes} {i j : Nat} (h : i ∈ (m.find p).getD []) :
    i ∈ ((TokenStore.push m q j).find p).getD [] := by
  rw [find_push]
  split
  · rename_i e; subst e; simp [h]
  · exact h

/-- Nothing is taken from the index by owner. -/
theorem out_byOwner {E : Env} {σ : Orders} {s s' : TokenStore} {p : Pc} {nx : Next} (ho : Out E σ s p s' nx) {q : Bytes} {i : Nat}
    (h : i ∈ (s.byOwner.find q).getD []) : i ∈ (s'.byOwner.find q).getD [] := by
  cases ho
  case pushOwner => exact mem_push h
  all_goals exact h

/-- The thread is going to put place `i` into the index by owner. -/
def Putting (owner : Pubkey) (i : Nat) (p : Pc) : Prop := ∃ x f, (p = .pushMint x i f ∨ p = .pushOwner x i f) ∧ x.owner = owner

theorem out_putting {E : Env} {σ : Orders} {s s' : TokenStore} {p : Pc} {nx : Next} {owner : Pubkey} {i : Nat} (hp : Putting owner i p)
    (ho : Out E σ s p s' nx) : (∃ p', nx = .go p' ∧ Putting owner i p') ∨ i ∈ (s'.byOwner.find (prefix4 owner)).getD [] := by
  obtain ⟨x, f, rfl | rfl, h⟩ := hp
  · cases ho
    exact .inl ⟨_, rfl, x, f, .inr rfl, h⟩
  · cases ho
    refine .inr ?_
    show i ∈ ((TokenStore.push s.byOwner (prefix4 x.owner) i).find (prefix4 owner)).getD []
    rw [find_push, h]
    simp

/-- What holds of the places of the account `a` of `owner`. -/
structure Lists (a : AccountData) (owner : Pubkey) (w : World) : Prop where
  listed : ∀ i, FoundAt a.pubkey i w.st.tokens → i ∈ (w.st.byOwner.find (prefix4 owner)).getD [] ∨ ∃ t, Putting owner i (w.pc t)
  rested : Rested w.log a → ∃ i, FoundAt a.pubkey i w.st.tokens ∧ i ∈ (w.st.byOwner.find (prefix4 owner)).getD []
  query : ∀ t program fs c, Since w.log t (.gpa program (some fs) c) (Rested · a) → AsksOwner program fs owner →
    (∀ m, ¬ AsksMint program fs m) → Listing a.pubkey w.st (w.pc t)
  queries : ∀ pre post t program fs c l, w.log = pre ++ (t, .ret (.accounts (.ok l))) :: post →
    Since pre t (.gpa program (some fs) c) (Rested · a) → AsksOwner program fs owner → (∀ m, ¬ AsksMint program fs m) →
    ∃ b ∈ l, b.pubkey = a.pubkey

theorem lists_step {E : Env} {w w' : World} (reach : Reachable E w) (hs : Step E w w')
    {g : List Pubkey} {a : AccountData} {owner : Pubkey} (hinv : InvAt E w g) (hpk : a.pubkey ≠ Pubkey.default)
    (hn : NoneGone a.pubkey w'.log) (hh : HeldOnlyBy E.codecs a.pubkey owner w'.log) (hlen : w'.st.tokens.accounts.length ≤ 2 ^ 32)
    (hkp : Keeps a w) (hkp' : Keeps a w') (hd : Lists a owner w) : Lists a owner w' := by
  have hnw := hn.anti (step_prefix hs)
  have hhw := hh.anti (step_prefix hs)
  have reach' : Reachable E w' := .tail reach hs
  obtain ⟨N, -, hc, hst, hsv, -⟩ := hinv
  -- at a moment without writing calls every place is in the index
  have quiet : ∀ {v : World}, Reachable E v → (Installed v.log a → ∃ i, FoundAt a.pubkey i v.st.tokens) →
      (∀ i, FoundAt a.pubkey i v.st.tokens → i ∈ (v.st.byOwner.find (prefix4 owner)).getD [] ∨ ∃ t, Putting owner i (v.pc t)) →
      Installed v.log a → (∀ t k, LastCall v.log t k → k.modifies = false) →
      ∃ i, FoundAt a.pubkey i v.st.tokens ∧ i ∈ (v.st.byOwner.find (prefix4 owner)).getD [] := by
    intro v hr h1 h2 h3 h4
    obtain ⟨i, hi⟩ := h1 h3
    refine ⟨i, hi, (h2 i hi).resolve_right ?_⟩
    rintro ⟨t, x, f, hp, -⟩
    obtain ⟨k, hk⟩ := (busy_iff hr t).1 (by rcases hp with e | e <;> rw [e] <;> simp)
    have := reading hr t k hk (h4 t k hk)
    rcases hp with e | e <;> rw [e] at this <;> cases this
  have queries' : ∀ {x r}, (∀ l, r = .accounts (.ok l) → ∀ program fs c, Since w.log x (.gpa program (some fs) c) (Rested · a) →
      AsksOwner program fs owner → (∀ m, ¬ AsksMint program fs m) → ∃ b ∈ l, b.pubkey = a.pubkey) →
      ∀ pre post t program fs c l, w.log ++ [(x, .ret r)] = pre ++ (t, .ret (.accounts (.ok l))) :: post →
        Since pre t (.gpa program (some fs) c) (Rested · a) → AsksOwner program fs owner → (∀ m, ¬ AsksMint program fs m) →
        ∃ b ∈ l, b.pubkey = a.pubkey := by
    intro x r h pre post t program fs c l he
    rcases snoc_ret he with ⟨rfl, rfl, h'⟩ | ⟨post', h'⟩
    · exact h l (Event.ret.inj h') program fs c
    · exact hd.queries pre post' t program fs c l h'
  -- the end of a call
  have ret : ∀ t s r, Reachable E { st := s, pc := upd w.pc t .idle, log := w.log ++ [(t, .ret r)] } →
      Keeps a { st := s, pc := upd w.pc t .idle, log := w.log ++ [(t, .ret r)] } →
      (∀ i, FoundAt a.pubkey i w.st.tokens → FoundAt a.pubkey i s.tokens) →
      (∀ i, FoundAt a.pubkey i s.tokens → FoundAt a.pubkey i w.st.tokens) →
      (∀ q i, i ∈ (w.st.byOwner.find q).getD [] → i ∈ (s.byOwner.find q).getD []) →
      (∀ i, Putting owner i (w.pc t) → i ∈ (s.byOwner.find (prefix4 owner)).getD []) →
      (∀ l, r = .accounts (.ok l) → ∀ program fs c, Since w.log t (.gpa program (some fs) c) (Rested · a) →
        AsksOwner program fs owner → (∀ m, ¬ AsksMint program fs m) → ∃ b ∈ l, b.pubkey = a.pubkey) →
      Lists a owner { st := s, pc := upd w.pc t .idle, log := w.log ++ [(t, .ret r)] } := by
    intro t s r hr hk h1 h2 h3 h4 h5
    have listed : ∀ i, FoundAt a.pubkey i s.tokens → i ∈ (s.byOwner.find (prefix4 owner)).getD [] ∨
        ∃ u, Putting owner i (upd w.pc t .idle u) := by
      intro i hi
      rcases hd.listed i (h2 i hi) with h | ⟨u, hu⟩
      · exact .inl (h3 _ _ h)
      · by_cases e : u = t
        · subst e; exact .inl (h4 i hu)
        · exact .inr ⟨u, by rw [upd_other e]; exact hu⟩
    refine ⟨listed, fun hi => ?_, fun u program fs c hu ha hm => ?_, queries' h5⟩
    · rcases rested_snoc hi with hi | ⟨hi, hq⟩
      · obtain ⟨i, hi, hi'⟩ := hd.rested hi
        exact ⟨i, h1 i hi, h3 _ _ hi'⟩
      · exact quiet hr hk.kept listed hi hq
    · rcases since_snoc hu with ⟨-, h, -⟩ | ⟨hne, hu⟩
      · cases h
      · show Listing a.pubkey s (upd w.pc t .idle u)
        rw [upd_other (Ne.symm hne)]
        exact (hd.query u program fs c hu ha hm).mono h1
  -- a step inside a call
  have go : ∀ t s p, (∀ i, FoundAt a.pubkey i w.st.tokens → FoundAt a.pubkey i s.tokens) →
      (∀ i, FoundAt a.pubkey i s.tokens → FoundAt a.pubkey i w.st.tokens ∨ Putting owner i p) →
      (∀ q i, i ∈ (w.st.byOwner.find q).getD [] → i ∈ (s.byOwner.find q).getD []) →
      (∀ i, Putting owner i (w.pc t) → Putting owner i p ∨ i ∈ (s.byOwner.find (prefix4 owner)).getD []) →
      (∀ program fs c, Since w.log t (.gpa program (some fs) c) (Rested · a) →
        AsksOwner program fs owner → (∀ m, ¬ AsksMint program fs m) → Listing a.pubkey s p) →
      Lists a owner { w with st := s, pc := upd w.pc t p } := by
    intro t s p h1 h2 h3 h4 h5
    refine ⟨fun i hi => ?_, fun hi => ?_, fun u program fs c hu ha hm => ?_, hd.queries⟩
    · rcases h2 i hi with h | h
      · rcases hd.listed i h with h | ⟨u, hu⟩
        · exact .inl (h3 _ _ h)
        · by_cases e : u = t
          · subst e
            rcases h4 i hu with h | h
            · exact .inr ⟨u, by simp only [upd_self]; exact h⟩
            · exact .inl h
          · exact .inr ⟨u, by simp only [upd_other e]; exact hu⟩
      · exact .inr ⟨t, by simp only [upd_self]; exact h⟩
    · obtain ⟨i, hi, hi'⟩ := hd.rested hi
      exact ⟨i, h1 i hi, h3 _ _ hi'⟩
    · show Listing a.pubkey s (upd w.pc t p u)
      by_cases e : u = t
      · subst e; rw [upd_self]; exact h5 program fs c hu ha hm
      · rw [upd_other e]; exact (hd.query u program fs c hu ha hm).mono h1
  have noPut : ∀ {t σ i}, Putting owner i (w.pc t) → ∃ r, (w.pc t).exec E σ w.st = .ok r := by
    rintro t σ i ⟨x, f, e | e, -⟩ <;> rw [e] <;> exact ⟨_, rfl⟩
  cases hs with
  | work hwk =>
    obtain ⟨t, σ, hi, h⟩ := work_exec hwk
    obtain ⟨k, hk⟩ := (busy_iff reach t).1 (active_ne hi)
    have hv : Serves E.codecs w.log g w.st.tokens.accounts.length k (w.pc t) := by
      rcases hsv t k hk with h | ⟨l, h⟩
      · exact h
      · rw [h] at hi; exact hi.elim
    have ls : ∀ {program fs c s nx}, Out E σ w.st (w.pc t) s nx → Since w.log t (.gpa program (some fs) c) (Rested · a) →
        AsksOwner program fs owner → (∀ m, ¬ AsksMint program fs m) →
        (∀ p', nx = .go p' → Listing a.pubkey w.st p') ∧ ∀ l, nx = .ret (.accounts (.ok l)) → ∃ b ∈ l, b.pubkey = a.pubkey := by
      intro program fs c s nx ho hsi ha hm
      obtain ⟨pre, hpre, hpi⟩ := hsi.prefix
      have hv' : Serves E.codecs w.log g w.st.tokens.accounts.length (.gpa program (some fs) c) (w.pc t) := by
        rw [lastCall_unique hsi.lastCall hk]; exact hv
      exact out_listing hnw hpk hhw hst ha hm hv' (hd.rested (hpi.mono hpre)) (hd.query t program fs c hsi ha hm) ho
    rcases h with ⟨s, p, he, rfl⟩ | ⟨s, r, he, rfl⟩ | ⟨he, rfl⟩ | ⟨he, l, rfl⟩
    · have ho := exec_out he
      refine go t s p (fun i => out_found (hkp.away t) ho) (fun i hf => ?_) (fun q i => out_byOwner ho) (fun i hp => ?_)
        fun program fs c hsi ha hm => ((ls ho hsi ha hm).1 p rfl).mono fun i => out_found (hkp.away t) ho
      · rcases out_unfound hpk hhw hst hv (hkp.away t) hlen ho hf with h | ⟨x, f, h, hx⟩
        · exact .inl h
        · exact .inr ⟨x, f, .inl (Next.go.inj h), hx⟩
      · rcases out_putting hp ho with ⟨p', h, hp'⟩ | h
        · cases h; exact .inl hp'
        · exact .inr h
    · have ho := exec_out he
      refine ret t s r reach' hkp' (fun i => out_found (hkp.away t) ho) (fun i hf => ?_) (fun q i => out_byOwner ho) (fun i hp => ?_)
        fun l e program fs c hsi ha hm => (ls ho hsi ha hm).2 l (by rw [e])
      · rcases out_unfound hpk hhw hst hv (hkp.away t) hlen ho hf with h | ⟨x, f, h, hx⟩
        · exact h
        · cases h
      · rcases out_putting hp ho with ⟨p', h, hp'⟩ | h
        · cases h
        · exact h
    · refine ret t w.st .panicked reach' hkp' (fun _ h => h) (fun _ h => h) (fun _ _ h => h) (fun i hp => ?_) (by simp)
      obtain ⟨r, hr⟩ := noPut (σ := σ) hp
      rw [he] at hr; cases hr
    · refine go t w.st (.loops l) (fun _ h => h) (fun _ h => .inl h) (fun _ _ h => h) (fun i hp => ?_) fun _ _ _ _ _ _ => trivial
      obtain ⟨r, hr⟩ := noPut (σ := σ) hp
      rw [he] at hr; cases hr
  | call t k hidle =>
    have listed : ∀ i, FoundAt a.pubkey i w.st.tokens → i ∈ (w.st.byOwner.find (prefix4 owner)).getD [] ∨
        ∃ u, Putting owner i (upd w.pc t k.start u) := by
      intro i hi
      rcases hd.listed i hi with h | ⟨u, hu⟩
      · exact .inl h
      · refine .inr ⟨u, ?_⟩
        by_cases e : u = t
        · subst e
          obtain ⟨x, f, e | e, -⟩ := hu <;> rw [e] at hidle <;> cases hidle
        · rw [upd_other e]; exact hu
    refine ⟨listed, fun hi => ?_, fun u program fs c hu ha hm => ?_, fun pre post u program fs c l he => ?_⟩
    · rcases rested_snoc hi with hi | ⟨hi, hq⟩
      · exact hd.rested hi
      · exact quiet reach' hkp'.kept listed hi hq
    · show Listing a.pubkey w.st (upd w.pc t k.start u)
      rcases since_snoc hu with ⟨rfl, h, -⟩ | ⟨hne, hu⟩
      · cases h; rw [upd_self]; trivial
      · rw [upd_other (Ne.symm hne)]; exact hd.query u program fs c hu ha hm
    · rcases snoc_ret he with ⟨-, -, h⟩ | ⟨post', h⟩
      · cases h
      · exact hd.queries pre post' u program fs c l h

theorem lists_init (a : AccountData) (owner : Pubkey) : Lists a owner World.init := by
  have nolast : ∀ t k, ¬ LastCall [] t k := by rintro t k ⟨pre, mid, h, -⟩; simp at h
  refine ⟨?_, ?_, fun t _ _ c h => absurd h.lastCall (nolast _ _), ?_⟩
  · rintro i ⟨is, t, h, -⟩; simp [World.init, TokenStore.empty, TokenStorage.empty] at h
  · rintro ⟨pre, post, h, ⟨pre', post', t, c, h', -⟩, -⟩
    have h : pre = [] := by simp only [World.init] at h; simpa using (List.append_eq_nil_iff.1 h.symm).1
    subst h; simp at h'
  · intro pre post t _ _ c _ h; simp [World.init] at h

/-- The number of token accounts never goes down. -/
theorem step_length {E : Env} {w w' : World} (reach : Reachable E w) (hs : Step E w w') :
    w.st.tokens.accounts.length ≤ w'.st.tokens.accounts.length := by
  cases hs with
  | work hw =>
    obtain ⟨t, σ, -, ⟨s, p, he, rfl⟩ | ⟨s, r, he, rfl⟩ | ⟨-, rfl⟩ | ⟨-, l, rfl⟩⟩ := work_exec hw
    · exact (out_tokens (exec_out he) (placed reach).1).2.1
    · exact (out_tokens (exec_out he) (placed reach).1).2.1
    · exact le_refl _
    · exact le_refl _
  | call t k => exact le_refl _

/-- The invariants. -/
theorem keeps_lists {E : Env} {a : AccountData} (hpk : a.pubkey ≠ Pubkey.default) (ht : IsToken E.codecs a) {w : World}
    (reach : Reachable E w) (hb : submits w.log ≤ 2 ^ 31) (hlen : w.st.tokens.accounts.length ≤ 2 ^ 32)
    (hn : NoneGone a.pubkey w.log) : Keeps a w ∧ ∀ owner, HeldOnlyBy E.codecs a.pubkey owner w.log → Lists a owner w := by
  suffices h : ∃ g, InvAt E w g ∧ Keeps a w ∧ ∀ owner, HeldOnlyBy E.codecs a.pubkey owner w.log → Lists a owner w from
    h.elim fun _ h => h.2
  induction reach with
  | refl => exact ⟨[], inv_init E, keeps_init a, fun owner _ => lists_init a owner⟩
  | @tail w w' hw hs ih =>
    obtain ⟨g, h1, h2, h3⟩ := ih (Nat.le_trans (step_submits hs) hb) (Nat.le_trans (step_length hw hs) hlen) (hn.anti (step_prefix hs))
    obtain ⟨g', -, h4⟩ := inv_step hw hs hb h1
    have h5 := keeps_step hw hs h1 h4 hpk ht hn hlen h2
    exact ⟨g', h4, h5, fun owner hh =>
      lists_step hw hs h1 hpk hn hh hlen h2 h5 (h3 owner (hh.anti (step_prefix hs)))⟩

end LAM.TokConc
