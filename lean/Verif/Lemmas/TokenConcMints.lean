import Verif.Lemmas.TokenConcKeeps
import Verif.Spec.TokenConcMints
/-!
# Concurrent calls of the token program store: finalized mints that are not closed are found
-/
namespace LAM.TokConc
open Token Run Spec ProcStore
open Spl (tokenId token2022Id)

/-! ## The place of a mint -/

/-- The mint `pk` has an index, and a state. -/
def MintAt (pk : Pubkey) (s : TokenStore) : Prop := ∃ i m, s.table.index.find pk = some i ∧ s.mints.find i = some m

theorem NeverGone.open {pk : Pubkey} {log : List (Nat × Event)} (h : NeverGone pk log) {b : AccountData} (hb : Submitted log b)
    (hp : b.pubkey = pk) : ∃ p, TokenProgramOwned b p := by
  by_contra hn
  exact h b hb hp fun p hq => hn ⟨p, hq⟩

theorem NeverGone.anti {pk : Pubkey} {log log' : List (Nat × Event)} (h : log <+: log') (hn : NeverGone pk log') : NeverGone pk log :=
  fun b hb => hn b (hb.mono h)

/-- The thread does not remove the mint `pk`. -/
def Apart (pk : Pubkey) (g : List Pubkey) : Pc → Prop
  | .eraseMint i _ => ∃ q, q ≠ pk ∧ Issued g i q
  | .again q _ => q ≠ pk
  | _ => True

theorem Apart.mono {pk : Pubkey} {g g' : List Pubkey} (h : g <+: g') {p : Pc} (hp : Apart pk g p) : Apart pk g' p := by
  cases p <;> try trivial
  · obtain ⟨q, h1, h2⟩ := hp
    exact ⟨q, h1, h2.mono h⟩

theorem From.other {X : Codecs} {log : List (Nat × Event)} {g : List Pubkey} {pk q : Pubkey} (hn : NeverGone pk log)
    (h : From X g (Settled log) (.deleted q)) : q ≠ pk := by
  rintro rfl
  cases h with
  | deleted h1 h2 =>
    obtain ⟨p, hp⟩ := hn.open h1.submitted rfl
    exact h2 p hp

theorem out_apart {E : Env} {log : List (Nat × Event)} {g : List Pubkey} {σ : Orders} {s s' : TokenStore} {n : Nat} {k : Call} {p : Pc}
    {pk : Pubkey} (hn : NeverGone pk log) (hs : StoreOK E.codecs log g s) (hv : Serves E.codecs log g n k p) {nx : Next}
    (ho : Out E σ s p s' nx) : ∀ p', nx = .go p' → Apart pk g p' := by
  cases ho
  case addDeleted q f hq =>
    rintro p' ⟨⟩
    cases hv with
    | add h1 h2 => exact h1.other hn
  case addDeletedMint q f i hq =>
    rintro p' ⟨⟩
    cases hv with
    | add h1 h2 => exact ⟨q, h1.other hn, hs.table.index _ _ hq⟩
  all_goals
    intro p' hn
    first
    | (cases hn; done)
    | (cases hn; trivial)
    | (obtain ⟨x, k'', h⟩ := after_next hn; subst h; trivial)
    | (rcases job_next hn with ⟨x, k'', h⟩ | ⟨x, k'', h⟩ <;> subst h <;> trivial)
    | (rename_i hj; rcases scan_next hj with ⟨l, out, j, h⟩ | ⟨pk, h⟩ <;> rw [h] at hn <;> cases hn <;> trivial)

theorem getOrCreate_found {T : MintTable} {pk mint : Pubkey} {i : Nat} (h : T.index.find pk = some i) :
    (T.getOrCreate mint).2.index.find pk = some i := by
  unfold MintTable.getOrCreate
  cases hf : T.index.find mint with
  | some j => exact h
  | none =>
    simp only [AMap.find_insert]
    split
    · rename_i e; subst e; rw [h] at hf; cases hf
    · exact h

theorem classify_find {X : Codecs} {T T' : MintTable} {a : AccountData} {x : Option ProgramAccount}
    (h : Token.classify X T a = .ok (x, T')) {pk : Pubkey} {i : Nat} (hf : T.index.find pk = some i) : T'.index.find pk = some i := by
  cases x with
  | none => rw [classify_none h]; exact hf
  | some x =>
    rcases (classify_some h).2.1 with ⟨rfl, -⟩ | ⟨t, mint, -, rfl, -⟩
    · exact hf
    · exact getOrCreate_found hf

/-- The index of a mint only changes if the mint is stored again. -/
theorem out_index {E : Env} {log : List (Nat × Event)} {g : List Pubkey} {σ : Orders} {s s' : TokenStore} {n : Nat} {k : Call} {p : Pc}
    {pk : Pubkey} (hn : NeverGone pk log) (hv : Serves E.codecs log g n k p) (ha : Apart pk g p) {nx : Next} (ho : Out E σ s p s' nx)
    {i : Nat} (hf : s.table.index.find pk = some i) : s'.table.index.find pk = some i ∨ MintAt pk s' := by
  cases ho
  case classifyN h => exact .inl (classify_find h hf)
  case classifyI h _ => exact .inl (classify_find h hf)
  case classifyA h _ => exact .inl (classify_find h hf)
  case addDeletedMint q f j hq =>
    cases hv with
    | add h1 h2 => exact .inl (by simp [AMap.find_erase, h1.other hn, hf])
  case againMint q f j hq =>
    have ha : q ≠ pk := ha
    exact .inl (by simp [AMap.find_erase, ha, hf])
  case putMintNew m j f =>
    by_cases e : m.pubkey = pk
    · exact .inr ⟨j, m, by simp [AMap.find_insert, e], by simp [AMap.find_insert]⟩
    · exact .inl (by simp [AMap.find_insert, e, hf])
  all_goals exact .inl hf

/-- The state of a mint is not removed. -/
theorem out_mints {E : Env} {g : List Pubkey} (hg : g.length ≤ 2 ^ 32) {σ : Orders} {s s' : TokenStore} {p : Pc} {pk : Pubkey}
    (ha : Apart pk g p) {nx : Next} (ho : Out E σ s p s' nx) {i : Nat} (hi : Issued g i pk) {m : MintAccount}
    (h2 : s.mints.find i = some m) : ∃ m', s'.mints.find i = some m' := by
  cases ho
  case putMint m' j f => simp only [AMap.find_insert]; split <;> [exact ⟨_, rfl⟩; exact ⟨m, h2⟩]
  case putMintNew m' j f => simp only [AMap.find_insert]; split <;> [exact ⟨_, rfl⟩; exact ⟨m, h2⟩]
  case eraseMint j f =>
    obtain ⟨q, h3, h4⟩ := ha
    have : j ≠ i := by
      rintro rfl
      exact h3 (h4.unique hg hi)
    exact ⟨m, by simp [AMap.find_erase, this, h2]⟩
  all_goals exact ⟨m, h2⟩

theorem out_mintAt {E : Env} {log : List (Nat × Event)} {g : List Pubkey} (hg : g.length ≤ 2 ^ 32) {σ : Orders} {s s' : TokenStore}
    {n : Nat} {k : Call} {p : Pc} {pk : Pubkey} (hn : NeverGone pk log) (hs : StoreOK E.codecs log g s) (hv : Serves E.codecs log g n k p)
    (ha : Apart pk g p) {nx : Next} (ho : Out E σ s p s' nx) (hf : MintAt pk s) : MintAt pk s' := by
  obtain ⟨i, m, h1, h2⟩ := hf
  rcases out_index hn hv ha ho h1 with h | h
  · obtain ⟨m', h3⟩ := out_mints hg ha ho (hs.table.index _ _ h1) h2
    exact ⟨i, m', h, h3⟩
  · exact h

/-! ## Storing the mint -/

/-- A thread that stores the finalized mint `a`. -/
def Minting (a : AccountData) (s : TokenStore) : Pc → Prop
  | .chkIndex .. | .chkMultisig .. | .chkBucket .. | .chkAccounts .. | .classify .. => True
  | .add x _ => (∃ m, x = .mint m ∧ m.pubkey = a.pubkey) ∨ MintAt a.pubkey s
  | .putMint m i new _ => (m.pubkey = a.pubkey ∧ (new = true ∨ s.table.index.find a.pubkey = some i)) ∨ MintAt a.pubkey s
  | _ => MintAt a.pubkey s

theorem Minting.of {a : AccountData} {s : TokenStore} (h : MintAt a.pubkey s) (p : Pc) : Minting a s p := by
  cases p <;> first | trivial | exact h | exact .inr h

/-- The step of another thread. -/
theorem Minting.mono {a : AccountData} {s s' : TokenStore} (h : MintAt a.pubkey s → MintAt a.pubkey s')
    (h' : ∀ i, s.table.index.find a.pubkey = some i → s'.table.index.find a.pubkey = some i ∨ MintAt a.pubkey s') {p : Pc}
    (hp : Minting a s p) : Minting a s' p := by
  cases p
  case putMint m i new f =>
    rcases hp with ⟨h1, h2 | h2⟩ | h1
    · exact .inl ⟨h1, .inl h2⟩
    · rcases h' i h2 with h3 | h3
      · exact .inl ⟨h1, .inr h3⟩
      · exact .inr h3
    · exact .inr (h h1)
  all_goals first | trivial | exact h hp | exact Or.imp id h hp

theorem classify_mint {X : Codecs} {g : List Pubkey} {T T' : MintTable} (hT : TableOK g T') {a : AccountData} {x : ProgramAccount}
    (h : Token.classify X T a = .ok (some x, T')) (ht : IsMint X a) (ho : ∃ p, TokenProgramOwned a p) :
    ∃ m, x = .mint m ∧ m.pubkey = a.pubkey := by
  obtain ⟨bs, sa, hd, hl⟩ := ht
  obtain ⟨p, hp⟩ := ho
  cases classify_stored hT h (S := (· = a)) rfl with
  | token h1 h2 h3 h4 =>
    subst h1; rw [hd] at h3; cases h3
    have := hl.length; have := h4.length; omega
  | mint h1 h2 h3 h4 h5 h6 => subst h1; exact ⟨_, rfl, h6⟩
  | multisig h1 h2 h3 h4 =>
    subst h1; rw [hd] at h3; cases h3
    have := hl.length; have := h4.length; omega
  | deleted h1 h2 => subst h1; exact absurd hp (h2 p)

theorem out_minting {E : Env} {log : List (Nat × Event)} {g g' : List Pubkey} (hg : g.length ≤ 2 ^ 32) {σ : Orders} {s s' : TokenStore}
    {n : Nat} {p : Pc} {a : AccountData} {c : Option Commitment} (hc : c = none ∨ c = some .finalized) (hn : NeverGone a.pubkey log)
    (ht : IsMint E.codecs a) (ha : Submitted log a) (hs : StoreOK E.codecs log g s) (hs' : StoreOK E.codecs log g' s')
    (hv : Serves E.codecs log g n (.submit a c) p) (hw : Apart a.pubkey g p)
    (hp : Minting a s p) {nx : Next} (ho : Out E σ s p s' nx) :
    (∀ p', nx = .go p' → Minting a s' p') ∧ (nx = .ret (.updated true) → MintAt a.pubkey s') := by
  have found : MintAt a.pubkey s → MintAt a.pubkey s' := out_mintAt hg hn hs hv hw ho
  have all : MintAt a.pubkey s' → (∀ p', nx = .go p' → Minting a s' p') ∧
      (nx = .ret (.updated true) → MintAt a.pubkey s') := fun h => ⟨fun p' _ => .of h p', fun _ => h⟩
  have ret : nx = .ret (.updated false) → (∀ p', nx = .go p' → Minting a s' p') ∧
      (nx = .ret (.updated true) → MintAt a.pubkey s') := by rintro rfl; exact ⟨by simp, by simp⟩
  cases ho
  case chkIndex => exact ⟨by rintro p' ⟨⟩; trivial, by simp⟩
  case chkIndexT => exact ⟨by rintro p' ⟨⟩; trivial, by simp⟩
  case chkMultisig => exact ⟨by rintro p' ⟨⟩; trivial, by simp⟩
  case chkMultisigT => exact ⟨by rintro p' ⟨⟩; trivial, by simp⟩
  case chkBucket => exact ⟨by rintro p' ⟨⟩; trivial, by simp⟩
  case chkBucketT => exact ⟨by rintro p' ⟨⟩; trivial, by simp⟩
  case chkAccountsT => exact ⟨by rintro p' ⟨⟩; trivial, by simp⟩
  case chkBucketF => exact ret rfl
  case chkAccountsF => exact ret rfl
  case classifyN => exact ret rfl
  case classifyI x T h h' => cases hv; rcases hc with rfl | rfl <;> simp at h'
  case classifyA x T h h' =>
    cases hv
    refine ⟨?_, by simp⟩
    rintro p' ⟨⟩
    exact .inl (classify_mint hs'.table h ht (hn.open ha rfl))
  case addMint m f i h =>
    rcases hp with ⟨m', h1, h2⟩ | h1
    · cases h1
      exact ⟨by rintro p' ⟨⟩; exact .inl ⟨h2, .inr (h2 ▸ h)⟩, by simp⟩
    · exact all (found h1)
  case addMintNew m f h =>
    rcases hp with ⟨m', h1, h2⟩ | h1
    · cases h1
      exact ⟨by rintro p' ⟨⟩; exact .inl ⟨h2, .inl rfl⟩, by simp⟩
    · exact all (found h1)
  case putMint m i f =>
    rcases hp with ⟨h1, h2⟩ | h1
    · exact all ⟨i, m, h2.resolve_left (by simp), by simp [AMap.find_insert]⟩
    · exact all (found h1)
  case putMintNew m i f =>
    rcases hp with ⟨h1, h2⟩ | h1
    · exact all ⟨i, m, by simp [AMap.find_insert, h1], by simp [AMap.find_insert]⟩
    · exact all (found h1)
  case addToken => rcases hp with ⟨t', h1, -⟩ | h1; (· cases h1); exact all (found h1)
  case addMultisig => rcases hp with ⟨t', h1, -⟩ | h1; (· cases h1); exact all (found h1)
  case addDeletedMint => rcases hp with ⟨t', h1, -⟩ | h1; (· cases h1); exact all (found h1)
  case addDeleted => rcases hp with ⟨t', h1, -⟩ | h1; (· cases h1); exact all (found h1)
  all_goals exact all (found hp)

/-! ## Reading the mint -/

/-- A read of a mint that is found. -/
def ReadingMint : Pc → Prop
  | .finBucket _ | .finAccounts _ | .finSlot _ => False
  | .convert items out .one => items ≠ [] ∨ out ≠ []
  | _ => True

theorem From.solid' {X : Codecs} {g : List Pubkey} {S : AccountData → Prop} {x : ProgramAccount} (h : From X g S x)
    (hS : ∀ b, S b → b.pubkey = x.pubkey → ∃ p, TokenProgramOwned b p) : Solid x := by
  cases x with
  | deleted q =>
    cases h with
    | deleted h1 h2 =>
      obtain ⟨p, hp⟩ := hS _ h1 rfl
      exact absurd hp (h2 p)
  | token t =>
    intro M slot wv r hr
    have := h.fits.2
    simp only [ProgramAccount.toSolana, tokenToSolana, this, Bool.false_eq_true, if_false, Run.bind_eq_ok, Run.pure_eq, Run.ok.injEq] at hr
    obtain ⟨_, -, hr⟩ := hr
    exact ⟨_, hr.symm, rfl⟩
  | mint m => intro M slot wv r hr; simp [ProgramAccount.toSolana] at hr; exact ⟨_, hr.symm, rfl⟩
  | multisig m pk =>
    intro M slot wv r hr
    simp only [ProgramAccount.toSolana, multisigToSolana, Run.bind_eq_ok, Run.pure_eq, Run.ok.injEq] at hr
    obtain ⟨_, ⟨_, -, rfl⟩, hr⟩ := hr
    exact ⟨_, hr.symm, rfl⟩

theorem ConvOK.solid' {X : Codecs} {log : List (Nat × Event)} {g : List Pubkey} {c : Commitment} {x : ProgramAccount} {slot : Nat}
    (h : ConvOK X log g c x slot) (hn : NeverGone x.pubkey log) : Solid x := by
  rcases h with ⟨h, -⟩ | ⟨-, h, -⟩
  · exact h.solid' fun b hb he => hn.open hb.submitted he
  · exact h.solid' fun b hb he => hn.open hb.1.submitted he

theorem scan_readingMint {X : Codecs} {log : List (Nat × Event)} {pk : Pubkey} {c c' : Commitment} {j : Scan}
    (hj : ScanOK X log (.get pk c) c' j)
    {r : Answers} {nx : Next} (h : j.next r = .ok nx) : (∀ p', nx = .go p' → ReadingMint p') ∧ nx ≠ .ret (.account none) := by
  cases j with
  | overlay l => exact hj.elim
  | one pk' =>
    simp only [Scan.next, Run.bind_eq_ok] at h
    obtain ⟨o, -, h⟩ := h
    split at h <;> simp only [Run.pure_eq, Run.ok.injEq] at h <;> subst h
    · exact ⟨by rintro p' ⟨⟩; exact .inl (by simp), by simp⟩
    · exact ⟨by rintro p' ⟨⟩; trivial, by simp⟩

theorem exec_readingMint {E : Env} {log : List (Nat × Event)} {g : List Pubkey} {σ : Orders} {s s' : TokenStore} {n : Nat} {p : Pc}
    {pk : Pubkey} {c : Commitment} (hn : NeverGone pk log)
    (hv : Serves E.codecs log g n (.get pk c) p) (hm : p.modifies = false) (hf : MintAt pk s) (hp : ReadingMint p)
    {nx : Next} (ho : Out E σ s p s' nx) : (∀ p', nx = .go p' → ReadingMint p') ∧ nx ≠ .ret (.account none) := by
  obtain ⟨i, m, hf, -⟩ := hf
  cases ho
  case finIndexN h => cases hv; rw [hf] at h; cases h
  case finBucket => exact hp.elim
  case finBucketN => exact hp.elim
  case finAccounts => exact hp.elim
  case finAccountsN => exact hp.elim
  case finSlot => exact hp.elim
  case scanConfirmed h1 h2 => cases hv with | scan hj => exact scan_readingMint hj h2
  case scanDone h1 h2 => cases hv with | scan hj => exact scan_readingMint hj h2
  case rescan h1 h2 => cases hv with | rescan hj => exact scan_readingMint hj h2
  case convertEnd out j =>
    cases hv with
    | convert h1 h2 h3 =>
      cases j <;> try exact h1.elim
      have hp : out ≠ [] := hp.resolve_left (by simp)
      cases out with
      | nil => exact absurd rfl hp
      | cons b out => exact ⟨by simp [Job.next], by simp [Job.next]⟩
  case keep j =>
    refine ⟨?_, by simp⟩
    rintro p' ⟨⟩
    cases j <;> first | trivial | exact .inr (by simp)
  case conv x slot wv l out j r hr =>
    refine ⟨?_, by simp⟩
    rintro p' ⟨⟩
    cases hv with
    | convert h1 h2 h3 =>
      cases j <;> try exact h1.elim
      have h4 : ConvOK E.codecs log g c x slot ∧ x.pubkey = pk := h2 (.conv x slot wv) (by simp)
      obtain ⟨b, rfl, -⟩ := h4.1.solid' (h4.2 ▸ hn) _ _ _ _ hr
      exact .inr (by simp)
  all_goals first
    | exact ⟨by rintro p' ⟨⟩; trivial, by simp⟩
    | (cases hm; done)
    | exact ⟨by simp, by simp⟩

/-- A finalized read of a mint that is found. -/
def FinalRead (s : TokenStore) : Pc → Prop
  | .finMultisig _ | .finMultisigSlot .. | .finIndex _ | .finMintSlot .. | .loops _ => True
  | .finMint _ i => ∃ m, s.mints.find i = some m
  | _ => False

theorem exec_final {E : Env} {log : List (Nat × Event)} {g : List Pubkey} {σ : Orders} {s : TokenStore} {n : Nat} {p : Pc}
    {pk : Pubkey} {c : Commitment} (hv : Serves E.codecs log g n (.get pk c) p) (hf : MintAt pk s) (hp : FinalRead s p) :
    p.exec E σ s ≠ .panic ∧ (∀ s' p', p.exec E σ s = .ok (s', .go p') → FinalRead s' p') ∧
      ∀ s' r, p.exec E σ s = .ok (s', .ret r) → ∃ b, r = .account (some b) := by
  obtain ⟨i, m, hf, hm⟩ := hf
  cases p <;> try exact hp.elim
  case finMultisig q =>
    simp only [Pc.exec]
    split <;> exact ⟨by simp, by rintro s' p' ⟨⟩; trivial, by rintro s' r ⟨⟩⟩
  case finMultisigSlot q ms =>
    cases hv with
    | finMultisigSlot h =>
      obtain ⟨b, h, -⟩ := multisig_back h s.finalizedSlot 0
      simp only [Pc.exec, h, Run.ok_bind]
      exact ⟨by simp, by rintro s' p' ⟨⟩, by rintro s' r ⟨⟩; exact ⟨b, rfl⟩⟩
  case finIndex q =>
    have e : q = pk := by cases hv; rfl
    subst e
    simp only [Pc.exec, hf]
    exact ⟨by simp, by rintro s' p' ⟨⟩; exact ⟨m, hm⟩, by rintro s' r ⟨⟩⟩
  case finMint q j =>
    obtain ⟨m', h⟩ := hp
    simp only [Pc.exec, h, Run.unwrap, Run.ok_bind]
    exact ⟨by simp, by rintro s' p' ⟨⟩; trivial, by rintro s' r ⟨⟩⟩
  case finMintSlot q j m' => exact ⟨by simp [Pc.exec], by rintro s' p' ⟨⟩, by rintro s' r ⟨⟩; exact ⟨_, rfl⟩⟩
  case loops l => cases hv

/-! ## Executions -/

/-- What holds of the mint `a`. -/
structure KeepsMint (a : AccountData) (w : World) (g : List Pubkey) : Prop where
  apart : ∀ t, Apart a.pubkey g (w.pc t)
  store : ∀ t c, LastCall w.log t (.submit a c) → c = none ∨ c = some .finalized →
    Minting a w.st (w.pc t) ∨ ∃ l, w.pc t = .loops l
  kept : Installed w.log a → MintAt a.pubkey w.st
  read : ∀ t c, Since w.log t (.get a.pubkey c) (Installed · a) → ReadingMint (w.pc t)
  reads : ∀ pre post t c, w.log = pre ++ (t, .ret (.account none)) :: post → ¬ Since pre t (.get a.pubkey c) (Installed · a)
  final : ∀ t, Since w.log t (.get a.pubkey .finalized) (Installed · a) → FinalRead w.st (w.pc t)
  finals : ∀ pre post t r, w.log = pre ++ (t, .ret r) :: post → Since pre t (.get a.pubkey .finalized) (Installed · a) →
    ∃ b, r = .account (some b)

theorem keepsMint_step {E : Env} {w w' : World} (reach : Reachable E w) (hs : Step E w w') (hb : submits w'.log ≤ 2 ^ 31)
    {g g' : List Pubkey} (hgg : g <+: g') {a : AccountData} (hinv : InvAt E w g) (hinv' : InvAt E w' g')
    (ht : IsMint E.codecs a) (hn : NeverGone a.pubkey w'.log) (hd : KeepsMint a w g) : KeepsMint a w' g' := by
  have hnw := hn.anti (step_prefix hs)
  obtain ⟨N, -, hc, hst, hsv, -⟩ := hinv
  obtain ⟨N', -, hc', hst', -, -⟩ := hinv'
  have hg : g.length ≤ 2 ^ 32 := by
    have := Nat.le_trans (step_submits hs) hb
    omega
  have reads' : ∀ {x r}, (r = .account none → ∀ c, ¬ Since w.log x (.get a.pubkey c) (Installed · a)) →
      ∀ pre post t c, w.log ++ [(x, .ret r)] = pre ++ (t, .ret (.account none)) :: post →
        ¬ Since pre t (.get a.pubkey c) (Installed · a) := by
    intro x r h pre post t c he
    rcases snoc_ret he with ⟨rfl, rfl, h'⟩ | ⟨post', h'⟩
    · exact h (Event.ret.inj h') c
    · exact hd.reads pre post' t c h'
  have finals' : ∀ {x r}, (Since w.log x (.get a.pubkey .finalized) (Installed · a) → ∃ b, r = .account (some b)) →
      ∀ pre post t r', w.log ++ [(x, .ret r)] = pre ++ (t, .ret r') :: post →
        Since pre t (.get a.pubkey .finalized) (Installed · a) → ∃ b, r' = .account (some b) := by
    intro x r h pre post t r' he
    rcases snoc_ret he with ⟨rfl, rfl, h'⟩ | ⟨post', h'⟩
    · exact Event.ret.inj h' ▸ h
    · exact hd.finals pre post' t r' h'
  have final' : ∀ {s}, (∀ i m, Issued g i a.pubkey → w.st.mints.find i = some m → ∃ m', s.mints.find i = some m') →
      ∀ u, Since w.log u (.get a.pubkey .finalized) (Installed · a) → FinalRead s (w.pc u) := by
    intro s h u hu
    have h1 := hd.final u hu
    have h2 := hsv u _ hu.lastCall
    cases hp : w.pc u <;> rw [hp] at h1 h2 <;> try exact h1
    obtain ⟨m, hm⟩ := h1
    rcases h2 with h2 | ⟨l, h2⟩
    · cases h2 with | finMint h2 => exact h _ m h2 hm
    · cases h2
  -- the end of a call
  have ret : ∀ t s r, (∀ i m, Issued g i a.pubkey → w.st.mints.find i = some m → ∃ m', s.mints.find i = some m') →
      (Since w.log t (.get a.pubkey .finalized) (Installed · a) → ∃ b, r = .account (some b)) → (MintAt a.pubkey w.st → MintAt a.pubkey s) →
      (∀ i, w.st.table.index.find a.pubkey = some i → s.table.index.find a.pubkey = some i ∨ MintAt a.pubkey s) →
      (r = .updated true → ∀ c, LastCall w.log t (.submit a c) → c = none ∨ c = some .finalized → MintAt a.pubkey s) →
      (r = .account none → ∀ c, ¬ Since w.log t (.get a.pubkey c) (Installed · a)) →
      KeepsMint a { st := s, pc := upd w.pc t .idle, log := w.log ++ [(t, .ret r)] } g' := by
    intro t s r hm hf h1 h1' h2 h3
    refine ⟨fun u => ?_, fun u c hu hcc => ?_, fun hi => ?_, fun u c hu => ?_, reads' h3, fun u hu => ?_, finals' hf⟩
    · show Apart a.pubkey g' (upd w.pc t .idle u)
      by_cases e : u = t
      · subst e; rw [upd_self]; trivial
      · rw [upd_other e]; exact (hd.apart u).mono hgg
    · rcases lastCall_snoc.1 hu with ⟨-, h⟩ | ⟨hne, hu⟩
      · cases h
      · show Minting a s (upd w.pc t .idle u) ∨ ∃ l, upd w.pc t .idle u = .loops l
        rw [upd_other (Ne.symm hne)]
        exact (hd.store u c hu hcc).imp (Minting.mono h1 h1') id
    · rcases installed_snoc hi with hi | ⟨h, c, hl, hcc⟩
      · exact h1 (hd.kept hi)
      · exact h2 (Event.ret.inj h) c hl hcc
    · rcases since_snoc hu with ⟨-, h, -⟩ | ⟨hne, hu⟩
      · cases h
      · show ReadingMint (upd w.pc t .idle u)
        rw [upd_other (Ne.symm hne)]
        exact hd.read u c hu
    · rcases since_snoc hu with ⟨-, h, -⟩ | ⟨hne, hu⟩
      · cases h
      · show FinalRead s (upd w.pc t .idle u)
        rw [upd_other (Ne.symm hne)]
        exact final' hm u hu
  -- a step inside a call
  have go : ∀ t s p, (∀ i m, Issued g i a.pubkey → w.st.mints.find i = some m → ∃ m', s.mints.find i = some m') →
      (Since w.log t (.get a.pubkey .finalized) (Installed · a) → FinalRead s p) → (MintAt a.pubkey w.st → MintAt a.pubkey s) →
      (∀ i, w.st.table.index.find a.pubkey = some i → s.table.index.find a.pubkey = some i ∨ MintAt a.pubkey s) → Apart a.pubkey g p →
      (∀ c, LastCall w.log t (.submit a c) → c = none ∨ c = some .finalized → Minting a s p ∨ ∃ l, p = .loops l) →
      (∀ c, Since w.log t (.get a.pubkey c) (Installed · a) → ReadingMint p) →
      KeepsMint a { w with st := s, pc := upd w.pc t p } g' := by
    intro t s p hm hf h1 h1' h2 h3 h4
    refine ⟨fun u => ?_, fun u c hu hcc => ?_, fun hi => ?_, fun u c hu => ?_, hd.reads, fun u hu => ?_, hd.finals⟩
    · show Apart a.pubkey g' (upd w.pc t p u)
      by_cases e : u = t
      · subst e; rw [upd_self]; exact h2.mono hgg
      · rw [upd_other e]; exact (hd.apart u).mono hgg
    · show Minting a s (upd w.pc t p u) ∨ ∃ l, upd w.pc t p u = .loops l
      by_cases e : u = t
      · subst e; rw [upd_self]; exact h3 c hu hcc
      · rw [upd_other e]
        exact (hd.store u c hu hcc).imp (Minting.mono h1 h1') id
    · exact h1 (hd.kept hi)
    · show ReadingMint (upd w.pc t p u)
      by_cases e : u = t
      · subst e; rw [upd_self]; exact h4 c hu
      · rw [upd_other e]; exact hd.read u c hu
    · show FinalRead s (upd w.pc t p u)
      by_cases e : u = t
      · subst e; rw [upd_self]; exact hf hu
      · rw [upd_other e]; exact final' hm u hu
  cases hs with
  | work hwk =>
    obtain ⟨t, σ, hi, h⟩ := work_exec hwk
    obtain ⟨k, hk⟩ := (busy_iff reach t).1 (active_ne hi)
    have hv : Serves E.codecs w.log g w.st.tokens.accounts.length k (w.pc t) := by
      rcases hsv t k hk with h | ⟨l, h⟩
      · exact h
      · rw [h] at hi; exact hi.elim
    have minting : ∀ c, LastCall w.log t (.submit a c) → c = none ∨ c = some .finalized → Minting a w.st (w.pc t) := by
      intro c hl hcc
      rcases hd.store t c hl hcc with h | ⟨l, h⟩
      · exact h
      · rw [h] at hi; exact hi.elim
    have sub : ∀ c, LastCall w.log t (.submit a c) → Submitted w.log a := by
      intro c hl
      obtain ⟨u, hu⟩ := lastCall_mem hl
      exact ⟨u, c, hu⟩
    have serves : ∀ {k'}, LastCall w.log t k' → Serves E.codecs w.log g w.st.tokens.accounts.length k' (w.pc t) := by
      intro k' hl
      rw [lastCall_unique hl hk]; exact hv
    have rd : ∀ {c s nx}, Out E σ w.st (w.pc t) s nx → Since w.log t (.get a.pubkey c) (Installed · a) →
        (∀ p', nx = .go p' → ReadingMint p') ∧ nx ≠ .ret (.account none) := by
      intro c s nx ho hsi
      obtain ⟨pre, hpre, hpi⟩ := hsi.prefix
      exact exec_readingMint hnw (serves hsi.lastCall) (reading reach t _ hsi.lastCall rfl) (hd.kept (hpi.mono hpre))
        (hd.read t c hsi) ho
    have fin : Since w.log t (.get a.pubkey .finalized) (Installed · a) →
        (w.pc t).exec E σ w.st ≠ .panic ∧ (∀ s' p', (w.pc t).exec E σ w.st = .ok (s', .go p') → FinalRead s' p') ∧
          ∀ s' r, (w.pc t).exec E σ w.st = .ok (s', .ret r) → ∃ b, r = .account (some b) := by
      intro hsi
      obtain ⟨pre, hpre, hpi⟩ := hsi.prefix
      exact exec_final (serves hsi.lastCall) (hd.kept (hpi.mono hpre)) (hd.final t hsi)
    rcases h with ⟨s, p, he, rfl⟩ | ⟨s, r, he, rfl⟩ | ⟨he, rfl⟩ | ⟨-, l, rfl⟩
    · have ho := exec_out he
      exact go t s p (fun i m hi hm => out_mints hg (hd.apart t) ho hi hm) (fun hsi => (fin hsi).2.1 s p he) (out_mintAt hg hnw hst hv (hd.apart t) ho) (fun i => out_index hnw hv (hd.apart t) ho) (out_apart hnw hst hv ho p rfl)
        (fun c hl hcc => .inl ((out_minting hg hcc hnw ht (sub c hl) hst hst' (serves hl) (hd.apart t) (minting c hl hcc) ho).1 p rfl))
        fun c hsi => (rd ho hsi).1 p rfl
    · have ho := exec_out he
      have hst'' : StoreOK E.codecs (w.log ++ [(t, .ret r)]) g' s := hst'
      refine ret t s r (fun i m hi hm => out_mints hg (hd.apart t) ho hi hm) (fun hsi => (fin hsi).2.2 s r he) (out_mintAt hg hnw hst hv (hd.apart t) ho) (fun i => out_index hnw hv (hd.apart t) ho) (fun e c hl hcc => ?_)
        fun e c hsi => (rd ho hsi).2 (by rw [e])
      exact (out_minting hg hcc hn ht ((sub c hl).mono (List.prefix_append _ _)) (hst.log (List.prefix_append _ _)) hst''
        ((serves hl).mono (List.prefix_append _ _) (List.prefix_refl _) (le_refl _)) (hd.apart t) (minting c hl hcc) ho).2 (by rw [e])
    · exact ret t w.st .panicked (fun i m _ h => ⟨m, h⟩) (fun hsi => absurd he (fin hsi).1) id (fun _ h => .inl h) (by simp) (by simp)
    · exact go t w.st (.loops l) (fun i m _ h => ⟨m, h⟩) (fun _ => trivial) id (fun _ h => .inl h) trivial (fun _ _ _ => .inr ⟨l, rfl⟩) fun _ _ => trivial
  | call t k hidle =>
    refine ⟨fun u => ?_, fun u c hu hcc => ?_, fun hi => ?_, fun u c hu => ?_, fun pre post u c he => ?_, fun u hu => ?_, fun pre post u r he => ?_⟩
    · show Apart a.pubkey g' (upd w.pc t k.start u)
      by_cases e : u = t
      · subst e; rw [upd_self]
        cases k <;> simp only [Call.start] <;> try trivial
        split <;> trivial
      · rw [upd_other e]; exact (hd.apart u).mono hgg
    · show Minting a w.st (upd w.pc t k.start u) ∨ ∃ l, upd w.pc t k.start u = .loops l
      rcases lastCall_snoc.1 hu with ⟨rfl, h⟩ | ⟨hne, hu⟩
      · cases h; rw [upd_self]; exact .inl trivial
      · rw [upd_other (Ne.symm hne)]; exact hd.store u c hu hcc
    · rcases installed_snoc hi with hi | ⟨h, -⟩
      · exact hd.kept hi
      · cases h
    · show ReadingMint (upd w.pc t k.start u)
      rcases since_snoc hu with ⟨rfl, h, -⟩ | ⟨hne, hu⟩
      · cases h; rw [upd_self]
        simp only [Call.start]; split <;> trivial
      · rw [upd_other (Ne.symm hne)]; exact hd.read u c hu
    · rcases snoc_ret he with ⟨-, -, h⟩ | ⟨post', h⟩
      · cases h
      · exact hd.reads pre post' u c h
    · show FinalRead w.st (upd w.pc t k.start u)
      rcases since_snoc hu with ⟨rfl, h, -⟩ | ⟨hne, hu⟩
      · cases h; rw [upd_self]; trivial
      · rw [upd_other (Ne.symm hne)]; exact hd.final u hu
    · rcases snoc_ret he with ⟨-, -, h⟩ | ⟨post', h⟩
      · cases h
      · exact hd.finals pre post' u r h

theorem keepsMint_init (a : AccountData) : KeepsMint a World.init [] := by
  have nolast : ∀ t k, ¬ LastCall [] t k := by rintro t k ⟨pre, mid, h, -⟩; simp at h
  refine ⟨fun t => trivial, fun t c h => absurd h (nolast _ _), ?_, fun t c h => absurd h.lastCall (nolast _ _), ?_,
    fun t h => absurd h.lastCall (nolast _ _), ?_⟩
  · rintro ⟨pre, post, t, c, h, -⟩; simp [World.init] at h
  · intro pre post t c h; simp [World.init] at h
  · intro pre post t r h; simp [World.init] at h

/-- The invariant. -/
theorem keepsMint {E : Env} {a : AccountData} (ht : IsMint E.codecs a) {w : World} (reach : Reachable E w) (hb : submits w.log ≤ 2 ^ 31)
    (hn : NeverGone a.pubkey w.log) : ∃ g, InvAt E w g ∧ KeepsMint a w g := by
  induction reach with
  | refl => exact ⟨[], inv_init E, keepsMint_init a⟩
  | @tail w w' hw hs ih =>
    obtain ⟨g, h1, h2⟩ := ih (Nat.le_trans (step_submits hs) hb) (hn.anti (step_prefix hs))
    obtain ⟨g', h3, h4⟩ := inv_step hw hs hb h1
    exact ⟨g', h4, keepsMint_step hw hs hb h3 h1 h4 ht hn h2⟩

end LAM.TokConc
