import Verif.Lemmas.TokenConcMints
import Verif.Spec.TokenConcMultisigs
/-!
# Concurrent calls of the token program store: finalized multisigs are found
-/
namespace LAM.TokConc
open Token Run Spec ProcStore
open Spl (tokenId token2022Id)

/-- A multisig `pk` is stored. -/
def SignersAt (pk : Pubkey) (s : TokenStore) : Prop := ∃ m, s.multisigs.find pk = some m

/-- No step removes a multisig. -/
theorem out_signers {E : Env} {σ : Orders} {s s' : TokenStore} {p : Pc} {pk : Pubkey} {nx : Next} (ho : Out E σ s p s' nx)
    (hf : SignersAt pk s) : SignersAt pk s' := by
  obtain ⟨m, hf⟩ := hf
  cases ho
  case addMultisig m' q f =>
    by_cases e : q = pk
    · exact ⟨m', by simp [AMap.find_insert, e]⟩
    · exact ⟨m, by simp [AMap.find_insert, e, hf]⟩
  all_goals exact ⟨m, hf⟩

/-! ## Storing the multisig -/

/-- A thread that stores the finalized multisig `a`. -/
def Signing (a : AccountData) (s : TokenStore) : Pc → Prop
  | .chkIndex .. | .chkMultisig .. | .chkBucket .. | .chkAccounts .. | .classify .. => True
  | .add x _ => (∃ m, x = .multisig m a.pubkey) ∨ SignersAt a.pubkey s
  | _ => SignersAt a.pubkey s

theorem Signing.of {a : AccountData} {s : TokenStore} (h : SignersAt a.pubkey s) (p : Pc) : Signing a s p := by
  cases p <;> first | trivial | exact h | exact .inr h

theorem Signing.mono {a : AccountData} {s s' : TokenStore} (h : SignersAt a.pubkey s → SignersAt a.pubkey s') {p : Pc}
    (hp : Signing a s p) : Signing a s' p := by
  cases p <;> first | trivial | exact h hp | exact Or.imp id h hp

theorem classify_multisig {X : Codecs} {g : List Pubkey} {T T' : MintTable} (hT : TableOK g T') {a : AccountData} {x : ProgramAccount}
    (h : Token.classify X T a = .ok (some x, T')) (ht : IsMultisig X a) (ho : ∃ p, TokenProgramOwned a p) :
    ∃ m, x = .multisig m a.pubkey := by
  obtain ⟨bs, sa, hd, hl⟩ := ht
  obtain ⟨p, hp⟩ := ho
  cases classify_stored hT h (S := (· = a)) rfl with
  | token h1 h2 h3 h4 =>
    subst h1; rw [hd] at h3; cases h3
    have := hl.length; have := h4.length; omega
  | mint h1 h2 h3 h4 h5 h6 =>
    subst h1; rw [hd] at h3; cases h3
    have := hl.length; have := h4.length; omega
  | multisig h1 h2 h3 h4 => subst h1; exact ⟨_, rfl⟩
  | deleted h1 h2 => subst h1; exact absurd hp (h2 p)

theorem out_signing {E : Env} {log : List (Nat × Event)} {g g' : List Pubkey} {σ : Orders} {s s' : TokenStore}
    {n : Nat} {p : Pc} {a : AccountData} {c : Option Commitment} (hc : c = none ∨ c = some .finalized)
    (hn : ∃ p, TokenProgramOwned a p) (ht : IsMultisig E.codecs a) (hs' : StoreOK E.codecs log g' s')
    (hv : Serves E.codecs log g n (.submit a c) p) (hp : Signing a s p) {nx : Next} (ho : Out E σ s p s' nx) :
    (∀ p', nx = .go p' → Signing a s' p') ∧ (nx = .ret (.updated true) → SignersAt a.pubkey s') := by
  have found : SignersAt a.pubkey s → SignersAt a.pubkey s' := out_signers ho
  have all : SignersAt a.pubkey s' → (∀ p', nx = .go p' → Signing a s' p') ∧
      (nx = .ret (.updated true) → SignersAt a.pubkey s') := fun h => ⟨fun p' _ => .of h p', fun _ => h⟩
  have ret : nx = .ret (.updated false) → (∀ p', nx = .go p' → Signing a s' p') ∧
      (nx = .ret (.updated true) → SignersAt a.pubkey s') := by rintro rfl; exact ⟨by simp, by simp⟩
  cases ho
  case chkIndex => exact ⟨by rintro p' ⟨⟩; trivial, by simp⟩
  case chkIndexT => exact ⟨by rintro p' ⟨⟩; trivial, by simp⟩
  case chkMultisig => exact ⟨by rintro p' ⟨⟩; trivial, by simp⟩
  case chkMultisigT => exact ⟨by rintro p' ⟨⟩; trivial, by simp⟩
  case chkBucket => exact ⟨by rintro p' ⟨⟩; trivial, by simp⟩
  case chkBucketT => exact ⟨by rintro p' ⟨⟩; trivial, by simp⟩
  case chkAccountsT => exact ⟨by rintro p' ⟨⟩; trivial, by simp⟩
  case chkBucketF => exact ret rfl
  case chkAccountsF => exact ret rfl
  case classifyN => exact ret rfl
  case classifyI x T h h' => cases hv; rcases hc with rfl | rfl <;> simp at h'
  case classifyA x T h h' =>
    cases hv
    exact ⟨by rintro p' ⟨⟩; exact .inl (classify_multisig hs'.table h ht hn), by simp⟩
  case addMultisig m q f =>
    rcases hp with ⟨m', h1⟩ | h1
    · cases h1; exact all ⟨m, by simp [AMap.find_insert]⟩
    · exact all (found h1)
  case addToken => rcases hp with ⟨t', h1⟩ | h1; (· cases h1); exact all (found h1)
  case addMint => rcases hp with ⟨t', h1⟩ | h1; (· cases h1); exact all (found h1)
  case addMintNew => rcases hp with ⟨t', h1⟩ | h1; (· cases h1); exact all (found h1)
  case addDeletedMint => rcases hp with ⟨t', h1⟩ | h1; (· cases h1); exact all (found h1)
  case addDeleted => rcases hp with ⟨t', h1⟩ | h1; (· cases h1); exact all (found h1)
  all_goals exact all (found hp)

/-! ## Reading the multisig -/

/-- A read of a multisig that is found. -/
def ReadingSigners : Pc → Prop
  | .finIndex _ | .finMint .. | .finMintSlot .. | .finBucket _ | .finAccounts _ | .finSlot _ => False
  | .convert items out .one => items ≠ [] ∨ out ≠ []
  | _ => True

theorem scan_readingSigners {X : Codecs} {log : List (Nat × Event)} {pk : Pubkey} {c c' : Commitment} {j : Scan}
    (hj : ScanOK X log (.get pk c) c' j)
    {r : Answers} {nx : Next} (h : j.next r = .ok nx) : (∀ p', nx = .go p' → ReadingSigners p') ∧ nx ≠ .ret (.account none) := by
  cases j with
  | overlay l => exact hj.elim
  | one pk' =>
    simp only [Scan.next, Run.bind_eq_ok] at h
    obtain ⟨o, -, h⟩ := h
    split at h <;> simp only [Run.pure_eq, Run.ok.injEq] at h <;> subst h
    · exact ⟨by rintro p' ⟨⟩; exact .inl (by simp), by simp⟩
    · exact ⟨by rintro p' ⟨⟩; trivial, by simp⟩

theorem exec_readingSigners {E : Env} {log : List (Nat × Event)} {g : List Pubkey} {σ : Orders} {s s' : TokenStore} {n : Nat} {p : Pc}
    {pk : Pubkey} {c : Commitment} (hn : NeverGone pk log)
    (hv : Serves E.codecs log g n (.get pk c) p) (hm : p.modifies = false) (hf : SignersAt pk s) (hp : ReadingSigners p)
    {nx : Next} (ho : Out E σ s p s' nx) : (∀ p', nx = .go p' → ReadingSigners p') ∧ nx ≠ .ret (.account none) := by
  obtain ⟨m, hf⟩ := hf
  cases ho
  case finMultisigN h => cases hv; rw [hf] at h; cases h
  case finIndex => exact hp.elim
  case finIndexN => exact hp.elim
  case finMint => exact hp.elim
  case finMintSlot => exact hp.elim
  case finBucket => exact hp.elim
  case finBucketN => exact hp.elim
  case finAccounts => exact hp.elim
  case finAccountsN => exact hp.elim
  case finSlot => exact hp.elim
  case scanConfirmed h1 h2 => cases hv with | scan hj => exact scan_readingSigners hj h2
  case scanDone h1 h2 => cases hv with | scan hj => exact scan_readingSigners hj h2
  case rescan h1 h2 => cases hv with | rescan hj => exact scan_readingSigners hj h2
  case convertEnd out j =>
    cases hv with
    | convert h1 h2 h3 =>
      cases j <;> try exact h1.elim
      have hp : out ≠ [] := hp.resolve_left (by simp)
      cases out with
      | nil => exact absurd rfl hp
      | cons b out => exact ⟨by simp [Job.next], by simp [Job.next]⟩
  case keep j =>
    refine ⟨?_, by simp⟩
    rintro p' ⟨⟩
    cases j <;> first | trivial | exact .inr (by simp)
  case conv x slot wv l out j r hr =>
    refine ⟨?_, by simp⟩
    rintro p' ⟨⟩
    cases hv with
    | convert h1 h2 h3 =>
      cases j <;> try exact h1.elim
      have h4 : ConvOK E.codecs log g c x slot ∧ x.pubkey = pk := h2 (.conv x slot wv) (by simp)
      obtain ⟨b, rfl, -⟩ := h4.1.solid' (h4.2 ▸ hn) _ _ _ _ hr
      exact .inr (by simp)
  all_goals first
    | exact ⟨by rintro p' ⟨⟩; trivial, by simp⟩
    | (cases hm; done)
    | exact ⟨by simp, by simp⟩

/-- A finalized read of a multisig that is found. -/
def FinalSigners : Pc → Prop
  | .finMultisig _ | .finMultisigSlot .. | .loops _ => True
  | _ => False

theorem exec_finalSigners {E : Env} {log : List (Nat × Event)} {g : List Pubkey} {σ : Orders} {s : TokenStore} {n : Nat} {p : Pc}
    {pk : Pubkey} {c : Commitment} (hv : Serves E.codecs log g n (.get pk c) p) (hf : SignersAt pk s) (hp : FinalSigners p) :
    p.exec E σ s ≠ .panic ∧ (∀ s' p', p.exec E σ s = .ok (s', .go p') → FinalSigners p') ∧
      ∀ s' r, p.exec E σ s = .ok (s', .ret r) → ∃ b, r = .account (some b) := by
  obtain ⟨m, hf⟩ := hf
  cases p <;> try exact hp.elim
  case finMultisig q =>
    have e : q = pk := by cases hv; rfl
    subst e
    simp only [Pc.exec, hf]
    exact ⟨by simp, by rintro s' p' ⟨⟩; trivial, by rintro s' r ⟨⟩⟩
  case finMultisigSlot q ms =>
    cases hv with
    | finMultisigSlot h =>
      obtain ⟨b, h, -⟩ := multisig_back h s.finalizedSlot 0
      simp only [Pc.exec, h, Run.ok_bind]
      exact ⟨by simp, by rintro s' p' ⟨⟩, by rintro s' r ⟨⟩; exact ⟨b, rfl⟩⟩
  case loops l => cases hv

/-! ## Executions -/

/-- What holds of the multisig `a`. -/
structure KeepsSigners (a : AccountData) (w : World) : Prop where
  store : ∀ t c, LastCall w.log t (.submit a c) → c = none ∨ c = some .finalized →
    Signing a w.st (w.pc t) ∨ ∃ l, w.pc t = .loops l
  kept : Installed w.log a → SignersAt a.pubkey w.st
  read : NeverGone a.pubkey w.log → ∀ t c, Since w.log t (.get a.pubkey c) (Installed · a) → ReadingSigners (w.pc t)
  reads : NeverGone a.pubkey w.log → ∀ pre post t c, w.log = pre ++ (t, .ret (.account none)) :: post →
    ¬ Since pre t (.get a.pubkey c) (Installed · a)
  final : ∀ t, Since w.log t (.get a.pubkey .finalized) (Installed · a) → FinalSigners (w.pc t)
  finals : ∀ pre post t r, w.log = pre ++ (t, .ret r) :: post → Since pre t (.get a.pubkey .finalized) (Installed · a) →
    ∃ b, r = .account (some b)

theorem keepsSigners_step {E : Env} {w w' : World} (reach : Reachable E w) (hs : Step E w w')
    {g g' : List Pubkey} {a : AccountData} (hinv : InvAt E w g) (hinv' : InvAt E w' g')
    (ht : IsMultisig E.codecs a) (hn : ∃ p, TokenProgramOwned a p) (hd : KeepsSigners a w) : KeepsSigners a w' := by
  have anti : NeverGone a.pubkey w'.log → NeverGone a.pubkey w.log := fun h => h.anti (step_prefix hs)
  obtain ⟨N, -, hc, hst, hsv, -⟩ := hinv
  obtain ⟨N', -, hc', hst', -, -⟩ := hinv'
  -- the end of a call
  have ret : ∀ t s r, (NeverGone a.pubkey (w.log ++ [(t, .ret r)]) → NeverGone a.pubkey w.log) →
      (SignersAt a.pubkey w.st → SignersAt a.pubkey s) →
      (r = .updated true → ∀ c, LastCall w.log t (.submit a c) → c = none ∨ c = some .finalized → SignersAt a.pubkey s) →
      (NeverGone a.pubkey w.log → r = .account none → ∀ c, ¬ Since w.log t (.get a.pubkey c) (Installed · a)) →
      (Since w.log t (.get a.pubkey .finalized) (Installed · a) → ∃ b, r = .account (some b)) →
      KeepsSigners a { st := s, pc := upd w.pc t .idle, log := w.log ++ [(t, .ret r)] } := by
    intro t s r hg h1 h2 h3 h4
    refine ⟨fun u c hu hcc => ?_, fun hi => ?_, fun hng u c hu => ?_, fun hng pre post u c he => ?_, fun u hu => ?_,
      fun pre post u r' he => ?_⟩
    · rcases lastCall_snoc.1 hu with ⟨-, h⟩ | ⟨hne, hu⟩
      · cases h
      · show Signing a s (upd w.pc t .idle u) ∨ ∃ l, upd w.pc t .idle u = .loops l
        rw [upd_other (Ne.symm hne)]
        exact (hd.store u c hu hcc).imp (Signing.mono h1) id
    · rcases installed_snoc hi with hi | ⟨h, c, hl, hcc⟩
      · exact h1 (hd.kept hi)
      · exact h2 (Event.ret.inj h) c hl hcc
    · rcases since_snoc hu with ⟨-, h, -⟩ | ⟨hne, hu⟩
      · cases h
      · show ReadingSigners (upd w.pc t .idle u)
        rw [upd_other (Ne.symm hne)]
        exact hd.read (hg hng) u c hu
    · rcases snoc_ret he with ⟨rfl, rfl, h'⟩ | ⟨post', h'⟩
      · exact h3 (hg hng) (Event.ret.inj h') c
      · exact hd.reads (hg hng) pre post' u c h'
    · rcases since_snoc hu with ⟨-, h, -⟩ | ⟨hne, hu⟩
      · cases h
      · show FinalSigners (upd w.pc t .idle u)
        rw [upd_other (Ne.symm hne)]
        exact hd.final u hu
    · rcases snoc_ret he with ⟨rfl, rfl, h'⟩ | ⟨post', h'⟩
      · exact Event.ret.inj h' ▸ h4
      · exact hd.finals pre post' u r' h'
  -- a step inside a call
  have go : ∀ t s p, (SignersAt a.pubkey w.st → SignersAt a.pubkey s) →
      (∀ c, LastCall w.log t (.submit a c) → c = none ∨ c = some .finalized → Signing a s p ∨ ∃ l, p = .loops l) →
      (NeverGone a.pubkey w.log → ∀ c, Since w.log t (.get a.pubkey c) (Installed · a) → ReadingSigners p) →
      (Since w.log t (.get a.pubkey .finalized) (Installed · a) → FinalSigners p) →
      KeepsSigners a { w with st := s, pc := upd w.pc t p } := by
    intro t s p h1 h2 h3 h4
    refine ⟨fun u c hu hcc => ?_, fun hi => ?_, fun hng u c hu => ?_, hd.reads, fun u hu => ?_, hd.finals⟩
    · show Signing a s (upd w.pc t p u) ∨ ∃ l, upd w.pc t p u = .loops l
      by_cases e : u = t
      · subst e; rw [upd_self]; exact h2 c hu hcc
      · rw [upd_other e]
        exact (hd.store u c hu hcc).imp (Signing.mono h1) id
    · exact h1 (hd.kept hi)
    · show ReadingSigners (upd w.pc t p u)
      by_cases e : u = t
      · subst e; rw [upd_self]; exact h3 hng c hu
      · rw [upd_other e]; exact hd.read hng u c hu
    · show FinalSigners (upd w.pc t p u)
      by_cases e : u = t
      · subst e; rw [upd_self]; exact h4 hu
      · rw [upd_other e]; exact hd.final u hu
  cases hs with
  | work hwk =>
    obtain ⟨t, σ, hi, h⟩ := work_exec hwk
    obtain ⟨k, hk⟩ := (busy_iff reach t).1 (active_ne hi)
    have hv : Serves E.codecs w.log g w.st.tokens.accounts.length k (w.pc t) := by
      rcases hsv t k hk with h | ⟨l, h⟩
      · exact h
      · rw [h] at hi; exact hi.elim
    have signing : ∀ c, LastCall w.log t (.submit a c) → c = none ∨ c = some .finalized → Signing a w.st (w.pc t) := by
      intro c hl hcc
      rcases hd.store t c hl hcc with h | ⟨l, h⟩
      · exact h
      · rw [h] at hi; exact hi.elim
    have serves : ∀ {k'}, LastCall w.log t k' → Serves E.codecs w.log g w.st.tokens.accounts.length k' (w.pc t) := by
      intro k' hl
      rw [lastCall_unique hl hk]; exact hv
    have rd : ∀ {c s nx}, NeverGone a.pubkey w.log → Out E σ w.st (w.pc t) s nx →
        Since w.log t (.get a.pubkey c) (Installed · a) →
        (∀ p', nx = .go p' → ReadingSigners p') ∧ nx ≠ .ret (.account none) := by
      intro c s nx hng ho hsi
      obtain ⟨pre, hpre, hpi⟩ := hsi.prefix
      exact exec_readingSigners hng (serves hsi.lastCall) (reading reach t _ hsi.lastCall rfl) (hd.kept (hpi.mono hpre))
        (hd.read hng t c hsi) ho
    have fin : Since w.log t (.get a.pubkey .finalized) (Installed · a) →
        (w.pc t).exec E σ w.st ≠ .panic ∧ (∀ s' p', (w.pc t).exec E σ w.st = .ok (s', .go p') → FinalSigners p') ∧
          ∀ s' r, (w.pc t).exec E σ w.st = .ok (s', .ret r) → ∃ b, r = .account (some b) := by
      intro hsi
      obtain ⟨pre, hpre, hpi⟩ := hsi.prefix
      exact exec_finalSigners (serves hsi.lastCall) (hd.kept (hpi.mono hpre)) (hd.final t hsi)
    rcases h with ⟨s, p, he, rfl⟩ | ⟨s, r, he, rfl⟩ | ⟨he, rfl⟩ | ⟨-, l, rfl⟩
    · have ho := exec_out he
      exact go t s p (out_signers ho) (fun c hl hcc => .inl ((out_signing hcc hn ht hst' (serves hl) (signing c hl hcc) ho).1 p rfl))
        (fun hng c hsi => (rd hng ho hsi).1 p rfl) fun hsi => (fin hsi).2.1 s p he
    · have ho := exec_out he
      have hst'' : StoreOK E.codecs (w.log ++ [(t, .ret r)]) g' s := hst'
      refine ret t s r anti (out_signers ho) (fun e c hl hcc => ?_) (fun hng e c hsi => (rd hng ho hsi).2 (by rw [e]))
        fun hsi => (fin hsi).2.2 s r he
      exact (out_signing hcc hn ht hst'' ((serves hl).mono (List.prefix_append _ _) (List.prefix_refl _) (le_refl _))
        (signing c hl hcc) ho).2 (by rw [e])
    · exact ret t w.st .panicked anti id (by simp) (by simp) fun hsi => absurd he (fin hsi).1
    · exact go t w.st (.loops l) id (fun _ _ _ => .inr ⟨l, rfl⟩) (fun _ _ _ => trivial) fun _ => trivial
  | call t k hidle =>
    refine ⟨fun u c hu hcc => ?_, fun hi => ?_, fun hng u c hu => ?_, fun hng pre post u c he => ?_, fun u hu => ?_,
      fun pre post u r he => ?_⟩
    · show Signing a w.st (upd w.pc t k.start u) ∨ ∃ l, upd w.pc t k.start u = .loops l
      rcases lastCall_snoc.1 hu with ⟨rfl, h⟩ | ⟨hne, hu⟩
      · cases h; rw [upd_self]; exact .inl trivial
      · rw [upd_other (Ne.symm hne)]; exact hd.store u c hu hcc
    · rcases installed_snoc hi with hi | ⟨h, -⟩
      · exact hd.kept hi
      · cases h
    · show ReadingSigners (upd w.pc t k.start u)
      rcases since_snoc hu with ⟨rfl, h, -⟩ | ⟨hne, hu⟩
      · cases h; rw [upd_self]
        simp only [Call.start]; split <;> trivial
      · rw [upd_other (Ne.symm hne)]; exact hd.read (anti hng) u c hu
    · rcases snoc_ret he with ⟨-, -, h⟩ | ⟨post', h⟩
      · cases h
      · exact hd.reads (anti hng) pre post' u c h
    · show FinalSigners (upd w.pc t k.start u)
      rcases since_snoc hu with ⟨rfl, h, -⟩ | ⟨hne, hu⟩
      · cases h; rw [upd_self]; trivial
      · rw [upd_other (Ne.symm hne)]; exact hd.final u hu
    · rcases snoc_ret he with ⟨-, -, h⟩ | ⟨post', h⟩
      · cases h
      · exact hd.finals pre post' u r h

theorem keepsSigners_init (a : AccountData) : KeepsSigners a World.init := by
  have nolast : ∀ t k, ¬ LastCall [] t k := by rintro t k ⟨pre, mid, h, -⟩; simp at h
  refine ⟨fun t c h => absurd h (nolast _ _), ?_, fun _ t c h => absurd h.lastCall (nolast _ _), ?_,
    fun t h => absurd h.lastCall (nolast _ _), ?_⟩
  · rintro ⟨pre, post, t, c, h, -⟩; simp [World.init] at h
  · intro _ pre post t c h; simp [World.init] at h
  · intro pre post t r h; simp [World.init] at h

/-- The invariant. -/
theorem keepsSigners {E : Env} {a : AccountData} (ht : IsMultisig E.codecs a) (hn : ∃ p, TokenProgramOwned a p) {w : World}
    (reach : Reachable E w) (hb : submits w.log ≤ 2 ^ 31) : ∃ g, InvAt E w g ∧ KeepsSigners a w := by
  induction reach with
  | refl => exact ⟨[], inv_init E, keepsSigners_init a⟩
  | @tail w w' hw hs ih =>
    obtain ⟨g, h1, h2⟩ := ih (Nat.le_trans (step_submits hs) hb)
    obtain ⟨g', h3, h4⟩ := inv_step hw hs hb h1
    exact ⟨g', h4, keepsSigners_step hw hs h1 h4 ht hn h2⟩

end LAM.TokConc
