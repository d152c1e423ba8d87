import Verif.Lemmas.TokenConcServes
/-!
# Concurrent calls of the token program store: every answer is right, no lock is poisoned
-/
namespace LAM.TokConc
open Token Run Spec ProcStore
open Spl (tokenId token2022Id)

/-! ## Panics -/

theorem contains_ok {X : Codecs} {log : List (Nat × Event)} {g : List Pubkey} {s : TokenStore} (h : StoreOK X log g s) (pk : Pubkey) :
    ∃ o, s.tokens.contains pk = .ok o := by
  obtain ⟨slots, h1, -⟩ := h.tokens
  unfold TokenStorage.contains
  cases hb : s.tokens.buckets.find (prefix4 pk) with
  | none => exact ⟨none, rfl⟩
  | some is =>
    obtain ⟨h2, h3⟩ := h.buckets _ _ hb
    simp only
    split
    · obtain ⟨o, ho, -⟩ := firstMatch_ok h1 pk is h3
      exact ⟨o, ho⟩
    · cases is with
      | nil => exact absurd rfl h2
      | cons i is => exact ⟨some i, rfl⟩

/-- A call that panics may panic. -/
theorem panic_ok {E : Env} {log : List (Nat × Event)} {g : List Pubkey} {σ : Orders} {s : TokenStore}
    (hs : StoreOK E.codecs log g s) {k : Call} {p : Pc} (hv : Serves E.codecs log g s.tokens.accounts.length k p)
    (h : p.exec E σ s = .panic) : ReplyOK E.codecs log k .panicked := by
  have scan : ∀ c j, ScanOK E.codecs log k c j → ReplyOK E.codecs log k .panicked := by
    intro c j hj
    cases k <;> cases j <;> try exact hj.elim
    · trivial
    · exact hj.2.2.1
  cases hv with
  | chkIndex => simp [Pc.exec] at h
  | chkMultisig => simp [Pc.exec] at h
  | @chkBucket a c =>
    simp only [Pc.exec] at h
    split at h
    · rename_i is hi
      split at h
      · simp at h
      · cases is with
        | nil => exact absurd rfl (hs.buckets _ _ hi).1
        | cons i is => simp [Run.unwrap] at h
    · simp at h
  | @chkAccounts a c =>
    obtain ⟨o, ho⟩ := contains_ok hs a.pubkey
    simp [Pc.exec, ho] at h
  | @classify a c =>
    intro bs
    refine classify_panic (T := s.table) ?_ bs
    simp only [Pc.exec] at h
    cases hc : Token.classify E.codecs s.table a with
    | ok r => simp [hc] at h
    | panic => rfl
    | diverge => simp [hc] at h
  | insert => simp [Pc.exec] at h
  | @add _ x f =>
    cases x <;> simp only [Pc.exec] at h
    · simp at h
    · split at h <;> simp at h
    · simp at h
    · split at h <;> simp at h
  | save h1 h2 =>
    obtain ⟨r, T, h3, -⟩ := save_ok hs h1
    simp [Pc.exec, h3] at h
  | pushMint => simp [Pc.exec] at h
  | pushOwner => simp [Pc.exec] at h
  | putMint => simp [Pc.exec] at h
  | eraseMint => simp [Pc.exec] at h
  | eraseByMint => simp [Pc.exec] at h
  | again => simp only [Pc.exec] at h; split at h <;> simp at h
  | dropBucket => simp only [Pc.exec] at h; split at h <;> simp at h
  | @entomb _ pk is f h1 h2 =>
    obtain ⟨slots, h3, -⟩ := hs.tokens
    obtain ⟨o, ho, -⟩ := firstMatch_ok h3 pk is h1
    simp only [Pc.exec, ho, Run.ok_bind] at h
    split at h <;> simp at h
  | scanSlot h1 => exact scan _ _ h1
  | scan h1 => exact scan _ _ h1
  | rescan h1 => exact scan _ _ h1
  | finMultisig => trivial
  | finMultisigSlot => trivial
  | finIndex => trivial
  | finMint => trivial
  | finMintSlot => trivial
  | finBucket => trivial
  | finAccounts => trivial
  | finSlot => trivial
  | gpaStart =>
    simp only [Pc.exec] at h
    repeat' split at h
    all_goals simp at h
  | gpaOwner _ h1 => exact h1
  | gpaIndex _ h1 => exact h1
  | gpaGet _ h1 => exact h1
  | gpaMint _ h1 => exact h1
  | gpaByMint _ h1 => exact h1
  | gpaMintGet _ h1 => exact h1
  | gpaMints _ h1 => exact h1
  | @convert _ l out j h1 =>
    cases k <;> cases j <;> try exact h1.elim
    · intro hc; rw [hc] at h1; exact absurd (show Commitment.processed = .confirmed from h1) (by simp)
    · intro hc; rw [hc] at h1; exact absurd h1.1 (by simp)
    · trivial
    · exact h1.2.2.2
    · exact h1.2
  | @psStart info c => cases c <;> simp [Pc.exec] at h
  | psConfirm => simp [Pc.exec] at h
  | psUpdate => simp [Pc.exec] at h
  | psFinal => simp [Pc.exec] at h
  | psReport => simp only [Pc.exec] at h; split at h <;> simp at h
  | psMissing => simp [Pc.exec] at h
  | psFinalize => intro hc; simp at hc

/-! ## Executions -/

/-- The weights of the first threads. -/
def total (pc : Nat → Pc) : Nat → Nat
  | 0 => 0
  | n + 1 => total pc n + (pc n).weight

theorem total_out {pc : Nat → Pc} {t : Nat} {p : Pc} : ∀ n, n ≤ t → total (upd pc t p) n = total pc n
  | 0, _ => rfl
  | n + 1, h => by
    simp only [total]
    rw [total_out n (by omega), upd_other (show n ≠ t by omega)]

theorem total_in {pc : Nat → Pc} {t : Nat} {p : Pc} : ∀ n, t < n → total (upd pc t p) n + (pc t).weight = total pc n + p.weight
  | 0, h => absurd h (by omega)
  | n + 1, h => by
    rw [total, total]
    by_cases e : t = n
    · subst e
      rw [total_out t (le_refl _), upd_self]
      omega
    · have := total_in (pc := pc) (t := t) (p := p) n (by omega)
      rw [upd_other (show n ≠ t by omega)]
      omega

theorem total_idle {pc : Nat → Pc} {N : Nat} (h : ∀ t, N ≤ t → pc t = .idle) : ∀ n, N ≤ n → total pc n = total pc N
  | 0, hn => by have : N = 0 := by omega
                rw [this]
  | n + 1, hn => by
    by_cases e : N = n + 1
    · rw [e]
    · rw [total, total_idle h n (by omega), h n (by omega)]
      rfl

/-- What holds in every state of an execution; `g` lists the mints that were given an index. -/
def InvAt (E : Env) (w : World) (g : List Pubkey) : Prop :=
  ∃ N, (∀ t, N ≤ t → w.pc t = .idle) ∧ g.length + pending w.st.processed + total w.pc N ≤ 2 * submits w.log ∧
    StoreOK E.codecs w.log g w.st ∧
    (∀ t k, LastCall w.log t k → Serves E.codecs w.log g w.st.tokens.accounts.length k (w.pc t) ∨ ∃ l, w.pc t = .loops l) ∧
    ∀ pre post t r, w.log = pre ++ (t, .ret r) :: post → ∃ k, LastCall pre t k ∧ ReplyOK E.codecs pre k r

theorem submits_snoc (log : List (Nat × Event)) (e : Nat × Event) : submits log ≤ submits (log ++ [e]) := by
  simp [submits]

theorem submits_submit (log : List (Nat × Event)) (t : Nat) (a : AccountData) (c : Option Commitment) :
    submits (log ++ [(t, .call (.submit a c))]) = submits log + 1 := by
  simp [submits]

theorem lastCall_mem {log : List (Nat × Event)} {t : Nat} {k : Call} (h : LastCall log t k) : Called log k := by
  obtain ⟨pre, mid, rfl, -⟩ := h
  exact ⟨t, by simp⟩

/-- The first state. -/
theorem inv_init (E : Env) : InvAt E World.init [] := by
  refine ⟨0, fun _ _ => rfl, by simp [World.init, TokenStore.empty, total, pending], ?_, ?_, ?_⟩
  · refine ⟨⟨[], rfl, by simp⟩, ?_, ⟨rfl, ?_⟩, ?_, ?_, procOk_nil _, ?_, .inl rfl, .inl rfl, ?_⟩ <;>
      simp [World.init, TokenStore.empty, TokenStorage.empty]
  · rintro t k ⟨pre, mid, h, -⟩; simp [World.init] at h
  · intro pre post t r h; simp [World.init] at h

/-- A step of any thread. -/
theorem inv_step {E : Env} {w w' : World} (reach : Reachable E w) (hs : Step E w w') (hb : submits w'.log ≤ 2 ^ 31) {g : List Pubkey}
    (hinv : InvAt E w g) : ∃ g', g <+: g' ∧ InvAt E w' g' := by
  cases hs with
  | work hwk =>
    obtain ⟨t, hi, -, h⟩ := work_cases hwk
    have hb' : submits w.log ≤ 2 ^ 31 := by
      rcases h with ⟨σ, s, p, ho, rfl, hlt⟩ | ⟨σ, s, r, ho, rfl⟩ | ⟨σ, hp, rfl⟩ | ⟨σ, hd, rfl⟩
      · exact hb
      · exact Nat.le_trans (submits_snoc _ _) hb
      · exact Nat.le_trans (submits_snoc _ _) hb
      · exact hb
    obtain ⟨N, hN, hc, hst, hsv, hrep⟩ := hinv
    have hg : g.length ≤ 2 ^ 32 := by omega
    have htN : t < N := by
      by_contra hge
      exact active_ne hi (hN t (by omega))
    obtain ⟨k, hk⟩ := (busy_iff reach t).1 (active_ne hi)
    have hv : Serves E.codecs w.log g w.st.tokens.accounts.length k (w.pc t) := by
      rcases hsv t k hk with h | ⟨l, h⟩
      · exact h
      · rw [h] at hi; exact hi.elim
    -- the end of a call
    have ret : ∀ g' s r, g <+: g' → StoreOK E.codecs w.log g' s → w.st.tokens.accounts.length ≤ s.tokens.accounts.length →
        ReplyOK E.codecs w.log k r → g'.length + pending s.processed ≤ g.length + pending w.st.processed + (w.pc t).weight →
        ∃ g', g <+: g' ∧ InvAt E { st := s, pc := upd w.pc t .idle, log := w.log ++ [(t, .ret r)] } g' := by
      intro g' s r h1 h2 h3 h4 h5
      have hl : w.log <+: w.log ++ [(t, Event.ret r)] := List.prefix_append _ _
      refine ⟨g', h1, N, fun u hu => ?_, ?_, h2.log hl, fun u k' hu => ?_, fun pre post u r' he => ?_⟩
      · show upd w.pc t .idle u = .idle
        rw [upd_other (show u ≠ t by omega)]; exact hN u hu
      · have := total_in (pc := w.pc) (t := t) (p := .idle) N htN
        have h6 := submits_snoc w.log (t, .ret r)
        have h7 : Pc.idle.weight = 0 := rfl
        show g'.length + pending s.processed + total (upd w.pc t .idle) N ≤ 2 * submits (w.log ++ [(t, .ret r)])
        omega
      · rcases lastCall_snoc.1 hu with ⟨-, h⟩ | ⟨hne, hu⟩
        · cases h
        · show Serves _ _ _ _ _ (upd w.pc t .idle u) ∨ ∃ l, upd w.pc t .idle u = .loops l
          rw [upd_other (Ne.symm hne)]
          exact (hsv u k' hu).imp (fun h => h.mono hl h1 h3) id
      · rcases List.eq_nil_or_concat post with rfl | ⟨post', e, rfl⟩
        · have h6 := List.append_inj' he rfl
          simp only [List.cons.injEq, Prod.mk.injEq, Event.ret.injEq, and_true] at h6
          obtain ⟨rfl, rfl, rfl⟩ := h6
          exact ⟨k, hk, h4⟩
        · have h6 : w.log ++ [(t, Event.ret r)] = (pre ++ (u, .ret r') :: post') ++ [e] := by simpa using he
          exact hrep pre post' u r' (List.append_inj' h6 rfl).1
    rcases h with ⟨σ, s, p, ho, rfl, hlt⟩ | ⟨σ, s, r, ho, rfl⟩ | ⟨σ, hp, rfl⟩ | ⟨σ, hd, rfl⟩
    · obtain ⟨g', h1, h2, h3, h4, h5⟩ := step_ok hg hst hv ho
      refine ⟨g', h1, N, fun u hu => ?_, ?_, h2, fun u k' hu => ?_, hrep⟩
      · show upd w.pc t p u = .idle
        rw [upd_other (show u ≠ t by omega)]; exact hN u hu
      · have := total_in (pc := w.pc) (t := t) (p := p) N htN
        simp only [Next.weight] at h5
        show g'.length + pending s.processed + total (upd w.pc t p) N ≤ 2 * submits w.log
        omega
      · show Serves _ _ _ _ _ (upd w.pc t p u) ∨ ∃ l, upd w.pc t p u = .loops l
        by_cases e : u = t
        · subst e
          rw [upd_self]
          have : k' = k := lastCall_unique hu hk
          subst this
          exact .inl h4
        · rw [upd_other e]
          exact (hsv u k' hu).imp (fun h => h.mono (List.prefix_refl _) h1 h3) id
    · obtain ⟨g', h1, h2, h3, h4, h5⟩ := step_ok hg hst hv ho
      exact ret g' s r h1 h2 h3 h4 h5
    · exact ret g w.st .panicked (List.prefix_refl _) hst (le_refl _) (panic_ok hst hv hp) (by omega)
    · refine ⟨g, List.prefix_refl _, N, fun u hu => ?_, ?_, hst, fun u k' hu => ?_, hrep⟩
      · show upd w.pc t _ u = .idle
        rw [upd_other (show u ≠ t by omega)]; exact hN u hu
      · have := total_in (pc := w.pc) (t := t) (p := .loops ((w.pc t).holds E ++ ((w.pc t).wants E).toList)) N htN
        have h7 : ∀ l, (Pc.loops l).weight = 0 := fun _ => rfl
        rw [h7] at this
        show g.length + pending w.st.processed + total (upd w.pc t _) N ≤ 2 * submits w.log
        omega
      · show Serves _ _ _ _ _ (upd w.pc t _ u) ∨ ∃ l, upd w.pc t _ u = .loops l
        by_cases e : u = t
        · subst e
          rw [upd_self]
          exact .inr ⟨_, rfl⟩
        · rw [upd_other e]
          exact hsv u k' hu
  | call t k hi =>
    have hl : w.log <+: w.log ++ [(t, Event.call k)] := List.prefix_append _ _
    obtain ⟨N, hN, hc, hst, hsv, hrep⟩ := hinv
    have hstart : Serves E.codecs (w.log ++ [(t, Event.call k)]) g w.st.tokens.accounts.length k k.start := by
      cases k with
      | submit a c => exact .chkIndex ⟨t, by simp⟩
      | process info c => exact .psStart ⟨t, by simp⟩
      | get pk c =>
        simp only [Call.start]
        split
        · exact .finMultisig
        · rename_i hc; exact .scanSlot ⟨rfl, hc, rfl⟩
      | gpa p fs c => exact .gpaStart
    have hweight : 2 * submits w.log + k.start.weight ≤ 2 * submits (w.log ++ [(t, Event.call k)]) := by
      cases k with
      | submit a c => rw [submits_submit]; simp only [Call.start, Pc.weight]; omega
      | process info c => have := submits_snoc w.log (t, .call (.process info c)); simp only [Call.start, Pc.weight]; omega
      | get pk c =>
        have := submits_snoc w.log (t, .call (.get pk c))
        simp only [Call.start]
        split <;> simp only [Pc.weight] <;> omega
      | gpa p fs c => have := submits_snoc w.log (t, .call (.gpa p fs c)); simp only [Call.start, Pc.weight]; omega
    refine ⟨g, List.prefix_refl _, max N (t + 1), fun u hu => ?_, ?_, hst.log hl, fun u k' hu => ?_, fun pre post u r' he => ?_⟩
    · show upd w.pc t _ u = .idle
      rw [upd_other (show u ≠ t by omega)]; exact hN u (by omega)
    · have h1 := total_in (pc := w.pc) (t := t) (p := k.start) (max N (t + 1)) (by omega)
      have h2 := total_idle hN (max N (t + 1)) (by omega)
      have h3 : (w.pc t).weight = 0 := by rw [hi]; rfl
      show g.length + pending w.st.processed + total (upd w.pc t k.start) (max N (t + 1)) ≤ 2 * submits (w.log ++ [(t, .call k)])
      omega
    · show Serves _ _ _ _ _ (upd w.pc t _ u) ∨ ∃ l, upd w.pc t _ u = .loops l
      rcases lastCall_snoc.1 hu with ⟨rfl, h⟩ | ⟨hne, hu⟩
      · cases h
        rw [upd_self]
        exact .inl hstart
      · rw [upd_other (Ne.symm hne)]
        exact (hsv u k' hu).imp (fun h => h.mono hl (List.prefix_refl _) (le_refl _)) id
    · rcases List.eq_nil_or_concat post with rfl | ⟨post', e, rfl⟩
      · have h6 := List.append_inj' he rfl
        simp at h6
      · have h6 : w.log ++ [(t, Event.call k)] = (pre ++ (u, .ret r') :: post') ++ [e] := by simpa using he
        exact hrep pre post' u r' (List.append_inj' h6 rfl).1

theorem step_submits {E : Env} {w w' : World} (hs : Step E w w') : submits w.log ≤ submits w'.log := by
  cases hs with
  | work hwk =>
    obtain ⟨t, -, -, ⟨σ, s, p, -, rfl, -⟩ | ⟨σ, s, r, -, rfl⟩ | ⟨σ, -, rfl⟩ | ⟨σ, -, rfl⟩⟩ := work_cases hwk
    · exact le_refl _
    · exact submits_snoc _ _
    · exact submits_snoc _ _
    · exact le_refl _
  | call t k => exact submits_snoc _ _

theorem inv {E : Env} {w : World} (hr : Reachable E w) (hb : submits w.log ≤ 2 ^ 31) : ∃ g, InvAt E w g := by
  induction hr with
  | refl => exact ⟨[], inv_init E⟩
  | @tail w w' hw hs ih =>
    obtain ⟨g, hg⟩ := ih (Nat.le_trans (step_submits hs) hb)
    obtain ⟨g', -, hg'⟩ := inv_step hw hs hb hg
    exact ⟨g', hg'⟩

/-! ## No lock is poisoned -/

/-- Indexes in buckets are places of token accounts. -/
def Placed (S : TokenStorage) : Prop :=
  (∀ p is, S.buckets.find p = some is → ∀ i ∈ is, i < S.accounts.length) ∧ ∀ b ∈ S.accounts, ∃ t : TokenAccount, b = t.toBytes

theorem firstMatch_placed {S : TokenStorage} (h : Placed S) (pk : Pubkey) (is : List Nat) (his : ∀ i ∈ is, i < S.accounts.length) :
    ∃ o, firstMatch S.accounts pk is = .ok o := by
  have : ∃ slots : List TokenAccount, S.accounts = slots.map TokenAccount.toBytes := by
    have h2 := h.2
    generalize S.accounts = l at h2
    induction l with
    | nil => exact ⟨[], rfl⟩
    | cons b l ih =>
      obtain ⟨slots, h3⟩ := ih fun b hb => h2 b (by simp [hb])
      obtain ⟨t, rfl⟩ := h2 b (by simp)
      exact ⟨t :: slots, by simp [h3]⟩
  obtain ⟨slots, hs⟩ := this
  obtain ⟨o, ho, -⟩ := firstMatch_ok hs pk is his
  exact ⟨o, ho⟩

theorem save_placed {S : TokenStorage} (h : Placed S) (t : TokenAccount) :
    ∃ r T, S.save t = .ok (r, T) ∧ Placed T ∧ S.accounts.length ≤ T.accounts.length := by
  have new : ∀ is, (∀ i ∈ is, i < S.accounts.length) →
      Placed ⟨S.buckets.insert (prefix4 t.pubkey) (is ++ [wrap32 S.accounts.length]), S.accounts ++ [t.toBytes]⟩ := by
    intro is his
    refine ⟨fun p is' hp i hi => ?_, fun b hb => ?_⟩
    · simp only [List.length_append, List.length_singleton]
      simp only [AMap.find_insert] at hp
      split at hp
      · cases hp
        rcases List.mem_append.1 hi with hi | hi
        · have := his i hi; omega
        · simp only [List.mem_singleton] at hi; subst hi
          have := wrap32_le S.accounts.length
          omega
      · have := h.1 _ _ hp i hi; omega
    · rcases List.mem_append.1 hb with hb | hb
      · exact h.2 b hb
      · simp only [List.mem_singleton] at hb; exact ⟨t, hb⟩
  unfold TokenStorage.save
  cases hb : S.buckets.find (prefix4 t.pubkey) with
  | none => exact ⟨_, _, rfl, new [] (by simp), by simp⟩
  | some is =>
    obtain ⟨o, g1⟩ := firstMatch_placed h t.pubkey is (h.1 _ _ hb)
    simp only [g1, Run.ok_bind]
    cases o with
    | none => exact ⟨_, _, rfl, new is (h.1 _ _ hb), by simp⟩
    | some i =>
      refine ⟨_, _, rfl, ⟨fun p is hp i hi => by simpa using h.1 p is hp i hi, fun b hb => ?_⟩, by simp⟩
      rcases List.mem_or_eq_of_mem_set hb with hb | rfl
      · exact h.2 b hb
      · exact ⟨t, rfl⟩

/-- Token accounts are only written by these steps. -/
theorem out_tokens {E : Env} {σ : Orders} {s s' : TokenStore} {p : Pc} {n : Next} (h : Out E σ s p s' n) (hp : Placed s.tokens) :
    Placed s'.tokens ∧ s.tokens.accounts.length ≤ s'.tokens.accounts.length ∧
      ∀ pk is k, n = .go (.entomb pk is k) → ∀ i ∈ is, i < s'.tokens.accounts.length := by
  cases h
  case saveNew t k i T hs =>
    obtain ⟨r, T', h1, h2, h3⟩ := save_placed hp t
    rw [hs] at h1
    simp only [Run.ok.injEq, Prod.mk.injEq] at h1
    obtain ⟨-, rfl⟩ := h1
    exact ⟨h2, h3, by simp⟩
  case saveOld t k i T hs =>
    obtain ⟨r, T', h1, h2, h3⟩ := save_placed hp t
    rw [hs] at h1
    simp only [Run.ok.injEq, Prod.mk.injEq] at h1
    obtain ⟨-, rfl⟩ := h1
    refine ⟨h2, h3, fun pk is k' hn => ?_⟩
    obtain ⟨x, k'', h⟩ := after_next hn
    simp at h
  case dropBucket pk k is hi =>
    refine ⟨⟨fun p is hp' i hi => ?_, hp.2⟩, le_refl _, fun pk' is' k' hn => ?_⟩
    · simp only [AMap.find_erase] at hp'
      split at hp'
      · simp at hp'
      · exact hp.1 _ _ hp' i hi
    · simp only [Next.go.injEq, Pc.entomb.injEq] at hn
      obtain ⟨-, rfl, -⟩ := hn
      exact hp.1 _ _ hi
  case entomb pk is k i hi =>
    refine ⟨⟨fun p is hp' i hi => by simpa using hp.1 p is hp' i hi, fun b hb => ?_⟩, by simp, fun pk is k' hn => ?_⟩
    · rcases List.mem_or_eq_of_mem_set hb with hb | rfl
      · exact hp.2 b hb
      · exact ⟨_, rfl⟩
    · obtain ⟨x, k'', h⟩ := after_next hn
      simp at h
  all_goals
    refine ⟨hp, le_refl _, fun pk is k' hn => ?_⟩
    first
    | (cases hn; done)
    | (obtain ⟨x, k'', h⟩ := after_next hn; simp at h; done)
    | (rcases job_next hn with ⟨x, k'', h⟩ | ⟨x, k'', h⟩ <;> simp at h; done)
    | (rename_i hj; rcases scan_next hj with ⟨l, out, j, h⟩ | ⟨pk, h⟩ <;> rw [h] at hn <;> cases hn)

theorem placed {E : Env} {w : World} (hr : Reachable E w) :
    Placed w.st.tokens ∧ ∀ t pk is k, w.pc t = .entomb pk is k → ∀ i ∈ is, i < w.st.tokens.accounts.length := by
  induction hr with
  | refl => exact ⟨⟨by simp [World.init, TokenStore.empty, TokenStorage.empty], by simp [World.init, TokenStore.empty, TokenStorage.empty]⟩, by simp [World.init]⟩
  | @tail w w' _ hs ih =>
    obtain ⟨h1, h2⟩ := ih
    have put : ∀ t p, (∀ pk is k, p ≠ .entomb pk is k) → ∀ u pk is k, upd w.pc t p u = .entomb pk is k →
        ∀ i ∈ is, i < w.st.tokens.accounts.length := by
      intro t p hp u pk is k hu
      by_cases e : u = t
      · subst e; rw [upd_self] at hu; exact absurd hu (hp _ _ _)
      · rw [upd_other e] at hu; exact h2 u pk is k hu
    cases hs with
    | work hw =>
      obtain ⟨t, -, -, ⟨σ, s, p, ho, rfl, -⟩ | ⟨σ, s, r, ho, rfl⟩ | ⟨σ, -, rfl⟩ | ⟨σ, -, rfl⟩⟩ := work_cases hw
      · obtain ⟨h3, h4, h5⟩ := out_tokens ho h1
        refine ⟨h3, fun u pk is k hu i hi => ?_⟩
        by_cases e : u = t
        · subst e
          simp only [upd_self] at hu
          exact h5 pk is k (by rw [hu]) i hi
        · simp only [upd_other e] at hu
          exact Nat.lt_of_lt_of_le (h2 u pk is k hu i hi) h4
      · obtain ⟨h3, h4, -⟩ := out_tokens ho h1
        exact ⟨h3, fun u pk is k hu i hi => Nat.lt_of_lt_of_le (put t .idle (by simp) u pk is k hu i hi) h4⟩
      · exact ⟨h1, put t .idle (by simp)⟩
      · exact ⟨h1, put t _ (by simp)⟩
    | call t k =>
      refine ⟨h1, put t _ fun pk is f h => ?_⟩
      cases k with
      | get pk c => simp only [Call.start] at h; split at h <;> simp at h
      | _ => simp [Call.start] at h

/-- **No poisoned lock**: `token_accounts` and `processed_slot_accounts` are at most read-locked by a thread that panics. -/
theorem panic_reads {E : Env} {s : TokenStore} {p : Pc} (h1 : Placed s.tokens)
    (two : ∀ pk is k, p = .entomb pk is k → ∀ i ∈ is, i < s.tokens.accounts.length) {σ : Orders} (h : p.exec E σ s = .panic)
    (m : Mode) (l : Lock) (hl : l = .accounts ∨ l = .processed) (hm : (l, m) ∈ p.holds E ∨ p.wants E = some (l, m)) :
    m = .read := by
  cases m with
  | read => rfl
  | write =>
    exfalso
    rcases hm with hm | hm
    · cases hp : p with
      | convert items out j =>
        rw [hp] at hm
        cases j with
        | found q mi =>
          cases mi with
          | none => simp [Pc.holds, Job.holds] at hm
          | some x => simp [Pc.holds, Job.holds] at hm
        | _ => simp [Pc.holds, Job.holds] at hm
      | loops held => rw [hp] at h; simp [Pc.exec] at h
      | _ =>
        rw [hp] at hm
        simp [Pc.holds] at hm <;> rcases hl with rfl | rfl <;> simp at hm
    · cases p with
      | save t k =>
        obtain ⟨r, T, h3, -⟩ := save_placed h1 t
        simp [Pc.exec, h3] at h
      | entomb pk is k =>
        obtain ⟨o, ho⟩ := firstMatch_placed h1 pk is (two pk is k rfl)
        simp only [Pc.exec, ho, Run.ok_bind] at h
        split at h <;> simp at h
      | insert a x => simp [Pc.exec] at h
      | psStart info c => cases c <;> simp [Pc.exec] at h
      | psUpdate info c => simp [Pc.exec] at h
      | psMissing info => simp [Pc.exec] at h
      | psFinalize info =>
        obtain ⟨r, hr⟩ := finalizeLoop_total (s.processed.length + 1) s.processed [] info.slot (by omega)
        simp [Pc.exec, ProcStore.finalize, hr] at h
      | add x k => cases x <;> rcases hl with rfl | rfl <;> simp [Pc.wants] at hm
      | classify a c =>
        simp only [Pc.wants, Option.map_eq_some_iff, Prod.mk.injEq] at hm
        obtain ⟨x, -, hm, -⟩ := hm
        rcases hl with rfl | rfl <;> simp at hm
      | gpaIndex q slot owner mint is => cases mint <;> simp [Pc.wants] at hm
      | gpaMints q slot shards out => cases shards <;> simp [Pc.wants] at hm
      | convert items out j =>
        rcases items with _ | ⟨_ | ⟨_ | _ | _ | _, _, _⟩, _⟩ <;> simp [Pc.wants] at hm
      | _ => rcases hl with rfl | rfl <;> simp [Pc.wants] at hm

theorem panics_only_reading {E : Env} {w : World} (hr : Reachable E w) {t : Nat} {σ : Orders} (h : (w.pc t).exec E σ w.st = .panic)
    (m : Mode) (l : Lock) (hl : l = .accounts ∨ l = .processed) (hm : (l, m) ∈ (w.pc t).holds E ∨ (w.pc t).wants E = some (l, m)) :
    m = .read :=
  panic_reads (placed hr).1 ((placed hr).2 t) h m l hl hm

end LAM.TokConc
