import Verif.Lemmas.TokenSnapConc
import Verif.Lemmas.TokenSnapshot
/-!
# Snapshots of the token program store, taken and loaded while other calls run: what the calls return
-/
namespace LAM.TokConc
open Token Run Spec ProcStore

/-! ## Panics -/

theorem leBytes_mod (k n : Nat) : leBytes k n = leBytes k (n % 256 ^ k) := by
  have h := leBytes_leNat (leBytes k n)
  rw [length_leBytes, leNat_leBytes] at h
  exact h.symm

/-- Every stored token account can be read, also if a number had been cut to its size. -/
theorem fromBytes_total (t : TokenAccount) : ∃ t', TokenAccount.fromBytes t.toBytes = .ok t' := by
  have p8 : (2 : Nat) ^ 64 = 256 ^ 8 := by decide
  have p4 : (2 : Nat) ^ 32 = 256 ^ 4 := by decide
  let cut : Bytes → Bytes := fun d => d.take (d.length % 256 ^ 4)
  let t' : TokenAccount := { t with
    mint := t.mint % 256 ^ 4
    amount := t.amount % 256 ^ 8
    delegate := t.delegate.map fun x => (x.1, x.2 % 256 ^ 8)
    isNative := t.isNative.map (· % 256 ^ 8)
    additionalData := t.additionalData.map cut }
  have hf : TokenFits t' := by
    refine ⟨?_, ?_, ?_, ?_, ?_⟩
    · rw [p4]; exact Nat.mod_lt _ (by decide)
    · rw [p8]; exact Nat.mod_lt _ (by decide)
    · intro d n h
      simp only [t', Option.map_eq_some_iff, Prod.mk.injEq] at h
      obtain ⟨x, -, -, rfl⟩ := h
      rw [p8]; exact Nat.mod_lt _ (by decide)
    · intro n h
      simp only [t', Option.map_eq_some_iff] at h
      obtain ⟨x, -, rfl⟩ := h
      rw [p8]; exact Nat.mod_lt _ (by decide)
    · intro d h
      simp only [t', Option.map_eq_some_iff] at h
      obtain ⟨x, -, rfl⟩ := h
      simp only [cut, List.length_take]
      rw [p4]
      exact Nat.lt_of_le_of_lt (Nat.min_le_left _ _) (Nat.mod_lt _ (by decide))
  have hb : t.toBytes = t'.toBytes ++ (match t.additionalData with | some d => d.drop (d.length % 256 ^ 4) | none => []) := by
    have m8 : ∀ n, leBytes 8 (n % 18446744073709551616) = leBytes 8 n := fun n => (leBytes_mod 8 n).symm
    have m4 : ∀ n, leBytes 4 (min (n % 4294967296) n) = leBytes 4 n := fun n => by
      rw [Nat.min_eq_left (Nat.mod_le _ _)]; exact (leBytes_mod 4 n).symm
    have hfl : t'.flags = t.flags := by simp [TokenAccount.flags, t']
    unfold TokenAccount.toBytes
    rw [hfl]
    simp only [t']
    rw [← leBytes_mod, ← leBytes_mod]
    cases t.delegate with
    | none =>
      cases t.isNative <;> cases t.additionalData <;> simp [m8, m4, cut]
    | some x =>
      cases t.isNative <;> cases t.additionalData <;> simp [m8, m4, cut]
  exact ⟨t', fromBytes_eq_ok.2 ⟨_, by rw [hb]; exact decode_toBytes hf _⟩⟩

/-- A snapshot of token accounts is always possible. -/
theorem createSnapshot_ok {S : TokenStorage} (h : Placed S) (p : Program) :
    ∃ l, S.createSnapshot p = .ok l ∧ ∀ b ∈ l, b ∈ S.accounts := by
  unfold TokenStorage.createSnapshot
  have h2 := h.2
  generalize S.accounts = l at h2
  induction l with
  | nil => exact ⟨[], rfl, by simp⟩
  | cons b l ih =>
    obtain ⟨l', h3, h4⟩ := ih fun b hb => h2 b (by simp [hb])
    obtain ⟨t, rfl⟩ := h2 b (by simp)
    simp only [TokenStorage.filterRun, Props.wanted_toBytes, h3, Run.ok_bind, Run.pure_eq, ok.injEq]
    refine ⟨_, rfl, fun b hb => ?_⟩
    split at hb
    · rcases List.mem_cons.1 hb with rfl | hb
      · simp
      · simp [h4 b hb]
    · simp [h4 b hb]

/-- Of the calls for snapshots only loading panics, and then it has no lock. -/
theorem spanic {E : SnapEnv} {s : TokenStore} (hp : Placed s.tokens) {σ : SnapshotOrders} {p : SPc} (h : p.exec E σ s = .panic) :
    ∃ b l mapping, p = .decode (b :: l) mapping := by
  cases p with
  | idle => simp [SPc.exec] at h
  | mints p shards out => cases shards <;> simp [SPc.exec] at h
  | multisigs p shards ms out => cases shards <;> simp [SPc.exec] at h
  | accounts p ms mus =>
    obtain ⟨l, hl, -⟩ := createSnapshot_ok hp p
    simp [SPc.exec, hl] at h
  | putMultisig l ms tokens => cases l <;> simp [SPc.exec] at h
  | findMint l mapping tokens =>
    rcases l with _ | ⟨⟨i, m⟩, l⟩
    · simp [SPc.exec] at h
    · simp only [SPc.exec] at h; split at h <;> simp at h
  | decode l mapping =>
    cases l with
    | nil => simp [SPc.exec] at h
    | cons b l => exact ⟨b, l, mapping, rfl⟩
  | save t l mapping =>
    obtain ⟨r, T, h3, -⟩ := save_placed hp t
    simp [SPc.exec, h3] at h
  | pushOwner t i l mapping => simp only [SPc.exec] at h; split at h <;> simp at h
  | pushMint t i l mapping => simp only [SPc.exec] at h; split at h <;> simp at h
  | _ => simp [SPc.exec] at h

/-! ## Threads that only read -/

/-- Whether the thread is loading a snapshot. -/
def SPc.loads : SPc → Bool
  | .idle | .mints .. | .multisigs .. | .accounts .. => false
  | _ => true

theorem sout_loads {E : SnapEnv} {σ : SnapshotOrders} {s s' : TokenStore} {p : SPc} {n : SNext} (h : SOut E σ s p s' n)
    (hp : p.loads = false) : s' = s ∧ ∀ p', n = .go p' → p'.loads = false := by
  cases h <;> first | (cases hp; done) | (exact ⟨rfl, by rintro p' ⟨⟩; rfl⟩) | exact ⟨rfl, by rintro p' ⟨⟩⟩

theorem sreading {E : SnapEnv} {W : SWorld} (hr : SReachable E W) :
    (∀ t k, LastCall W.w.log t k → k.modifies = false → (W.w.pc t).modifies = false) ∧
    ∀ t p, SLastCall W.log t (.create p) → (W.sp t).loads = false := by
  induction hr with
  | refl =>
    refine ⟨?_, ?_⟩
    · rintro t k ⟨pre, mid, h, -⟩; simp [SWorld.init, World.init] at h
    · rintro t p ⟨pre, mid, h, -⟩; simp [SWorld.init] at h
  | @tail W W' _ hs ih =>
    cases hs with
    | work hw =>
      rcases swork_cases hw with ⟨x, hi, -, h1, h2, h⟩ | ⟨x, hi, -, h⟩
      · refine ⟨?_, by rw [h1, h2]; exact ih.2⟩
        intro t k hl hk
        obtain ⟨_, _, p, ho, h, -⟩ | ⟨_, _, _, -, h⟩ | ⟨_, -, h⟩ | ⟨_, -, h⟩ := h <;> rw [h] at hl ⊢ <;> by_cases e : t = x
        · subst e
          simp only [upd_self]
          exact (out_read ho (ih.1 t k hl hk)).2
        · simp only [upd_other e]; exact ih.1 t k hl hk
        · subst e; simp only [upd_self]; rfl
        · simp only [upd_other e]
          rcases lastCall_snoc.1 hl with ⟨-, h⟩ | ⟨-, h⟩
          · cases h
          · exact ih.1 t k h hk
        · subst e; simp only [upd_self]; rfl
        · simp only [upd_other e]
          rcases lastCall_snoc.1 hl with ⟨-, h⟩ | ⟨-, h⟩
          · cases h
          · exact ih.1 t k h hk
        · subst e; simp only [upd_self]; rfl
        · simp only [upd_other e]; exact ih.1 t k hl hk
      · obtain ⟨_, _, p, ho, rfl, -⟩ | ⟨_, _, _, -, rfl⟩ | ⟨_, -, rfl⟩ := h <;> refine ⟨ih.1, ?_⟩ <;> intro t q hl <;> by_cases e : t = x
        · subst e
          simp only [supd_self]
          exact (sout_loads ho (ih.2 t q hl)).2 _ rfl
        · simp only [supd_other e]; exact ih.2 t q hl
        · subst e; simp only [supd_self]; rfl
        · simp only [supd_other e]
          rcases slastCall_snoc.1 hl with ⟨-, h⟩ | ⟨-, h⟩
          · cases h
          · exact ih.2 t q h
        · subst e; simp only [supd_self]; rfl
        · simp only [supd_other e]
          rcases slastCall_snoc.1 hl with ⟨-, h⟩ | ⟨-, h⟩
          · cases h
          · exact ih.2 t q h
    | call x k' hi =>
      refine ⟨fun t k hl hk => ?_, ih.2⟩
      by_cases e : t = x
      · subst e
        simp only [upd_self]
        rcases lastCall_snoc.1 hl with ⟨-, h⟩ | ⟨h, -⟩
        · cases h; exact start_modifies hk
        · exact absurd rfl h
      · simp only [upd_other e]
        rcases lastCall_snoc.1 hl with ⟨h, -⟩ | ⟨-, h⟩
        · exact absurd h.symm e
        · exact ih.1 t k h hk
    | scall x k' hi =>
      refine ⟨ih.1, fun t p hl => ?_⟩
      by_cases e : t = x
      · subst e
        simp only [supd_self]
        rcases slastCall_snoc.1 hl with ⟨-, h⟩ | ⟨h, -⟩
        · cases h; rfl
        · exact absurd rfl h
      · simp only [supd_other e]
        rcases slastCall_snoc.1 hl with ⟨h, -⟩ | ⟨-, h⟩
        · exact absurd h.symm e
        · exact ih.2 t p h

/-! ## The steps of one thread and those of the others -/

/-- A step is one of thread `t`, or leaves it where it is; nobody else changes the store if nobody else is in a writing call. -/
theorem sstep_of {E : SnapEnv} {W W' : SWorld} (hr : SReachable E W) (hs : SStep E W W') (t : Nat) :
    (W'.sp t = W.sp t ∧ (W.OnlyWriter t → W'.w.st = W.w.st) ∧ (W'.log = W.log ∨ ∃ u e, u ≠ t ∧ W'.log = W.log ++ [(u, e)])) ∨
    (∃ σ s p, SOut E σ W.w.st (W.sp t) s (.go p) ∧ W' = { W with w := { W.w with st := s }, sp := supd W.sp t p }) ∨
    (∃ σ s r, SOut E σ W.w.st (W.sp t) s (.ret r) ∧
      W' = { w := { W.w with st := s }, sp := supd W.sp t .idle, log := W.log ++ [(t, .ret r)] }) ∨
    (∃ σ, (W.sp t).exec E σ W.w.st = .panic ∧
      W' = { W with sp := supd W.sp t .idle, log := W.log ++ [(t, .ret .panicked)] }) ∨
    (W.sp t = .idle ∧ ∃ k, W' = { W with sp := supd W.sp t (SCall.start E k), log := W.log ++ [(t, .call k)] }) := by
  cases hs with
  | work hw =>
    rcases swork_cases hw with ⟨x, hi, -, h1, h2, h⟩ | ⟨x, hi, -, h⟩
    · refine .inl ⟨by rw [h1], fun ho => ?_, .inl h2⟩
      obtain ⟨k, hk⟩ := (sbusy_iff hr x).1.1 (active_ne hi)
      have hp := (sreading hr).1 x k hk (ho.1 x k hk)
      obtain ⟨_, _, p, ho, h, -⟩ | ⟨_, _, _, ho, h⟩ | ⟨_, -, h⟩ | ⟨_, -, h⟩ := h <;> rw [h]
      · exact (out_read ho hp).1
      · exact (out_read ho hp).1
    · by_cases e : x = t
      · subst e
        right
        obtain ⟨σ, s, p, ho, h, -⟩ | ⟨σ, s, r, ho, h⟩ | ⟨σ, ho, h⟩ := h
        · exact .inl ⟨σ, s, p, ho, h⟩
        · exact .inr (.inl ⟨σ, s, r, ho, h⟩)
        · exact .inr (.inr (.inl ⟨σ, ho, h⟩))
      · have same : W.OnlyWriter t → (W.sp x).loads = false := by
          intro ho
          obtain ⟨k, hk⟩ := (sbusy_iff hr x).2.1 hi
          obtain ⟨p, rfl⟩ := ho.2 x k hk e
          exact (sreading hr).2 x p hk
        obtain ⟨σ, s, p, ho, rfl, -⟩ | ⟨σ, s, r, ho, rfl⟩ | ⟨σ, ho, rfl⟩ := h
        · exact .inl ⟨supd_other (Ne.symm e), fun h => (sout_loads ho (same h)).1, .inl rfl⟩
        · exact .inl ⟨supd_other (Ne.symm e), fun h => (sout_loads ho (same h)).1, .inr ⟨x, _, e, rfl⟩⟩
        · exact .inl ⟨supd_other (Ne.symm e), fun h => rfl, .inr ⟨x, _, e, rfl⟩⟩
  | call x k hi => exact .inl ⟨rfl, fun _ => rfl, .inl rfl⟩
  | scall x k hi =>
    by_cases e : x = t
    · subst e
      exact .inr (.inr (.inr (.inr ⟨hi, k, rfl⟩)))
    · exact .inl ⟨supd_other (Ne.symm e), fun _ => rfl, .inr ⟨x, _, e, rfl⟩⟩

theorem STrace.steps {E : SnapEnv} {W1 W : SWorld} {vs : List SWorld} (h : STrace E W1 vs W) : SSteps E W1 W := by
  induction h with
  | refl => exact .refl _
  | tail _ hs ih => exact .tail ih hs

theorem STrace.last {E : SnapEnv} {W1 W : SWorld} {vs : List SWorld} (h : STrace E W1 vs W) : W ∈ vs := by
  cases h <;> simp

theorem sstep_log {E : SnapEnv} {W W' : SWorld} (hr : SReachable E W) (h : SStep E W W') :
    W'.log = W.log ∨ ∃ e, W'.log = W.log ++ [e] := by
  rcases sstep_of hr h 0 with ⟨-, -, h | ⟨u, e, -, h⟩⟩ | ⟨_, _, _, -, rfl⟩ | ⟨_, _, _, -, rfl⟩ | ⟨_, -, rfl⟩ | ⟨-, _, rfl⟩
  · exact .inl h
  · exact .inr ⟨_, h⟩
  · exact .inl rfl
  · exact .inr ⟨_, rfl⟩
  · exact .inr ⟨_, rfl⟩
  · exact .inr ⟨_, rfl⟩

theorem ssteps_log {E : SnapEnv} {W W' : SWorld} (hr : SReachable E W) (h : SSteps E W W') : ∃ l, W'.log = W.log ++ l := by
  induction h with
  | refl => exact ⟨[], by simp⟩
  | tail h1 hs ih =>
    obtain ⟨l, hl⟩ := ih
    rcases sstep_log (hr.trans h1) hs with h | ⟨e, h⟩
    · exact ⟨l, h.trans hl⟩
    · exact ⟨l ++ [e], by rw [h, hl]; simp⟩

/-- The step that is a call. -/
theorem sstep_call {E : SnapEnv} {W W' : SWorld} (hr : SReachable E W) (h : SStep E W W') {t : Nat} {k : SCall}
    (hl : W'.log = W.log ++ [(t, .call k)]) :
    W' = { W with sp := supd W.sp t (SCall.start E k), log := W.log ++ [(t, .call k)] } := by
  rcases sstep_of hr h t with ⟨-, -, h | ⟨u, e, hu, h⟩⟩ | ⟨_, _, _, -, rfl⟩ | ⟨_, _, _, -, rfl⟩ | ⟨_, -, rfl⟩ | ⟨-, _, rfl⟩ <;>
    try (simp at hl; done)
  · rw [h] at hl; simp at hl
  · rw [h] at hl; simp at hl; exact absurd hl.1 hu
  · simp at hl; rw [hl]

/-- What holds during a call: true at its beginning, kept by the steps of the thread and by those of others. -/
theorem sduring {E : SnapEnv} {W0 : SWorld} {t : Nat} {k : SCall} {vs : List SWorld} {r : SReply} {W' : SWorld}
    (h : SPerformed E W0 t k vs r W') (P : List SWorld → SWorld → Prop)
    (start : ∀ W1, W1.w = W0.w → W1.sp t = k.start E → P [W1] W1)
    (other : ∀ vs V V', SReachable E V → V ∈ vs → P vs V → (V.OnlyWriter t → V'.w.st = V.w.st) → V'.sp t = V.sp t →
      P (vs ++ [V']) V')
    (own : ∀ vs V σ s p V', SReachable E V → V ∈ vs → P vs V → SOut E σ V.w.st (V.sp t) s (.go p) → V'.w.st = s →
      V'.sp t = p → P (vs ++ [V']) V') :
    ∃ W, SReachable E W ∧ W ∈ vs ∧ P vs W ∧
      ((∃ σ, SOut E σ W.w.st (W.sp t) W'.w.st (.ret r)) ∨ (∃ σ, (W.sp t).exec E σ W.w.st = .panic ∧ r = .panicked ∧ W'.w.st = W.w.st)) := by
  obtain ⟨W1, W, hr, hcall, hl1, htr, hno, hret, hlr⟩ := h
  have e1 := sstep_call hr hcall hl1
  have hr1 : SReachable E W1 := .tail hr hcall
  refine ⟨W, hr1.trans htr.steps, htr.last, ?_, ?_⟩
  · clear hret hlr
    induction htr with
    | refl => exact start W1 (by rw [e1]) (by rw [e1]; simp)
    | @tail vs V V' h1 hs ih =>
      obtain ⟨l, hl⟩ := ssteps_log hr1 h1.steps
      have keep : (V'.log = V.log ∨ ∃ e, V'.log = V.log ++ [e]) → ∀ l, V.log = W1.log ++ l → ∀ e ∈ l, e.1 ≠ t := by
        rintro (h | ⟨e, h⟩) l hl x hx
        · exact hno l (h.trans hl) x hx
        · exact hno (l ++ [e]) (by rw [h, hl]; simp) x (by simp [hx])
      have bad : ∀ e, V'.log = V.log ++ [(t, e)] → False := by
        intro e h
        exact hno (l ++ [(t, e)]) (by rw [h, hl]; simp) (t, e) (by simp) rfl
      have hrV : SReachable E V := hr1.trans h1.steps
      have hP := ih (keep (sstep_log hrV hs))
      rcases sstep_of hrV hs t with ⟨g1, g2, -⟩ | ⟨σ, s, p, g1, rfl⟩ | ⟨_, _, _, -, rfl⟩ | ⟨_, -, rfl⟩ | ⟨-, _, rfl⟩
      · exact other vs V V' hrV h1.last hP g2 g1
      · exact own vs V σ s p _ hrV h1.last hP g1 rfl (by simp)
      · exact (bad _ rfl).elim
      · exact (bad _ rfl).elim
      · exact (bad _ rfl).elim
  · rcases sstep_of (hr1.trans htr.steps) hret t with ⟨-, -, h | ⟨u, e, hu, h⟩⟩ | ⟨_, _, _, -, rfl⟩ | ⟨σ, s, r', ho, rfl⟩ | ⟨σ, he, rfl⟩ |
      ⟨-, _, rfl⟩
    · rw [h] at hlr; simp at hlr
    · rw [h] at hlr; simp at hlr; exact absurd hlr.1 hu
    · simp at hlr
    · simp at hlr; subst hlr; exact .inl ⟨σ, ho⟩
    · simp at hlr; exact .inr ⟨σ, he, hlr.symm, rfl⟩
    · simp at hlr

/-! ## Loading alone -/

/-- What is left of loading, done at once. -/
def SPc.rest (s : TokenStore) : SPc → Run TokenStore
  | .putMultisig l ms tokens =>
    let (mapping, s) := TokenStore.loadMints ms [] (TokenStore.loadMultisigs l s)
    TokenStore.loadTokens mapping tokens s
  | .findMint l mapping tokens =>
    let (mapping, s) := TokenStore.loadMints l mapping s
    TokenStore.loadTokens mapping tokens s
  | .newMint i m l mapping tokens =>
    let (mapping, s) := TokenStore.loadMints l (mapping.insert i s.table.counter)
      { s with table := ⟨s.table.index, wrap32 (s.table.counter + 1)⟩, mints := s.mints.insert s.table.counter m }
    TokenStore.loadTokens mapping tokens s
  | .putMint i m _ l mapping tokens =>
    let (mapping, s) := TokenStore.loadMints l mapping { s with mints := s.mints.insert i m }
    TokenStore.loadTokens mapping tokens s
  | .decode l mapping => TokenStore.loadTokens mapping l s
  | .bucket t l mapping | .save t l mapping => do
    let ((k, added), tokens) ← s.tokens.save t
    TokenStore.loadTokens mapping l (if added then
      { s with
        tokens := tokens
        byOwner := TokenStore.push s.byOwner (prefix4 t.owner) k
        byMint := TokenStore.push s.byMint t.mint k }
      else { s with tokens := tokens })
  | .pushOwner t i l mapping => TokenStore.loadTokens mapping l
      { s with byOwner := TokenStore.push s.byOwner (prefix4 t.owner) i, byMint := TokenStore.push s.byMint t.mint i }
  | .newOwner t i l mapping => TokenStore.loadTokens mapping l
      { s with byOwner := s.byOwner.insert (prefix4 t.owner) [i], byMint := TokenStore.push s.byMint t.mint i }
  | .pushMint t i l mapping => TokenStore.loadTokens mapping l { s with byMint := TokenStore.push s.byMint t.mint i }
  | .newByMint t i l mapping => TokenStore.loadTokens mapping l { s with byMint := s.byMint.insert t.mint [i] }
  | _ => .panic

theorem srest_go {E : SnapEnv} {σ : SnapshotOrders} {s s' : TokenStore} {p p' : SPc} (h : SOut E σ s p s' (.go p'))
    (hp : p.loads = true) : p'.loads = true ∧ p'.rest s' = p.rest s := by
  generalize hn : SNext.go p' = n at h
  cases h <;> cases hn <;> (try (cases hp; done)) <;> refine ⟨rfl, ?_⟩
  case findMint h => simp only [SPc.rest, TokenStore.loadMints, h]
  case findNone h => simp only [SPc.rest, TokenStore.loadMints, h]
  case decode h1 h2 => simp only [SPc.rest, TokenStore.loadTokens, h1, h2, ok_bind, Run.unwrap_some]
  case saveNew h => simp only [SPc.rest, h, ok_bind, if_true]
  case saveOld h => simp [SPc.rest, h]
  case pushOwner h => simp only [SPc.rest, TokenStore.push, h]
  case noOwner h => simp only [SPc.rest, TokenStore.push, h]
  case pushMint h => simp only [SPc.rest, TokenStore.push, h]
  case noMint h => simp only [SPc.rest, TokenStore.push, h]
  all_goals rfl

theorem srest_ret {E : SnapEnv} {σ : SnapshotOrders} {s s' : TokenStore} {p : SPc} {r : SReply} (h : SOut E σ s p s' (.ret r))
    (hp : p.loads = true) : r = .loaded ∧ p.rest s = .ok s' := by
  generalize hn : SNext.ret r = n at h
  cases h <;> cases hn
  · cases hp
  · exact ⟨rfl, rfl⟩

theorem srest_panic {E : SnapEnv} {σ : SnapshotOrders} {s : TokenStore} (hs : Placed s.tokens) {p : SPc}
    (h : p.exec E σ s = .panic) : p.rest s = .panic := by
  obtain ⟨b, l, mapping, rfl⟩ := spanic hs h
  simp only [SPc.exec] at h
  simp only [SPc.rest, TokenStore.loadTokens]
  cases hb : TokenAccount.fromBytes b with
  | ok t =>
    rw [hb] at h
    simp only [ok_bind] at h ⊢
    cases hi : mapping.find t.mint with
    | none => rfl
    | some i => rw [hi] at h; simp at h
  | panic => rfl
  | diverge => exact absurd hb (fromBytes_ne_diverge b)

theorem load_alone {E : SnapEnv} {W0 : SWorld} {t : Nat} {x : TokenSnapshot} {vs : List SWorld} {r : SReply} {W' : SWorld}
    (h : SPerformed E W0 t (.load x) vs r W') (ho : ∀ v ∈ vs, v.OnlyWriter t) :
    (r = .loaded ∧ W0.w.st.loadSnapshot x = .ok W'.w.st) ∨ (r = .panicked ∧ W0.w.st.loadSnapshot x = .panic) := by
  obtain ⟨W, hr, -, hP, hd⟩ := sduring h
    (fun vs V => (∀ v ∈ vs, v.OnlyWriter t) → (V.sp t).loads = true ∧ (V.sp t).rest V.w.st = W0.w.st.loadSnapshot x)
    (fun W1 h1 h2 _ => by rw [h1, h2]; exact ⟨rfl, rfl⟩)
    (fun vs V V' _ hv hP hst hsp ho => by
      rw [hsp, hst (ho V (by simp [hv]))]
      exact hP fun v hv => ho v (by simp [hv]))
    (fun vs V σ s p V' _ _ hP hout hst hsp ho => by
      obtain ⟨h1, h2⟩ := hP fun v hv => ho v (by simp [hv])
      rw [hsp, hst, ← h2]
      exact srest_go hout h1)
  obtain ⟨h1, h2⟩ := hP ho
  rcases hd with ⟨σ, hd⟩ | ⟨σ, hd, rfl, -⟩
  · obtain ⟨rfl, h3⟩ := srest_ret hd h1
    exact .inl ⟨rfl, by rw [← h2, h3]⟩
  · exact .inr ⟨rfl, by rw [← h2, srest_panic (splaced hr).1 hd]⟩

/-! ## Creating -/

theorem out_distinct {E : Env} {σ : Orders} {s s' : TokenStore} {p : Pc} {n : Next} (h : Out E σ s p s' n)
    (hm : s.mints.Distinct) (hu : s.multisigs.Distinct) : s'.mints.Distinct ∧ s'.multisigs.Distinct := by
  cases h
  case addMultisig => exact ⟨hm, AMap.distinct_insert hu _ _⟩
  case putMint => exact ⟨AMap.distinct_insert hm _ _, hu⟩
  case putMintNew => exact ⟨AMap.distinct_insert hm _ _, hu⟩
  case eraseMint => exact ⟨AMap.distinct_erase hm _, hu⟩
  all_goals exact ⟨hm, hu⟩

theorem sout_distinct {E : SnapEnv} {σ : SnapshotOrders} {s s' : TokenStore} {p : SPc} {n : SNext} (h : SOut E σ s p s' n)
    (hm : s.mints.Distinct) (hu : s.multisigs.Distinct) : s'.mints.Distinct ∧ s'.multisigs.Distinct := by
  cases h
  case putMultisig => exact ⟨hm, AMap.distinct_insert hu _ _⟩
  case putMint => exact ⟨AMap.distinct_insert hm _ _, hu⟩
  all_goals exact ⟨hm, hu⟩

theorem sdistinct {E : SnapEnv} {W : SWorld} (hr : SReachable E W) : W.w.st.mints.Distinct ∧ W.w.st.multisigs.Distinct := by
  induction hr with
  | refl => exact ⟨AMap.distinct_nil, AMap.distinct_nil⟩
  | tail _ hs ih =>
    cases hs with
    | work hw =>
      rcases swork_cases hw with ⟨x, -, -, -, -, ⟨_, _, _, ho, h, -⟩ | ⟨_, _, _, ho, h⟩ | ⟨_, -, h⟩ | ⟨_, -, h⟩⟩ |
        ⟨x, -, -, ⟨_, _, _, ho, rfl, -⟩ | ⟨_, _, _, ho, rfl⟩ | ⟨_, -, rfl⟩⟩
      · rw [h]; exact out_distinct ho ih.1 ih.2
      · rw [h]; exact out_distinct ho ih.1 ih.2
      · rw [h]; exact ih
      · rw [h]; exact ih
      · exact sout_distinct ho ih.1 ih.2
      · exact sout_distinct ho ih.1 ih.2
      · exact ih
    | call t k => exact ih
    | scall t k => exact ih

/-- What has been collected of the mints when the shards `left` are still to be read. -/
structure GotMints (E : SnapEnv) (p : Program) (vs : List SWorld) (left : List Nat) (out : List (Nat × MintAccount)) : Prop where
  nodup : left.Nodup
  todo : ∀ e ∈ out, E.base.mintsShard e.1 ∉ left
  done : ∀ i, E.base.mintsShard i ∉ left → ∃ v ∈ vs, ∀ m, (i, m) ∈ out ↔ v.w.st.mints.find i = some m ∧ m.program = p
  keys : (out.map (·.1)).Nodup

theorem GotMints.mono {E : SnapEnv} {p : Program} {vs : List SWorld} {left : List Nat} {out : List (Nat × MintAccount)}
    (h : GotMints E p vs left out) (V : SWorld) : GotMints E p (vs ++ [V]) left out :=
  ⟨h.nodup, h.todo, fun i hi => by
    obtain ⟨v, hv, h⟩ := h.done i hi
    exact ⟨v, by simp [hv], h⟩, h.keys⟩

theorem GotMints.step {E : SnapEnv} {p : Program} {vs : List SWorld} {n : Nat} {left : List Nat} {out : List (Nat × MintAccount)}
    (h : GotMints E p vs (n :: left) out) (σ : SnapshotOrders) {V : SWorld} (hV : V ∈ vs) (hd : V.w.st.mints.Distinct) :
    GotMints E p vs left (out ++ σ.mints (V.w.st.mints.filter fun e => E.base.mintsShard e.1 = n ∧ e.2.program = p)) := by
  have hmem : ∀ i m, (i, m) ∈ σ.mints (V.w.st.mints.filter fun e => E.base.mintsShard e.1 = n ∧ e.2.program = p) ↔
      V.w.st.mints.find i = some m ∧ E.base.mintsShard i = n ∧ m.program = p := by
    intro i m
    rw [(σ.mints_perm _).mem_iff, List.mem_filter, AMap.mem_iff_find hd]
    simp
  obtain ⟨h1, h2⟩ := List.nodup_cons.1 h.nodup
  refine ⟨h2, ?_, ?_, ?_⟩
  · rintro ⟨i, m⟩ he
    rcases List.mem_append.1 he with he | he
    · exact fun hc => h.todo _ he (by simp [hc])
    · rw [((hmem i m).1 he).2.1]; exact h1
  · intro i hi
    by_cases e : E.base.mintsShard i = n
    · refine ⟨V, hV, fun m => ?_⟩
      rw [List.mem_append, hmem]
      constructor
      · rintro (hm | hm)
        · exact absurd (by simp [e]) (h.todo _ hm)
        · exact ⟨hm.1, hm.2.2⟩
      · rintro ⟨hm, hp⟩
        exact .inr ⟨hm, e, hp⟩
    · obtain ⟨v, hv, h3⟩ := h.done i (by simp [e, hi])
      refine ⟨v, hv, fun m => ?_⟩
      rw [List.mem_append, hmem, h3]
      simp [e]
  · rw [List.map_append, List.nodup_append]
    refine ⟨h.keys, ?_, ?_⟩
    · rw [((σ.mints_perm _).map _).nodup_iff]
      exact List.Nodup.sublist (List.Sublist.map _ List.filter_sublist) (distinct_keys hd)
    · intro i hi j hj e
      subst e
      obtain ⟨⟨i, m⟩, hm, rfl⟩ := List.mem_map.1 hi
      obtain ⟨⟨j, m'⟩, hm', e⟩ := List.mem_map.1 hj
      dsimp only at e
      subst e
      exact h.todo _ hm (by rw [((hmem _ m').1 hm').2.1]; simp)

/-- What has been collected of the multisig accounts. -/
structure GotMultisigs (E : SnapEnv) (vs : List SWorld) (left : List Nat) (out : List MultiSig) : Prop where
  mem : ∀ m ∈ out, ∃ v ∈ vs, ∃ pk, v.w.st.multisigs.find pk = some m
  done : ∀ pk, E.base.multisigShard pk ∉ left → ∃ v ∈ vs, ∀ m, v.w.st.multisigs.find pk = some m → m ∈ out

theorem GotMultisigs.mono {E : SnapEnv} {vs : List SWorld} {left : List Nat} {out : List MultiSig}
    (h : GotMultisigs E vs left out) (V : SWorld) : GotMultisigs E (vs ++ [V]) left out :=
  ⟨fun m hm => by
    obtain ⟨v, hv, h⟩ := h.mem m hm
    exact ⟨v, by simp [hv], h⟩, fun i hi => by
    obtain ⟨v, hv, h⟩ := h.done i hi
    exact ⟨v, by simp [hv], h⟩⟩

theorem GotMultisigs.step {E : SnapEnv} {vs : List SWorld} {n : Nat} {left : List Nat} {out : List MultiSig}
    (h : GotMultisigs E vs (n :: left) out) (σ : SnapshotOrders) {V : SWorld} (hV : V ∈ vs) (hd : V.w.st.multisigs.Distinct) :
    GotMultisigs E vs left
      (out ++ σ.multisigs ((V.w.st.multisigs.filter fun e => E.base.multisigShard e.1 = n).map (·.2))) := by
  have hmem : ∀ m, m ∈ σ.multisigs ((V.w.st.multisigs.filter fun e => E.base.multisigShard e.1 = n).map (·.2)) ↔
      ∃ pk, V.w.st.multisigs.find pk = some m ∧ E.base.multisigShard pk = n := by
    intro m
    rw [(σ.multisigs_perm _).mem_iff, List.mem_map]
    constructor
    · rintro ⟨⟨pk, m'⟩, h, rfl⟩
      rw [List.mem_filter, AMap.mem_iff_find hd] at h
      exact ⟨pk, h.1, by simpa using h.2⟩
    · rintro ⟨pk, h1, h2⟩
      exact ⟨(pk, m), by rw [List.mem_filter, AMap.mem_iff_find hd]; exact ⟨h1, by simpa using h2⟩, rfl⟩
  refine ⟨fun m hm => ?_, fun pk hpk => ?_⟩
  · rcases List.mem_append.1 hm with hm | hm
    · exact h.mem m hm
    · obtain ⟨pk, h1, -⟩ := (hmem m).1 hm
      exact ⟨V, hV, pk, h1⟩
  · by_cases e : E.base.multisigShard pk = n
    · exact ⟨V, hV, fun m hm => List.mem_append_right _ ((hmem m).2 ⟨pk, hm, e⟩)⟩
    · obtain ⟨v, hv, h1⟩ := h.done pk (by simp [e, hpk])
      exact ⟨v, hv, fun m hm => List.mem_append_left _ (h1 m hm)⟩

/-- How far a snapshot has come. -/
def Creating (E : SnapEnv) (p : Program) (vs : List SWorld) : SPc → Prop
  | .mints q shards out => q = p ∧ GotMints E p vs shards out
  | .multisigs q shards ms out => q = p ∧ GotMints E p vs [] ms ∧ GotMultisigs E vs shards out
  | .accounts q ms mus => q = p ∧ GotMints E p vs [] ms ∧ GotMultisigs E vs [] mus
  | _ => False

theorem Creating.mono {E : SnapEnv} {p : Program} {vs : List SWorld} {q : SPc} (h : Creating E p vs q) (V : SWorld) :
    Creating E p (vs ++ [V]) q := by
  cases q with
  | mints => exact ⟨h.1, h.2.mono V⟩
  | multisigs => exact ⟨h.1, h.2.1.mono V, h.2.2.mono V⟩
  | accounts => exact ⟨h.1, h.2.1.mono V, h.2.2.mono V⟩
  | _ => exact h

theorem Creating.step {E : SnapEnv} {p : Program} {vs : List SWorld} {σ : SnapshotOrders} {V : SWorld} {s' : TokenStore} {q q' : SPc}
    (h : Creating E p vs q) (hV : V ∈ vs) (hr : SReachable E V) (ho : SOut E σ V.w.st q s' (.go q')) : Creating E p vs q' := by
  have hd := sdistinct hr
  generalize hn : SNext.go q' = n at ho
  cases ho <;> cases hn <;> try (exact h.elim)
  case mintsEnd =>
    refine ⟨h.1, h.2, ⟨by simp, fun pk hpk => ?_⟩⟩
    exact absurd (by simpa using E.multisigShard_lt pk) hpk
  case mints => obtain ⟨rfl, h⟩ := h; exact ⟨rfl, h.step σ hV hd.1⟩
  case multisigsEnd => exact h
  case multisigs => exact ⟨h.1, h.2.1, h.2.2.step σ hV hd.2⟩

theorem sret_create {E : SnapEnv} {σ : SnapshotOrders} {s s' : TokenStore} {q : SPc} {r : SReply} (h : SOut E σ s q s' (.ret r))
    (hq : q.loads = false) : ∃ p ms mus tokens, q = .accounts p ms mus ∧ s.tokens.createSnapshot p = .ok tokens ∧
      r = .created ⟨ms, mus, tokens⟩ ∧ s' = s := by
  generalize hn : SNext.ret r = n at h
  cases h <;> cases hn
  · rename_i hc; exact ⟨_, _, _, _, rfl, hc, rfl, rfl⟩
  · cases hq

theorem Creating.reads {E : SnapEnv} {p : Program} {vs : List SWorld} {q : SPc} (h : Creating E p vs q) : q.loads = false := by
  cases q <;> first | rfl | exact h.elim

theorem create_moments {E : SnapEnv} {W0 : SWorld} {t : Nat} {p : Program} {vs : List SWorld} {r : SReply} {W' : SWorld}
    (h : SPerformed E W0 t (.create p) vs r W') :
    ∃ x, r = .created x ∧ GotMints E p vs [] x.mints ∧ GotMultisigs E vs [] x.multisigs ∧
      ∃ v ∈ vs, Placed v.w.st.tokens ∧ v.w.st.tokens.createSnapshot p = .ok x.tokens := by
  obtain ⟨W, hr, hW, hP, hd⟩ := sduring h (fun vs V => Creating E p vs (V.sp t))
    (fun W1 h1 h2 => by
      rw [h2]
      refine ⟨rfl, List.nodup_range, by simp, fun i hi => ?_, by simp⟩
      exact absurd (by simpa using E.base.mintsShard_lt i) hi)
    (fun vs V V' _ hv hP _ hsp => by rw [hsp]; exact hP.mono V')
    (fun vs V σ s p V' hr hV hP hout hst hsp => by
      rw [hsp]; exact (hP.step hV hr hout).mono V')
  have hp := (splaced hr).1
  rcases hd with ⟨σ, hd⟩ | ⟨σ, hd, rfl, -⟩
  · obtain ⟨q, ms, mus, tokens, e, hc, rfl, -⟩ := sret_create hd hP.reads
    rw [e] at hP
    obtain ⟨rfl, h1, h2⟩ := hP
    exact ⟨_, rfl, h1, h2, W, hW, hp, hc⟩
  · obtain ⟨b, l, mapping, e⟩ := spanic hp hd
    rw [e] at hP
    exact hP.elim

/-! ## Creating alone -/

theorem shards_perm {α : Type} (f : α → Nat) (l : List α) (N : Nat) (h : ∀ a ∈ l, f a < N) :
    ((List.range N).flatMap fun n => l.filter fun a => f a = n).Perm l := by
  have key : ∀ n, ((List.range n).flatMap fun n => l.filter fun a => f a = n).Perm (l.filter fun a => decide (f a < n)) := by
    intro n
    induction n with
    | zero => simp
    | succ n ih =>
      have h := List.filter_append_perm (fun a => decide (f a < n)) (l.filter fun a => decide (f a < n + 1))
      rw [List.filter_filter, List.filter_filter] at h
      refine List.Perm.trans ?_ h
      rw [List.range_succ, List.flatMap_append]
      refine List.Perm.append ?_ ?_
      · refine ih.trans (List.Perm.of_eq (List.filter_congr fun a _ => ?_))
        by_cases h : f a < n <;> simp [h]
        omega
      · simp only [List.flatMap_cons, List.flatMap_nil, List.append_nil]
        refine List.Perm.of_eq (List.filter_congr fun a _ => ?_)
        by_cases h : f a = n <;> simp [h]
        omega
  refine (key N).trans (List.Perm.of_eq (List.filter_eq_self.2 fun a ha => ?_))
  simpa using h a ha

/-- How far a snapshot of the store `s` has come. -/
def CreatingOf (E : SnapEnv) (s : TokenStore) (p : Program) : SPc → Prop
  | .mints q shards out => q = p ∧
    (out ++ shards.flatMap fun n => (s.mints.filter fun e => e.2.program = p).filter fun e => E.base.mintsShard e.1 = n).Perm
      (s.mints.filter fun e => e.2.program = p)
  | .multisigs q shards ms out => q = p ∧ ms.Perm (s.mints.filter fun e => e.2.program = p) ∧
    (out ++ (shards.flatMap fun n => s.multisigs.filter fun e => E.base.multisigShard e.1 = n).map (·.2)).Perm (s.multisigs.map (·.2))
  | .accounts q ms mus => q = p ∧ ms.Perm (s.mints.filter fun e => e.2.program = p) ∧ mus.Perm (s.multisigs.map (·.2))
  | _ => False

theorem CreatingOf.step {E : SnapEnv} {p : Program} {σ : SnapshotOrders} {s s' : TokenStore} {q q' : SPc}
    (h : CreatingOf E s p q) (ho : SOut E σ s q s' (.go q')) : CreatingOf E s p q' ∧ s' = s := by
  generalize hn : SNext.go q' = n at ho
  cases ho <;> cases hn <;> try (exact h.elim)
  case mintsEnd =>
    obtain ⟨rfl, h⟩ := h
    refine ⟨⟨rfl, by simpa using h, ?_⟩, rfl⟩
    exact (shards_perm (fun e : Pubkey × MultiSig => E.base.multisigShard e.1) s.multisigs E.multisigShards
      fun e _ => E.multisigShard_lt e.1).map _
  case mints p n shards out =>
    obtain ⟨rfl, h⟩ := h
    refine ⟨⟨rfl, List.Perm.trans ?_ h⟩, rfl⟩
    rw [List.flatMap_cons, List.append_assoc]
    refine List.Perm.append_left _ (List.Perm.append_right _ ((σ.mints_perm _).trans (.of_eq ?_)))
    rw [List.filter_filter]
    exact List.filter_congr fun e _ => by simp
  case multisigsEnd => exact ⟨⟨h.1, h.2.1, by simpa using h.2.2⟩, rfl⟩
  case multisigs p n shards ms out =>
    refine ⟨⟨h.1, h.2.1, List.Perm.trans ?_ h.2.2⟩, rfl⟩
    rw [List.flatMap_cons, List.map_append, List.append_assoc]
    exact List.Perm.append_left _ (List.Perm.append_right _ (σ.multisigs_perm _))

theorem orders_of (L L' : List (Nat × MintAccount)) (M M' : List MultiSig) (h : L'.Perm L) (h' : M'.Perm M) :
    ∃ τ : SnapshotOrders, τ.mints L = L' ∧ τ.multisigs M = M' :=
  ⟨{ mints := fun l => if l = L then L' else l
     mints_perm := fun l => by split <;> simp_all
     multisigs := fun l => if l = M then M' else l
     multisigs_perm := fun l => by split <;> simp_all }, by simp, by simp⟩

theorem create_alone {E : SnapEnv} {W0 : SWorld} {t : Nat} {p : Program} {vs : List SWorld} {r : SReply} {W' : SWorld}
    (h : SPerformed E W0 t (.create p) vs r W') (ho : ∀ v ∈ vs, v.OnlyWriter t) :
    ∃ τ x, r = .created x ∧ W0.w.st.snapshotOf τ p = .ok x ∧ W'.w.st = W0.w.st := by
  obtain ⟨W, hr, -, hP, hd⟩ := sduring h
    (fun vs V => (∀ v ∈ vs, v.OnlyWriter t) → V.w.st = W0.w.st ∧ CreatingOf E W0.w.st p (V.sp t))
    (fun W1 h1 h2 _ => by
      rw [h1, h2]
      refine ⟨rfl, rfl, ?_⟩
      exact shards_perm (fun e : Nat × MintAccount => E.base.mintsShard e.1) _ E.base.mintsShards fun e _ => E.base.mintsShard_lt e.1)
    (fun vs V V' _ hv hP hst hsp ho => by
      rw [hsp, hst (ho V (by simp [hv]))]
      exact hP fun v hv => ho v (by simp [hv]))
    (fun vs V σ s p V' _ _ hP hout hst hsp ho => by
      obtain ⟨h1, h2⟩ := hP fun v hv => ho v (by simp [hv])
      rw [h1] at hout
      obtain ⟨h3, h4⟩ := h2.step hout
      rw [hsp, hst]
      exact ⟨h4, h3⟩)
  obtain ⟨h1, h2⟩ := hP ho
  have hp := (splaced hr).1
  have reads : (W.sp t).loads = false := by
    generalize W.sp t = q at h2
    cases q <;> first | rfl | exact h2.elim
  rcases hd with ⟨σ, hd⟩ | ⟨σ, hd, rfl, -⟩
  · obtain ⟨q, ms, mus, tokens, e, hc, rfl, hst⟩ := sret_create hd reads
    rw [e] at h2
    obtain ⟨rfl, g1, g2⟩ := h2
    obtain ⟨τ, t1, t2⟩ := orders_of _ _ _ _ g1 g2
    refine ⟨τ, _, rfl, ?_, by rw [hst, h1]⟩
    simp only [TokenStore.snapshotOf, ← h1, hc, ok_bind, pure_eq]
    rw [h1, t1, t2]
  · obtain ⟨b, l, mapping, e⟩ := spanic hp hd
    rw [e] at h2
    exact h2.elim

/-! ## Loading a snapshot -/

theorem loadMints_maps (l : List (Nat × MintAccount)) : ∀ (mapping : AMap Nat Nat) (s : TokenStore) (i : Nat),
    ((mapping.find i).isSome ∨ ∃ m, (i, m) ∈ l) → ((TokenStore.loadMints l mapping s).1.find i).isSome ∧
      (TokenStore.loadMints l mapping s).2.tokens = s.tokens := by
  have frame : ∀ (l : List (Nat × MintAccount)) (mapping : AMap Nat Nat) (s : TokenStore),
      (TokenStore.loadMints l mapping s).2.tokens = s.tokens := by
    intro l
    induction l with
    | nil => intro _ _; rfl
    | cons e l ih =>
      intro mapping s
      obtain ⟨i, m⟩ := e
      simp only [TokenStore.loadMints]
      split <;> rw [ih]
  intro mapping s i h
  refine ⟨?_, frame _ _ _⟩
  induction l generalizing mapping s with
  | nil => simpa [TokenStore.loadMints] using h
  | cons e l ih =>
    obtain ⟨j, m⟩ := e
    simp only [TokenStore.loadMints]
    have key : ∀ v : Nat, (((mapping.insert j v).find i).isSome ∨ ∃ m, (i, m) ∈ l) := by
      intro v
      rw [AMap.find_insert]
      by_cases e : j = i
      · simp [e]
      · rw [if_neg e]
        rcases h with h | ⟨m', h⟩
        · exact .inl h
        · simp only [List.mem_cons, Prod.mk.injEq] at h
          rcases h with ⟨h, -⟩ | h
          · exact absurd h.symm e
          · exact .inr ⟨m', h⟩
    split <;> exact ih _ _ (key _)

theorem loadTokens_ok {mapping : AMap Nat Nat} (l : List Bytes) : ∀ (s : TokenStore), Placed s.tokens →
    (∀ b ∈ l, ∃ t, TokenAccount.fromBytes b = .ok t ∧ (mapping.find t.mint).isSome) → ∃ s', TokenStore.loadTokens mapping l s = .ok s' := by
  induction l with
  | nil => intro s _ _; exact ⟨s, rfl⟩
  | cons b l ih =>
    intro s hs h
    obtain ⟨t, ht, hi⟩ := h b (by simp)
    obtain ⟨i, hi⟩ := Option.isSome_iff_exists.1 hi
    obtain ⟨⟨k, added⟩, T, h1, h2, -⟩ := save_placed hs { t with mint := i }
    simp only [TokenStore.loadTokens, ht, hi, ok_bind, Run.unwrap_some, h1]
    refine ih _ ?_ fun b hb => h b (by simp [hb])
    split <;> exact h2

theorem loadSnapshot_ok {s : TokenStore} (hs : Placed s.tokens) {x : TokenSnapshot}
    (h : ∀ b ∈ x.tokens, ∃ t, TokenAccount.fromBytes b = .ok t ∧ ∃ m, (t.mint, m) ∈ x.mints) :
    ∃ s', s.loadSnapshot x = .ok s' := by
  obtain ⟨M, hM, -⟩ := loadMultisigs_other x.multisigs s
  unfold TokenStore.loadSnapshot
  rw [hM]
  refine loadTokens_ok _ _ ?_ fun b hb => ?_
  · by_cases e : ∃ i m, (i, m) ∈ x.mints
    · obtain ⟨i, m, e⟩ := e
      rw [(loadMints_maps x.mints [] _ i (.inr ⟨m, e⟩)).2]
      exact hs
    · have : x.mints = [] := by
        cases hx : x.mints with
        | nil => rfl
        | cons a l => exact absurd ⟨a.1, a.2, by simp [hx]⟩ e
      rw [this]
      exact hs
  · obtain ⟨t, ht, m, hm⟩ := h b hb
    exact ⟨t, ht, (loadMints_maps x.mints [] _ t.mint (.inr ⟨m, hm⟩)).1⟩

end LAM.TokConc
