import Verif.Spec.TokenSnapConc
import Verif.Lemmas.TokenConcAnswers
import Verif.Lemmas.TokenConcRun
/-!
# Snapshots of the token program store, taken and loaded while other calls run: locks, and every call ends
-/
namespace LAM.TokConc
open Token Run Spec ProcStore

@[simp] theorem supd_self (f : Nat → SPc) (t : Nat) (p : SPc) : supd f t p t = p := by simp [supd]
theorem supd_other {f : Nat → SPc} {t x : Nat} {p : SPc} (h : x ≠ t) : supd f t p x = f x := by simp [supd, h]

/-- A thread only asks for locks above those it has. -/
theorem srank_lt {E : SnapEnv} {p : SPc} {l l' : Lock} {m m' : Mode} (h : (l, m) ∈ p.holds E) (h' : p.wants E = some (l', m')) :
    l.rank < l'.rank := by
  unfold SPc.holds at h
  split at h <;> simp at h <;> simp [SPc.wants] at h' <;> rw [h.1, ← h'.1] <;> simp [Lock.rank]

/-- How much a thread has left to do, at most. -/
def SPc.left : SPc → ℕ ×ₗ ℕ
  | .idle => toLex (0, 0)
  | .mints _ shards _ => toLex (5, shards.length)
  | .multisigs _ shards _ _ => toLex (4, shards.length)
  | .accounts .. => toLex (3, 0)
  | .putMultisig l _ _ => toLex (9, l.length)
  | .findMint l _ _ => toLex (8, 3 * l.length)
  | .newMint _ _ l _ _ => toLex (8, 3 * l.length + 2)
  | .putMint _ _ _ l _ _ => toLex (8, 3 * l.length + 1)
  | .decode l _ => toLex (7, 7 * l.length)
  | .bucket _ l _ => toLex (7, 7 * l.length + 6)
  | .save _ l _ => toLex (7, 7 * l.length + 5)
  | .pushOwner _ _ l _ => toLex (7, 7 * l.length + 4)
  | .newOwner _ _ l _ => toLex (7, 7 * l.length + 3)
  | .pushMint _ _ l _ => toLex (7, 7 * l.length + 2)
  | .newByMint _ _ l _ => toLex (7, 7 * l.length + 1)

/-- The outcomes of a step that does not panic. -/
inductive SOut (E : SnapEnv) (σ : SnapshotOrders) (s : TokenStore) : SPc → TokenStore → SNext → Prop where
  | mintsEnd (p out) : SOut E σ s (.mints p [] out) s (.go (.multisigs p (List.range E.multisigShards) out []))
  | mints (p n shards out) : SOut E σ s (.mints p (n :: shards) out) s
      (.go (.mints p shards (out ++ σ.mints (s.mints.filter fun e => E.base.mintsShard e.1 = n ∧ e.2.program = p))))
  | multisigsEnd (p ms out) : SOut E σ s (.multisigs p [] ms out) s (.go (.accounts p ms out))
  | multisigs (p n shards ms out) : SOut E σ s (.multisigs p (n :: shards) ms out) s
      (.go (.multisigs p shards ms (out ++ σ.multisigs ((s.multisigs.filter fun e => E.base.multisigShard e.1 = n).map (·.2)))))
  | accounts (p ms mus tokens) : s.tokens.createSnapshot p = .ok tokens →
      SOut E σ s (.accounts p ms mus) s (.ret (.created ⟨ms, mus, tokens⟩))
  | putMultisigEnd (ms tokens) : SOut E σ s (.putMultisig [] ms tokens) s (.go (.findMint ms [] tokens))
  | putMultisig (m l ms tokens) : SOut E σ s (.putMultisig (m :: l) ms tokens)
      { s with multisigs := s.multisigs.insert m.pubkey m } (.go (.putMultisig l ms tokens))
  | findMintEnd (mapping tokens) : SOut E σ s (.findMint [] mapping tokens) s (.go (.decode tokens mapping))
  | findMint (i m l mapping tokens v) : s.table.index.find m.pubkey = some v →
      SOut E σ s (.findMint ((i, m) :: l) mapping tokens) s (.go (.putMint i m true l (mapping.insert i v) tokens))
  | findNone (i m l mapping tokens) : s.table.index.find m.pubkey = none →
      SOut E σ s (.findMint ((i, m) :: l) mapping tokens) s (.go (.newMint i m l mapping tokens))
  | newMint (i m l mapping tokens) : SOut E σ s (.newMint i m l mapping tokens)
      { s with table := { s.table with counter := wrap32 (s.table.counter + 1) } }
      (.go (.putMint s.table.counter m false l (mapping.insert i s.table.counter) tokens))
  | putMint (i m known l mapping tokens) : SOut E σ s (.putMint i m known l mapping tokens) { s with mints := s.mints.insert i m }
      (.go (.findMint l mapping tokens))
  | decodeEnd (mapping) : SOut E σ s (.decode [] mapping) s (.ret .loaded)
  | decode (b l mapping t i) : TokenAccount.fromBytes b = .ok t → mapping.find t.mint = some i →
      SOut E σ s (.decode (b :: l) mapping) s (.go (.bucket { t with mint := i } l mapping))
  | bucket (t l mapping) : SOut E σ s (.bucket t l mapping) s (.go (.save t l mapping))
  | saveNew (t l mapping i T) : s.tokens.save t = .ok ((i, true), T) →
      SOut E σ s (.save t l mapping) { s with tokens := T } (.go (.pushOwner t i l mapping))
  | saveOld (t l mapping i T) : s.tokens.save t = .ok ((i, false), T) →
      SOut E σ s (.save t l mapping) { s with tokens := T } (.go (.decode l mapping))
  | pushOwner (t i l mapping is) : s.byOwner.find (prefix4 t.owner) = some is → SOut E σ s (.pushOwner t i l mapping)
      { s with byOwner := s.byOwner.insert (prefix4 t.owner) (is ++ [i]) } (.go (.pushMint t i l mapping))
  | noOwner (t i l mapping) : s.byOwner.find (prefix4 t.owner) = none →
      SOut E σ s (.pushOwner t i l mapping) s (.go (.newOwner t i l mapping))
  | newOwner (t i l mapping) : SOut E σ s (.newOwner t i l mapping) { s with byOwner := s.byOwner.insert (prefix4 t.owner) [i] }
      (.go (.pushMint t i l mapping))
  | pushMint (t i l mapping is) : s.byMint.find t.mint = some is → SOut E σ s (.pushMint t i l mapping)
      { s with byMint := s.byMint.insert t.mint (is ++ [i]) } (.go (.decode l mapping))
  | noMint (t i l mapping) : s.byMint.find t.mint = none →
      SOut E σ s (.pushMint t i l mapping) s (.go (.newByMint t i l mapping))
  | newByMint (t i l mapping) : SOut E σ s (.newByMint t i l mapping) { s with byMint := s.byMint.insert t.mint [i] }
      (.go (.decode l mapping))

theorem sexec_out {E : SnapEnv} {σ : SnapshotOrders} {s s' : TokenStore} {p : SPc} {n : SNext} (h : p.exec E σ s = .ok (s', n)) :
    SOut E σ s p s' n := by
  unfold SPc.exec at h
  split at h
  case h_1 => simp at h
  case h_6 =>
    simp only [Run.bind_eq_ok, Run.pure_eq, Run.ok.injEq, Prod.mk.injEq] at h
    obtain ⟨tokens, ht, rfl, rfl⟩ := h
    exact .accounts _ _ _ _ ht
  case h_10 =>
    split at h <;> simp only [Run.ok.injEq, Prod.mk.injEq] at h <;> obtain ⟨rfl, rfl⟩ := h
    · rename_i hf; exact .findMint _ _ _ _ _ _ hf
    · rename_i hf; exact .findNone _ _ _ _ _ hf
  case h_14 b l mapping =>
    simp only [Run.bind_eq_ok, Run.pure_eq, Run.ok.injEq, Prod.mk.injEq] at h
    obtain ⟨t, ht, i, hi, rfl, rfl⟩ := h
    refine .decode _ _ _ _ _ ht ?_
    cases hf : mapping.find t.mint with
    | none => rw [hf] at hi; simp [Run.unwrap] at hi
    | some j => rw [hf] at hi; simp at hi; rw [hi]
  case h_16 =>
    simp only [Run.bind_eq_ok, Run.pure_eq, Run.ok.injEq, Prod.mk.injEq] at h
    obtain ⟨⟨⟨i, added⟩, T⟩, ht, rfl, rfl⟩ := h
    cases added with
    | true => exact .saveNew _ _ _ _ _ ht
    | false => exact .saveOld _ _ _ _ _ ht
  case h_17 =>
    split at h <;> simp only [Run.ok.injEq, Prod.mk.injEq] at h <;> obtain ⟨rfl, rfl⟩ := h
    · rename_i hf; exact .pushOwner _ _ _ _ _ hf
    · rename_i hf; exact .noOwner _ _ _ _ hf
  case h_19 =>
    split at h <;> simp only [Run.ok.injEq, Prod.mk.injEq] at h <;> obtain ⟨rfl, rfl⟩ := h
    · rename_i hf; exact .pushMint _ _ _ _ _ hf
    · rename_i hf; exact .noMint _ _ _ _ hf
  all_goals
    simp only [Run.ok.injEq, Prod.mk.injEq] at h
    obtain ⟨rfl, rfl⟩ := h
    constructor

theorem sexec_left {E : SnapEnv} {σ : SnapshotOrders} {s s' : TokenStore} {p p' : SPc} (h : SOut E σ s p s' (.go p')) :
    p'.left < p.left := by
  generalize hn : SNext.go p' = n at h
  cases h <;> cases hn <;> simp [SPc.left, lex_lt] <;> omega

theorem sleft_pos {p : SPc} (h : p ≠ .idle) : toLex (0, 0) < p.left := by
  cases p <;> first | (exact absurd rfl h) | (simp [SPc.left, lex_lt])

/-- A step of these calls never goes on forever. -/
theorem sexec_ends {E : SnapEnv} {σ : SnapshotOrders} {s : TokenStore} {p : SPc} (h : p ≠ .idle) : (p.exec E σ s).Ends := by
  cases p with
  | idle => exact absurd rfl h
  | mints p shards out => cases shards <;> exact ends_ok _
  | multisigs p shards ms out => cases shards <;> exact ends_ok _
  | accounts p ms mus =>
    refine Ends.bind (ends_filterRun _ fun b => ?_) fun _ _ => ends_ok _
    refine Ends.bind (ends_unwrap _) fun _ _ => ?_
    split
    · exact Ends.bind (ends_unwrap _) fun _ _ => ends_ok _
    · exact ends_ok _
  | putMultisig l ms tokens => cases l <;> exact ends_ok _
  | findMint l mapping tokens =>
    rcases l with _ | ⟨⟨i, m⟩, l⟩
    · exact ends_ok _
    · simp only [SPc.exec]; split <;> exact ends_ok _
  | decode l mapping =>
    cases l with
    | nil => exact ends_ok _
    | cons b l => exact Ends.bind (fromBytes_ne_diverge b) fun _ _ => Ends.bind (ends_unwrap _) fun _ _ => ends_ok _
  | save t l mapping => exact Ends.bind (ends_save _ _) fun _ _ => ends_ok _
  | pushOwner t i l mapping => simp only [SPc.exec]; split <;> exact ends_ok _
  | pushMint t i l mapping => simp only [SPc.exec]; split <;> exact ends_ok _
  | _ => exact ends_ok _

theorem sout_idle {E : SnapEnv} {σ : SnapshotOrders} {s s' : TokenStore} {p : SPc} : ¬ SOut E σ s p s' (.go .idle) := by
  intro h
  generalize hn : SNext.go .idle = n at h
  cases h <;> cases hn

/-- Unfinalized states and slots are not touched. -/
theorem sout_processed {E : SnapEnv} {σ : SnapshotOrders} {s s' : TokenStore} {p : SPc} {n : SNext} (h : SOut E σ s p s' n) :
    s'.processed = s.processed ∧ s'.confirmedSlot = s.confirmedSlot ∧ s'.finalizedSlot = s.finalizedSlot := by
  cases h <;> exact ⟨rfl, rfl, rfl⟩

theorem sout_tokens {E : SnapEnv} {σ : SnapshotOrders} {s s' : TokenStore} {p : SPc} {n : SNext} (h : SOut E σ s p s' n)
    (hp : Placed s.tokens) : Placed s'.tokens ∧ s.tokens.accounts.length ≤ s'.tokens.accounts.length := by
  have save : ∀ {t r T}, s.tokens.save t = .ok (r, T) → Placed T ∧ s.tokens.accounts.length ≤ T.accounts.length := by
    intro t r T hs
    obtain ⟨r', T', h1, h2, h3⟩ := save_placed hp t
    rw [hs] at h1
    simp only [Run.ok.injEq, Prod.mk.injEq] at h1
    obtain ⟨-, rfl⟩ := h1
    exact ⟨h2, h3⟩
  cases h
  case saveNew hs => exact save hs
  case saveOld hs => exact save hs
  all_goals exact ⟨hp, Nat.le_refl _⟩

/-- A thread has after a step only what it had and what it asked for. -/
theorem sout_holds {E : SnapEnv} {σ : SnapshotOrders} {s s' : TokenStore} {p p' : SPc} (h : SOut E σ s p s' (.go p'))
    {x : Lock × Mode} (hx : x ∈ p'.holds E) : x ∈ p.holds E ∨ p.wants E = some x := by
  generalize hn : SNext.go p' = n at h
  cases h <;> cases hn <;> simp [SPc.holds] at hx <;> subst hx <;> exact .inr rfl

/-! ## Executions -/

/-- The outcomes of a step of a thread. -/
theorem swork_cases {E : SnapEnv} {W W' : SWorld} (h : SWork E W W') :
    (∃ t, (W.w.pc t).active ∧ W.Granted E ((W.w.pc t).wants E.base) ∧ W'.sp = W.sp ∧ W'.log = W.log ∧
      ((∃ σ s p, Out E.base σ W.w.st (W.w.pc t) s (.go p) ∧ W'.w = { W.w with st := s, pc := upd W.w.pc t p } ∧
          p.left < (W.w.pc t).left) ∨
       (∃ σ s r, Out E.base σ W.w.st (W.w.pc t) s (.ret r) ∧
          W'.w = { st := s, pc := upd W.w.pc t .idle, log := W.w.log ++ [(t, .ret r)] }) ∨
       (∃ σ, (W.w.pc t).exec E.base σ W.w.st = .panic ∧
          W'.w = { W.w with pc := upd W.w.pc t .idle, log := W.w.log ++ [(t, .ret .panicked)] }) ∨
       ∃ σ, (W.w.pc t).exec E.base σ W.w.st = .diverge ∧
          W'.w = { W.w with pc := upd W.w.pc t (.loops ((W.w.pc t).holds E.base ++ ((W.w.pc t).wants E.base).toList)) })) ∨
    (∃ t, W.sp t ≠ .idle ∧ W.Granted E ((W.sp t).wants E) ∧
      ((∃ σ s p, SOut E σ W.w.st (W.sp t) s (.go p) ∧ W' = { W with w := { W.w with st := s }, sp := supd W.sp t p } ∧
          p.left < (W.sp t).left) ∨
       (∃ σ s r, SOut E σ W.w.st (W.sp t) s (.ret r) ∧
          W' = { w := { W.w with st := s }, sp := supd W.sp t .idle, log := W.log ++ [(t, .ret r)] }) ∨
       ∃ σ, (W.sp t).exec E σ W.w.st = .panic ∧
          W' = { W with sp := supd W.sp t .idle, log := W.log ++ [(t, .ret .panicked)] })) := by
  cases h with
  | other t σ hi hg =>
    refine .inl ⟨t, hi, hg, rfl, rfl, ?_⟩
    match he : (W.w.pc t).exec E.base σ W.w.st with
    | .ok (s, .go p) => exact .inl ⟨σ, s, p, exec_out he, rfl, exec_left he⟩
    | .ok (s, .ret r) => exact .inr (.inl ⟨σ, s, r, exec_out he, rfl⟩)
    | .panic => exact .inr (.inr (.inl ⟨σ, he, rfl⟩))
    | .diverge => exact .inr (.inr (.inr ⟨σ, he, rfl⟩))
  | snap t σ hi hg =>
    refine .inr ⟨t, hi, hg, ?_⟩
    match he : (W.sp t).exec E σ W.w.st with
    | .ok (s, .go p) => exact .inl ⟨σ, s, p, sexec_out he, rfl, sexec_left (sexec_out he)⟩
    | .ok (s, .ret r) => exact .inr (.inl ⟨σ, s, r, sexec_out he, rfl⟩)
    | .panic => exact .inr (.inr ⟨σ, he, rfl⟩)
    | .diverge => exact absurd he (sexec_ends hi)

theorem SSteps.trans {E : SnapEnv} {W W' W'' : SWorld} (h : SSteps E W W') (h' : SSteps E W' W'') : SSteps E W W'' := by
  induction h' with
  | refl => exact h
  | tail _ hs ih => exact .tail ih hs

theorem SSteps.head {E : SnapEnv} {W W' W'' : SWorld} (h : SStep E W W') (h' : SSteps E W' W'') : SSteps E W W'' :=
  (SSteps.tail (.refl _) h).trans h'

/-- One thread at a time takes a step. -/
theorem sstep_pcs {E : SnapEnv} {W W' : SWorld} (h : SStep E W W') :
    (∃ t p, W'.w.pc = upd W.w.pc t p ∧ W'.sp = W.sp) ∨ ∃ t p, W'.sp = supd W.sp t p ∧ W'.w.pc = W.w.pc := by
  cases h with
  | work hw =>
    rcases swork_cases hw with ⟨t, -, -, h1, -, ⟨_, _, _, -, h, -⟩ | ⟨_, _, _, -, h⟩ | ⟨_, -, h⟩ | ⟨_, -, h⟩⟩ |
      ⟨t, -, -, ⟨_, _, _, -, rfl, -⟩ | ⟨_, _, _, -, rfl⟩ | ⟨_, -, rfl⟩⟩
    · exact .inl ⟨t, _, by rw [h], h1⟩
    · exact .inl ⟨t, _, by rw [h], h1⟩
    · exact .inl ⟨t, _, by rw [h], h1⟩
    · exact .inl ⟨t, _, by rw [h], h1⟩
    · exact .inr ⟨t, _, rfl, rfl⟩
    · exact .inr ⟨t, _, rfl, rfl⟩
    · exact .inr ⟨t, _, rfl, rfl⟩
  | call t k => exact .inl ⟨t, _, rfl, rfl⟩
  | scall t k => exact .inr ⟨t, _, rfl, rfl⟩

theorem sfinite {E : SnapEnv} {W : SWorld} (h : SReachable E W) : ∃ N, ∀ t, N ≤ t → W.w.pc t = .idle ∧ W.sp t = .idle := by
  induction h with
  | refl => exact ⟨0, fun _ _ => ⟨rfl, rfl⟩⟩
  | tail _ hs ih =>
    obtain ⟨N, hN⟩ := ih
    rcases sstep_pcs hs with ⟨t, p, h1, h2⟩ | ⟨t, p, h1, h2⟩
    · refine ⟨N + t + 1, fun u hu => ?_⟩
      rw [h1, h2, upd_other (by omega)]
      exact hN u (by omega)
    · refine ⟨N + t + 1, fun u hu => ?_⟩
      rw [h1, h2, supd_other (by omega)]
      exact hN u (by omega)

/-- The thread that asks for the highest lock, or a writer that asks for the same one, gets it. -/
theorem lock_free {ι : Type} (busy : ι → Prop) (holds : ι → Lock → Mode → Prop) (wants : ι → Option (Lock × Mode))
    (S : Finset ι) (hS : ∀ i, busy i → i ∈ S) (hh : ∀ i l m, holds i l m → busy i) (hw : ∀ i x, wants i = some x → busy i)
    (hr : ∀ i l m l' m', holds i l m → wants i = some (l', m') → l.rank < l'.rank) (hb : ∃ i, busy i) :
    ∃ i, busy i ∧ ∀ l m, wants i = some (l, m) → (∀ u m', ¬ holds u l m') ∧ (m = .read → ∀ u, wants u ≠ some (l, .write)) := by
  classical
  let ask : ι → Nat := fun t => match wants t with | some (l, _) => l.rank + 1 | none => 0
  by_cases hn : ∃ t, busy t ∧ wants t = none
  · obtain ⟨t, ht, hw⟩ := hn
    exact ⟨t, ht, fun l m h => by rw [hw] at h; simp at h⟩
  · have hall : ∀ t, busy t → ∃ l m, wants t = some (l, m) := by
      intro t ht
      cases h : wants t with
      | none => exact absurd ⟨t, ht, h⟩ hn
      | some x => exact ⟨x.1, x.2, rfl⟩
    obtain ⟨t0, ht0⟩ := hb
    obtain ⟨t, ht, hmax⟩ := Finset.exists_max_image (S.filter busy) ask ⟨t0, by simp [hS t0 ht0, ht0]⟩
    simp only [Finset.mem_filter] at ht hmax
    obtain ⟨l, m, hwt⟩ := hall t ht.2
    have free : ∀ u m', ¬ holds u l m' := by
      intro u m' hu
      have hui := hh u l m' hu
      obtain ⟨l', m'', hw'⟩ := hall u hui
      have h1 := hr u l m' l' m'' hu hw'
      have h2 := hmax u ⟨hS u hui, hui⟩
      simp only [ask, hwt, hw'] at h2
      omega
    by_cases hwr : ∃ u, wants u = some (l, .write)
    · obtain ⟨u, hu⟩ := hwr
      refine ⟨u, hw u _ hu, fun l' m' h => ?_⟩
      rw [hu] at h
      simp only [Option.some.injEq, Prod.mk.injEq] at h
      obtain ⟨rfl, rfl⟩ := h
      exact ⟨free, by simp⟩
    · refine ⟨t, ht.2, fun l' m' h => ?_⟩
      rw [hwt] at h
      simp only [Option.some.injEq, Prod.mk.injEq] at h
      obtain ⟨rfl, rfl⟩ := h
      exact ⟨free, fun _ u hu => hwr ⟨u, hu⟩⟩

/-- **No deadlock**: as long as a call is being executed and no thread is in an endless loop, a thread that is in a call gets the
lock it asks for. -/
theorem sgranted {E : SnapEnv} {W : SWorld} (hr : SReachable E W) (hl : ∀ t l, W.w.pc t ≠ .loops l)
    (hb : (∃ t, W.w.pc t ≠ .idle) ∨ ∃ t, W.sp t ≠ .idle) :
    (∃ t, (W.w.pc t).active ∧ W.Granted E ((W.w.pc t).wants E.base)) ∨ ∃ t, W.sp t ≠ .idle ∧ W.Granted E ((W.sp t).wants E) := by
  classical
  obtain ⟨N, hN⟩ := sfinite hr
  obtain ⟨i, hi, hg⟩ := lock_free (ι := Nat ⊕ Nat) (Sum.elim (fun t => W.w.pc t ≠ .idle) fun t => W.sp t ≠ .idle)
    (fun i l m => Sum.elim (fun t => (l, m) ∈ (W.w.pc t).holds E.base) (fun t => (l, m) ∈ (W.sp t).holds E) i)
    (Sum.elim (fun t => (W.w.pc t).wants E.base) fun t => (W.sp t).wants E)
    ((Finset.range N).disjSum (Finset.range N))
    (by
      rintro (t | t) ht
      · simp only [Finset.inl_mem_disjSum, Finset.mem_range]
        by_contra h; exact ht (hN t (by omega)).1
      · simp only [Finset.inr_mem_disjSum, Finset.mem_range]
        by_contra h; exact ht (hN t (by omega)).2)
    (by
      rintro (t | t) l m h <;> intro e <;> simp only [Sum.elim_inl, Sum.elim_inr] at h <;> rw [e] at h
      · simp [Pc.holds] at h
      · simp [SPc.holds] at h)
    (by
      rintro (t | t) x h <;> intro e <;> simp only [Sum.elim_inl, Sum.elim_inr] at h <;> rw [e] at h
      · simp [Pc.wants] at h
      · simp [SPc.wants] at h)
    (by
      rintro (t | t) l m l' m' h h'
      · exact rank_lt h h'
      · exact srank_lt h h')
    (by
      rcases hb with ⟨t, ht⟩ | ⟨t, ht⟩
      · exact ⟨.inl t, ht⟩
      · exact ⟨.inr t, ht⟩)
  have gr : W.Granted E (Sum.elim (fun t => (W.w.pc t).wants E.base) (fun t => (W.sp t).wants E) i) := fun l m h =>
    ⟨fun u m' hu => absurd hu ((hg l m h).1 (.inl u) m'), fun u m' hu => absurd hu ((hg l m h).1 (.inr u) m'),
      fun hm _ => ⟨fun u => (hg l m h).2 hm (.inl u), fun u => (hg l m h).2 hm (.inr u)⟩⟩
  rcases i with t | t
  · refine .inl ⟨t, ?_, gr⟩
    have := hl t
    simp only [Sum.elim_inl] at hi
    cases h : W.w.pc t <;> simp_all [Pc.active]
  · exact .inr ⟨t, hi, gr⟩

/-- Every step of the other calls is one they can take without snapshots. -/
theorem other_work {E : SnapEnv} {W : SWorld} {t : Nat} (hg : W.Granted E ((W.w.pc t).wants E.base)) : W.w.Granted E.base t :=
  fun l m h => ⟨(hg l m h).1, fun hm hf => ((hg l m h).2.2 hm hf).1⟩

/-- Recorded parents are older than their slots, and no thread is in an endless loop. -/
theorem sparents_below {E : SnapEnv} {W : SWorld} (hr : SReachable E W) (hp : ParentsOlder W.w.log) :
    BMap.Sorted W.w.st.processed ∧ ParentsBelow W.w.st.processed ∧ (∀ t i, (W.w.pc t).info = some i → i.parent < i.slot) ∧
      ∀ t l, W.w.pc t ≠ .loops l := by
  induction hr with
  | refl =>
    exact ⟨List.Pairwise.nil, fun k e p h => by simp [SWorld.init, World.init, TokenStore.empty] at h,
      fun t i h => by simp [SWorld.init, World.init, Pc.info] at h, fun t l => by simp [SWorld.init, World.init]⟩
  | @tail W W' _ hs ih =>
    have put : ∀ t p, (∀ t i, (W.w.pc t).info = some i → i.parent < i.slot) → (∀ t l, W.w.pc t ≠ .loops l) →
        (∀ i, p.info = some i → i.parent < i.slot) → (∀ l, p ≠ .loops l) →
        (∀ u i, (upd W.w.pc t p u).info = some i → i.parent < i.slot) ∧ ∀ u l, upd W.w.pc t p u ≠ .loops l := by
      intro t p h3 h4 g3 g4
      refine ⟨fun u i hu => ?_, fun u l hu => ?_⟩
      · by_cases e : u = t
        · subst e; rw [upd_self] at hu; exact g3 i hu
        · rw [upd_other e] at hu; exact h3 u i hu
      · by_cases e : u = t
        · subst e; rw [upd_self] at hu; exact g4 l hu
        · rw [upd_other e] at hu; exact h4 u l hu
    have idle : (∀ i, Pc.idle.info = some i → i.parent < i.slot) ∧ ∀ l, Pc.idle ≠ .loops l :=
      ⟨fun i h => by simp [Pc.info] at h, by simp⟩
    cases hs with
    | work hw =>
      rcases swork_cases hw with ⟨t, hi, -, -, -, h⟩ | ⟨t, -, -, h⟩
      · have hst : ∀ σ s n, Out E.base σ W.w.st (W.w.pc t) s n → BMap.Sorted W.w.st.processed → ParentsBelow W.w.st.processed →
            (∀ t i, (W.w.pc t).info = some i → i.parent < i.slot) → BMap.Sorted s.processed ∧ ParentsBelow s.processed := by
          intro σ s n ho h1 h2 h3
          rcases out_processed ho with h | ⟨a, x, -, h⟩ | ⟨i, hi, h⟩ | ⟨i, P, l, -, hf, h⟩
          · rw [h]; exact ⟨h1, h2⟩
          · rw [h]
            exact ⟨sorted_insertAccount h1 _ _ _ _, parentsIn_insertAccount (R := fun k p => p < k) h2 _ _ _ _⟩
          · rw [h]
            exact ⟨sorted_updateSlotInfo h1 _, parentsIn_updateSlotInfo (R := fun k p => p < k) h2 (h3 t i hi)⟩
          · rw [h]
            obtain ⟨g1, g2⟩ := finalize_sub h1 hf
            exact ⟨g1, parentsIn_sub (R := fun k p => p < k) h2 g2⟩
        rcases h with ⟨σ, s, p, ho, h, hlt⟩ | ⟨σ, s, r, ho, h⟩ | ⟨σ, -, h⟩ | ⟨σ, hd, h⟩ <;> rw [h] at hp ⊢
        · obtain ⟨h1, h2, h3, h4⟩ := ih hp
          obtain ⟨g1, g2⟩ := hst σ s _ ho h1 h2 h3
          exact ⟨g1, g2, put t p h3 h4 (fun i hi => h3 t i (out_info ho rfl hi)) (fun l hl => out_loops (l := l) (hl ▸ ho))⟩
        · obtain ⟨h1, h2, h3, h4⟩ := ih hp.left
          obtain ⟨g1, g2⟩ := hst σ s _ ho h1 h2 h3
          exact ⟨g1, g2, put t .idle h3 h4 idle.1 idle.2⟩
        · obtain ⟨h1, h2, h3, h4⟩ := ih hp.left
          exact ⟨h1, h2, put t .idle h3 h4 idle.1 idle.2⟩
        · exact absurd hd (ends_exec hi (ih hp).2.1)
      · rcases h with ⟨σ, s, p, ho, rfl, -⟩ | ⟨σ, s, r, ho, rfl⟩ | ⟨σ, -, rfl⟩
        · simpa only [(sout_processed ho).1] using ih hp
        · simpa only [(sout_processed ho).1] using ih hp
        · exact ih hp
    | call t k hi =>
      obtain ⟨h1, h2, h3, h4⟩ := ih hp.left
      refine ⟨h1, h2, put t _ h3 h4 (fun i hu => ?_) (fun l hu => ?_)⟩
      · cases k with
        | process info c =>
          simp only [Call.start, Pc.info, Option.some.injEq] at hu
          subst hu
          exact hp t info c (by simp)
        | get pk c => simp only [Call.start] at hu; split at hu <;> simp [Pc.info] at hu
        | _ => simp [Call.start, Pc.info] at hu
      · cases k with
        | get pk c => simp only [Call.start] at hu; split at hu <;> simp at hu
        | _ => simp [Call.start] at hu
    | scall t k hi => exact ih hp

/-- A state in which a call is being executed has a next step. -/
theorem scan_work {E : SnapEnv} {W : SWorld} (σ : Orders) (τ : SnapshotOrders) (hr : SReachable E W) (hp : ParentsOlder W.w.log)
    (hb : (∃ t, W.w.pc t ≠ .idle) ∨ ∃ t, W.sp t ≠ .idle) : ∃ W', SWork E W W' := by
  rcases sgranted hr (sparents_below hr hp).2.2.2 hb with ⟨t, hi, hg⟩ | ⟨t, hi, hg⟩
  · exact ⟨_, .other W t σ hi hg⟩
  · exact ⟨_, .snap W t τ hi hg⟩

/-- Without new calls, every execution is finite. -/
theorem swork_acc {E : SnapEnv} {W : SWorld} (hr : SReachable E W) : Acc (fun a b => SWork E b a) W := by
  obtain ⟨N, hN⟩ := sfinite hr
  clear hr
  have wf : WellFounded (fun (f g : _root_.Fin N → (ℕ ×ₗ ℕ) ×ₗ (ℕ ×ₗ ℕ)) => f < g) := wellFounded_lt
  generalize hf : (fun t : _root_.Fin N => toLex ((W.w.pc t).left, (W.sp t).left)) = f
  induction f using wf.induction generalizing W with
  | h f ih =>
    refine ⟨_, fun W' hw => ?_⟩
    rcases swork_cases hw with ⟨t, hi, -, h1, -, h⟩ | ⟨t, hi, -, h⟩
    · have ht : t < N := by
        by_contra hge
        exact active_ne hi (hN t (by omega)).1
      have hpc : ∃ p, W'.w.pc = upd W.w.pc t p ∧ p.left < (W.w.pc t).left := by
        rcases h with ⟨_, _, p, -, h, hp⟩ | ⟨_, _, _, -, h⟩ | ⟨_, -, h⟩ | ⟨_, -, h⟩ <;> rw [h]
        · exact ⟨p, rfl, hp⟩
        · exact ⟨.idle, rfl, left_pos hi⟩
        · exact ⟨.idle, rfl, left_pos hi⟩
        · exact ⟨.loops _, rfl, left_pos hi⟩
      obtain ⟨p, hp, hl⟩ := hpc
      refine ih _ ?_ ?_ rfl
      · subst hf
        rw [Pi.lt_def]
        have hlt : toLex ((W'.w.pc t).left, (W'.sp t).left) < toLex ((W.w.pc t).left, (W.sp t).left) := by
          rw [hp, upd_self]; exact Prod.Lex.toLex_lt_toLex.2 (.inl hl)
        refine ⟨fun u => ?_, ⟨t, ht⟩, hlt⟩
        by_cases e : (u : Nat) = t
        · dsimp only; rw [e]; exact hlt.le
        · dsimp only; rw [hp, h1, upd_other e]
      · intro u hu
        rw [hp, h1, upd_other (by omega)]
        exact hN u hu
    · have ht : t < N := by
        by_contra hge
        exact hi (hN t (by omega)).2
      have hpc : ∃ p, W'.sp = supd W.sp t p ∧ W'.w.pc = W.w.pc ∧ p.left < (W.sp t).left := by
        rcases h with ⟨_, _, p, -, rfl, hp⟩ | ⟨_, _, _, -, rfl⟩ | ⟨_, -, rfl⟩
        · exact ⟨p, rfl, rfl, hp⟩
        · exact ⟨.idle, rfl, rfl, sleft_pos hi⟩
        · exact ⟨.idle, rfl, rfl, sleft_pos hi⟩
      obtain ⟨p, hp, h1, hl⟩ := hpc
      refine ih _ ?_ ?_ rfl
      · subst hf
        rw [Pi.lt_def]
        have hlt : toLex ((W'.w.pc t).left, (W'.sp t).left) < toLex ((W.w.pc t).left, (W.sp t).left) := by
          rw [hp, h1, supd_self]; exact Prod.Lex.toLex_lt_toLex.2 (.inr ⟨rfl, hl⟩)
        refine ⟨fun u => ?_, ⟨t, ht⟩, hlt⟩
        by_cases e : (u : Nat) = t
        · dsimp only; rw [e]; exact hlt.le
        · dsimp only; rw [hp, h1, supd_other e]
      · intro u hu
        rw [hp, h1, supd_other (by omega)]
        exact hN u hu

/-! ## Locks exclude each other -/

/-- What the threads of both kinds have. -/
def SWorld.has (E : SnapEnv) (W : SWorld) : Nat ⊕ Nat → List (Lock × Mode)
  | .inl t => (W.w.pc t).holds E.base
  | .inr t => (W.sp t).holds E

theorem granted_has {E : SnapEnv} {W : SWorld} {ask : Option (Lock × Mode)} (h : W.Granted E ask) {l : Lock} {m m' : Mode}
    {i : Nat ⊕ Nat} (ha : ask = some (l, m)) (hi : (l, m') ∈ W.has E i) : m = .read ∧ m' = .read := by
  rcases i with t | t
  · exact (h l m ha).1 t m' hi
  · exact (h l m ha).2.1 t m' hi

/-- Two threads have a lock at the same time only for reading. -/
theorem sexclusive {E : SnapEnv} {W : SWorld} (hr : SReachable E W) (i j : Nat ⊕ Nat) (l : Lock) (m m' : Mode) (hne : i ≠ j)
    (h : (l, m) ∈ W.has E i) (h' : (l, m') ∈ W.has E j) : m = .read ∧ m' = .read := by
  induction hr generalizing i j l m m' with
  | refl => rcases i with t | t <;> simp [SWorld.has, SWorld.init, World.init, Pc.holds, SPc.holds] at h
  | @tail W W' _ hs ih =>
    -- the step gives thread `x` at most what it wants
    have put : ∀ x ask, W.Granted E ask → (∀ y ∈ W'.has E x, y ∈ W.has E x ∨ ask = some y) → (∀ u, u ≠ x → W'.has E u = W.has E u) →
        m = .read ∧ m' = .read := by
      intro x ask hg hx ho
      by_cases e : i = x
      · subst e
        rw [ho j (Ne.symm hne)] at h'
        rcases hx _ h with h | h
        · exact ih i j l m m' hne h h'
        · exact granted_has hg h h'
      · rw [ho i e] at h
        by_cases e' : j = x
        · subst e'
          rcases hx _ h' with h' | h'
          · exact ih i j l m m' hne h h'
          · exact (granted_has hg h' h).symm
        · rw [ho j e'] at h'
          exact ih i j l m m' hne h h'
    have pcs : ∀ t p, W'.w.pc = upd W.w.pc t p → W'.sp = W.sp → ∀ u, u ≠ .inl t → W'.has E u = W.has E u := by
      rintro t p h1 h2 (u | u) hu
      · simp only [SWorld.has]; rw [h1, upd_other (fun e => hu (by rw [e]))]
      · simp only [SWorld.has]; rw [h2]
    have sps : ∀ t p, W'.sp = supd W.sp t p → W'.w.pc = W.w.pc → ∀ u, u ≠ .inr t → W'.has E u = W.has E u := by
      rintro t p h1 h2 (u | u) hu
      · simp only [SWorld.has]; rw [h2]
      · simp only [SWorld.has]; rw [h1, supd_other (fun e => hu (by rw [e]))]
    cases hs with
    | work hw =>
      rcases swork_cases hw with ⟨x, hi, hg, h2, -, hc⟩ | ⟨x, hi, hg, hc⟩
      · obtain ⟨_, _, p, ho, h1, -⟩ | ⟨_, _, _, -, h1⟩ | ⟨_, -, h1⟩ | ⟨_, -, h1⟩ := hc
        · refine put (.inl x) _ hg (fun y hy => ?_) (pcs x _ (by rw [h1]) h2)
          simp only [SWorld.has, h1, upd_self] at hy
          exact out_holds ho rfl hy
        · refine put (.inl x) _ hg (fun y hy => ?_) (pcs x _ (by rw [h1]) h2)
          simp [SWorld.has, h1, Pc.holds] at hy
        · refine put (.inl x) _ hg (fun y hy => ?_) (pcs x _ (by rw [h1]) h2)
          simp [SWorld.has, h1, Pc.holds] at hy
        · refine put (.inl x) _ hg (fun y hy => ?_) (pcs x _ (by rw [h1]) h2)
          simpa [SWorld.has, h1, Pc.holds, eq_comm] using hy
      · obtain ⟨_, _, p, ho, rfl, -⟩ | ⟨_, _, _, -, rfl⟩ | ⟨_, -, rfl⟩ := hc
        · refine put (.inr x) _ hg (fun y hy => ?_) (sps x _ rfl rfl)
          simp only [SWorld.has, supd_self] at hy
          exact sout_holds ho hy
        · refine put (.inr x) _ hg (fun y hy => ?_) (sps x _ rfl rfl)
          simp [SWorld.has, SPc.holds] at hy
        · refine put (.inr x) _ hg (fun y hy => ?_) (sps x _ rfl rfl)
          simp [SWorld.has, SPc.holds] at hy
    | call x k hi =>
      have hk : (Call.start k).holds E.base = [] := by
        cases k with
        | get pk c => simp only [Call.start]; split <;> rfl
        | _ => rfl
      refine put (.inl x) none (fun l m h => by simp at h) (fun y hy => ?_) (pcs x _ rfl rfl)
      simp [SWorld.has, hk] at hy
    | scall x k hi =>
      refine put (.inr x) none (fun l m h => by simp at h) (fun y hy => ?_) (sps x _ rfl rfl)
      cases k <;> simp [SWorld.has, SCall.start, SPc.holds] at hy

/-! ## Calls and replies -/

theorem slastCall_snoc {log : List (Nat × SEvent)} {t x : Nat} {k : SCall} {v : SEvent} :
    SLastCall (log ++ [(x, v)]) t k ↔ (x = t ∧ v = .call k) ∨ (x ≠ t ∧ SLastCall log t k) := by
  constructor
  · rintro ⟨pre, mid, h, hm⟩
    rcases List.eq_nil_or_concat mid with rfl | ⟨mid', e, rfl⟩
    · have := List.append_inj_right' h rfl
      simp only [List.cons.injEq, Prod.mk.injEq, and_true] at this
      exact .inl this
    · simp only [List.concat_eq_append] at h hm
      rw [← List.cons_append, ← List.append_assoc] at h
      have h2 := List.append_inj_right' h rfl
      have h1 := List.append_inj_left' h rfl
      simp only [List.cons.injEq, and_true] at h2
      refine .inr ⟨?_, pre, mid', h1, fun e he => hm e (by simp [he])⟩
      have := hm e (by simp)
      rw [← h2] at this
      exact this
  · rintro (⟨rfl, rfl⟩ | ⟨hne, pre, mid, rfl, hm⟩)
    · exact ⟨log, [], by simp, by simp⟩
    · refine ⟨pre, mid ++ [(x, v)], by simp, fun e he => ?_⟩
      rcases List.mem_append.1 he with he | he
      · exact hm e he
      · simp only [List.mem_singleton] at he; subst he; exact hne

theorem slastCall_unique {log : List (Nat × SEvent)} {t : Nat} {k k' : SCall} (h : SLastCall log t k) (h' : SLastCall log t k') :
    k = k' := by
  induction log using List.reverseRecOn with
  | nil => obtain ⟨pre, mid, e, -⟩ := h; simp at e
  | append_singleton log e ih =>
    obtain ⟨x, v⟩ := e
    rcases slastCall_snoc.1 h with ⟨e1, e2⟩ | ⟨e1, e2⟩ <;> rcases slastCall_snoc.1 h' with ⟨e3, e4⟩ | ⟨e3, e4⟩
    · rw [e2] at e4; cases e4; rfl
    · exact absurd e1 e3
    · exact absurd e3 e1
    · exact ih e2 e4

/-- A thread is in a call exactly if its last call has not returned. -/
theorem sbusy_iff {E : SnapEnv} {W : SWorld} (hr : SReachable E W) (t : Nat) :
    (W.w.pc t ≠ .idle ↔ ∃ k, LastCall W.w.log t k) ∧ (W.sp t ≠ .idle ↔ ∃ k, SLastCall W.log t k) := by
  induction hr with
  | refl => simp [SWorld.init, World.init, LastCall, SLastCall]
  | @tail W W' _ hs ih =>
    cases hs with
    | work hw =>
      rcases swork_cases hw with ⟨x, hi, -, h1, h2, h⟩ | ⟨x, hi, -, h⟩
      · refine ⟨?_, by rw [h1, h2]; exact ih.2⟩
        obtain ⟨_, _, p, ho, h, -⟩ | ⟨_, _, _, -, h⟩ | ⟨_, -, h⟩ | ⟨_, -, h⟩ := h <;> rw [h]
        · by_cases e : t = x
          · subst e
            simp only [upd_self]
            rw [← ih.1]
            exact ⟨fun _ => active_ne hi, fun _ hp => out_idle (hp ▸ ho)⟩
          · simp only [upd_other e]; exact ih.1
        · by_cases e : t = x
          · subst e; simp [lastCall_snoc]
          · simp only [upd_other e, lastCall_snoc, reduceCtorEq, and_false, false_or]
            simp only [ne_eq, Ne.symm e, not_false_eq_true, true_and]; exact ih.1
        · by_cases e : t = x
          · subst e; simp [lastCall_snoc]
          · simp only [upd_other e, lastCall_snoc, reduceCtorEq, and_false, false_or]
            simp only [ne_eq, Ne.symm e, not_false_eq_true, true_and]; exact ih.1
        · by_cases e : t = x
          · subst e
            simp only [upd_self]
            rw [← ih.1]
            exact ⟨fun _ => active_ne hi, fun _ => by simp⟩
          · simp only [upd_other e]; exact ih.1
      · obtain ⟨_, _, p, ho, rfl, -⟩ | ⟨_, _, _, -, rfl⟩ | ⟨_, -, rfl⟩ := h <;> refine ⟨ih.1, ?_⟩
        · by_cases e : t = x
          · subst e
            simp only [supd_self]
            rw [← ih.2]
            exact ⟨fun _ => hi, fun _ hp => sout_idle (hp ▸ ho)⟩
          · simp only [supd_other e]; exact ih.2
        · by_cases e : t = x
          · subst e; simp [slastCall_snoc]
          · simp only [supd_other e, slastCall_snoc, reduceCtorEq, and_false, false_or]
            simp only [ne_eq, Ne.symm e, not_false_eq_true, true_and]; exact ih.2
        · by_cases e : t = x
          · subst e; simp [slastCall_snoc]
          · simp only [supd_other e, slastCall_snoc, reduceCtorEq, and_false, false_or]
            simp only [ne_eq, Ne.symm e, not_false_eq_true, true_and]; exact ih.2
    | call x k hi =>
      refine ⟨?_, ih.2⟩
      by_cases e : t = x
      · subst e
        simp only [upd_self]
        refine ⟨fun _ => ⟨k, lastCall_snoc.2 (.inl ⟨rfl, rfl⟩)⟩, fun _ => ?_⟩
        cases k with
        | get pk c => simp only [Call.start]; split <;> simp
        | _ => simp [Call.start]
      · simp only [upd_other e, lastCall_snoc, Ne.symm e, false_and, false_or, ne_eq, not_false_eq_true, true_and]; exact ih.1
    | scall x k hi =>
      refine ⟨ih.1, ?_⟩
      by_cases e : t = x
      · subst e
        simp only [supd_self]
        refine ⟨fun _ => ⟨k, slastCall_snoc.2 (.inl ⟨rfl, rfl⟩)⟩, fun _ => ?_⟩
        cases k <;> simp [SCall.start]
      · simp only [supd_other e, slastCall_snoc, Ne.symm e, false_and, false_or, ne_eq, not_false_eq_true, true_and]; exact ih.2

theorem squiet_iff {E : SnapEnv} {W : SWorld} (hr : SReachable E W) : W.Quiet ↔ ∀ t, W.w.pc t = .idle ∧ W.sp t = .idle := by
  constructor
  · intro h t
    refine ⟨?_, ?_⟩ <;> by_contra hi
    · obtain ⟨k, hk⟩ := (sbusy_iff hr t).1.1 hi
      exact h.1 t k hk
    · obtain ⟨k, hk⟩ := (sbusy_iff hr t).2.1 hi
      exact h.2 t k hk
  · intro h
    exact ⟨fun t k hk => (sbusy_iff hr t).1.2 ⟨k, hk⟩ (h t).1, fun t k hk => (sbusy_iff hr t).2.2 ⟨k, hk⟩ (h t).2⟩

/-! ## No lock is poisoned -/

theorem splaced {E : SnapEnv} {W : SWorld} (hr : SReachable E W) :
    Placed W.w.st.tokens ∧ ∀ t pk is k, W.w.pc t = .entomb pk is k → ∀ i ∈ is, i < W.w.st.tokens.accounts.length := by
  induction hr with
  | refl => exact ⟨⟨by simp [SWorld.init, World.init, TokenStore.empty, TokenStorage.empty],
      by simp [SWorld.init, World.init, TokenStore.empty, TokenStorage.empty]⟩, by simp [SWorld.init, World.init]⟩
  | @tail W W' _ hs ih =>
    obtain ⟨h1, h2⟩ := ih
    have put : ∀ t p, (∀ pk is k, p ≠ .entomb pk is k) → ∀ u pk is k, upd W.w.pc t p u = .entomb pk is k →
        ∀ i ∈ is, i < W.w.st.tokens.accounts.length := by
      intro t p hp u pk is k hu
      by_cases e : u = t
      · subst e; rw [upd_self] at hu; exact absurd hu (hp _ _ _)
      · rw [upd_other e] at hu; exact h2 u pk is k hu
    cases hs with
    | work hw =>
      rcases swork_cases hw with ⟨t, -, -, -, -, ⟨σ, s, p, ho, h, -⟩ | ⟨σ, s, r, ho, h⟩ | ⟨σ, -, h⟩ | ⟨σ, -, h⟩⟩ |
        ⟨t, -, -, ⟨σ, s, p, ho, rfl, -⟩ | ⟨σ, s, r, ho, rfl⟩ | ⟨σ, -, rfl⟩⟩
      · obtain ⟨h3, h4, h5⟩ := out_tokens ho h1
        rw [h]
        refine ⟨h3, fun u pk is k hu i hi => ?_⟩
        by_cases e : u = t
        · subst e
          simp only [upd_self] at hu
          exact h5 pk is k (by rw [hu]) i hi
        · simp only [upd_other e] at hu
          exact Nat.lt_of_lt_of_le (h2 u pk is k hu i hi) h4
      · obtain ⟨h3, h4, -⟩ := out_tokens ho h1
        rw [h]
        exact ⟨h3, fun u pk is k hu i hi => Nat.lt_of_lt_of_le (put t .idle (by simp) u pk is k hu i hi) h4⟩
      · rw [h]; exact ⟨h1, put t .idle (by simp)⟩
      · rw [h]; exact ⟨h1, put t _ (by simp)⟩
      · obtain ⟨h3, h4⟩ := sout_tokens ho h1
        exact ⟨h3, fun u pk is k hu i hi => Nat.lt_of_lt_of_le (h2 u pk is k hu i hi) h4⟩
      · obtain ⟨h3, h4⟩ := sout_tokens ho h1
        exact ⟨h3, fun u pk is k hu i hi => Nat.lt_of_lt_of_le (h2 u pk is k hu i hi) h4⟩
      · exact ⟨h1, h2⟩
    | call t k =>
      refine ⟨h1, put t _ fun pk is f h => ?_⟩
      cases k with
      | get pk c => simp only [Call.start] at h; split at h <;> simp at h
      | _ => simp [Call.start] at h
    | scall t k => exact ⟨h1, h2⟩

theorem sparentsOlder_work {E : SnapEnv} {W W' : SWorld} (h : ParentsOlder W.w.log) (hw : SWork E W W') : ParentsOlder W'.w.log := by
  rcases swork_cases hw with ⟨x, -, -, -, -, ⟨_, _, _, -, e, -⟩ | ⟨_, _, _, -, e⟩ | ⟨_, -, e⟩ | ⟨_, -, e⟩⟩ |
    ⟨x, -, -, ⟨_, _, _, -, e, -⟩ | ⟨_, _, _, -, e⟩ | ⟨_, -, e⟩⟩ <;> intro t info c hm <;> rw [e] at hm
  · exact h t info c hm
  · exact h t info c (by simpa using hm)
  · exact h t info c (by simpa using hm)
  all_goals exact h t info c hm

end LAM.TokConc
