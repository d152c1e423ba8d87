import Verif.Lemmas.TokenSnapConcPlay
import Verif.Props.TokenSnapshot
import Verif.Props.TokenConc
import Verif.Props.Composed
/-!
# Snapshots of the token program store among other calls: C103, C104, C105
-/
namespace LAM.Props
open Spec Token TokConc

/-! ## Concrete executions -/

deriving instance DecidableEq for TokenSnapshot
deriving instance DecidableEq for SCall
deriving instance DecidableEq for SReply
deriving instance DecidableEq for SEvent
deriving instance DecidableEq for TokConc.Call
deriving instance DecidableEq for TokConc.Reply
deriving instance DecidableEq for TokConc.Event

/-- All maps have one shard. -/
def oneShardS : SnapEnv where
  base := oneShardT
  multisigShards := 1
  multisigShard_lt _ := Nat.zero_lt_one

/-- `n` steps of a thread. -/
def goS (t n : Nat) : List SMove := List.replicate n (.go t)
def sgoS (t n : Nat) : List SMove := List.replicate n (.sgo t)

/-- Two threads of each kind. -/
def playS (ms : List SMove) : SWorld := splayed oneShardS 2 plainOrders plainSnapshotOrders ms

/-- Whether a schedule can be carried out. -/
def fitsS (ms : List SMove) : Bool := (sschedule oneShardS 2 plainOrders plainSnapshotOrders SWorld.init ms).isSome

/-- The states passed through. -/
def momentsS (ms mid : List SMove) : List SWorld := smoments oneShardS 2 plainOrders plainSnapshotOrders ms mid

theorem playS_reachable (ms : List SMove) : SReachable oneShardS (playS ms) := splayed_reachable _ _ _ _ ms

theorem playS_quiet {ms : List SMove} (h0 : isIdle ((playS ms).w.pc 0) = true) (h1 : isIdle ((playS ms).w.pc 1) = true)
    (h2 : sisIdle ((playS ms).sp 0) = true) (h3 : sisIdle ((playS ms).sp 1) = true) : (playS ms).Quiet := by
  refine (squiet_iff (playS_reachable ms)).2 fun t => ?_
  match t with
  | 0 => exact ⟨isIdle_iff.1 h0, sisIdle_iff.1 h2⟩
  | 1 => exact ⟨isIdle_iff.1 h1, sisIdle_iff.1 h3⟩
  | t + 2 => exact splayed_within _ _ _ _ ms (t + 2) (by omega)

/-- `MintsStored`, as a test. -/
def mintsStoredB (s : TokenStore) : Bool := s.tokens.accounts.all fun b =>
  match TokenAccount.fromBytes b with
  | .ok t => t.isDeleted || (match s.mints.find t.mint with | some m => m.program == t.program | none => false)
  | _ => true

theorem mintsStoredB_spec {s : TokenStore} (h : mintsStoredB s = true) : MintsStored s := by
  intro b hb t ht hd
  have := List.all_eq_true.1 h b hb
  simp only [ht, hd, Bool.false_or] at this
  split at this
  · rename_i m hm; exact ⟨m, hm, by simpa using this⟩
  · cases this

/-- Storing the mint account and a token account of `alice`. -/
def loadS : List SMove := .call 0 (.submit mintAcct none) :: goS 0 5 ++ .call 0 (.submit (tokenAcct Toy.alice 1 1) none) :: goS 0 7

/-! ## C103: snapshots of a store in use -/

/-- **C103**, as one would like it: if at all moments every token account has its mint, what `create_snapshot` returns can be loaded
into a new store. -/
def C103_statement : Prop :=
  ∀ (E : SnapEnv) (W0 : SWorld) (t : Nat) (p : Program) (vs : List SWorld) (x : TokenSnapshot) (W' : SWorld),
    SPerformed E W0 t (.create p) vs (.created x) W' → (∀ v ∈ vs, MintsStored v.w.st) →
    ∃ s', TokenStore.empty.loadSnapshot x = .ok s'

/-- The mints are read, then a mint and a token account are stored, then the rest is read. -/
def torn : List SMove := sgoS 0 1 ++ loadS ++ sgoS 0 3

/-- The snapshot that is made: a token account without mint. -/
def tornSnapshot : TokenSnapshot := ⟨[], [], loaded.tokens.accounts⟩

theorem torn_performed : SPerformed oneShardS (playS []) 0 (.create .tokenProgram)
    (momentsS ([] ++ [.scall 0 (.create .tokenProgram)]) torn) (.created tornSnapshot)
    (playS ([] ++ [.scall 0 (.create .tokenProgram)] ++ torn ++ [.sgo 0])) := by
  refine sperformed_played [] ?_ ?_ ?_ (by simp) ?_ <;> decide +kernel

/-- **C103** is false of the code: `create_snapshot` reads the mints, the multisigs and the token accounts one after the other; a
mint and a token account of it that are stored in between get into the snapshot without the mint, and loading it panics. -/
theorem C103_refuted : ¬ C103_statement := by
  intro h
  obtain ⟨s', hs⟩ := h _ _ _ _ _ _ _ torn_performed fun v hv => mintsStoredB_spec (by
    have : (momentsS ([] ++ [.scall 0 (.create .tokenProgram)]) torn).all (fun v => mintsStoredB v.w.st) = true := by decide +kernel
    exact List.all_eq_true.1 this v hv)
  have : TokenStore.empty.loadSnapshot tornSnapshot = .panic := by decide +kernel
  rw [this] at hs
  cases hs

/-- **C103**, what holds: `create_snapshot` always returns a snapshot, whatever other calls do meanwhile.  For every mint index the
snapshot has what was stored there at some moment, if it was of the program, and no index twice; every multisig was stored at some
moment, and a multisig that is stored at all moments is there; the token accounts are all those of the program at one moment. -/
theorem C103_moments (E : SnapEnv) (W0 : SWorld) (t : Nat) (p : Program) (vs : List SWorld) (r : SReply) (W' : SWorld)
    (h : SPerformed E W0 t (.create p) vs r W') : ∃ x, r = .created x ∧ (x.mints.map (·.1)).Nodup ∧
      (∀ i, ∃ v ∈ vs, ∀ m, (i, m) ∈ x.mints ↔ v.w.st.mints.find i = some m ∧ m.program = p) ∧
      (∀ m ∈ x.multisigs, ∃ v ∈ vs, ∃ pk, v.w.st.multisigs.find pk = some m) ∧
      (∀ pk m, (∀ v ∈ vs, v.w.st.multisigs.find pk = some m) → m ∈ x.multisigs) ∧
      ∃ v ∈ vs, v.w.st.tokens.createSnapshot p = .ok x.tokens := by
  obtain ⟨x, rfl, h1, h2, v, hv, -, h3⟩ := create_moments h
  refine ⟨x, rfl, h1.keys, fun i => h1.done i (by simp), h2.mem, fun pk m hm => ?_, v, hv, h3⟩
  obtain ⟨v, hv, h4⟩ := h2.done pk (by simp)
  exact h4 m (hm v hv)

example : SPerformed oneShardS (playS []) 0 (.create .tokenProgram) (momentsS ([] ++ [.scall 0 (.create .tokenProgram)]) torn)
    (.created tornSnapshot) (playS ([] ++ [.scall 0 (.create .tokenProgram)] ++ torn ++ [.sgo 0])) ∧ tornSnapshot.tokens.length = 1 :=
  ⟨torn_performed, by decide +kernel⟩

/-- **C103**, what holds: if the mints of the token accounts in the snapshot are stored, as mints of the program, at all moments, then
it can be loaded, into a new store and into any store in use. -/
theorem C103_loads_partial (E : SnapEnv) (W0 : SWorld) (t : Nat) (p : Program) (vs : List SWorld) (x : TokenSnapshot) (W' : SWorld)
    (h : SPerformed E W0 t (.create p) vs (.created x) W')
    (hm : ∀ b ∈ x.tokens, ∀ tk, TokenAccount.fromBytes b = .ok tk → ∀ v ∈ vs, ∃ m, v.w.st.mints.find tk.mint = some m ∧ m.program = p)
    (W : SWorld) (hW : SReachable E W) : ∃ s', W.w.st.loadSnapshot x = .ok s' := by
  obtain ⟨y, hy, h1, -, v, hv, hp, h3⟩ := create_moments h
  cases hy
  refine loadSnapshot_ok (splaced hW).1 fun b hb => ?_
  obtain ⟨tokens, h4, h5⟩ := createSnapshot_ok hp p
  rw [h3] at h4
  cases h4
  obtain ⟨t0, rfl⟩ := hp.2 b (h5 b hb)
  obtain ⟨tk, htk⟩ := fromBytes_total t0
  obtain ⟨v', hv', h6⟩ := h1.done tk.mint (by simp)
  obtain ⟨m, hm⟩ := hm _ hb tk htk v' hv'
  exact ⟨tk, htk, m, (h6 m).2 hm⟩

/-- A snapshot of the store with `alice`'s account, during which that of `bob` is stored (before the token accounts are read). -/
def whole : List SMove := sgoS 0 2 ++ .call 0 (.submit (tokenAcct Toy.bob 2 1) none) :: goS 0 7 ++ sgoS 0 2

/-- The snapshot that is made. -/
def wholeSnapshot : TokenSnapshot := ⟨[(0, aMint)], [], (playS (loadS ++ [.scall 0 (.create .tokenProgram)] ++ whole)).w.st.tokens.accounts⟩

theorem whole_performed : SPerformed oneShardS (playS loadS) 0 (.create .tokenProgram)
    (momentsS (loadS ++ [.scall 0 (.create .tokenProgram)]) whole) (.created wholeSnapshot)
    (playS (loadS ++ [.scall 0 (.create .tokenProgram)] ++ whole ++ [.sgo 0])) := by
  refine sperformed_played [] ?_ ?_ ?_ (by simp) ?_ <;> decide +kernel

example : SPerformed oneShardS (playS loadS) 0 (.create .tokenProgram)
    (momentsS (loadS ++ [.scall 0 (.create .tokenProgram)]) whole) (.created wholeSnapshot)
    (playS (loadS ++ [.scall 0 (.create .tokenProgram)] ++ whole ++ [.sgo 0])) ∧ wholeSnapshot.tokens.length = 2 ∧
    ∀ b ∈ wholeSnapshot.tokens, ∀ tk, TokenAccount.fromBytes b = .ok tk →
      ∀ v ∈ momentsS (loadS ++ [.scall 0 (.create .tokenProgram)]) whole,
        ∃ m, v.w.st.mints.find tk.mint = some m ∧ m.program = .tokenProgram := by
  refine ⟨whole_performed, by decide +kernel, fun b hb tk htk v hv => ⟨aMint, ?_, rfl⟩⟩
  have h1 : wholeSnapshot.tokens.all (fun b => returned (TokenAccount.fromBytes b) fun tk => tk.mint == 0) = true := by decide +kernel
  have h2 : (momentsS (loadS ++ [.scall 0 (.create .tokenProgram)]) whole).all (fun v => v.w.st.mints.find 0 == some aMint) = true := by
    decide +kernel
  obtain ⟨tk', h3, h4⟩ := of_check (List.all_eq_true.1 h1 b hb)
  rw [htk] at h3
  cases h3
  rw [beq_iff_eq.1 h4]
  simpa using List.all_eq_true.1 h2 v hv

/-- **C103**. If no other call writes meanwhile, the snapshot is that of the store, which stays as it is. -/
theorem C103_alone (E : SnapEnv) (W0 : SWorld) (t : Nat) (p : Program) (vs : List SWorld) (r : SReply) (W' : SWorld)
    (h : SPerformed E W0 t (.create p) vs r W') (ho : ∀ v ∈ vs, v.OnlyWriter t) :
    ∃ τ x, r = .created x ∧ W0.w.st.snapshotOf τ p = .ok x ∧ W'.w.st = W0.w.st :=
  create_alone h ho

/-- Nobody but thread 0 is in a call, as a test. -/
def aloneB (W : SWorld) : Bool := isIdle (W.w.pc 0) && isIdle (W.w.pc 1) && sisIdle (W.sp 1)

theorem aloneB_spec {ms mid : List SMove} (h : (momentsS ms mid).all aloneB = true) : ∀ v ∈ momentsS ms mid, v.OnlyWriter 0 := by
  intro v hv
  have hb := List.all_eq_true.1 h v hv
  obtain ⟨j, -, rfl⟩ := List.mem_map.1 hv
  have hr : SReachable oneShardS _ := playS_reachable (ms ++ mid.take j)
  have hw := splayed_within oneShardS 2 plainOrders plainSnapshotOrders (ms ++ mid.take j)
  simp only [aloneB, Bool.and_eq_true, isIdle_iff, sisIdle_iff] at hb
  refine ⟨fun u k hk => ?_, fun u k hk hu => ?_⟩
  · refine absurd ?_ ((sbusy_iff hr u).1.2 ⟨k, hk⟩)
    match u with
    | 0 => exact hb.1.1
    | 1 => exact hb.1.2
    | u + 2 => exact (hw (u + 2) (by omega)).1
  · refine absurd ?_ ((sbusy_iff hr u).2.2 ⟨k, hk⟩)
    match u with
    | 0 => exact absurd rfl hu
    | 1 => exact hb.2
    | u + 2 => exact (hw (u + 2) (by omega)).2

example : SPerformed oneShardS (playS loadS) 0 (.create .tokenProgram)
    (momentsS (loadS ++ [.scall 0 (.create .tokenProgram)]) (sgoS 0 4)) (.created loadedSnapshot)
    (playS (loadS ++ [.scall 0 (.create .tokenProgram)] ++ sgoS 0 4 ++ [.sgo 0])) ∧
    ∀ v ∈ momentsS (loadS ++ [.scall 0 (.create .tokenProgram)]) (sgoS 0 4), v.OnlyWriter 0 := by
  refine ⟨sperformed_played [] ?_ ?_ ?_ (by simp) ?_, aloneB_spec ?_⟩ <;> decide +kernel

/-! ## C104: loading a snapshot into a store in use -/

/-- **C104**, as one would like it: when a snapshot is loaded and meanwhile an account is updated, finalized queries are answered
afterwards as if one had been done after the other. -/
def C104_statement : Prop :=
  ∀ (E : SnapEnv) (W0 W' : SWorld) (t u : Nat) (x : TokenSnapshot) (a : AccountData) (b : Bool),
    SReachable E W0 → W0.Quiet → SSteps E W0 W' → W'.Quiet →
    W'.log = W0.log ++ [(t, .call (.load x)), (t, .ret .loaded)] →
    W'.w.log = W0.w.log ++ [(u, .call (.submit a (some .finalized))), (u, .ret (.updated b))] →
    ∃ s1 s2, (W0.w.st.loadSnapshot x = .ok s1 ∧ s1.step E.base.codecs (.update a .finalized) = .ok s2 ∨
      W0.w.st.step E.base.codecs (.update a .finalized) = .ok s1 ∧ s1.loadSnapshot x = .ok s2) ∧ SameAnswers E.base.codecs s2 W'.w.st

/-- The mint is stored. -/
def minted : List SMove := .call 0 (.submit mintAcct none) :: goS 0 5

/-- `alice`'s account is loaded, up to the point where no account of its owner was found; then the account of `prog2`, of the same
owner, is stored; then the rest. -/
def overwritten : List SMove := .scall 0 (.load loadedSnapshot) :: sgoS 0 8 ++
  .call 0 (.submit (tokenAcct Toy.prog2 2 1) (some .finalized)) :: goS 0 7 ++ sgoS 0 3

/-- There is an answer to the query by owner, and the account of `pk` is in it or not, as a test. -/
def findsOf (pk : Pubkey) (here : Bool) (s : TokenStore) : Bool :=
  returned (s.getProgramAccounts Toy.codecs plainOrders Spl.tokenId (some byBob) .finalized) fun r =>
    match r with | .ok l => l.any (fun a => a.pubkey == pk) == here | .error _ => false

theorem findsOf_spec {pk : Pubkey} {here : Bool} {s : TokenStore} (h : findsOf pk here s = true) :
    ∃ l, s.getProgramAccounts Toy.codecs plainOrders Spl.tokenId (some byBob) .finalized = .ok (.ok l) ∧
      l.any (fun a => a.pubkey == pk) = here := by
  obtain ⟨r, h1, h2⟩ := of_check h
  cases r with
  | ok l => exact ⟨l, h1, by simpa using h2⟩
  | error e => simp at h2

/-- Both at once, one after the other. -/
def loadThenUpdate (s : TokenStore) (x : TokenSnapshot) (a : AccountData) : Run TokenStore := do
  let s ← s.loadSnapshot x
  s.step Toy.codecs (.update a .finalized)
def updateThenLoad (s : TokenStore) (x : TokenSnapshot) (a : AccountData) : Run TokenStore := do
  let s ← s.step Toy.codecs (.update a .finalized)
  s.loadSnapshot x

theorem either_order {s s1 s2 : TokenStore} {x : TokenSnapshot} {a : AccountData} {p : TokenStore → Bool}
    (h1 : returned (loadThenUpdate s x a) p = true) (h2 : returned (updateThenLoad s x a) p = true)
    (h : s.loadSnapshot x = .ok s1 ∧ s1.step Toy.codecs (.update a .finalized) = .ok s2 ∨
      s.step Toy.codecs (.update a .finalized) = .ok s1 ∧ s1.loadSnapshot x = .ok s2) : p s2 = true := by
  rcases h with ⟨h3, h4⟩ | ⟨h3, h4⟩
  · simpa [loadThenUpdate, h3, h4, returned] using h1
  · simpa [updateThenLoad, h3, h4, returned] using h2

/-- **C104** is false of the code: `load_from_snapshot` asks for the accounts of the owner, and if there are none inserts a list with
the one account; an account of this owner that is stored in between is overwritten in `account_by_owner_pubkey`, and not found any
more by its owner. -/
theorem C104_refuted : ¬ C104_statement := by
  intro h
  obtain ⟨s1, s2, h1, h2⟩ := h oneShardS (playS minted) (playS (minted ++ overwritten)) 0 0 loadedSnapshot (tokenAcct Toy.prog2 2 1) true
    (playS_reachable _) (playS_quiet (by decide +kernel) (by decide +kernel) (by decide +kernel) (by decide +kernel))
    (splayed_steps (by decide +kernel))
    (playS_quiet (by decide +kernel) (by decide +kernel) (by decide +kernel) (by decide +kernel)) (by decide +kernel) (by decide +kernel)
  have h3 : findsOf Toy.prog2 true s2 = true := either_order (by decide +kernel) (by decide +kernel) h1
  obtain ⟨l, h4, h5⟩ := findsOf_spec h3
  obtain ⟨l', h6, h7⟩ := findsOf_spec (pk := Toy.prog2) (here := false) (s := (playS (minted ++ overwritten)).w.st) (by decide +kernel)
  have h8 := h2 plainOrders Spl.tokenId (some byBob) l l' h4 h6
  rw [List.any_eq_true] at h5
  obtain ⟨a, ha, h9⟩ := h5
  rw [List.any_eq_false] at h7
  exact h7 a ((h8 a).1 ha) h9

/-- **C104**, what holds: if no other call writes meanwhile (snapshots may be created, accounts may be read), loading a snapshot
does what it does when nothing else runs. -/
theorem C104_alone_partial (E : SnapEnv) (W0 : SWorld) (t : Nat) (x : TokenSnapshot) (vs : List SWorld) (r : SReply) (W' : SWorld)
    (h : SPerformed E W0 t (.load x) vs r W') (ho : ∀ v ∈ vs, v.OnlyWriter t) :
    (r = .loaded ∧ W0.w.st.loadSnapshot x = .ok W'.w.st) ∨ (r = .panicked ∧ W0.w.st.loadSnapshot x = .panic) :=
  load_alone h ho

example : SPerformed oneShardS (playS minted) 0 (.load loadedSnapshot)
    (momentsS (minted ++ [.scall 0 (.load loadedSnapshot)]) (sgoS 0 11)) .loaded
    (playS (minted ++ [.scall 0 (.load loadedSnapshot)] ++ sgoS 0 11 ++ [.sgo 0])) ∧
    ∀ v ∈ momentsS (minted ++ [.scall 0 (.load loadedSnapshot)]) (sgoS 0 11), v.OnlyWriter 0 := by
  refine ⟨sperformed_played [] ?_ ?_ ?_ (by simp) ?_, aloneB_spec ?_⟩ <;> decide +kernel

/-! ## C105: all calls of the token program store, with the snapshots -/

/-- **C105**. If every notified parent is older than its slot: as long as a call is being executed, in some call a next step can be
done (its lock is free, and the step ends). -/
theorem C105_no_deadlock (E : SnapEnv) (W : SWorld) (hr : SReachable E W) (hp : ParentsOlder W.w.log) (hq : ¬ W.Quiet) :
    ∃ W', SWork E W W' := by
  refine scan_work plainOrders plainSnapshotOrders hr hp ?_
  by_contra h
  refine hq ((squiet_iff hr).2 fun t => ⟨?_, ?_⟩) <;> by_contra ht
  · exact h (.inl ⟨t, ht⟩)
  · exact h (.inr ⟨t, ht⟩)

/-- **C105**. Whatever the scheduler does: without new calls, no execution goes on forever. -/
theorem C105_finite (E : SnapEnv) (W : SWorld) (hr : SReachable E W) :
    ¬ ∃ f : Nat → SWorld, f 0 = W ∧ ∀ i, SWork E (f i) (f (i + 1)) := by
  rintro ⟨f, h0, h⟩
  have key : ∀ w, Acc (fun a b => SWork E b a) w → ∀ f : Nat → SWorld, f 0 = w → ¬ ∀ i, SWork E (f i) (f (i + 1)) := by
    intro w ha
    induction ha with
    | intro w _ ih =>
      intro f h0 h
      exact ih (f 1) (h0 ▸ h 0) (fun i => f (i + 1)) rfl (fun i => h (i + 1))
  exact key W (swork_acc hr) f h0 h

/-- **C105**. If every notified parent is older than its slot, all calls can still return. -/
theorem C105_calls_return (E : SnapEnv) (W : SWorld) (hr : SReachable E W) (hp : ParentsOlder W.w.log) :
    ∃ W', SSteps E W W' ∧ W'.Quiet := by
  induction swork_acc hr with
  | intro W _ ih =>
    by_cases hq : W.Quiet
    · exact ⟨W, .refl _, hq⟩
    · obtain ⟨W1, h1⟩ := C105_no_deadlock E W hr hp hq
      obtain ⟨W', h2, h3⟩ := ih W1 h1 (.tail hr (.work h1)) (sparentsOlder_work hp h1)
      exact ⟨W', .head (.work h1) h2, h3⟩

/-- **C105**. The locks do exclude each other: two threads, of whatever calls, have a lock at the same time only for reading. -/
theorem C105_locks_exclusive (E : SnapEnv) (W : SWorld) (hr : SReachable E W) (l : TokConc.Lock) (m m' : Mode) :
    (∀ t u, t ≠ u → (l, m) ∈ (W.w.pc t).holds E.base → (l, m') ∈ (W.w.pc u).holds E.base → m = .read ∧ m' = .read) ∧
    (∀ t u, t ≠ u → (l, m) ∈ (W.sp t).holds E → (l, m') ∈ (W.sp u).holds E → m = .read ∧ m' = .read) ∧
    (∀ t u, (l, m) ∈ (W.w.pc t).holds E.base → (l, m') ∈ (W.sp u).holds E → m = .read ∧ m' = .read) :=
  ⟨fun t u hne h h' => sexclusive hr (.inl t) (.inl u) l m m' (by simpa using hne) h h',
   fun t u hne h h' => sexclusive hr (.inr t) (.inr u) l m m' (by simpa using hne) h h',
   fun t u h h' => sexclusive hr (.inl t) (.inr u) l m m' (by simp) h h'⟩

/-- **C105**. A panic does not poison a lock, of those that can be poisoned (`token_accounts`, `processed_slot_accounts`): a call
that panics has them, if at all, for reading. -/
theorem C105_no_lock_is_poisoned (E : SnapEnv) (W : SWorld) (hr : SReachable E W) (t : Nat) (l : TokConc.Lock) (m : Mode)
    (hl : l = .accounts ∨ l = .processed) :
    (∀ σ, (W.w.pc t).exec E.base σ W.w.st = .panic → (l, m) ∈ (W.w.pc t).holds E.base ∨ (W.w.pc t).wants E.base = some (l, m) →
      m = .read) ∧
    (∀ σ, (W.sp t).exec E σ W.w.st = .panic → (l, m) ∉ (W.sp t).holds E ∧ (W.sp t).wants E ≠ some (l, m)) := by
  obtain ⟨h1, h2⟩ := splaced hr
  refine ⟨fun σ h hm => panic_reads h1 (fun pk is k e => h2 t pk is k e) h m l hl hm, fun σ h => ?_⟩
  obtain ⟨b, l', mapping, e⟩ := spanic h1 h
  rw [e]
  exact ⟨by simp [SPc.holds], by simp [SPc.wants]⟩

/-- A snapshot is being loaded: the index of its mint is locked.  Thread 0 waits for it, to submit the mint. -/
def waitingS : List SMove := minted ++ .scall 0 (.load loadedSnapshot) :: sgoS 0 2 ++ [.call 0 (.submit mintAcct none)]

theorem sbusyS {ms : List SMove} (h : isIdle ((playS ms).w.pc 0) = false) : ¬ (playS ms).Quiet := by
  intro hq
  rw [((squiet_iff (playS_reachable ms)).1 hq 0).1] at h
  cases h

example : SReachable oneShardS (playS waitingS) ∧ ParentsOlder (playS waitingS).w.log ∧ ¬ (playS waitingS).Quiet ∧
    (.index 0, .write) ∈ ((playS waitingS).sp 0).holds oneShardS ∧
    ((playS waitingS).w.pc 0).wants oneShardT = some (.index 0, .read) :=
  ⟨playS_reachable _, olderT_spec (by decide +kernel), sbusyS (by decide +kernel), by decide +kernel, by decide +kernel⟩

/-- Loading the snapshot `tornSnapshot`: the next step panics. -/
example : ((playS (.scall 0 (.load tornSnapshot) :: sgoS 0 2)).sp 0).exec oneShardS plainSnapshotOrders
    (playS (.scall 0 (.load tornSnapshot) :: sgoS 0 2)).w.st = .panic :=
  panicsT_spec (by decide +kernel)

end LAM.Props
