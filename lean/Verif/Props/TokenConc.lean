import Verif.Lemmas.TokenConcAnswers
import Verif.Lemmas.TokenConcRun
import Verif.Props.TokenStore
import Verif.Props.TokenQuery
/-!
# Concurrent calls of the token program store: C90 – C92
-/
namespace LAM.Props
open Spec Token TokConc

/-! ## Small executions for examples -/

/-- One shard per table; waiting writers come first. -/
def oneShardT : TokConc.Env where
  indexShard _ := 0
  multisigShard _ := 0
  byMintShard _ := 0
  byOwnerShard _ := 0
  bucketShard _ := 0
  mintsShard _ := 0
  mintsShards := 1
  mintsShard_lt _ := by decide
  writersFirst := true
  codecs := Toy.codecs

/-- `n` steps of a thread. -/
def goT (t n : Nat) : List TokConc.Move := List.replicate n (.go t)

/-- Two threads. -/
def playT (ms : List TokConc.Move) : TokConc.World := played oneShardT 2 plainOrders ms

theorem playT_reachable (ms : List TokConc.Move) : TokConc.Reachable oneShardT (playT ms) := played_reachable oneShardT 2 plainOrders ms

/-- Whether a thread is in an endless loop with these locks. -/
def loopsWith (l : List (TokConc.Lock × Mode)) : Pc → Bool
  | .loops l' => l' == l
  | _ => false

theorem loopsWith_eq {l : List (TokConc.Lock × Mode)} {p : Pc} (h : loopsWith l p = true) : p = .loops l := by
  cases p <;> simp [loopsWith] at h
  rw [h]

/-- The mint account and a token account of `alice` are stored. -/
def loadT : List TokConc.Move :=
  .call 0 (.submit mintAcct none) :: goT 0 5 ++ .call 0 (.submit (tokenAcct Toy.alice 1 1) none) :: goT 0 7

/-! ## C90: no deadlock -/

/-- **C90**, as one would like it: from every reachable state all calls can still return. -/
def C90_statement : Prop :=
  ∀ (E : TokConc.Env) (w : TokConc.World), TokConc.Reachable E w → ∃ w', TokConc.Steps E w w' ∧ TokConc.Quiet w'

/-- Slot 5 is notified as its own parent, then `bob` is read at confirmed (thread 1), then slot 6 is notified (thread 0). -/
def endless : List TokConc.Move :=
  loadT ++ .call 0 (.submit (tokenAcct Toy.alice 5 1) (some .processed)) :: goT 0 4 ++
    .call 0 (.process ⟨5, 5, 0⟩ .confirmed) :: goT 0 6 ++ .call 1 (.get Toy.bob .confirmed) :: goT 1 2 ++
    [.call 0 (.process ⟨6, 5, 0⟩ .processed)]

/-- Thread 1 is in an endless loop and keeps `processed_slot_accounts` locked; thread 0 asks for it. -/
theorem endless_loops : (playT endless).pc 1 = .loops [(.processed, .read)] ∧
    ((playT endless).pc 0).wants oneShardT = some (.processed, .write) :=
  ⟨loopsWith_eq (by decide +kernel), by decide +kernel⟩

/-- **C90** is false of the code: a slot that is notified as its own parent makes `get_account` run forever (C53). -/
theorem C90_refuted : ¬ C90_statement := by
  intro h
  obtain ⟨w', hs, hq⟩ := h oneShardT (playT endless) (playT_reachable _)
  have := (quiet_iff (Steps.trans (playT_reachable _) hs)).1 hq 1
  rw [loops_forever hs endless_loops.1] at this
  cases this

/-- **C90**. Such a read keeps `processed_slot_accounts` locked: a thread that asks for it to enter an account or to note a slot
waits forever, whatever the other threads do. -/
theorem C90_loop_blocks_writers (E : TokConc.Env) (w w' : TokConc.World) (hs : TokConc.Steps E w w') (t u : Nat)
    (l : List (TokConc.Lock × Mode)) (ht : w.pc t = .loops l) (hl : (.processed, .read) ∈ l)
    (hu : (w.pc u).wants E = some (.processed, .write)) : w'.pc u = w.pc u :=
  blocked_forever hs ht hl hu

example : ((playT endless).pc 0).wants oneShardT = some (.processed, .write) ∧ (playT endless).pc 1 = .loops [(.processed, .read)] :=
  ⟨endless_loops.2, endless_loops.1⟩

/-- **C90**, what holds: if every notified parent is older than its slot, then as long as a call is being executed, in some call
a next step can be done (its lock is free, and the step ends). -/
theorem C90_no_deadlock_partial (E : TokConc.Env) (w : TokConc.World) (hr : TokConc.Reachable E w) (hp : ParentsOlder w.log)
    (hq : ¬ TokConc.Quiet w) : ∃ w', Work E w w' := by
  refine can_work plainOrders hr hp ?_
  by_contra h
  exact hq ((quiet_iff hr).2 fun t => by by_contra ht; exact h ⟨t, ht⟩)

/-- **C90**. Whatever the scheduler does: without new calls, no execution goes on forever.  With `C90_no_deadlock_partial`: it
ends, and only when all calls have returned. -/
theorem C90_finite (E : TokConc.Env) (w : TokConc.World) (hr : TokConc.Reachable E w) :
    ¬ ∃ f : Nat → TokConc.World, f 0 = w ∧ ∀ i, Work E (f i) (f (i + 1)) := by
  rintro ⟨f, h0, h⟩
  have key : ∀ w, Acc (fun a b => Work E b a) w → ∀ f : Nat → TokConc.World, f 0 = w → ¬ ∀ i, Work E (f i) (f (i + 1)) := by
    intro w ha
    induction ha with
    | intro w _ ih =>
      intro f h0 h
      exact ih (f 1) (h0 ▸ h 0) (fun i => f (i + 1)) rfl (fun i => h (i + 1))
  exact key w (work_acc hr) f h0 h

/-- **C90**. If every notified parent is older than its slot, all calls can still return. -/
theorem C90_calls_return_partial (E : TokConc.Env) (w : TokConc.World) (hr : TokConc.Reachable E w) (hp : ParentsOlder w.log) :
    ∃ w', TokConc.Steps E w w' ∧ TokConc.Quiet w' := by
  induction work_acc hr with
  | intro w _ ih =>
    by_cases hq : TokConc.Quiet w
    · exact ⟨w, .refl _, hq⟩
    · obtain ⟨w1, h1⟩ := C90_no_deadlock_partial E w hr hp hq
      obtain ⟨w', h2, h3⟩ := ih w1 h1 (.tail hr (.work h1)) (parentsOlder_work hp h1)
      exact ⟨w', .head (.work h1) h2, h3⟩

/-- **C90**. The locks do exclude each other: two threads have a lock at the same time only for reading. -/
theorem C90_locks_exclusive (E : TokConc.Env) (w : TokConc.World) (hr : TokConc.Reachable E w) (t t' : Nat) (l : TokConc.Lock)
    (m m' : Mode) (hne : t ≠ t') (h : (l, m) ∈ (w.pc t).holds E) (h' : (l, m') ∈ (w.pc t').holds E) : m = .read ∧ m' = .read :=
  exclusive hr t t' l m m' hne h h'

/-- Thread 0 has the bucket of `alice` while thread 1 waits for it. -/
def waitingT : List TokConc.Move :=
  loadT ++ .call 0 (.submit (tokenAcct Toy.alice 5 2) none) :: .call 1 (.get Toy.alice .finalized) :: goT 0 4 ++ goT 1 2

/-- The parents in a log, as a test. -/
def olderT (log : List (Nat × Event)) : Bool :=
  log.all fun e => match e.2 with | .call (.process info _) => info.parent < info.slot | _ => true

theorem olderT_spec {log : List (Nat × Event)} (h : olderT log = true) : ParentsOlder log := by
  intro t info c hm
  simpa using (List.all_eq_true.1 h) _ hm

theorem busyT {w : TokConc.World} (hr : TokConc.Reachable oneShardT w) (t : Nat) (h : isIdle (w.pc t) = false) : ¬ TokConc.Quiet w := by
  intro hq
  rw [(quiet_iff hr).1 hq t] at h
  cases h

example : TokConc.Reachable oneShardT (playT waitingT) ∧ ParentsOlder (playT waitingT).log ∧ ¬ TokConc.Quiet (playT waitingT) ∧
    (.bucket 0, .write) ∈ ((playT waitingT).pc 0).holds oneShardT ∧
    ((playT waitingT).pc 1).wants oneShardT = some (.bucket 0, .write) :=
  ⟨playT_reachable _, olderT_spec (by decide +kernel), busyT (playT_reachable _) 0 (by decide +kernel), by decide +kernel,
    by decide +kernel⟩

/-! ## C91: answers of concurrent calls -/

/-- **C91**. Every answer belongs to the last call of its thread, and is in order when up to 2^31 accounts have been submitted:
whatever runs at the same time, accounts that are returned or reported were submitted before, with the same content. -/
theorem C91_answers (E : TokConc.Env) (w : TokConc.World) (hr : TokConc.Reachable E w) (hb : submits w.log ≤ 2 ^ 31)
    (pre post : List (Nat × Event)) (t : Nat) (r : Reply) (hl : w.log = pre ++ (t, .ret r) :: post) :
    ∃ k, LastCall pre t k ∧ ReplyOK E.codecs pre k r := by
  obtain ⟨g, N, -, -, -, -, h⟩ := inv hr hb
  exact h pre post t r hl

/-- **C91**. A thread that panics has `token_accounts` and `processed_slot_accounts` at most locked for reading: they are never
poisoned, other threads can lock them afterwards. -/
theorem C91_no_poison (E : TokConc.Env) (w : TokConc.World) (hr : TokConc.Reachable E w) (t : Nat) (σ : Orders)
    (h : (w.pc t).exec E σ w.st = .panic) (m : Mode) (l : TokConc.Lock) (hl : l = .accounts ∨ l = .processed)
    (hm : (l, m) ∈ (w.pc t).holds E ∨ (w.pc t).wants E = some (l, m)) : m = .read :=
  panics_only_reading hr h m l hl hm

/-- Thread 1 reads `alice` while thread 0 stores a newer state of it; then it queries the accounts of `bob`. -/
def readingT : List TokConc.Move :=
  loadT ++ .call 0 (.submit (tokenAcct Toy.alice 5 2) none) :: .call 1 (.get Toy.alice .finalized) :: goT 0 3 ++ goT 1 2 ++ goT 0 2 ++
    goT 1 5 ++ .call 1 (.gpa Spl.tokenId (some byBob) .finalized) :: goT 1 6

/-- Whether the event is an answer with an account. -/
def answersT (t : Nat) : Option (Nat × Event) → Bool
  | some (u, .ret (.account (some _))) => t == u
  | some (u, .ret (.accounts (.ok (_ :: _)))) => t == u
  | _ => false

theorem answersT_spec {t n : Nat} {log : List (Nat × Event)} (h : answersT t log[n]? = true) :
    ∃ r post, log = log.take n ++ (t, .ret r) :: post ∧
      ((∃ b, r = .account (some b)) ∨ ∃ b l, r = .accounts (.ok (b :: l))) := by
  cases he : log[n]? with
  | none => rw [he] at h; simp [answersT] at h
  | some e =>
    obtain ⟨hn, rfl⟩ := List.getElem?_eq_some_iff.1 he
    have hd : log = log.take n ++ log[n] :: log.drop (n + 1) := by
      rw [List.getElem_cons_drop, List.take_append_drop]
    rw [he] at h
    generalize log[n] = e at h hd
    obtain ⟨u, k | r⟩ := e
    · simp [answersT] at h
    · cases r with
      | account o =>
        cases o with
        | none => simp [answersT] at h
        | some b => simp only [answersT, beq_iff_eq] at h; subst h; exact ⟨_, _, hd, .inl ⟨b, rfl⟩⟩
      | accounts o =>
        cases o with
        | error e => simp [answersT] at h
        | ok l =>
          cases l with
          | nil => simp [answersT] at h
          | cons b l => simp only [answersT, beq_iff_eq] at h; subst h; exact ⟨_, _, hd, .inr ⟨b, l, rfl⟩⟩
      | _ => simp [answersT] at h

example : TokConc.Reachable oneShardT (playT readingT) ∧ submits (playT readingT).log ≤ 2 ^ 31 ∧
    (∃ r post, (playT readingT).log = (playT readingT).log.take 7 ++ (1, .ret r) :: post ∧
      ((∃ b, r = .account (some b)) ∨ ∃ b l, r = .accounts (.ok (b :: l)))) ∧
    (∃ r post, (playT readingT).log = (playT readingT).log.take 9 ++ (1, .ret r) :: post ∧
      ((∃ b, r = .account (some b)) ∨ ∃ b l, r = .accounts (.ok (b :: l)))) :=
  ⟨playT_reachable _, by decide +kernel, answersT_spec (by decide +kernel), answersT_spec (by decide +kernel)⟩

/-- Slot 5 is confirmed with a token account whose mint is not stored. -/
def noMintT : List TokConc.Move :=
  .call 0 (.submit (tokenAcct Toy.alice 5 1) (some .processed)) :: goT 0 4 ++ .call 1 (.process ⟨5, 4, 0⟩ .confirmed) :: goT 1 4

def panicsT {α : Type} : Run α → Bool
  | .panic => true
  | _ => false

theorem panicsT_spec {α : Type} {x : Run α} (h : panicsT x = true) : x = .panic := by
  cases x <;> simp [panicsT] at h
  rfl

/-- The next step of thread 1 is a panic, and it has `processed_slot_accounts` locked. -/
example : ((playT noMintT).pc 1).exec oneShardT plainOrders (playT noMintT).st = .panic ∧
    (.processed, .read) ∈ ((playT noMintT).pc 1).holds oneShardT :=
  ⟨panicsT_spec (by decide +kernel), by decide +kernel⟩

/-! ## C92: one order of the calls -/

/-- **C92**, as one would like it: when calls are made concurrently and all have returned (none panicked), reads are as if the
writing calls had been made one after the other in some order. -/
def C92_statement : Prop :=
  ∀ (E : TokConc.Env) (w w' : TokConc.World), TokConc.Reachable E w → TokConc.Quiet w → TokConc.Steps E w w' → TokConc.Quiet w' →
    ParentsOlder w'.log → (∀ t, (t, .ret .panicked) ∉ w'.log) →
    ∃ ops s, (ops.map opCall).Perm (TokConc.writeCalls (w'.log.drop w.log.length)) ∧ w.st.run E.codecs ops = .ok s ∧
      ∀ pk c, s.getAccount pk c = w'.st.getAccount pk c

/-- The token account `splAccount` with another amount. -/
def amountAcct (pk : Pubkey) (amount slot wv : Nat) : AccountData :=
  Toy.acct pk Spl.tokenId 7 slot wv { splAccount with amount := amount }.pack

/-- `alice` is finalized with amount 12, and was updated in slots 5 and 6. -/
def unfinalizedT : List TokConc.Move :=
  loadT ++ .call 0 (.submit (amountAcct Toy.alice 5 5 2) (some .processed)) :: goT 0 4 ++
    .call 0 (.submit (amountAcct Toy.alice 6 6 3) (some .processed)) :: goT 0 4

/-- Slot 5 is finalized (thread 0): its states are taken out.  Slot 6 is finalized from beginning to end (thread 1).  Then the
states of slot 5 are stored. -/
def finalizedTwice : List TokConc.Move :=
  .call 0 (.process ⟨5, 4, 0⟩ .finalized) :: goT 0 4 ++ .call 1 (.process ⟨6, 5, 0⟩ .finalized) :: goT 1 8 ++ goT 0 4

theorem schedule_append {E : TokConc.Env} {n : Nat} {σ : Orders} (ms ms' : List TokConc.Move) : ∀ w,
    TokConc.schedule E n σ w (ms ++ ms') = (TokConc.schedule E n σ w ms).bind fun w => TokConc.schedule E n σ w ms' := by
  induction ms with
  | nil => intro w; rfl
  | cons m ms ih =>
    intro w
    simp only [List.cons_append, TokConc.schedule]
    cases TokConc.move E n σ w m with
    | none => rfl
    | some w1 => exact ih w1

/-- Whether the schedule can be carried out. -/
def fitsT (ms : List TokConc.Move) : Bool := (TokConc.schedule oneShardT 2 plainOrders TokConc.World.init ms).isSome

theorem playT_steps {ms ms' : List TokConc.Move} (h : fitsT (ms ++ ms') = true) :
    TokConc.Steps oneShardT (playT ms) (playT (ms ++ ms')) := by
  unfold fitsT at h
  unfold playT TokConc.played
  rw [schedule_append] at h ⊢
  cases h1 : TokConc.schedule oneShardT 2 plainOrders TokConc.World.init ms with
  | none => rw [h1] at h; cases h
  | some w1 =>
    rw [h1, Option.bind_some] at h
    obtain ⟨-, hw⟩ := TokConc.schedule_sound (fun _ _ => rfl) h1
    cases h2 : TokConc.schedule oneShardT 2 plainOrders w1 ms' with
    | none => rw [h2] at h; cases h
    | some w2 =>
      rw [Option.bind_some, h2]
      exact (TokConc.schedule_sound hw h2).1

theorem playT_quiet {ms : List TokConc.Move} (h0 : isIdle ((playT ms).pc 0) = true) (h1 : isIdle ((playT ms).pc 1) = true) :
    TokConc.Quiet (playT ms) := by
  refine (TokConc.quiet_iff (playT_reachable ms)).2 fun t => ?_
  match t with
  | 0 => exact isIdle_iff.1 h0
  | 1 => exact isIdle_iff.1 h1
  | t + 2 =>
    unfold playT TokConc.played
    cases h : TokConc.schedule oneShardT 2 plainOrders TokConc.World.init ms with
    | none => rfl
    | some w => exact (TokConc.schedule_sound (fun _ _ => rfl) h).2 (t + 2) (by omega)

/-- Whether a call panicked. -/
def calmT (log : List (Nat × Event)) : Bool := log.all fun e => match e.2 with | .ret .panicked => false | _ => true

theorem calmT_spec {log : List (Nat × Event)} (h : calmT log = true) (t : Nat) : (t, Event.ret .panicked) ∉ log := by
  intro hm
  simpa using (List.all_eq_true.1 h) _ hm

/-- The two notifications, as a test. -/
def twoSlots : List TokConc.Call → Bool
  | [.process i .finalized, .process j .finalized] => i == ⟨5, 4, 0⟩ && j == ⟨6, 5, 0⟩
  | _ => false

theorem twoSlots_spec {l : List TokConc.Call} (h : twoSlots l = true) : l = [.process ⟨5, 4, 0⟩ .finalized, .process ⟨6, 5, 0⟩ .finalized] := by
  unfold twoSlots at h
  split at h
  · simp at h; rw [h.1, h.2]
  · cases h

/-- A notification that finds at most one account does not depend on iteration orders. -/
theorem processSlot_orders (σ : Orders) (s : TokenStore) (info : SlotInfo) (c : Commitment)
    (h : ∀ P l, (if s.finalizedSlot < info.slot then s.processed.updateSlotInfo info else s.processed).finalize info.slot = .ok (P, l) →
      l.length ≤ 1) : s.processSlot σ info c = s.processSlot plainOrders info c := by
  cases c with
  | processed => rfl
  | confirmed => rfl
  | finalized =>
    have key : ∀ P, (∀ Q l, ProcStore.finalize P info.slot = .ok (Q, l) → l.length ≤ 1) → ∀ s : TokenStore, s.processed = P →
        (do
          let (P, l) ← s.processed.finalize info.slot
          let l := σ.final l
          let s := { s with processed := P }
          let notifications ← ProcStore.toSolanaAll s.mints l
          let s ← TokenStore.addAll l s
          return (notifications, s) : Run (List AccountData × TokenStore)) = (do
          let (P, l) ← s.processed.finalize info.slot
          let l := plainOrders.final l
          let s := { s with processed := P }
          let notifications ← ProcStore.toSolanaAll s.mints l
          let s ← TokenStore.addAll l s
          return (notifications, s)) := by
      intro P hP s hs
      rw [hs]
      cases hf : ProcStore.finalize P info.slot with
      | ok x =>
        obtain ⟨Q, l⟩ := x
        have : σ.final l = plainOrders.final l := by
          have hl := hP Q l hf
          rcases l with _ | ⟨x, _ | ⟨y, l⟩⟩
          · exact (σ.final_perm []).eq_nil
          · exact (List.perm_singleton.1 (σ.final_perm [x]))
          · simp at hl
        simp only [Run.ok_bind, this]
      | panic => rfl
      | diverge => rfl
    simp only [TokenStore.processSlot]
    refine key _ h _ ?_
    split <;> rfl

/-- Number of accounts found, as a test. -/
def fewT (r : Run (ProcStore × List (Processed × Nat))) : Bool := match r with | .ok (_, l) => l.length ≤ 1 | _ => true

theorem fewT_spec {r : Run (ProcStore × List (Processed × Nat))} (h : fewT r = true) : ∀ P l, r = .ok (P, l) → l.length ≤ 1 := by
  rintro P l rfl
  simpa [fewT] using h

/-- The two notifications one after the other. -/
def inOrder (i j : SlotInfo) : Run TokenStore := do
  let r ← (playT unfinalizedT).st.processSlot plainOrders i .finalized
  let r ← r.2.processSlot plainOrders j .finalized
  return r.2

theorem inOrder_few {i j : SlotInfo} {σ σ' : Orders}
    (h1 : fewT ((if (playT unfinalizedT).st.finalizedSlot < i.slot then (playT unfinalizedT).st.processed.updateSlotInfo i
      else (playT unfinalizedT).st.processed).finalize i.slot) = true)
    (h2 : (match (playT unfinalizedT).st.processSlot plainOrders i .finalized with
      | .ok (_, s) => fewT ((if s.finalizedSlot < j.slot then s.processed.updateSlotInfo j else s.processed).finalize j.slot)
      | _ => true) = true) :
    (playT unfinalizedT).st.run Toy.codecs [.slot σ i .finalized, .slot σ' j .finalized] = inOrder i j := by
  simp only [TokenStore.run, TokenStore.step, inOrder, processSlot_orders σ _ i .finalized (fewT_spec h1)]
  cases h : (playT unfinalizedT).st.processSlot plainOrders i .finalized with
  | ok x =>
    obtain ⟨l, s⟩ := x
    rw [h] at h2
    simp only [Run.ok_bind, Run.pure_eq, processSlot_orders σ' s j .finalized (fewT_spec h2)]
    cases s.processSlot plainOrders j .finalized <;> rfl
  | panic => rfl
  | diverge => rfl

/-- **C92** is false of the code: states of a finalized slot are taken out of `processed_slot_accounts` and stored later; if the
next slot is finalized in between, the older state replaces the newer one for good. -/
theorem C92_refuted : ¬ C92_statement := by
  intro h
  obtain ⟨ops, s, hp, hs, hg⟩ := h oneShardT (playT unfinalizedT) (playT (unfinalizedT ++ finalizedTwice)) (playT_reachable _)
    (playT_quiet (by decide +kernel) (by decide +kernel)) (playT_steps (by decide +kernel))
    (playT_quiet (by decide +kernel) (by decide +kernel)) (olderT_spec (by decide +kernel)) (calmT_spec (by decide +kernel))
  rw [twoSlots_spec (l := TokConc.writeCalls _) (by decide +kernel)] at hp
  have hend : (playT (unfinalizedT ++ finalizedTwice)).st.getAccount Toy.alice .finalized =
      .ok (some ⟨Toy.alice, solanaAccount (Spl.rentMinimum 165) { splAccount with amount := 5 }.pack .tokenProgram, 6, 0⟩) := by
    decide +kernel
  have key : s.getAccount Toy.alice .finalized =
      .ok (some ⟨Toy.alice, solanaAccount (Spl.rentMinimum 165) { splAccount with amount := 6 }.pack .tokenProgram, 6, 0⟩) := by
    have both : inOrder ⟨5, 4, 0⟩ ⟨6, 5, 0⟩ = .ok s ∨ inOrder ⟨6, 5, 0⟩ ⟨5, 4, 0⟩ = .ok s := by
      have hlen := hp.length_eq
      rw [List.length_map] at hlen
      match ops, hlen with
      | [x, y], _ =>
        have hx := (hp.mem_iff (a := opCall x)).1 (by simp)
        have hy := (hp.mem_iff (a := opCall y)).1 (by simp)
        have h1 := (hp.mem_iff (a := TokConc.Call.process ⟨5, 4, 0⟩ .finalized)).2 (by simp)
        have h2 := (hp.mem_iff (a := TokConc.Call.process ⟨6, 5, 0⟩ .finalized)).2 (by simp)
        simp only [List.map_cons, List.map_nil, List.mem_cons, List.not_mem_nil, or_false] at hx hy h1 h2
        cases x with
        | slot σ i c =>
          cases y with
          | slot σ' j c' =>
            simp only [opCall, TokConc.Call.process.injEq] at hx hy h1 h2
            rcases hx with ⟨rfl, rfl⟩ | ⟨rfl, rfl⟩
            · rcases hy with ⟨rfl, rfl⟩ | ⟨rfl, rfl⟩
              · simp at h2
              · exact .inl ((inOrder_few (by decide +kernel) (by decide +kernel)).symm.trans hs)
            · rcases hy with ⟨rfl, rfl⟩ | ⟨rfl, rfl⟩
              · exact .inr ((inOrder_few (by decide +kernel) (by decide +kernel)).symm.trans hs)
              · simp at h1
          | _ => simp [opCall] at hy
        | _ => simp [opCall] at hx
    have t1 : (do (← inOrder ⟨5, 4, 0⟩ ⟨6, 5, 0⟩).getAccount Toy.alice .finalized : Run (Option AccountData)) =
        .ok (some ⟨Toy.alice, solanaAccount (Spl.rentMinimum 165) { splAccount with amount := 6 }.pack .tokenProgram, 6, 0⟩) := by
      decide +kernel
    have t2 : (do (← inOrder ⟨6, 5, 0⟩ ⟨5, 4, 0⟩).getAccount Toy.alice .finalized : Run (Option AccountData)) =
        .ok (some ⟨Toy.alice, solanaAccount (Spl.rentMinimum 165) { splAccount with amount := 6 }.pack .tokenProgram, 6, 0⟩) := by
      decide +kernel
    rcases both with hb | hb
    · rw [hb] at t1; exact t1
    · rw [hb] at t2; exact t2
  rw [hg Toy.alice .finalized, hend] at key
  revert key
  decide +kernel

/-- **C92**, for reads, as one would like it: while one writing call is executed, `get_account` returns what it would return
before or after this call. -/
def C92_read_statement : Prop :=
  ∀ (E : TokConc.Env) (w w' : TokConc.World) (t u : Nat) (k : TokConc.Call) (pk : Pubkey) (c : Commitment) (o : Option AccountData)
    (r : Reply), TokConc.Reachable E w → TokConc.Quiet w → TokConc.Steps E w w' → ParentsOlder w'.log →
    w'.log = w.log ++ [(t, .call k), (u, .call (.get pk c)), (u, .ret (.account o)), (t, .ret r)] → r ≠ .panicked →
    w.st.getAccount pk c = .ok o ∨ w'.st.getAccount pk c = .ok o

/-- `alice` is finalized with amount 12; slot 5 is confirmed, with amount 5. -/
def confirmedT : List TokConc.Move :=
  loadT ++ .call 0 (.submit (amountAcct Toy.alice 5 5 2) (some .processed)) :: goT 0 4 ++
    .call 0 (.process ⟨5, 4, 0⟩ .confirmed) :: goT 0 6

/-- Slot 5 is finalized (thread 0), and `alice` is read at confirmed (thread 1) when its states are taken out but not stored. -/
def readBetween : List TokConc.Move :=
  .call 0 (.process ⟨5, 4, 0⟩ .finalized) :: goT 0 4 ++ .call 1 (.get Toy.alice .confirmed) :: goT 1 9 ++ goT 0 4

/-- The last four events, as a test. -/
def betweenT : List (Nat × Event) → Bool
  | [(0, .call (.process i .finalized)), (1, .call (.get pk .confirmed)), (1, .ret (.account (some a))), (0, .ret (.reported _))] =>
    i == ⟨5, 4, 0⟩ && pk == Toy.alice &&
      a == ⟨Toy.alice, solanaAccount (Spl.rentMinimum 165) splAccount.pack .tokenProgram, 5, 0⟩
  | _ => false

theorem betweenT_spec {l : List (Nat × Event)} (h : betweenT l = true) : ∃ r, l = [(0, .call (.process ⟨5, 4, 0⟩ .finalized)),
    (1, .call (.get Toy.alice .confirmed)),
    (1, .ret (.account (some ⟨Toy.alice, solanaAccount (Spl.rentMinimum 165) splAccount.pack .tokenProgram, 5, 0⟩))),
    (0, .ret (.reported r))] := by
  unfold betweenT at h
  split at h
  · rename_i r
    simp at h
    exact ⟨r, by rw [h.1.1, h.1.2, h.2]⟩
  · cases h

/-- **C92** is false of the code for reads: `get_account` at confirmed finds neither the unfinalized state, which is taken out
already, nor the finalized one, which is not stored yet.  It returns the state before, with the new slot. -/
theorem C92_read_refuted : ¬ C92_read_statement := by
  intro h
  have hst := playT_steps (ms := confirmedT) (ms' := readBetween) (by decide +kernel)
  obtain ⟨l, hl⟩ := TokConc.steps_log hst
  obtain ⟨r, hr⟩ := betweenT_spec (l := (playT (confirmedT ++ readBetween)).log.drop (playT confirmedT).log.length) (by decide +kernel)
  rw [hl, List.drop_left] at hr
  rw [hr] at hl
  have := h oneShardT (playT confirmedT) (playT (confirmedT ++ readBetween)) 0 1 _ _ _ _ _ (playT_reachable _)
    (playT_quiet (by decide +kernel) (by decide +kernel)) hst (olderT_spec (by decide +kernel)) hl (by simp)
  revert this
  decide +kernel

/-- No thread other than `t` executes a writing call, as a test of the log. -/
def onlyT (t : Nat) (log : List (Nat × Event)) : Bool :=
  log.all fun e => e.1 == t || match log.reverse.find? (fun x => x.1 == e.1) with
    | some (_, .call k) => !k.modifies
    | _ => true

theorem lastCall_find {log : List (Nat × Event)} {t : Nat} {k : TokConc.Call} (h : TokConc.LastCall log t k) :
    log.reverse.find? (fun x => x.1 == t) = some (t, .call k) ∧ (t, .call k) ∈ log := by
  obtain ⟨pre, mid, rfl, hm⟩ := h
  refine ⟨?_, by simp⟩
  rw [List.reverse_append, List.reverse_cons, List.append_assoc, List.find?_append, List.find?_eq_none.2]
  · simp
  · intro e he
    simpa using hm e (List.mem_reverse.1 he)

theorem onlyT_spec {t : Nat} {w : TokConc.World} (h : onlyT t w.log = true) : TokConc.OnlyWriter t w := by
  intro u k hk hm
  obtain ⟨h1, h2⟩ := lastCall_find hk
  have := List.all_eq_true.1 h _ h2
  simp only [h1, hm, Bool.or_eq_true, beq_iff_eq] at this
  simpa using this

/-- A schedule in which no thread other than `t` executes a writing call. -/
def aloneT (t : Nat) (w : TokConc.World) : List TokConc.Move → Bool
  | [] => true
  | m :: ms => match TokConc.move oneShardT 2 plainOrders w m with
    | some w' => onlyT t w'.log && aloneT t w' ms
    | none => false

theorem aloneT_alone {t : Nat} : ∀ {ms : List TokConc.Move} {w0 w w' : TokConc.World}, Within 2 w → Alone oneShardT t w0 w →
    aloneT t w ms = true → TokConc.schedule oneShardT 2 plainOrders w ms = some w' → Alone oneShardT t w0 w'
  | [], w0, w, w', _, h, _, hs => by cases hs; exact h
  | m :: ms, w0, w, w', hw, h, ha, hs => by
    simp only [aloneT] at ha
    simp only [TokConc.schedule] at hs
    cases hm : TokConc.move oneShardT 2 plainOrders w m with
    | none => rw [hm] at ha; cases ha
    | some w1 =>
      rw [hm] at ha hs
      simp only [Bool.and_eq_true] at ha
      obtain ⟨h1, h2⟩ := TokConc.move_sound hw hm
      exact aloneT_alone h2 (.tail h h1 (onlyT_spec ha.1)) ha.2 hs

theorem Alone.single {E : TokConc.Env} {t : Nat} {w w' : TokConc.World} (h : Alone E t w w') : TokConc.SingleWriter E w w' := by
  induction h with
  | refl h => exact .refl h
  | tail _ hs ho ih => exact .tail ih hs ho

theorem playT_within (ms : List TokConc.Move) : Within 2 (playT ms) := by
  unfold playT TokConc.played
  cases h : TokConc.schedule oneShardT 2 plainOrders TokConc.World.init ms with
  | none => exact fun _ _ => rfl
  | some w => exact (TokConc.schedule_sound (fun _ _ => rfl) h).2

theorem playT_append {ms ms' : List TokConc.Move} (h : fitsT (ms ++ ms') = true) :
    TokConc.schedule oneShardT 2 plainOrders (playT ms) ms' = some (playT (ms ++ ms')) := by
  unfold fitsT at h
  unfold playT TokConc.played
  rw [schedule_append] at h ⊢
  cases h1 : TokConc.schedule oneShardT 2 plainOrders TokConc.World.init ms with
  | none => rw [h1] at h; cases h
  | some w1 =>
    rw [h1, Option.bind_some] at h
    rw [Option.bind_some, Option.getD_some]
    cases h2 : TokConc.schedule oneShardT 2 plainOrders w1 ms' with
    | none => rw [h2] at h; cases h
    | some w2 => rfl

theorem playT_alone {t : Nat} {ms ms' : List TokConc.Move} (h : fitsT (ms ++ ms') = true) (h0 : onlyT t (playT ms).log = true)
    (ha : aloneT t (playT ms) ms' = true) : Alone oneShardT t (playT ms) (playT (ms ++ ms')) :=
  aloneT_alone (playT_within ms) (.refl (onlyT_spec h0)) ha (playT_append h)

/-- One more move is one step. -/
theorem playT_step {ms : List TokConc.Move} {m : TokConc.Move} (h : fitsT (ms ++ [m]) = true) :
    TokConc.Step oneShardT (playT ms) (playT (ms ++ [m])) := by
  have := playT_append h
  simp only [TokConc.schedule] at this
  cases hm : TokConc.move oneShardT 2 plainOrders (playT ms) m with
  | none => rw [hm] at this; cases this
  | some w1 => rw [hm] at this; cases this; exact (TokConc.move_sound (playT_within ms) hm).1

/-- A test of the events added by further moves. -/
def addsT (test : List (Nat × Event) → Bool) (ms ms' : List TokConc.Move) : Bool :=
  test ((playT (ms ++ ms')).log.drop (playT ms).log.length)

theorem addsT_spec {test : List (Nat × Event) → Bool} {ms ms' : List TokConc.Move} (hf : fitsT (ms ++ ms') = true)
    (h : addsT test ms ms' = true) : ∃ l, (playT (ms ++ ms')).log = (playT ms).log ++ l ∧ test l = true := by
  obtain ⟨l, hl⟩ := TokConc.steps_log (playT_steps hf)
  refine ⟨l, hl, ?_⟩
  unfold addsT at h
  rwa [hl, List.drop_left] at h

/-- **C92**, what holds for one call: if no other writing call is executed at any time between the beginning and the end of a
call, its answer and its effect are those of the call executed at once in the store where it began; reading calls leave the store
as it is.  Iteration orders are arbitrary.  Missing: writing calls at the same time. -/
theorem C92_call_partial (E : TokConc.Env) (w0 w1 w w' : TokConc.World) (hr : TokConc.Reachable E w0) (t : Nat) (k : TokConc.Call)
    (hcall : TokConc.Step E w0 w1) (hl1 : w1.log = w0.log ++ [(t, .call k)]) (h : Alone E t w1 w) (l : List (Nat × Event))
    (hl : w.log = w1.log ++ l) (hn : ∀ e ∈ l, e.1 ≠ t) (hret : TokConc.Step E w w') (r : Reply)
    (hlr : w'.log = w.log ++ [(t, .ret r)]) :
    (k.modifies = true → ∃ op, opCall op = k ∧
      (TokConc.opResult E.codecs w0.st op = .ok (w'.st, r) ∨ TokConc.opResult E.codecs w0.st op = .panic ∧ r = .panicked)) ∧
    (k.modifies = false → ∃ σ s, Reordered w0.st s ∧
      (readResult E.codecs σ s k = .ok r ∧ w'.st = w0.st ∨ readResult E.codecs σ s k = .panic ∧ r = .panicked)) := by
  obtain ⟨σ, hσ⟩ := call_alone hr hcall hl1 h l hl hn hret r hlr
  constructor
  · intro hk
    obtain ⟨op, h1, h2⟩ := rest_write E σ w0.st k hk
    rw [h2] at hσ
    exact ⟨op, h1, hσ⟩
  · intro hk
    obtain ⟨s, h1, h2⟩ := rest_read E σ w0.st k hk
    rw [h2] at hσ
    refine ⟨σ, s, h1, ?_⟩
    cases hrr : readResult E.codecs σ s k with
    | ok r' => rw [hrr] at hσ; simp at hσ; exact .inl ⟨by rw [hσ.2], hσ.1.symm⟩
    | panic => rw [hrr] at hσ; simp at hσ; exact .inr ⟨rfl, hσ⟩
    | diverge => rw [hrr] at hσ; simp at hσ

/-- `alice` is read at confirmed (thread 1) while thread 0 finalizes slot 5. -/
example : ∃ w0 w1 w w' l r, TokConc.Reachable oneShardT w0 ∧ TokConc.Step oneShardT w0 w1 ∧
    w1.log = w0.log ++ [(0, .call (.process ⟨5, 4, 0⟩ .finalized))] ∧ Alone oneShardT 0 w1 w ∧ w.log = w1.log ++ l ∧
    (∀ e ∈ l, e.1 ≠ 0) ∧ l.length = 2 ∧ TokConc.Step oneShardT w w' ∧ w'.log = w.log ++ [(0, .ret (.reported r))] := by
  obtain ⟨l1, h1, t1⟩ := addsT_spec (ms := confirmedT) (ms' := [.call 0 (.process ⟨5, 4, 0⟩ .finalized)])
    (test := fun l => match l with | [(0, .call (.process i .finalized))] => i == ⟨5, 4, 0⟩ | _ => false)
    (by decide +kernel) (by decide +kernel)
  obtain ⟨l2, h2, t2⟩ := addsT_spec (ms := confirmedT ++ [.call 0 (.process ⟨5, 4, 0⟩ .finalized)])
    (ms' := goT 0 4 ++ .call 1 (.get Toy.alice .confirmed) :: goT 1 9 ++ goT 0 3)
    (test := fun l => (l.all fun e => e.1 != 0) && l.length == 2) (by decide +kernel) (by decide +kernel)
  obtain ⟨l3, h3, t3⟩ := addsT_spec (ms := (confirmedT ++ [.call 0 (.process ⟨5, 4, 0⟩ .finalized)]) ++
      (goT 0 4 ++ .call 1 (.get Toy.alice .confirmed) :: goT 1 9 ++ goT 0 3)) (ms' := [.go 0])
    (test := fun l => match l with | [(0, .ret (.reported _))] => true | _ => false) (by decide +kernel) (by decide +kernel)
  simp only [Bool.and_eq_true, beq_iff_eq] at t2
  have e1 : l1 = [(0, .call (.process ⟨5, 4, 0⟩ .finalized))] := by
    split at t1
    · rw [beq_iff_eq.1 t1]
    · cases t1
  have e3 : ∃ r, l3 = [(0, .ret (.reported r))] := by
    split at t3
    · exact ⟨_, rfl⟩
    · cases t3
  obtain ⟨r, rfl⟩ := e3
  subst e1
  exact ⟨_, _, _, _, l2, r, playT_reachable _, playT_step (by decide +kernel), h1,
    playT_alone (by decide +kernel) (by decide +kernel) (by decide +kernel), h2,
    fun e he => by simpa using List.all_eq_true.1 t2.1 e he, t2.2, playT_step (by decide +kernel), h3⟩

/-- **C92**, what holds for executions: as long as writing calls are made one at a time, with any number of reads at the same
time, and none of them panics, the store and the answers of the writing calls are what the calls give one after the other in the
order they were made.  Missing: writing calls at the same time. -/
theorem C92_one_writer_partial (E : TokConc.Env) (w0 w : TokConc.World) (hr : TokConc.Reachable E w0) (h0 : TokConc.NoWriter w0)
    (h : TokConc.SingleWriter E w0 w) (hq : TokConc.NoWriter w)
    (hp : ∀ pre post t k, w.log = pre ++ (t, .ret .panicked) :: post → TokConc.LastCall pre t k → k.modifies = false) :
    ∃ ops log, w.log = w0.log ++ log ∧ ops.map opCall = TokConc.writeCalls log ∧
      TokConc.seqRun E.codecs w0.st ops = .ok (w.st, TokConc.writeReplies log) ∧ w0.st.run E.codecs ops = .ok w.st := by
  cases track hr h0 h with
  | free ops log h1 h2 h3 h4 => exact ⟨ops, log, h2, h3.symm, h4, seqRun_run h4⟩
  | busy ops log t k s h1 h2 => rw [hq t k h1] at h2; cases h2
  | loops t k l h1 h2 => rw [hq t k h1] at h2; cases h2
  | panicked pre post t k h1 h2 h3 => rw [hp pre post t k h1 h2] at h3; cases h3

/-- In the execution of `C92_read_refuted` only thread 0 writes: three accounts are submitted, slot 5 is confirmed and finalized. -/
example : TokConc.SingleWriter oneShardT (playT []) (playT (confirmedT ++ readBetween)) ∧ TokConc.NoWriter (playT []) ∧
    TokConc.NoWriter (playT (confirmedT ++ readBetween)) ∧ (∀ t, (t, .ret .panicked) ∉ (playT (confirmedT ++ readBetween)).log) ∧
    (TokConc.writeCalls (playT (confirmedT ++ readBetween)).log).length = 5 := by
  refine ⟨Alone.single (t := 0) (playT_alone (ms := []) (ms' := confirmedT ++ readBetween) ?_ ?_ ?_), fun t k h => absurd h (playT_quiet ?_ ?_ t k),
    fun t k h => absurd h (playT_quiet ?_ ?_ t k), calmT_spec ?_, ?_⟩ <;> decide +kernel

end LAM.Props
