import Verif.Props.TokenConc
/-!
# Concurrent reads of the token program store only show confirmed and finalized slots: C143
-/
namespace LAM.Props
open Spec Token TokConc

/-- The last call of a thread, and its answer. -/
private theorem answer_ok {E : TokConc.Env} {w : TokConc.World} (hr : TokConc.Reachable E w) (hb : submits w.log ≤ 2 ^ 31)
    {pre post : List (Nat × Event)} {t : Nat} {k : TokConc.Call} {r : Reply} (hl : w.log = pre ++ (t, .ret r) :: post)
    (hk : TokConc.LastCall pre t k) : ReplyOK E.codecs pre k r := by
  obtain ⟨k', h1, h2⟩ := C91_answers E w hr hb pre post t r hl
  rwa [lastCall_unique hk h1]

/-- **C143**. Whatever is executed at the same time, a confirmed `get_account` shows a finalized state with the finalized slot, or
a state that was submitted for a slot that was notified as confirmed, itself or one that descends from it, by the notifications made
before the answer. -/
theorem C143_confirmed_reads (E : TokConc.Env) (w : TokConc.World) (hr : TokConc.Reachable E w) (hb : submits w.log ≤ 2 ^ 31)
    (pre post : List (Nat × Event)) (t : Nat) (pk : Pubkey) (b : AccountData)
    (hl : w.log = pre ++ (t, .ret (.account (some b))) :: post) (hk : TokConc.LastCall pre t (.get pk .confirmed)) :
    b.pubkey = pk ∧ ((Stems E.codecs (Settled pre) b ∧ FinalSlot pre b.slot) ∨
      (Stems E.codecs (fun a => Noted pre a ∧ a.slot = b.slot) b ∧ ConfirmedChain pre b.slot)) := by
  obtain ⟨h1, h2⟩ := answer_ok hr hb hl hk b rfl
  exact ⟨h1, h2.imp id fun h => ⟨h.2.1, h.2.2 rfl⟩⟩

/-- **C143**. A finalized `get_account` shows a state that was submitted as finalized, or for a slot that was notified as finalized,
itself or one that descends from it.  It has the slot of a finalized notification (or the 0 the store begins with). -/
theorem C143_finalized_reads (E : TokConc.Env) (w : TokConc.World) (hr : TokConc.Reachable E w) (hb : submits w.log ≤ 2 ^ 31)
    (pre post : List (Nat × Event)) (t : Nat) (pk : Pubkey) (b : AccountData)
    (hl : w.log = pre ++ (t, .ret (.account (some b))) :: post) (hk : TokConc.LastCall pre t (.get pk .finalized)) :
    b.pubkey = pk ∧ Stems E.codecs (Settled pre) b ∧ FinalSlot pre b.slot := by
  obtain ⟨h1, h2⟩ := answer_ok hr hb hl hk b rfl
  exact ⟨h1, h2.elim id fun h => absurd rfl h.1⟩

/-- **C143**. A processed `get_account` shows a finalized state with the finalized slot, or a state that was submitted as processed or
confirmed, with the slot it was submitted for. -/
theorem C143_processed_reads (E : TokConc.Env) (w : TokConc.World) (hr : TokConc.Reachable E w) (hb : submits w.log ≤ 2 ^ 31)
    (pre post : List (Nat × Event)) (t : Nat) (pk : Pubkey) (b : AccountData)
    (hl : w.log = pre ++ (t, .ret (.account (some b))) :: post) (hk : TokConc.LastCall pre t (.get pk .processed)) :
    b.pubkey = pk ∧ ((Stems E.codecs (Settled pre) b ∧ FinalSlot pre b.slot) ∨
      Stems E.codecs (fun a => Noted pre a ∧ a.slot = b.slot) b) := by
  obtain ⟨h1, h2⟩ := answer_ok hr hb hl hk b rfl
  exact ⟨h1, h2.imp id fun h => h.2.1⟩

/-- **C143**. The same holds for every account in the answer of a confirmed query. -/
theorem C143_confirmed_queries (E : TokConc.Env) (w : TokConc.World) (hr : TokConc.Reachable E w) (hb : submits w.log ≤ 2 ^ 31)
    (pre post : List (Nat × Event)) (t : Nat) (p : Pubkey) (fs : Option (List AccountFilterType)) (l : List AccountData)
    (hl : w.log = pre ++ (t, .ret (.accounts (.ok l))) :: post) (hk : TokConc.LastCall pre t (.gpa p fs .confirmed)) :
    ∀ b ∈ l, (Stems E.codecs (Settled pre) b ∧ FinalSlot pre b.slot) ∨
      (Stems E.codecs (fun a => Noted pre a ∧ a.slot = b.slot) b ∧ ConfirmedChain pre b.slot) := by
  intro b hm
  exact (((answer_ok hr hb hl hk).2 b hm).1).imp id fun h => ⟨h.2.1, h.2.2 rfl⟩

/-- **C143**. And of a finalized query. -/
theorem C143_finalized_queries (E : TokConc.Env) (w : TokConc.World) (hr : TokConc.Reachable E w) (hb : submits w.log ≤ 2 ^ 31)
    (pre post : List (Nat × Event)) (t : Nat) (p : Pubkey) (fs : Option (List AccountFilterType)) (l : List AccountData)
    (hl : w.log = pre ++ (t, .ret (.accounts (.ok l))) :: post) (hk : TokConc.LastCall pre t (.gpa p fs .finalized)) :
    ∀ b ∈ l, Stems E.codecs (Settled pre) b ∧ FinalSlot pre b.slot := by
  intro b hm
  exact (((answer_ok hr hb hl hk).2 b hm).1).elim id fun h => absurd rfl h.1

/-- **C143**. What is reported of a finalized slot was submitted for this slot or one of its notified ancestors, and is reported with
this slot and its write version. -/
theorem C143_finalized_reports (E : TokConc.Env) (w : TokConc.World) (hr : TokConc.Reachable E w) (hb : submits w.log ≤ 2 ^ 31)
    (pre post : List (Nat × Event)) (t : Nat) (info : SlotInfo) (l : List AccountData)
    (hl : w.log = pre ++ (t, .ret (.reported l)) :: post) (hk : TokConc.LastCall pre t (.process info .finalized)) :
    ∀ b ∈ l, Stems E.codecs (fun a => Noted pre a ∧ a.slot = b.slot ∧ a.wv = b.wv) b ∧ Up pre info.slot b.slot := by
  intro b hm
  obtain ⟨h1, -, h3⟩ := (answer_ok hr hb hl hk).2 b hm
  exact ⟨h1, h3 rfl⟩

/-! ## Examples -/

/-- `alice` is finalized with amount 12 and updated in slots 5, 6 and 7.  Slots 6 and 7 are announced on top of slot 5.  Slot 6 is
confirmed by thread 0 while thread 1 reads `alice` at confirmed. -/
def forkT : List TokConc.Move :=
  unfinalizedT ++ .call 0 (.submit (amountAcct Toy.alice 7 7 4) (some .processed)) :: goT 0 4 ++
    .call 0 (.process ⟨7, 5, 0⟩ .processed) :: goT 0 1 ++ .call 0 (.process ⟨6, 5, 0⟩ .processed) :: goT 0 1 ++
    .call 1 (.get Toy.alice .confirmed) :: .call 0 (.process ⟨6, 5, 0⟩ .confirmed) :: goT 0 3 ++ goT 1 4 ++ goT 0 3

/-- Then slot 6 is finalized by thread 0 while thread 1 reads `alice` and queries the accounts of `bob`. -/
def thenFinalT : List TokConc.Move :=
  .call 0 (.process ⟨6, 5, 0⟩ .finalized) :: .call 1 (.gpa Spl.tokenId (some byBob) .confirmed) :: goT 1 10 ++ goT 0 6 ++
    .call 1 (.get Toy.alice .finalized) :: goT 1 7 ++ goT 0 2 ++ .call 1 (.gpa Spl.tokenId (some byBob) .finalized) :: goT 1 6

/-- The events number `n` and its answer `m`, with a test of both. -/
def answerT (t n m : Nat) (k : TokConc.Call → Bool) (test : Reply → Bool) (log : List (Nat × Event)) : Bool :=
  match log[n]?, log[m]? with
  | some (u, .call k'), some (v, .ret r) =>
    u == t && v == t && k k' && test r && decide (n < m) && ((log.take m).drop (n + 1)).all fun e => e.1 != t
  | _, _ => false

theorem answerT_spec {t n m : Nat} {k : TokConc.Call → Bool} {test : Reply → Bool} {log : List (Nat × Event)}
    (h : answerT t n m k test log = true) : ∃ k' r post, log = log.take m ++ (t, .ret r) :: post ∧
      TokConc.LastCall (log.take m) t k' ∧ k k' = true ∧ test r = true := by
  unfold answerT at h
  split at h
  · rename_i u k' v r h1 h2
    simp only [Bool.and_eq_true, beq_iff_eq, decide_eq_true_eq, List.all_eq_true, bne_iff_ne] at h
    obtain ⟨⟨⟨⟨⟨rfl, rfl⟩, h3⟩, h4⟩, h5⟩, h6⟩ := h
    obtain ⟨hn, e1⟩ := List.getElem?_eq_some_iff.1 h1
    obtain ⟨hm, e2⟩ := List.getElem?_eq_some_iff.1 h2
    refine ⟨k', r, log.drop (m + 1), ?_, ⟨log.take n, (log.take m).drop (n + 1), ?_, h6⟩, h3, h4⟩
    · rw [← e2, List.getElem_cons_drop, List.take_append_drop]
    · have e3 : (log.take m)[n]'(by simp; omega) = (v, .call k') := by simp [e1]
      rw [← e3, List.getElem_cons_drop]
      have : log.take n = (log.take m).take n := by rw [List.take_take, Nat.min_eq_left (by omega)]
      rw [this, List.take_append_drop]
  · cases h

/-- `get_account` of `alice` with this commitment. -/
def readsT (c : Commitment) : TokConc.Call → Bool
  | .get pk c' => pk == Toy.alice && c' == c
  | _ => false

/-- A query with this commitment. -/
def queriesT (c : Commitment) : TokConc.Call → Bool
  | .gpa p _ c' => p == Spl.tokenId && c' == c
  | _ => false

/-- Answers with accounts of this slot. -/
def ofSlotT (slot : Nat) : Reply → Bool
  | .account (some b) => b.slot == slot
  | .accounts (.ok l) => !l.isEmpty && l.all fun b => b.slot == slot
  | .reported l => !l.isEmpty && l.all fun b => b.slot == slot
  | _ => false

/-- Thread 1 reads the state of slot 6 at confirmed, before the notification of slot 6 has returned; slot 7 is higher. -/
example : TokConc.Reachable oneShardT (playT forkT) ∧ submits (playT forkT).log ≤ 2 ^ 31 ∧
    ∃ k r post, (playT forkT).log = (playT forkT).log.take 16 ++ (1, .ret r) :: post ∧
      TokConc.LastCall ((playT forkT).log.take 16) 1 k ∧ readsT .confirmed k = true ∧ ofSlotT 6 r = true :=
  ⟨playT_reachable _, by decide +kernel, answerT_spec (n := 14) (by decide +kernel)⟩

/-- The execution that goes on with the finalization. -/
def finalT : TokConc.World := playT (forkT ++ thenFinalT)

example : TokConc.Reachable oneShardT finalT ∧ submits finalT.log ≤ 2 ^ 31 := ⟨playT_reachable _, by decide +kernel⟩

/-- A confirmed query while slot 6 is being finalized. -/
example : ∃ k r post, finalT.log = finalT.log.take 20 ++ (1, .ret r) :: post ∧
    TokConc.LastCall (finalT.log.take 20) 1 k ∧ queriesT .confirmed k = true ∧ ofSlotT 6 r = true :=
  answerT_spec (n := 19) (by decide +kernel)

/-- A finalized read. -/
example : ∃ k r post, finalT.log = finalT.log.take 22 ++ (1, .ret r) :: post ∧
    TokConc.LastCall (finalT.log.take 22) 1 k ∧ readsT .finalized k = true ∧ ofSlotT 6 r = true :=
  answerT_spec (n := 21) (by decide +kernel)

/-- The report of the finalized slot. -/
example : ∃ k r post, finalT.log = finalT.log.take 23 ++ (0, .ret r) :: post ∧
    TokConc.LastCall (finalT.log.take 23) 0 k ∧ (match k with | .process i .finalized => i == ⟨6, 5, 0⟩ | _ => false) = true ∧
    ofSlotT 6 r = true :=
  answerT_spec (n := 18) (k := fun k => match k with | .process i .finalized => i == ⟨6, 5, 0⟩ | _ => false) (by decide +kernel)

/-- A finalized query. -/
example : ∃ k r post, finalT.log = finalT.log.take 25 ++ (1, .ret r) :: post ∧
    TokConc.LastCall (finalT.log.take 25) 1 k ∧ queriesT .finalized k = true ∧ ofSlotT 6 r = true :=
  answerT_spec (n := 24) (by decide +kernel)

/-- A processed read shows slot 7, which is not confirmed. -/
example : ∃ k r post, (playT (forkT ++ .call 1 (.get Toy.alice .processed) :: goT 1 4)).log =
      (playT (forkT ++ .call 1 (.get Toy.alice .processed) :: goT 1 4)).log.take 19 ++ (1, .ret r) :: post ∧
    TokConc.LastCall ((playT (forkT ++ .call 1 (.get Toy.alice .processed) :: goT 1 4)).log.take 19) 1 k ∧
    readsT .processed k = true ∧ ofSlotT 7 r = true :=
  answerT_spec (n := 18) (by decide +kernel)

end LAM.Props
