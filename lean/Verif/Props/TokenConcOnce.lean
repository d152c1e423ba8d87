import Verif.Props.TokenConcFinal
import Verif.Lemmas.TokenConcOnce
/-!
# Concurrent calls of the token program store report no update as finalized twice: C149
-/
namespace LAM.Props
open Spec Token TokConc DueLog

/-- **C149**. Whatever calls are executed at the same time, a state of an account (of this slot and with this write version) is in the
reports of finalized slots, taken together, at most as often as it was submitted as processed or confirmed. -/
theorem C149_count (E : TokConc.Env) (w : TokConc.World) (hr : TokConc.Reachable E w) (hb : submits w.log ≤ 2 ^ 31)
    (pk : Pubkey) (slot wv : Nat) :
    (finalReports [] w.log).countP (IsState pk slot wv) ≤ submissions pk slot wv w.log := by
  obtain ⟨N, -, h⟩ := counted (pk := pk) (slot := slot) (wv := wv) hr hb
  omega

/-- **C149**. A state that was submitted once is in at most one report of a finalized slot. -/
theorem C149_one_report (E : TokConc.Env) (w : TokConc.World) (hr : TokConc.Reachable E w) (hb : submits w.log ≤ 2 ^ 31)
    (pre mid post : List (Nat × Event)) (t u : Nat) (info info' : SlotInfo) (l l' : List AccountData) (b b' : AccountData)
    (hl : w.log = pre ++ (t, .ret (.reported l)) :: mid ++ (u, .ret (.reported l')) :: post)
    (ht : LastCall pre t (.process info .finalized))
    (hu : LastCall (pre ++ (t, .ret (.reported l)) :: mid) u (.process info' .finalized))
    (hs : submissions b.pubkey b.slot b.wv w.log = 1) (h : b ∈ l) (h' : b' ∈ l') :
    ¬ (b'.pubkey = b.pubkey ∧ b'.slot = b.slot ∧ b'.wv = b.wv) := by
  intro hk
  have hc := C149_count E w hr hb b.pubkey b.slot b.wv
  rw [hs] at hc
  have e1 : IsState b.pubkey b.slot b.wv b = true := by simp [IsState]
  have e2 : IsState b.pubkey b.slot b.wv b' = true := by simp [IsState, hk]
  have c1 : 0 < l.countP (IsState b.pubkey b.slot b.wv) := List.countP_pos_iff.2 ⟨b, h, e1⟩
  have c2 : 0 < l'.countP (IsState b.pubkey b.slot b.wv) := List.countP_pos_iff.2 ⟨b', h', e2⟩
  rw [hl, finalReports_append, finalReports_append] at hc
  simp only [finalReports, finalReport, List.nil_append, lastOf_lastCall ht, lastOf_lastCall hu, List.countP_append] at hc
  omega

/-- **C149**. A state that was submitted once is in a report of a finalized slot at most once. -/
theorem C149_once_in_report (E : TokConc.Env) (w : TokConc.World) (hr : TokConc.Reachable E w) (hb : submits w.log ≤ 2 ^ 31)
    (pre post : List (Nat × Event)) (t : Nat) (info : SlotInfo) (l : List AccountData) (b : AccountData)
    (hl : w.log = pre ++ (t, .ret (.reported l)) :: post) (ht : LastCall pre t (.process info .finalized))
    (hs : submissions b.pubkey b.slot b.wv w.log = 1) (h : b ∈ l) :
    ∃ l1 l2, l = l1 ++ b :: l2 ∧ ∀ b' ∈ l1 ++ l2, ¬ (b'.pubkey = b.pubkey ∧ b'.slot = b.slot ∧ b'.wv = b.wv) := by
  obtain ⟨l1, l2, rfl⟩ := List.append_of_mem h
  refine ⟨l1, l2, rfl, fun b' h' hk => ?_⟩
  have hc := C149_count E w hr hb b.pubkey b.slot b.wv
  rw [hs] at hc
  have e1 : IsState b.pubkey b.slot b.wv b = true := by simp [IsState]
  have e2 : IsState b.pubkey b.slot b.wv b' = true := by simp [IsState, hk]
  have c : 0 < (l1 ++ l2).countP (IsState b.pubkey b.slot b.wv) := List.countP_pos_iff.2 ⟨b', h', e2⟩
  rw [hl, finalReports_append] at hc
  simp only [finalReports, finalReport, List.nil_append, lastOf_lastCall ht, List.countP_append, List.countP_cons, e1, if_true] at hc c
  omega

/-- Two threads finalize slot 6 at the same time. -/
def twiceFinalT : List TokConc.Move :=
  loadT ++ .call 0 (.submit (amountAcct Toy.alice 5 6 2) (some .processed)) :: goT 0 4 ++
    .call 0 (.process ⟨6, 5, 0⟩ .finalized) :: goT 0 1 ++ .call 1 (.process ⟨6, 5, 0⟩ .finalized) :: goT 1 8 ++ goT 0 4

/-- Thread 1 reports the state, thread 0 nothing. -/
example : TokConc.Reachable oneShardT (playT twiceFinalT) ∧ submits (playT twiceFinalT).log ≤ 2 ^ 31 ∧
    (playT twiceFinalT).log = (acceptedT ++ [(0, .call (.process ⟨6, 5, 0⟩ .finalized)), (1, .call (.process ⟨6, 5, 0⟩ .finalized))]) ++
      (1, .ret (.reported [shownT 5 6 2])) :: [] ++ (0, .ret (.reported [])) :: [] ∧
    finalReports [] (playT twiceFinalT).log = [shownT 5 6 2] ∧ submissions Toy.alice 6 2 (playT twiceFinalT).log = 1 ∧
    LastCall (acceptedT ++ [(0, .call (.process ⟨6, 5, 0⟩ .finalized)), (1, .call (.process ⟨6, 5, 0⟩ .finalized))]) 1
      (.process ⟨6, 5, 0⟩ .finalized) :=
  ⟨playT_reachable _, by decide +kernel, by decide +kernel, by decide +kernel, by decide +kernel,
    acceptedT ++ [(0, .call (.process ⟨6, 5, 0⟩ .finalized))], [], by simp, by simp⟩

/-- A state that is submitted again after it was finalized is reported again. -/
def againFinalT : List TokConc.Move :=
  loadT ++ .call 0 (.submit (amountAcct Toy.alice 5 6 2) (some .processed)) :: goT 0 4 ++ .call 0 (.process ⟨6, 5, 0⟩ .finalized) ::
    goT 0 8 ++ .call 0 (.submit (amountAcct Toy.alice 5 6 2) (some .processed)) :: goT 0 4 ++ .call 0 (.process ⟨6, 5, 0⟩ .finalized) :: goT 0 6

example : finalReports [] (playT againFinalT).log = [shownT 5 6 2, shownT 5 6 2] ∧
    submissions Toy.alice 6 2 (playT againFinalT).log = 2 := by
  constructor <;> decide +kernel

end LAM.Props
