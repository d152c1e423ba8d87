import Verif.Props.TokenConcSettled
import Verif.Lemmas.TokenConcDue
/-!
# Concurrent calls of the token program store show what was accepted: C144, C145
-/
namespace LAM.Props
open Spec Token TokConc

/-- **C144**. Whatever is executed at the same time, the report of a confirmed slot holds, for every update of this slot that was
accepted before the notification was made, the account with a state as new as the update, unless a state as new as the update is
closed.  The slot is not finalized or overtaken meanwhile. -/
theorem C144_reports (E : TokConc.Env) (w : TokConc.World) (hr : TokConc.Reachable E w) (hb : submits w.log ≤ 2 ^ 31)
    (pre mid post : List (Nat × Event)) (t : Nat) (info : SlotInfo) (l : List AccountData) (a : AccountData)
    (hl : w.log = (pre ++ (t, .call (.process info .confirmed)) :: mid) ++ (t, .ret (.reported l)) :: post)
    (hm : ∀ e ∈ mid, e.1 ≠ t) (ha : Accepted pre a) (hs : a.slot = info.slot)
    (hk : Kept (pre ++ (t, .call (.process info .confirmed)) :: mid) a.slot) :
    (∃ b ∈ l, b.pubkey = a.pubkey ∧ Stems E.codecs (fun a' =>
      AsNew (pre ++ (t, .call (.process info .confirmed)) :: mid) a a' ∧ a'.slot = b.slot ∧ a'.wv = b.wv) b) ∨
    ∃ a', AsNew (pre ++ (t, .call (.process info .confirmed)) :: mid) a a' ∧ a'.slot = a.slot ∧ Gone a' := by
  obtain ⟨g, -, hd⟩ := due hr hb
  exact hd.reports _ post t info a l hl ⟨pre, mid, rfl, hm, ha⟩ hk hs

/-- **C144**. A processed `get_account` that is called after an update was accepted shows a state as new as the update, or nothing if
a state as new as the update is closed, as long as neither the slot of the update nor a later one is notified as confirmed or
finalized. -/
theorem C144_processed_reads (E : TokConc.Env) (w : TokConc.World) (hr : TokConc.Reachable E w) (hb : submits w.log ≤ 2 ^ 31)
    (pre mid post : List (Nat × Event)) (t : Nat) (o : Option AccountData) (a : AccountData)
    (hl : w.log = (pre ++ (t, .call (.get a.pubkey .processed)) :: mid) ++ (t, .ret (.account o)) :: post)
    (hm : ∀ e ∈ mid, e.1 ≠ t) (ha : Accepted pre a) (hs : 0 < a.slot)
    (hk : Kept (pre ++ (t, .call (.get a.pubkey .processed)) :: mid) a.slot)
    (hc : Unconfirmed (pre ++ (t, .call (.get a.pubkey .processed)) :: mid) a.slot) :
    ShowsAsNew E.codecs (pre ++ (t, .call (.get a.pubkey .processed)) :: mid) a o := by
  obtain ⟨g, -, hd⟩ := due hr hb
  exact hd.reads _ post t .processed a o hl ⟨pre, mid, rfl, hm, ha, by simp⟩ ⟨hk, .inl ⟨rfl, hs, hc⟩⟩

/-- **C145**, as one would like it: once the notification of a confirmed slot has returned, a confirmed `get_account` shows a state as
new as the updates of this slot (or nothing if such a state is closed), as long as no later slot is notified as confirmed and the slot
is not finalized. -/
def C145_statement : Prop :=
  ∀ (E : TokConc.Env) (w : TokConc.World), TokConc.Reachable E w → submits w.log ≤ 2 ^ 31 →
    ∀ (pre mid post : List (Nat × Event)) (t : Nat) (o : Option AccountData) (a : AccountData),
      w.log = (pre ++ (t, .call (.get a.pubkey .confirmed)) :: mid) ++ (t, .ret (.account o)) :: post →
      (∀ e ∈ mid, e.1 ≠ t) → Accepted pre a → Confirmed pre a.slot →
      Kept (pre ++ (t, .call (.get a.pubkey .confirmed)) :: mid) a.slot →
      NoLater (pre ++ (t, .call (.get a.pubkey .confirmed)) :: mid) a.slot →
      ShowsAsNew E.codecs (pre ++ (t, .call (.get a.pubkey .confirmed)) :: mid) a o

/-- **C145** holds if no confirmed notification of an earlier slot was executed at the same time as that of the slot.  Others of the
same slot may be.  Missing: the notifications during which one of an earlier slot is executed, for which the claim is false
(`C145_refuted`). -/
theorem C145_partial (E : TokConc.Env) (w : TokConc.World) (hr : TokConc.Reachable E w) (hb : submits w.log ≤ 2 ^ 31)
    (pre mid post : List (Nat × Event)) (t : Nat) (o : Option AccountData) (a : AccountData)
    (hl : w.log = (pre ++ (t, .call (.get a.pubkey .confirmed)) :: mid) ++ (t, .ret (.account o)) :: post)
    (hm : ∀ e ∈ mid, e.1 ≠ t) (ha : Accepted pre a) (hc : ConfirmedAlone pre a.slot)
    (hk : Kept (pre ++ (t, .call (.get a.pubkey .confirmed)) :: mid) a.slot)
    (hn : NoLater (pre ++ (t, .call (.get a.pubkey .confirmed)) :: mid) a.slot) :
    ShowsAsNew E.codecs (pre ++ (t, .call (.get a.pubkey .confirmed)) :: mid) a o := by
  obtain ⟨g, -, hd⟩ := due hr hb
  exact hd.reads _ post t .confirmed a o hl ⟨pre, mid, rfl, hm, ha, fun _ => hc⟩ ⟨hk, .inr ⟨rfl, hn⟩⟩

/-! ## Two confirmed slots at the same time -/

namespace DueLog
deriving instance DecidableEq for TokConc.Call, Reply, Event
end DueLog
open DueLog

/-- A token account as it is shown. -/
def shownT (amount slot wv : Nat) : AccountData :=
  ⟨Toy.alice, solanaAccount (Spl.rentMinimum 165) { splAccount with amount := amount }.pack .tokenProgram, slot, wv⟩

/-- The events of `loadT`. -/
def loadedT : List (Nat × Event) :=
  [(0, .call (.submit mintAcct none)), (0, .ret (.updated true)), (0, .call (.submit (tokenAcct Toy.alice 1 1) none)),
    (0, .ret (.updated true))]

/-- `alice` is finalized with amount 12, and updated in slot 6.  Thread 0 confirms slot 5 and has compared it with the confirmed slot
when thread 1 confirms slot 6.  Then thread 0 goes on; then thread 1 reads `alice`. -/
def raceT : List TokConc.Move :=
  loadT ++ .call 0 (.submit (amountAcct Toy.alice 5 6 2) (some .processed)) :: goT 0 4 ++
    .call 0 (.process ⟨5, 4, 0⟩ .confirmed) :: goT 0 1 ++ .call 1 (.process ⟨6, 5, 0⟩ .confirmed) :: goT 1 6 ++ goT 0 4 ++
    .call 1 (.get Toy.alice .confirmed) :: goT 1 9

/-- What happens before the read. -/
def beforeT : List (Nat × Event) :=
  loadedT ++ [(0, .call (.submit (amountAcct Toy.alice 5 6 2) (some .processed))), (0, .ret (.updated true)),
    (0, .call (.process ⟨5, 4, 0⟩ .confirmed)), (1, .call (.process ⟨6, 5, 0⟩ .confirmed)), (1, .ret (.reported [shownT 5 6 2])),
    (0, .ret (.reported []))]

theorem raceT_log : (playT raceT).log =
    (beforeT ++ (1, .call (.get Toy.alice .confirmed)) :: []) ++ (1, .ret (.account (some (shownT 12 0 0)))) :: [] := by
  decide +kernel

/-- **C145** is false of the code: `confirmed_slot` is compared and written in two steps, so that the notification of an earlier slot
can put it back after the notification of the later slot has returned.  All calls have returned, and a confirmed read shows the
state before slot 6, though slot 6 is confirmed and reported. -/
theorem C145_refuted : ¬ C145_statement := by
  intro h
  have := h oneShardT (playT raceT) (playT_reachable _) (by rw [raceT_log]; decide +kernel) beforeT [] [] 1 (some (shownT 12 0 0))
    (amountAcct Toy.alice 5 6 2) raceT_log (by simp)
    ⟨loadedT ++ [(0, .call (.submit (amountAcct Toy.alice 5 6 2) (some .processed)))], _, 0, .processed, rfl,
      ⟨loadedT, [], rfl, by simp⟩, by simp⟩
    ⟨beforeT.take 8, _, 1, ⟨6, 5, 0⟩, .reported [shownT 5 6 2], rfl, ⟨beforeT.take 7, [], rfl, by simp⟩, rfl⟩
    (by rintro n ⟨t, info, hm, rfl⟩; simp [beforeT, loadedT] at hm)
    (by
      rintro n ⟨t, info, hm, rfl⟩
      simp only [beforeT, loadedT, List.cons_append, List.nil_append, List.mem_cons, Prod.mk.injEq, Event.call.injEq,
        Call.process.injEq, reduceCtorEq, and_false, and_true, false_or, or_false, List.not_mem_nil] at hm
      rcases hm with ⟨-, rfl⟩ | ⟨-, rfl⟩ <;> decide)
  rcases this with ⟨b, hb, -, a', p, ⟨⟨-, -, hn⟩, hs⟩, -⟩ | ⟨hb, -⟩
  · cases hb
    have h0 : a'.slot = 0 := hs
    have h6 : (amountAcct Toy.alice 5 6 2).slot = 6 := rfl
    omega
  · cases hb

/-! ## Examples -/

/-- Slot 6 is confirmed by thread 0 while thread 1 submits another state of `alice` for it. -/
def dueT : List TokConc.Move :=
  loadT ++ .call 0 (.submit (amountAcct Toy.alice 5 6 2) (some .processed)) :: goT 0 4 ++
    .call 0 (.process ⟨6, 5, 0⟩ .confirmed) :: goT 0 2 ++ .call 1 (.submit (amountAcct Toy.alice 7 6 3) (some .processed)) :: goT 1 4 ++
    goT 0 4

/-- What happens before slot 6 is confirmed. -/
def acceptedT : List (Nat × Event) :=
  loadedT ++ [(0, .call (.submit (amountAcct Toy.alice 5 6 2) (some .processed))), (0, .ret (.updated true))]

theorem acceptedT_accepted : Accepted acceptedT (amountAcct Toy.alice 5 6 2) :=
  ⟨loadedT ++ [(0, .call (.submit (amountAcct Toy.alice 5 6 2) (some .processed)))], _, 0, .processed, rfl,
    ⟨loadedT, [], rfl, by simp⟩, by simp⟩

example : TokConc.Reachable oneShardT (playT dueT) ∧ submits (playT dueT).log ≤ 2 ^ 31 ∧
    (playT dueT).log = (acceptedT ++ (0, .call (.process ⟨6, 5, 0⟩ .confirmed)) ::
      [(1, .call (.submit (amountAcct Toy.alice 7 6 3) (some .processed))), (1, .ret (.updated true))]) ++
      (0, .ret (.reported [shownT 7 6 3])) :: [] ∧
    Accepted acceptedT (amountAcct Toy.alice 5 6 2) ∧
    Kept (acceptedT ++ (0, .call (.process ⟨6, 5, 0⟩ .confirmed)) ::
      [(1, .call (.submit (amountAcct Toy.alice 7 6 3) (some .processed))), (1, .ret (.updated true))]) 6 := by
  refine ⟨playT_reachable _, by decide +kernel, by decide +kernel, acceptedT_accepted, ?_⟩
  rintro n ⟨t, info, hm, rfl⟩
  simp [acceptedT, loadedT] at hm

/-- `alice` is read by thread 1 while thread 0 submits a state of slot 7. -/
def dueReadT : List TokConc.Move :=
  loadT ++ .call 0 (.submit (amountAcct Toy.alice 5 6 2) (some .processed)) :: goT 0 4 ++
    .call 1 (.get Toy.alice .processed) :: goT 1 1 ++ .call 0 (.submit (amountAcct Toy.alice 7 7 3) (some .processed)) :: goT 0 4 ++
    goT 1 3

example : TokConc.Reachable oneShardT (playT dueReadT) ∧ submits (playT dueReadT).log ≤ 2 ^ 31 ∧
    (playT dueReadT).log = (acceptedT ++ (1, .call (.get Toy.alice .processed)) ::
      [(0, .call (.submit (amountAcct Toy.alice 7 7 3) (some .processed))), (0, .ret (.updated true))]) ++
      (1, .ret (.account (some (shownT 7 7 0)))) :: [] ∧
    Accepted acceptedT (amountAcct Toy.alice 5 6 2) ∧
    Kept (acceptedT ++ (1, .call (.get Toy.alice .processed)) ::
      [(0, .call (.submit (amountAcct Toy.alice 7 7 3) (some .processed))), (0, .ret (.updated true))]) 6 ∧
    Unconfirmed (acceptedT ++ (1, .call (.get Toy.alice .processed)) ::
      [(0, .call (.submit (amountAcct Toy.alice 7 7 3) (some .processed))), (0, .ret (.updated true))]) 6 := by
  refine ⟨playT_reachable _, by decide +kernel, by decide +kernel, acceptedT_accepted, ?_, ?_⟩ <;>
  · rintro n ⟨t, info, hm, rfl⟩
    simp [acceptedT, loadedT] at hm

/-- Slot 6 is confirmed by thread 0 while thread 1 submits another state of `alice` for it.  Then thread 1 reads `alice` at confirmed
while thread 0 confirms slot 5. -/
def dueConfirmedT : List TokConc.Move :=
  dueT ++ .call 1 (.get Toy.alice .confirmed) :: goT 1 1 ++ .call 0 (.process ⟨5, 4, 0⟩ .confirmed) :: goT 0 3 ++ goT 1 3

/-- What happens before the read. -/
def dueBeforeT : List (Nat × Event) :=
  acceptedT ++ [(0, .call (.process ⟨6, 5, 0⟩ .confirmed)), (1, .call (.submit (amountAcct Toy.alice 7 6 3) (some .processed))),
    (1, .ret (.updated true)), (0, .ret (.reported [shownT 7 6 3]))]

example : TokConc.Reachable oneShardT (playT dueConfirmedT) ∧ submits (playT dueConfirmedT).log ≤ 2 ^ 31 ∧
    (playT dueConfirmedT).log = (dueBeforeT ++ (1, .call (.get Toy.alice .confirmed)) ::
      [(0, .call (.process ⟨5, 4, 0⟩ .confirmed)), (0, .ret (.reported []))]) ++ (1, .ret (.account (some (shownT 7 6 0)))) :: [] ∧
    Accepted dueBeforeT (amountAcct Toy.alice 7 6 3) ∧ ConfirmedAlone dueBeforeT 6 ∧
    Kept (dueBeforeT ++ (1, .call (.get Toy.alice .confirmed)) ::
      [(0, .call (.process ⟨5, 4, 0⟩ .confirmed)), (0, .ret (.reported []))]) 6 ∧
    NoLater (dueBeforeT ++ (1, .call (.get Toy.alice .confirmed)) ::
      [(0, .call (.process ⟨5, 4, 0⟩ .confirmed)), (0, .ret (.reported []))]) 6 := by
  refine ⟨playT_reachable _, by decide +kernel, by decide +kernel, ⟨dueBeforeT.take 8, _, 1, .processed, rfl,
    ⟨dueBeforeT.take 7, [], rfl, by simp⟩, by simp⟩, ⟨dueBeforeT.take 9, [], 0, ⟨6, 5, 0⟩, _, rfl, ⟨acceptedT, _, rfl, by simp, ?_, by simp⟩,
    rfl⟩, ?_, ?_⟩
  · rintro u info ⟨pre, mid, h, -⟩
    have : (u, Event.call (.process info .confirmed)) ∈ acceptedT := by rw [h]; simp
    simp [acceptedT, loadedT] at this
  · rintro n ⟨t, info, hm, rfl⟩
    simp [dueBeforeT, acceptedT, loadedT] at hm
  · rintro n ⟨t, info, hm, rfl⟩
    simp only [dueBeforeT, acceptedT, loadedT, List.cons_append, List.nil_append, List.mem_cons, Prod.mk.injEq, Event.call.injEq,
      Call.process.injEq, reduceCtorEq, and_false, and_true, false_or, or_false, List.not_mem_nil] at hm
    rcases hm with ⟨-, rfl⟩ | ⟨-, rfl⟩ <;> decide

end LAM.Props
