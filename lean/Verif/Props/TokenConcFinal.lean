import Verif.Props.TokenConcDue
import Verif.Lemmas.TokenConcFinal
/-!
# Concurrent calls of the token program store report what was accepted when the slot is finalized: C148
-/
namespace LAM.Props
open Spec Token TokConc DueLog

/-- **C148**. Whatever is executed at the same time, the report of a finalized slot holds, for every update of this slot that was
accepted before the notification was made, the account with a state as new as the update, unless a state as new as the update is
closed.  Every other slot notified as finalized is an earlier one and does not descend from this one. -/
theorem C148_reports (E : TokConc.Env) (w : TokConc.World) (hr : TokConc.Reachable E w) (hb : submits w.log ≤ 2 ^ 31)
    (pre mid post : List (Nat × Event)) (t : Nat) (info : SlotInfo) (l : List AccountData) (a : AccountData)
    (hl : w.log = (pre ++ (t, .call (.process info .finalized)) :: mid) ++ (t, .ret (.reported l)) :: post)
    (hm : ∀ e ∈ mid, e.1 ≠ t) (ha : Accepted pre a) (hs : a.slot = info.slot)
    (hk : ∀ u info', (u, .call (.process info' .finalized)) ∈ pre ++ mid →
      info'.slot < a.slot ∧ ¬ Up (pre ++ (t, .call (.process info .finalized)) :: mid) info'.slot a.slot) :
    (∃ b ∈ l, b.pubkey = a.pubkey ∧ Stems E.codecs (fun a' =>
      AsNew (pre ++ (t, .call (.process info .finalized)) :: mid) a a' ∧ a'.slot = b.slot ∧ a'.wv = b.wv) b) ∨
    ∃ a', AsNew (pre ++ (t, .call (.process info .finalized)) :: mid) a a' ∧ a'.slot = a.slot ∧ Gone a' := by
  obtain ⟨g, -, -, hd⟩ := final hr hb
  exact hd.reports _ post t info a l hl ⟨pre, mid, rfl, hm, ha, hk⟩ hs

/-- Slot 5 was finalized.  While thread 0 finalizes slot 6, thread 1 submits a later state of `alice`. -/
def finalSixT : List TokConc.Move :=
  loadT ++ .call 0 (.process ⟨5, 4, 0⟩ .finalized) :: goT 0 5 ++
    .call 0 (.submit (amountAcct Toy.alice 5 6 2) (some .processed)) :: goT 0 4 ++
    .call 0 (.process ⟨6, 5, 0⟩ .finalized) :: goT 0 2 ++ .call 1 (.submit (amountAcct Toy.alice 7 6 3) (some .processed)) :: goT 1 4 ++
    goT 0 6

/-- What happens before slot 6 is finalized. -/
def beforeSixT : List (Nat × Event) :=
  loadedT ++ [(0, .call (.process ⟨5, 4, 0⟩ .finalized)), (0, .ret (.reported [])),
    (0, .call (.submit (amountAcct Toy.alice 5 6 2) (some .processed))), (0, .ret (.updated true))]

example : TokConc.Reachable oneShardT (playT finalSixT) ∧ submits (playT finalSixT).log ≤ 2 ^ 31 ∧
    (playT finalSixT).log = (beforeSixT ++ (0, .call (.process ⟨6, 5, 0⟩ .finalized)) ::
      [(1, .call (.submit (amountAcct Toy.alice 7 6 3) (some .processed))), (1, .ret (.updated true))]) ++
      (0, .ret (.reported [shownT 7 6 3])) :: [] ∧
    Accepted beforeSixT (amountAcct Toy.alice 5 6 2) ∧
    ∀ u info', (u, Event.call (.process info' .finalized)) ∈ beforeSixT ++
      [(1, .call (.submit (amountAcct Toy.alice 7 6 3) (some .processed))), (1, .ret (.updated true))] →
      info'.slot < 6 ∧ ¬ Up (beforeSixT ++ (0, .call (.process ⟨6, 5, 0⟩ .finalized)) ::
        [(1, .call (.submit (amountAcct Toy.alice 7 6 3) (some .processed))), (1, .ret (.updated true))]) info'.slot 6 := by
  refine ⟨playT_reachable _, by decide +kernel, by decide +kernel,
    ⟨loadedT ++ [(0, .call (.process ⟨5, 4, 0⟩ .finalized)), (0, .ret (.reported [])),
      (0, .call (.submit (amountAcct Toy.alice 5 6 2) (some .processed)))], _, 0, .processed, rfl,
      ⟨loadedT ++ [(0, .call (.process ⟨5, 4, 0⟩ .finalized)), (0, .ret (.reported []))], [], rfl, by simp⟩, by simp⟩, ?_⟩
  intro u info' hm
  have h : info' = ⟨5, 4, 0⟩ := by
    simp [beforeSixT, loadedT] at hm
    exact hm.2
  subst h
  refine ⟨by decide, fun hu => ?_⟩
  have key : ∀ k, Up (beforeSixT ++ (0, .call (.process ⟨6, 5, 0⟩ .finalized)) ::
      [(1, .call (.submit (amountAcct Toy.alice 7 6 3) (some .processed))), (1, .ret (.updated true))]) 5 k → k ≤ 5 := by
    intro k hk
    induction hk with
    | self => exact le_refl _
    | @parent t info c _ hm ih =>
      simp [beforeSixT, loadedT] at hm
      rcases hm with ⟨-, rfl, -⟩ | ⟨-, rfl, -⟩ <;> simp_all
  exact absurd (key 6 hu) (by decide)

end LAM.Props
