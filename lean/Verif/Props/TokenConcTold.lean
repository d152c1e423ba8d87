import Verif.Lemmas.TokenConcTold
import Verif.Props.TokenConcSettled
/-!
# Concurrent calls of the token program store: C152

What finalized reads show was submitted as finalized, or is in the report of a finalized slot.
-/
namespace LAM.Props
open Spec Token TokConc

private theorem tells {E : TokConc.Env} {w : TokConc.World} (hr : TokConc.Reachable E w) (hb : submits w.log ≤ 2 ^ 31)
    {pre post : List (Nat × Event)} {t : Nat} {k : TokConc.Call} {r : Reply} (hl : w.log = pre ++ (t, .ret r) :: post)
    (hk : TokConc.LastCall pre t k) : ∃ g : List Pubkey, g.length ≤ 2 ^ 32 ∧ ReplyTells g (TokConc.Known E.codecs w g) k r := by
  obtain ⟨g, ⟨N, -, hc, -⟩, h⟩ := told hr hb
  exact ⟨g, by omega, h.replies pre post t k r hl hk⟩

/-- **C152**. Whatever calls are executed at the same time: an account that `get_account` returned as finalized was submitted as
finalized or without a commitment, or is in the answer to a notification of a finalized slot, or such a notification is being
executed. -/
theorem C152_meanwhile (E : TokConc.Env) (w : TokConc.World) (hr : TokConc.Reachable E w) (hb : submits w.log ≤ 2 ^ 31)
    (pre post : List (Nat × Event)) (t : Nat) (pk : Pubkey) (b : AccountData)
    (hl : w.log = pre ++ (t, .ret (.account (some b))) :: post) (hk : TokConc.LastCall pre t (.get pk .finalized)) :
    Explained E.codecs w.log b ∨ ∃ u info, TokConc.LastCall w.log u (.process info .finalized) := by
  obtain ⟨g, hg, h⟩ := tells hr hb hl hk
  exact seen_explained hg h

/-- **C152**. As soon as no notification of a finalized slot is being executed, it was submitted as finalized or is in such an answer. -/
theorem C152_reads (E : TokConc.Env) (w : TokConc.World) (hr : TokConc.Reachable E w) (hb : submits w.log ≤ 2 ^ 31)
    (pre post : List (Nat × Event)) (t : Nat) (pk : Pubkey) (b : AccountData)
    (hl : w.log = pre ++ (t, .ret (.account (some b))) :: post) (hk : TokConc.LastCall pre t (.get pk .finalized))
    (hn : ∀ u info, ¬ TokConc.LastCall w.log u (.process info .finalized)) : Explained E.codecs w.log b := by
  rcases C152_meanwhile E w hr hb pre post t pk b hl hk with h | ⟨u, info, h⟩
  · exact h
  · exact absurd h (hn u info)

/-- **C152**. The same of every account in the answer of a finalized query. -/
theorem C152_queries (E : TokConc.Env) (w : TokConc.World) (hr : TokConc.Reachable E w) (hb : submits w.log ≤ 2 ^ 31)
    (pre post : List (Nat × Event)) (t : Nat) (p : Pubkey) (fs : Option (List AccountFilterType)) (l : List AccountData)
    (hl : w.log = pre ++ (t, .ret (.accounts (.ok l))) :: post) (hk : TokConc.LastCall pre t (.gpa p fs .finalized)) (b : AccountData)
    (hm : b ∈ l) : Explained E.codecs w.log b ∨ ∃ u info, TokConc.LastCall w.log u (.process info .finalized) := by
  obtain ⟨g, hg, h⟩ := tells hr hb hl hk
  exact seen_explained hg (h b hm)

/-! ## Examples -/

/-- The finalized read of `alice` in slot 6 returned while slot 6 was being finalized, and the report followed. -/
example : TokConc.Reachable oneShardT finalT ∧ submits finalT.log ≤ 2 ^ 31 ∧
    (∀ u info, ¬ TokConc.LastCall finalT.log u (.process info .finalized)) ∧
    (∃ k r post, finalT.log = finalT.log.take 22 ++ (1, .ret r) :: post ∧
      TokConc.LastCall (finalT.log.take 22) 1 k ∧ readsT .finalized k = true ∧ ofSlotT 6 r = true) ∧
    ∃ k r post, finalT.log = finalT.log.take 23 ++ (0, .ret r) :: post ∧
      TokConc.LastCall (finalT.log.take 23) 0 k ∧ (match k with | .process i .finalized => i == ⟨6, 5, 0⟩ | _ => false) = true ∧
      ofSlotT 6 r = true :=
  ⟨playT_reachable _, by decide +kernel, fun u info => playT_quiet (by decide +kernel) (by decide +kernel) u _,
    answerT_spec (n := 21) (by decide +kernel),
    answerT_spec (n := 18) (k := fun k => match k with | .process i .finalized => i == ⟨6, 5, 0⟩ | _ => false) (by decide +kernel)⟩

/-- The finalized query after it. -/
example : ∃ k r post, finalT.log = finalT.log.take 25 ++ (1, .ret r) :: post ∧
    TokConc.LastCall (finalT.log.take 25) 1 k ∧ queriesT .finalized k = true ∧ ofSlotT 6 r = true :=
  answerT_spec (n := 24) (by decide +kernel)

end LAM.Props
