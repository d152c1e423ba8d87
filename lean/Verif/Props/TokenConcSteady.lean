import Verif.Props.TokenConcDue
import Verif.Lemmas.TokenConcSteady
/-!
# Concurrent processed reads of the token program store do not go back: C146
-/
namespace LAM.Props
open Spec Token TokConc

/-- **C146**. Whatever is executed at the same time: if a read has shown a state of an account, then a processed `get_account` that is
called afterwards shows a state as new as that one, or nothing if a state as new as that one is closed.  This holds as long as no slot
from that of the state on is notified as confirmed or finalized. -/
theorem C146_reads (E : TokConc.Env) (w : TokConc.World) (hr : TokConc.Reachable E w) (hb : submits w.log ≤ 2 ^ 31)
    (pre mid mid' post : List (Nat × Event)) (t u : Nat) (pk : Pubkey) (c : Commitment) (b : AccountData) (o : Option AccountData)
    (hl : w.log = ((pre ++ (t, .ret (.account (some b))) :: mid) ++ (u, .call (.get pk .processed)) :: mid') ++
      (u, .ret (.account o)) :: post)
    (hm : ∀ e ∈ mid', e.1 ≠ u) (hc : LastCall pre t (.get pk c)) (hs : 0 < b.slot)
    (hk : Kept ((pre ++ (t, .ret (.account (some b))) :: mid) ++ (u, .call (.get pk .processed)) :: mid') b.slot)
    (hu : Unconfirmed ((pre ++ (t, .ret (.account (some b))) :: mid) ++ (u, .call (.get pk .processed)) :: mid') b.slot) :
    (∃ a, Noted pre a ∧ a.pubkey = pk ∧ a.slot = b.slot ∧ Stems E.codecs (· = a) b ∧
      ShowsAsNew E.codecs ((pre ++ (t, .ret (.account (some b))) :: mid) ++ (u, .call (.get pk .processed)) :: mid') a o) ∧
    ∀ b', o = some b' → b.slot ≤ b'.slot := by
  have hp : pre <+: (pre ++ (t, .ret (.account (some b))) :: mid) ++ (u, .call (.get pk .processed)) :: mid' := by
    rw [List.append_assoc]; exact List.prefix_append _ _
  suffices h : ∃ a, Noted pre a ∧ a.pubkey = pk ∧ a.slot = b.slot ∧ Stems E.codecs (· = a) b ∧
      ShowsAsNew E.codecs ((pre ++ (t, .ret (.account (some b))) :: mid) ++ (u, .call (.get pk .processed)) :: mid') a o by
    refine ⟨h, fun b' hb' => ?_⟩
    obtain ⟨a, -, -, h1, -, ⟨b'', h2, -, a', p, ⟨⟨-, -, h3⟩, h4⟩, -⟩ | ⟨h2, -⟩⟩ := h
    · rw [hb'] at h2
      cases h2
      omega
    · rw [hb'] at h2
      cases h2
  obtain ⟨g, H, -, hd⟩ := steady hr hb
  rcases hd.answers pre (mid ++ (u, .call (.get pk .processed)) :: mid' ++ (u, .ret (.account o)) :: post) t pk c b
    (by rw [hl]; simp) hc with h | ⟨a, ⟨n, h0, h1⟩, h2, rfl, h4, h5⟩
  · rcases h with h | h
    · omega
    · have := (hk b.slot (h.mono hp)).1
      omega
  · refine ⟨a, h4, rfl, h2, h5, ?_⟩
    refine hd.reads _ post u a o hl ⟨_, mid', rfl, hm, n, ?_, h1⟩ ⟨h2 ▸ hk, .inl ⟨rfl, by omega, h2 ▸ hu⟩⟩
    simp only [List.length_append, List.length_cons]
    omega

/-- `alice` is updated in slot 6 by thread 0.  Thread 1 reads the account; then it reads it again, while thread 0 submits an older state of slot 5. -/
def steadyT : List TokConc.Move :=
  loadT ++ .call 0 (.submit (amountAcct Toy.alice 5 6 2) (some .processed)) :: goT 0 4 ++
    .call 1 (.get Toy.alice .processed) :: goT 1 4 ++
    .call 1 (.get Toy.alice .processed) :: goT 1 1 ++ .call 0 (.submit (amountAcct Toy.alice 7 5 3) (some .processed)) :: goT 0 4 ++
    goT 1 3

example : TokConc.Reachable oneShardT (playT steadyT) ∧ submits (playT steadyT).log ≤ 2 ^ 31 ∧
    (playT steadyT).log = (((acceptedT ++ [(1, .call (.get Toy.alice .processed))]) ++ (1, .ret (.account (some (shownT 5 6 0)))) :: []) ++
      (1, .call (.get Toy.alice .processed)) ::
      [(0, .call (.submit (amountAcct Toy.alice 7 5 3) (some .processed))), (0, .ret (.updated true))]) ++
      (1, .ret (.account (some (shownT 5 6 0)))) :: [] ∧
    LastCall (acceptedT ++ [(1, .call (.get Toy.alice .processed))]) 1 (.get Toy.alice .processed) ∧
    Kept (((acceptedT ++ [(1, .call (.get Toy.alice .processed))]) ++ (1, .ret (.account (some (shownT 5 6 0)))) :: []) ++
      (1, .call (.get Toy.alice .processed)) ::
      [(0, .call (.submit (amountAcct Toy.alice 7 5 3) (some .processed))), (0, .ret (.updated true))]) 6 ∧
    Unconfirmed (((acceptedT ++ [(1, .call (.get Toy.alice .processed))]) ++ (1, .ret (.account (some (shownT 5 6 0)))) :: []) ++
      (1, .call (.get Toy.alice .processed)) ::
      [(0, .call (.submit (amountAcct Toy.alice 7 5 3) (some .processed))), (0, .ret (.updated true))]) 6 := by
  refine ⟨playT_reachable _, by decide +kernel, by decide +kernel, ⟨acceptedT, [], rfl, by simp⟩, ?_, ?_⟩ <;>
  · rintro n ⟨t, info, hm, rfl⟩
    simp [acceptedT, loadedT] at hm

end LAM.Props
