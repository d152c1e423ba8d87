import Verif.Props.TokenConcKeeps
import Verif.Lemmas.TokenConcMints
/-!
# Concurrent calls of the token program store keep finalized mints that are not closed: C157
-/
namespace LAM.Props
open Spec Token TokConc

/-- **C157**. Whatever is executed at the same time: once a mint was submitted as finalized and the call has returned `true`, every
later `get_account` shows an account of its address, at all commitments, if no submitted account of this address is closed. -/
theorem C157_get (E : TokConc.Env) (w : TokConc.World) (hr : TokConc.Reachable E w) (hb : submits w.log ≤ 2 ^ 31)
    (a : AccountData) (ht : IsMint E.codecs a) (hn : NeverGone a.pubkey w.log) (pre mid post : List (Nat × Event)) (t : Nat)
    (c : Commitment) (o : Option AccountData)
    (hl : w.log = (pre ++ (t, .call (.get a.pubkey c)) :: mid) ++ (t, .ret (.account o)) :: post) (hm : ∀ e ∈ mid, e.1 ≠ t)
    (ha : Installed pre a) : ∃ b, o = some b ∧ b.pubkey = a.pubkey := by
  obtain ⟨g, ⟨N, -, -, -, -, hok⟩, hk⟩ := keepsMint ht hr hb hn
  obtain ⟨k, hlast, hok⟩ := hok _ post t _ hl
  have hget : LastCall (pre ++ (t, .call (.get a.pubkey c)) :: mid) t (.get a.pubkey c) := ⟨pre, mid, rfl, hm⟩
  rw [lastCall_unique hlast hget] at hok
  cases o with
  | none => exact absurd ⟨pre, mid, rfl, hm, ha⟩ (hk.reads _ post t c hl)
  | some b => exact ⟨b, rfl, (hok b rfl).1⟩

/-- **C157** for finalized reads: they also do not panic. -/
theorem C157_finalized (E : TokConc.Env) (w : TokConc.World) (hr : TokConc.Reachable E w) (hb : submits w.log ≤ 2 ^ 31)
    (a : AccountData) (ht : IsMint E.codecs a) (hn : NeverGone a.pubkey w.log) (pre mid post : List (Nat × Event)) (t : Nat) (r : Reply)
    (hl : w.log = (pre ++ (t, .call (.get a.pubkey .finalized)) :: mid) ++ (t, .ret r) :: post) (hm : ∀ e ∈ mid, e.1 ≠ t)
    (ha : Installed pre a) : ∃ b, r = .account (some b) ∧ b.pubkey = a.pubkey := by
  obtain ⟨g, -, hk⟩ := keepsMint ht hr hb hn
  obtain ⟨b, rfl⟩ := hk.finals _ post t r hl ⟨pre, mid, rfl, hm, ha⟩
  obtain ⟨b', h, hp⟩ := C157_get E w hr hb a ht hn pre mid post t .finalized _ hl hm ha
  exact ⟨b, rfl, Option.some.inj h ▸ hp⟩

/-! ## Example -/

open DueLog

/-- After `halfwayT` thread 1 reads the mint, and meanwhile thread 0 finishes its call and stores the mint again. -/
def mintReadT : List TokConc.Move :=
  halfwayT ++ .call 1 (.get mintAcct.pubkey .finalized) :: goT 1 1 ++ goT 0 2 ++ .call 0 (.submit mintAcct (some .finalized)) :: goT 0 4 ++
    goT 1 3

theorem mint_isMint : IsMint Toy.codecs mintAcct :=
  ⟨_, _, rfl, C45_pack_is_layout.2.1 _ (by decide)⟩

theorem mint_neverGone {log : List (Nat × Event)}
    (h : log.all (fun e => match e.2 with
      | .call (.submit b _) => b = mintAcct || b = tokenAcct Toy.alice 1 1 || b = amountAcct Toy.alice 5 2 2
      | _ => true) = true) : NeverGone mintAcct.pubkey log := by
  intro b hb _ hg
  refine hg .tokenProgram ?_
  rcases submittedT_of h hb with rfl | rfl | rfl <;> exact ⟨by decide, rfl⟩

theorem mint_installed : Installed halfLog mintAcct :=
  ⟨halfLog.take 1, halfLog.drop 2, 0, none, rfl, ⟨[], [], rfl, by simp⟩, .inl rfl⟩

example : TokConc.Reachable oneShardT (playT mintReadT) ∧ submits (playT mintReadT).log ≤ 2 ^ 31 ∧ IsMint Toy.codecs mintAcct ∧
    NeverGone mintAcct.pubkey (playT mintReadT).log ∧ Installed halfLog mintAcct ∧
    (playT mintReadT).log = (halfLog ++ (1, .call (.get mintAcct.pubkey .finalized)) :: [(0, .ret (.updated true)),
      (0, .call (.submit mintAcct (some .finalized))), (0, .ret (.updated true))]) ++
      (1, .ret (.account (some (mintToSolana aMint 0 0)))) :: [] :=
  ⟨playT_reachable _, by decide +kernel, mint_isMint, mint_neverGone (by decide +kernel), mint_installed, by decide +kernel⟩

end LAM.Props
