import Verif.Props.TokenConcMints
import Verif.Lemmas.TokenConcMultisigs
/-!
# Concurrent calls of the token program store keep finalized multisigs: C159
-/
namespace LAM.Props
open Spec Token TokConc

/-- **C159**. Whatever is executed at the same time: once a multisig was submitted as finalized and the call has returned `true`, every
later finalized `get_account` that returns shows an account of its address and does not panic.  This holds whatever is submitted later:
a multisig that is closed is shown, too. -/
theorem C159_finalized (E : TokConc.Env) (w : TokConc.World) (hr : TokConc.Reachable E w) (hb : submits w.log ≤ 2 ^ 31)
    (a : AccountData) (ht : IsMultisig E.codecs a) (ho : ∃ p, TokenProgramOwned a p) (pre mid post : List (Nat × Event)) (t : Nat)
    (r : Reply) (hl : w.log = (pre ++ (t, .call (.get a.pubkey .finalized)) :: mid) ++ (t, .ret r) :: post) (hm : ∀ e ∈ mid, e.1 ≠ t)
    (ha : Installed pre a) : ∃ b, r = .account (some b) ∧ b.pubkey = a.pubkey := by
  obtain ⟨g, ⟨N, -, -, -, -, hok⟩, hk⟩ := keepsSigners ht ho hr hb
  obtain ⟨b, rfl⟩ := hk.finals _ post t r hl ⟨pre, mid, rfl, hm, ha⟩
  obtain ⟨k, hlast, hok⟩ := hok _ post t _ hl
  rw [lastCall_unique hlast ⟨pre, mid, rfl, hm⟩] at hok
  exact ⟨b, rfl, (hok b rfl).1⟩

/-- **C159** for all commitments, if no submitted account of this address is closed. -/
theorem C159_get (E : TokConc.Env) (w : TokConc.World) (hr : TokConc.Reachable E w) (hb : submits w.log ≤ 2 ^ 31)
    (a : AccountData) (ht : IsMultisig E.codecs a) (ho : ∃ p, TokenProgramOwned a p) (hn : NeverGone a.pubkey w.log)
    (pre mid post : List (Nat × Event)) (t : Nat) (c : Commitment) (o : Option AccountData)
    (hl : w.log = (pre ++ (t, .call (.get a.pubkey c)) :: mid) ++ (t, .ret (.account o)) :: post) (hm : ∀ e ∈ mid, e.1 ≠ t)
    (ha : Installed pre a) : ∃ b, o = some b ∧ b.pubkey = a.pubkey := by
  obtain ⟨g, ⟨N, -, -, -, -, hok⟩, hk⟩ := keepsSigners ht ho hr hb
  obtain ⟨k, hlast, hok⟩ := hok _ post t _ hl
  rw [lastCall_unique hlast ⟨pre, mid, rfl, hm⟩] at hok
  cases o with
  | none => exact absurd ⟨pre, mid, rfl, hm, ha⟩ (hk.reads hn _ post t c hl)
  | some b => exact ⟨b, rfl, (hok b rfl).1⟩

/-! ## Examples -/

open DueLog

/-- The multisig is closed. -/
def closedSigners : AccountData := Toy.acct Toy.alice Spl.tokenId 0 2 2

/-- Thread 0 stores the multisig and closes it, and then thread 1 reads it. -/
def closedSignersT : List TokConc.Move :=
  .call 0 (.submit (multisigAcct Toy.alice) none) :: goT 0 4 ++ .call 0 (.submit closedSigners none) :: goT 0 6 ++
    .call 1 (.get Toy.alice .finalized) :: goT 1 2

/-- Thread 0 stores the multisig.  Then thread 1 reads it, and meanwhile thread 0 updates it. -/
def signersReadT : List TokConc.Move :=
  .call 0 (.submit (multisigAcct Toy.alice) none) :: goT 0 4 ++ .call 1 (.get Toy.alice .processed) :: goT 1 1 ++
    .call 0 (.submit (multisigAcct Toy.alice) (some .processed)) :: goT 0 4 ++ goT 1 3

/-- The events of storing the multisig. -/
def signersLog : List (Nat × Event) := [(0, .call (.submit (multisigAcct Toy.alice) none)), (0, .ret (.updated true))]

/-- The multisig as it is shown. -/
def shownSigners (slot : Nat) : AccountData :=
  ⟨Toy.alice, solanaAccount 9 (Spl.Multisig.pack ⟨1, 2, true, [Toy.alice, Toy.bob] ++ List.replicate 9 Pubkey.default⟩) .tokenProgram,
    slot, 0⟩

theorem signers_isMultisig : IsMultisig Toy.codecs (multisigAcct Toy.alice) := ⟨_, _, rfl, C45_pack_is_layout.2.2 _ (by decide)⟩

theorem signers_owned : ∃ p, TokenProgramOwned (multisigAcct Toy.alice) p := ⟨.tokenProgram, by decide, rfl⟩

theorem signers_installed (l : List (Nat × Event)) : Installed (signersLog ++ l) (multisigAcct Toy.alice) :=
  ⟨signersLog.take 1, l, 0, none, rfl, ⟨[], [], rfl, by simp⟩, .inl rfl⟩

example : TokConc.Reachable oneShardT (playT closedSignersT) ∧ submits (playT closedSignersT).log ≤ 2 ^ 31 ∧
    IsMultisig Toy.codecs (multisigAcct Toy.alice) ∧ (∃ p, TokenProgramOwned (multisigAcct Toy.alice) p) ∧ Gone closedSigners ∧
    Installed (signersLog ++ [(0, .call (.submit closedSigners none)), (0, .ret (.updated true))]) (multisigAcct Toy.alice) ∧
    (playT closedSignersT).log = ((signersLog ++ [(0, .call (.submit closedSigners none)), (0, .ret (.updated true))]) ++
      (1, .call (.get Toy.alice .finalized)) :: []) ++ (1, .ret (.account (some (shownSigners 0)))) :: [] :=
  ⟨playT_reachable _, by decide +kernel, signers_isMultisig, signers_owned, fun p h => h.1 rfl, signers_installed _, by decide +kernel⟩

example : TokConc.Reachable oneShardT (playT signersReadT) ∧ submits (playT signersReadT).log ≤ 2 ^ 31 ∧
    NeverGone Toy.alice (playT signersReadT).log ∧ Installed signersLog (multisigAcct Toy.alice) ∧
    (playT signersReadT).log = (signersLog ++ (1, .call (.get Toy.alice .processed)) ::
      [(0, .call (.submit (multisigAcct Toy.alice) (some .processed))), (0, .ret (.updated true))]) ++
      (1, .ret (.account (some (shownSigners 1)))) :: [] := by
  have h : (playT signersReadT).log = (signersLog ++ (1, .call (.get Toy.alice .processed)) ::
      [(0, .call (.submit (multisigAcct Toy.alice) (some .processed))), (0, .ret (.updated true))]) ++
      (1, .ret (.account (some (shownSigners 1)))) :: [] := by decide +kernel
  refine ⟨playT_reachable _, by decide +kernel, ?_, by simpa using signers_installed [], h⟩
  rintro b ⟨t, c, hm⟩ - hg
  rw [h] at hm
  obtain rfl : b = multisigAcct Toy.alice := by
    simp [signersLog] at hm
    rcases hm with h | h <;> exact h.2.1
  exact hg .tokenProgram ⟨by decide, rfl⟩

end LAM.Props
