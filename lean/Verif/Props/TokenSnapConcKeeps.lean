import Verif.Lemmas.TokenSnapConcKeeps
import Verif.Props.TokenSnapConc
import Verif.Props.TokenConcMints
import Verif.Props.TokenConcMultisigs
/-!
# Snapshots of the token program store made while other calls are executed hold what is finalized: C160
-/
namespace LAM.Props
open Spec Token TokConc

/-- **C160** for mints. Whatever is executed at the same time, except loading of snapshots: if a mint was submitted as finalized and the
call has returned `true`, every snapshot of its program that is begun later has a mint of its address, if all submitted accounts of
this address belong to this program and none is closed. -/
theorem C160_mints (E : SnapEnv) (W0 : SWorld) (t : Nat) (p : Program) (vs : List SWorld) (r : SReply) (W' : SWorld)
    (h : SPerformed E W0 t (.create p) vs r W') (hl : NoLoads W'.log) (hb : submits W'.w.log ≤ 2 ^ 31) (a : AccountData)
    (ht : IsMint E.base.codecs a) (ho : AlwaysOwned p a.pubkey W'.w.log) (ha : Installed W0.w.log a) :
    ∃ x i m, r = .created x ∧ (i, m) ∈ x.mints ∧ m.pubkey = a.pubkey := by
  obtain ⟨hr, hs, hv⟩ := h.between
  obtain ⟨x, rfl, h1, -⟩ := create_moments h
  have g0 := steps_grow (base_steps hr hs hl)
  have hr0 := base_reachable hr (hl.anti hr hs)
  obtain ⟨i, hi⟩ := mintStays_first ht hr0 (Nat.le_trans g0.2 hb) (ho.open.anti g0.1) ha
  obtain ⟨v, hvs, h2⟩ := h1.done i (by simp)
  obtain ⟨h3, h4⟩ := hv v hvs
  have g1 := steps_grow (base_steps (hr.trans h3) h4 hl)
  have hbv := Nat.le_trans g1.2 hb
  obtain ⟨m, h5, h6, h7⟩ := (mintStays_steps ht hr0 (base_steps hr h3 (hl.anti (hr.trans h3) h4)) hbv (ho.open.anti g1.1) hi).state
    hbv (ho.anti g1.1)
  exact ⟨x, i, m, rfl, (h2 m).2 ⟨h5, h7⟩, h6⟩

/-- **C160** for multisigs: every snapshot that is begun later, of either program, has a multisig of its address, even if the multisig is
closed meanwhile. -/
theorem C160_multisigs (E : SnapEnv) (W0 : SWorld) (t : Nat) (p : Program) (vs : List SWorld) (r : SReply) (W' : SWorld)
    (h : SPerformed E W0 t (.create p) vs r W') (hl : NoLoads W'.log) (hb : submits W'.w.log ≤ 2 ^ 31) (a : AccountData)
    (ht : IsMultisig E.base.codecs a) (ho : ∃ p, TokenProgramOwned a p) (ha : Installed W0.w.log a) :
    ∃ x m, r = .created x ∧ m ∈ x.multisigs ∧ m.pubkey = a.pubkey := by
  obtain ⟨hr, hs, hv⟩ := h.between
  obtain ⟨x, rfl, -, h1, -⟩ := create_moments h
  obtain ⟨v, hvs, h2⟩ := h1.done a.pubkey (by simp)
  obtain ⟨h3, h4⟩ := hv v hvs
  have hlv := hl.anti (hr.trans h3) h4
  have g1 := steps_grow (base_steps (hr.trans h3) h4 hl)
  obtain ⟨g, ⟨N, -, -, hst, -⟩, hk⟩ := keepsSigners ht ho (base_reachable (hr.trans h3) hlv) (Nat.le_trans g1.2 hb)
  obtain ⟨m, hm⟩ := hk.kept (ha.mono (steps_grow (base_steps hr h3 hlv)).1)
  exact ⟨x, m, rfl, h2 m hm, (hst.multisigs _ _ hm).named⟩

/-! ## Example -/

open DueLog

/-- The mint and the multisig are stored. -/
def storedS : List SMove :=
  .call 0 (.submit mintAcct none) :: goS 0 5 ++ .call 0 (.submit (multisigAcct Toy.alice) none) :: goS 0 4

/-- Steps of a snapshot, during which the mint is stored again. -/
def meanwhileS : List SMove := sgoS 0 1 ++ .call 0 (.submit mintAcct none) :: goS 0 4 ++ sgoS 0 3

/-- The snapshot that is made. -/
def keptSnapshot : TokenSnapshot :=
  ⟨[(0, aMint)], ((playS storedS).w.st.multisigs.find Toy.alice).toList, []⟩

theorem kept_performed : SPerformed oneShardS (playS storedS) 0 (.create .tokenProgram)
    (momentsS (storedS ++ [.scall 0 (.create .tokenProgram)]) meanwhileS) (.created keptSnapshot)
    (playS (storedS ++ [.scall 0 (.create .tokenProgram)] ++ meanwhileS ++ [.sgo 0])) := by
  refine sperformed_played [] ?_ ?_ ?_ (by simp) ?_ <;> decide +kernel

/-- The calls that are made. -/
def keptLog : List (Nat × Event) := [(0, .call (.submit mintAcct none)), (0, .ret (.updated true)),
  (0, .call (.submit (multisigAcct Toy.alice) none)), (0, .ret (.updated true))]

theorem kept_owned {log : List (Nat × Event)}
    (h : log = keptLog ++ [(0, .call (.submit mintAcct none)), (0, .ret (.updated true))]) :
    AlwaysOwned .tokenProgram mintAcct.pubkey log := by
  rintro b ⟨t, c, hm⟩ -
  rw [h] at hm
  simp [keptLog] at hm
  rcases hm with h | h | h <;> rw [h.2.1] <;> exact ⟨by decide, rfl⟩

example : SPerformed oneShardS (playS storedS) 0 (.create .tokenProgram)
    (momentsS (storedS ++ [.scall 0 (.create .tokenProgram)]) meanwhileS) (.created keptSnapshot)
    (playS (storedS ++ [.scall 0 (.create .tokenProgram)] ++ meanwhileS ++ [.sgo 0])) ∧
    NoLoads (playS (storedS ++ [.scall 0 (.create .tokenProgram)] ++ meanwhileS ++ [.sgo 0])).log ∧
    submits (playS (storedS ++ [.scall 0 (.create .tokenProgram)] ++ meanwhileS ++ [.sgo 0])).w.log ≤ 2 ^ 31 ∧
    IsMint Toy.codecs mintAcct ∧
    AlwaysOwned .tokenProgram mintAcct.pubkey (playS (storedS ++ [.scall 0 (.create .tokenProgram)] ++ meanwhileS ++ [.sgo 0])).w.log ∧
    Installed (playS storedS).w.log mintAcct ∧ IsMultisig Toy.codecs (multisigAcct Toy.alice) ∧
    (∃ p, TokenProgramOwned (multisigAcct Toy.alice) p) ∧ Installed (playS storedS).w.log (multisigAcct Toy.alice) ∧
    keptSnapshot.multisigs.length = 1 := by
  have h0 : (playS storedS).w.log = keptLog := by decide +kernel
  refine ⟨kept_performed, ?_, by decide +kernel, mint_isMint, kept_owned (by decide +kernel), ?_, signers_isMultisig, signers_owned, ?_,
    by decide +kernel⟩
  · have : (playS (storedS ++ [.scall 0 (.create .tokenProgram)] ++ meanwhileS ++ [.sgo 0])).log =
        [(0, .call (.create .tokenProgram)), (0, .ret (.created keptSnapshot))] := by decide +kernel
    intro t x
    rw [this]
    simp
  · rw [h0]
    exact ⟨keptLog.take 1, keptLog.drop 2, 0, none, rfl, ⟨[], [], rfl, by simp⟩, .inl rfl⟩
  · rw [h0]
    exact ⟨keptLog.take 3, keptLog.drop 4, 0, none, rfl, ⟨keptLog.take 2, [], rfl, by simp⟩, .inl rfl⟩

end LAM.Props
