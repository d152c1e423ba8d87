import Verif.Lemmas.StoreChainKey
import Verif.Lemmas.StoreChainCheck
import Verif.Props.StoreReads
/-!
# Confirmed and finalized reads of the account store follow the chain: C127
-/
namespace LAM.Props
open Spec Store

/-- Reads of `pk` show the newest state on the chain of what was confirmed or finalized: `h1` are the calls until `pk` is tracked
and `h2` the calls since then. -/
def FollowsChain (par : Nat → Nat) (base : Nat) (pk : Pubkey) (h1 h2 : List Op) (s : Store) : Prop :=
  ∀ c, c ≠ .processed → ∃ o, NewestWhere (ChainVisible par base c (h1 ++ h2)) (submissions pk h2) o ∧
    s.getAccount pk c = .ok (o.bind shown)

/-- **C127**, the full claim. -/
def C127_statement : Prop :=
  ∀ (par : Nat → Nat) (base : Nat) (pk : Pubkey) (h1 h2 : List Op) (s1 s2 : Store), empty.run h1 = .ok s1 →
    s1.containsKey pk = false → s1.run h2 = .ok s2 → StaysTracked s1 h2 pk → OneChain par base (h1 ++ h2) →
    UpdatesInTime par base pk h1 h2 → FollowsChain par base pk h1 h2 s2

/-- **C127 (partial)**. It holds if slots are announced before their accounts are updated (where a descendant is confirmed before
they are), and if a slot is finalized only when a later one is confirmed.  Missing: other histories (false, see below). -/
theorem C127_follows_chain_partial (par : Nat → Nat) (base : Nat) (pk : Pubkey) (h1 h2 : List Op) (s1 s2 : Store)
    (hr1 : empty.run h1 = .ok s1) (hun : s1.containsKey pk = false) (hr2 : s1.run h2 = .ok s2) (htr : StaysTracked s1 h2 pk)
    (H : OneChain par base (h1 ++ h2)) (hut : UpdatesInTime par base pk h1 h2)
    (hpk : ParentsKnown par base (h1 ++ h2)) (hfb : FinalizedBehind par base (h1 ++ h2)) :
    FollowsChain par base pk h1 h2 s2 := by
  have hi := inv_run (inv_run inv_empty hr1) hr2
  have hshow : ∀ (o : Option AccountData), o.bind shown = o.filter (fun a => decide (a.account.lamports > 0)) := by
    intro o
    cases o with
    | none => rfl
    | some a => simp only [Option.bind_some, shown, Option.filter_some]; split <;> simp_all
  intro c hc
  by_cases hn : h2 = []
  · subst hn
    simp only [run, Run.ok.injEq] at hr2; subst hr2
    refine ⟨none, by intro a ha; simp [submissions] at ha, ?_⟩
    have : s1.index pk = none := by simpa [containsKey] using hun
    simp [getAccount, this]
  · obtain ⟨i, e, hK⟩ := keyOK hr1 hun h2 s2 hn hr2 htr H hpk hfb hut
    cases c with
    | processed => exact absurd rfl hc
    | confirmed =>
      refine ⟨e.confirmed, hK.conf, ?_⟩
      rw [getAccount_eq hi, hK.view, hshow]; rfl
    | finalized =>
      refine ⟨e.finalized, hK.fin, ?_⟩
      rw [getAccount_eq hi, hK.view, hshow]; rfl

/-! ## Examples -/

/-- Slot 8 continues slot 6; slot 7 is on a fork. -/
def skip7 (k : Nat) : Nat := if k = 8 then 6 else k - 1

theorem skip7_zero : skip7 0 = 0 := rfl

theorem skip7_lt : ∀ k, 0 < k → skip7 k < k := by intro k hk; unfold skip7; split <;> omega

theorem anc_skip7_le {s k : Nat} (h : Ancestor skip7 s k) : k ≤ s :=
  anc_le (by intro k; unfold skip7; split <;> omega) h

private def note (k : Nat) (c : Commitment) : Op := .slot allowAll .asIs ⟨k, skip7 k, 0⟩ c

private def alice (slot wv : Nat) : AccountData := Toy.acct Toy.alice Toy.prog 1 slot wv

/-- A history with a fork, a state from before the chain, a late update and a confirmation that skips a slot. -/
def forkStart : List Op :=
  [.update allowAll (Toy.acct Toy.bob Toy.prog 1 2 1) .finalized, note 5 .processed, note 5 .confirmed]

def forkRest : List Op :=
  [.update allowAll (alice 3 1) .finalized, note 6 .processed, .update allowAll (alice 6 1) .processed,
    note 7 .processed, .update allowAll (alice 7 1) .processed, note 8 .processed, .update allowAll (alice 8 1) .processed,
    note 9 .processed, note 9 .confirmed, .update allowAll (alice 8 2) .processed, note 5 .finalized, note 6 .finalized]

/-- The conditions of `C127_follows_chain_partial` are met, and the reads show slot 8 (not the fork) and slot 6. -/
example : ∃ s1 s2, empty.run forkStart = .ok s1 ∧ s1.containsKey Toy.alice = false ∧ s1.run forkRest = .ok s2 ∧
    StaysTracked s1 forkRest Toy.alice ∧ OneChain skip7 5 (forkStart ++ forkRest) ∧ UpdatesInTime skip7 5 Toy.alice forkStart forkRest ∧
    ParentsKnown skip7 5 (forkStart ++ forkRest) ∧ FinalizedBehind skip7 5 (forkStart ++ forkRest) ∧
    s2.getAccount Toy.alice .confirmed = .ok (some (alice 8 2)) ∧ s2.getAccount Toy.alice .finalized = .ok (some (alice 6 1)) :=
  ⟨_, _, rfl, by decide, rfl, staysTracked_of (by decide +kernel), oneChain_of skip7_zero skip7_lt (by decide) (by decide +kernel),
    inTime_of skip7_zero skip7_lt (by decide +kernel), parentsKnown_of skip7_zero skip7_lt anc_skip7_le (by decide +kernel),
    finalizedBehind_of (by decide +kernel), by decide +kernel, by decide +kernel⟩

/-! ## Counterexamples -/

/-- Slot 8 is updated before it is announced, and slot 9 is the first one confirmed after slot 5. -/
def unannounced : List Op :=
  [.update allowAll (alice 6 1) .processed, note 6 .processed, .update allowAll (Toy.acct Toy.bob Toy.prog 1 8 1) .processed,
    note 8 .processed, note 9 .processed, note 9 .confirmed]

def confirmed5 : List Op := [note 5 .processed, note 5 .confirmed]

/-- The claim is false: a slot updated before it is announced loses its parent, so that confirming its child does not confirm its
ancestors. -/
theorem C127_refuted : ¬ C127_statement := by
  intro h
  obtain ⟨o, ho, hg⟩ := h skip7 5 Toy.alice confirmed5 unannounced _ _ rfl (by decide) rfl (staysTracked_of (by decide +kernel))
    (oneChain_of skip7_zero skip7_lt (by decide) (by decide +kernel)) (inTime_of skip7_zero skip7_lt (by decide +kernel))
    .confirmed (by decide)
  have hon : OnChainOf skip7 .confirmed (confirmed5 ++ unannounced) 6 := (onB_iff skip7_zero skip7_lt).1 (by decide +kernel)
  have hsub : submissions Toy.alice unannounced = [alice 6 1] := by decide +kernel
  rw [hsub] at ho
  cases o with
  | none => exact ho _ (List.mem_singleton.2 rfl) (Or.inr hon)
  | some x =>
    have := (newestWhere_mem ho).1
    rw [List.mem_singleton] at this
    subst this
    revert hg
    decide +kernel

/-- It is false even if every slot is announced first: -/
def C127_announced_statement : Prop :=
  ∀ (par : Nat → Nat) (base : Nat) (pk : Pubkey) (h1 h2 : List Op) (s1 s2 : Store), empty.run h1 = .ok s1 →
    s1.containsKey pk = false → s1.run h2 = .ok s2 → StaysTracked s1 h2 pk → OneChain par base (h1 ++ h2) →
    UpdatesInTime par base pk h1 h2 → ParentsKnown par base (h1 ++ h2) → FollowsChain par base pk h1 h2 s2

def before5 (k : Nat) : Nat := k - 1

private def tell (k : Nat) (c : Commitment) : Op := .slot allowAll .asIs ⟨k, k - 1, 0⟩ c

def confirmed5' : List Op :=
  [tell 5 .processed, tell 5 .confirmed, tell 5 .finalized, tell 6 .processed, tell 7 .processed, tell 8 .processed]

def caughtUp : List Op := [.update allowAll (alice 7 1) .processed, tell 8 .confirmed, tell 6 .finalized]

/-- If the last confirmed slot is finalized, the next confirmation makes up a link from a dropped slot to an unfinalized one: slot 6
is finalized here, and the state of slot 7 is read as finalized. -/
theorem C127_premature_refuted : ¬ C127_announced_statement := by
  intro h
  have h0 : before5 0 = 0 := rfl
  have hlt : ∀ k, 0 < k → before5 k < k := by intro k hk; unfold before5; omega
  obtain ⟨o, ho, hg⟩ := h before5 5 Toy.alice confirmed5' caughtUp _ _ rfl (by decide) rfl (staysTracked_of (by decide +kernel))
    (oneChain_of h0 hlt (by decide) (by decide +kernel)) (inTime_of h0 hlt (by decide +kernel))
    (parentsKnown_of h0 hlt (anc_le (by intro k; unfold before5; omega)) (by decide +kernel)) .finalized (by decide)
  have hon : ¬ OnChainOf before5 .finalized (confirmed5' ++ caughtUp) 7 := by
    rw [← onB_iff h0 hlt]; decide +kernel
  have hsub : submissions Toy.alice caughtUp = [alice 7 1] := by decide +kernel
  rw [hsub] at ho
  cases o with
  | none => revert hg; decide +kernel
  | some x =>
    obtain ⟨h1, h2, -⟩ := newestWhere_mem ho
    rw [List.mem_singleton] at h1
    subst h1
    rcases h2 with h2 | h2
    · exact absurd h2 (by decide)
    · exact hon h2

end LAM.Props
