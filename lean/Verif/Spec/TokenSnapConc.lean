import Verif.Model.TokenSnapConc
import Verif.Spec.TokenConc
/-!
# Snapshots of the token program store, taken and loaded while other calls run: what is asked of them
-/
namespace LAM.TokConc
open Token

/-- The last thing thread `t` did is to make the call `k`, which has not returned yet. -/
def SLastCall (log : List (Nat × SEvent)) (t : Nat) (k : SCall) : Prop :=
  ∃ pre mid, log = pre ++ (t, .call k) :: mid ∧ ∀ e ∈ mid, e.1 ≠ t

/-- No call is being executed. -/
def SWorld.Quiet (W : SWorld) : Prop := TokConc.Quiet W.w ∧ ∀ t k, ¬ SLastCall W.log t k

/-- Steps from `W1` on, with all the states passed through. -/
inductive STrace (E : SnapEnv) (W1 : SWorld) : List SWorld → SWorld → Prop where
  | refl : STrace E W1 [W1] W1
  | tail {vs W W'} : STrace E W1 vs W → SStep E W W' → STrace E W1 (vs ++ [W']) W'

/-- In the state `W0` thread `t` makes the call `k`, the execution passes through the states `vs`, and the call returns `r`, which
gives the state `W'`; nothing is said of what other threads do meanwhile. -/
def SPerformed (E : SnapEnv) (W0 : SWorld) (t : Nat) (k : SCall) (vs : List SWorld) (r : SReply) (W' : SWorld) : Prop :=
  ∃ W1 W, SReachable E W0 ∧ SStep E W0 W1 ∧ W1.log = W0.log ++ [(t, .call k)] ∧ STrace E W1 vs W ∧
    (∀ l, W.log = W1.log ++ l → ∀ e ∈ l, e.1 ≠ t) ∧ SStep E W W' ∧ W'.log = W.log ++ [(t, .ret r)]

/-- Every token account that is not deleted has a mint, of the same program. -/
def MintsStored (s : TokenStore) : Prop :=
  ∀ b ∈ s.tokens.accounts, ∀ t, TokenAccount.fromBytes b = .ok t → t.isDeleted = false →
    ∃ m, s.mints.find t.mint = some m ∧ m.program = t.program

/-- No thread other than `t` executes a call that writes. -/
def SWorld.OnlyWriter (t : Nat) (W : SWorld) : Prop :=
  (∀ u k, LastCall W.w.log u k → k.modifies = false) ∧ ∀ u k, SLastCall W.log u k → u ≠ t → ∃ p, k = .create p

/-- The stores give the same answers, up to order, to all finalized queries that both can answer. -/
def SameAnswers (X : Codecs) (s s' : TokenStore) : Prop :=
  ∀ σ p fs l l', s.getProgramAccounts X σ p fs .finalized = .ok (.ok l) → s'.getProgramAccounts X σ p fs .finalized = .ok (.ok l') →
    ∀ a, a ∈ l ↔ a ∈ l'

end LAM.TokConc
