import Verif.Spec.TokenConc
/-!
# Concurrent calls of the token program store: what has to be shown
-/
namespace LAM.TokConc
open Token Spec

/-- The account was submitted as processed or confirmed, and the call has returned `true`. -/
def Accepted (log : List (Nat × Event)) (a : AccountData) : Prop :=
  ∃ pre post t c, log = pre ++ (t, .ret (.updated true)) :: post ∧ LastCall pre t (.submit a (some c)) ∧ c ≠ .finalized

/-- No notification was made that finalizes or overtakes the slot: every slot notified as finalized is an earlier one and does not
descend from it. -/
def Kept (log : List (Nat × Event)) (k : Nat) : Prop := ∀ n, Notified log .finalized n → n < k ∧ ¬ Up log n k

/-- `a'` is a state of the account of `a`, submitted as processed or confirmed, of a later slot, or of the same slot with the same or
a later write version. -/
def AsNew (log : List (Nat × Event)) (a a' : AccountData) : Prop :=
  Noted log a' ∧ a'.pubkey = a.pubkey ∧ (a.slot < a'.slot ∨ (a'.slot = a.slot ∧ a.wv ≤ a'.wv))

/-- The account is closed, or was given to another program. -/
def Gone (a : AccountData) : Prop := ∀ p, ¬ TokenProgramOwned a p

/-- A read shows a state as new as `a`, or nothing, if one as new as `a` is gone. -/
def ShowsAsNew (X : Codecs) (log : List (Nat × Event)) (a : AccountData) (o : Option AccountData) : Prop :=
  (∃ b, o = some b ∧ b.pubkey = a.pubkey ∧ Stems X (fun a' => AsNew log a a' ∧ a'.slot = b.slot) b) ∨
    (o = none ∧ ∃ a', AsNew log a a' ∧ Gone a')

/-- No slot from `k` on was notified as confirmed. -/
def Unconfirmed (log : List (Nat × Event)) (k : Nat) : Prop := ∀ n, Notified log .confirmed n → n < k

/-- No slot after `k` was notified as confirmed. -/
def NoLater (log : List (Nat × Event)) (k : Nat) : Prop := ∀ n, Notified log .confirmed n → n ≤ k

/-- Slot `k` was notified as confirmed, and the call has returned. -/
def Confirmed (log : List (Nat × Event)) (k : Nat) : Prop :=
  ∃ pre post t info r, log = pre ++ (t, .ret r) :: post ∧ LastCall pre t (.process info .confirmed) ∧ info.slot = k

/-- Thread `t` is executing a confirmed notification, and none of an earlier slot was executed at the same time so far. -/
def Solo (log : List (Nat × Event)) (t : Nat) (info : SlotInfo) : Prop :=
  ∃ pre mid, log = pre ++ (t, .call (.process info .confirmed)) :: mid ∧ (∀ e ∈ mid, e.1 ≠ t) ∧
    (∀ u info', LastCall pre u (.process info' .confirmed) → info.slot ≤ info'.slot) ∧
    ∀ u info', (u, .call (.process info' .confirmed)) ∈ mid → info.slot ≤ info'.slot

/-- Slot `k` was notified as confirmed, the call has returned, and none of an earlier slot was executed at the same time. -/
def ConfirmedAlone (log : List (Nat × Event)) (k : Nat) : Prop :=
  ∃ pre post t info r, log = pre ++ (t, .ret r) :: post ∧ Solo pre t info ∧ info.slot = k

end LAM.TokConc
