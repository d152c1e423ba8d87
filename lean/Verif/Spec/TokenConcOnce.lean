import Verif.Spec.TokenConc
/-!
# Concurrent calls of the token program store: how often an update is reported as finalized
-/
namespace LAM.TokConc
open Token

/-- A state of this account, of this slot and with this write version. -/
def IsState (pk : Pubkey) (slot wv : Nat) (a : AccountData) : Bool := a.pubkey = pk ∧ a.slot = slot ∧ a.wv = wv

/-- The last thing thread `t` did. -/
def lastOf (log : List (Nat × Event)) (t : Nat) : Option Event := (log.filter (fun e => e.1 = t)).getLast?.map Prod.snd

/-- What an event reports as finalized, if `pre` happened before: the answer of a call that notifies a finalized slot. -/
def finalReport (pre : List (Nat × Event)) : Nat × Event → List AccountData
  | (t, .ret (.reported l)) => match lastOf pre t with
    | some (.call (.process _ .finalized)) => l
    | _ => []
  | _ => []

/-- Everything that is reported as finalized, if `pre` happened before. -/
def finalReports (pre : List (Nat × Event)) : List (Nat × Event) → List AccountData
  | [] => []
  | e :: log => finalReport pre e ++ finalReports (pre ++ [e]) log

/-- How often the state was submitted as processed or confirmed. -/
def submissions (pk : Pubkey) (slot wv : Nat) (log : List (Nat × Event)) : Nat :=
  log.countP fun e => match e.2 with
    | .call (.submit a (some c)) => c ≠ .finalized ∧ IsState pk slot wv a
    | _ => false

end LAM.TokConc
