import Verif.Spec.StoreConc
/-!
# Concurrent calls of the in-memory account store: how often an update is reported
-/
namespace LAM.Conc

/-- A state of this account, of this slot and with this write version. -/
def IsState (pk : Pubkey) (slot wv : Nat) (a : AccountData) : Bool := a.pubkey = pk ∧ a.slot = slot ∧ a.wv = wv

/-- The last thing thread `t` did. -/
def lastOf (log : List (Nat × Event)) (t : Nat) : Option Event := (log.filter (fun e => e.1 = t)).getLast?.map Prod.snd

/-- What an event reports at commitment `c`, if `pre` happened before: the answer of a call that notifies a slot of this commitment. -/
def reportAt (c : Commitment) (pre : List (Nat × Event)) : Nat × Event → List AccountData
  | (t, .ret (.reported l)) => match lastOf pre t with
    | some (.call (.process _ c')) => if c' = c then l else []
    | _ => []
  | _ => []

/-- Everything that is reported at commitment `c`, if `pre` happened before. -/
def reportsAt (c : Commitment) (pre : List (Nat × Event)) : List (Nat × Event) → List AccountData
  | [] => []
  | e :: log => reportAt c pre e ++ reportsAt c (pre ++ [e]) log

/-- How often a state that meets `P` was submitted. -/
def submissions (P : AccountData → Bool) (log : List (Nat × Event)) : Nat :=
  log.countP fun e => match e.2 with
    | .call (.update a _) => P a
    | _ => false

end LAM.Conc
