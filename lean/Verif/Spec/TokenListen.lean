import Verif.Spec.TokenStream
/-!
# A listener to the answers of the token store to slot notifications
-/
namespace LAM.Spec
open Token
open TokenStore (TOp)

/-- What a listener knows: the contents of an account per pubkey. -/
abbrev TokenHeard := Pubkey → Option Account

/-- The listener takes over every account it is told. -/
def tokenLearn (v : TokenHeard) : List AccountData → TokenHeard
  | [] => v
  | a :: r => tokenLearn (fun pk => if pk = a.pubkey then some a.account else v pk) r

/-- The calls on the store, and a listener that is handed the answers to slot notifications at commitment `c`. -/
def tokenListen (X : Codecs) (c : Commitment) (s : TokenStore) (v : TokenHeard) : List TOp → Run (TokenStore × TokenHeard)
  | [] => .ok (s, v)
  | .update a d :: ops => do
    let s' ← s.step X (.update a d)
    tokenListen X c s' v ops
  | .init a :: ops => do
    let s' ← s.step X (.init a)
    tokenListen X c s' v ops
  | .slot σ info d :: ops => do
    let (r, s') ← s.processSlot σ info d
    tokenListen X c s' (if d = c then tokenLearn v r else v) ops

/-- In `h3` no state of `pk` is stored at once. -/
def NothingAtOnce (pk : Pubkey) (h3 : List TOp) : Prop := ∀ o ∈ h3, AtOnce o → ∀ a, submittedBy o = some a → a.pubkey ≠ pk

/-- No account is closed that has the key of a stored mint. -/
def MintsStay (X : Codecs) (ops : List TOp) : Prop :=
  ∀ pre s, pre <+: ops → TokenStore.run X pre .empty = .ok s → ∀ i m, s.mints.find i = some m →
    ∀ o ∈ ops, ∀ a, submittedBy o = some a → a.pubkey = m.pubkey → ∀ T T', classify X T a ≠ .ok (some (.deleted a.pubkey), T')

/-- What happens in `h3`, which follows `h`, leaves the confirmed chain alone: no state of `pk` arrives for one of its slots,
and no parent of one; and slots of the chain are finalized when it is linked from there on. -/
structure ChainRespected (X : Codecs) (par : Nat → Nat) (pk : Pubkey) (h h3 : List TOp) : Prop where
  update : ∀ pre a d post, h3 = pre ++ TOp.update a d :: post → a.pubkey = pk → ¬ Ancestor par (confirmedOf (h ++ pre)) a.slot
  processed : ∀ pre σ info post, h3 = pre ++ TOp.slot σ info .processed :: post → ¬ Ancestor par (confirmedOf (h ++ pre)) info.slot
  finalized : ∀ pre σ info post, h3 = pre ++ TOp.slot σ info .finalized :: post →
    Ancestor par (confirmedOf (h ++ pre)) info.slot ∧
    ∀ i, Ancestor par (confirmedOf (h ++ pre)) i → info.slot ≤ i → lastFinal (h ++ pre) < i → LinkNoted X (h ++ pre) i

/-- In `h3`, which follows `h`, slots are confirmed one after the other, each known and the child of the one before. -/
def ConfirmedInTurn (X : Codecs) (h h3 : List TOp) : Prop :=
  ∀ pre σ info post, h3 = pre ++ TOp.slot σ info .confirmed :: post →
    confirmedOf (h ++ pre) < info.slot ∧ info.parent = confirmedOf (h ++ pre) ∧ lastFinal (h ++ pre) < info.slot ∧
      Known X (h ++ pre) info.slot

/-- In `h3`, which follows `h`, confirmed slots descend from the one confirmed before through slots that are linked. -/
def ConfirmedAlong (X : Codecs) (par : Nat → Nat) (h h3 : List TOp) : Prop :=
  ∀ pre σ info post, h3 = pre ++ TOp.slot σ info .confirmed :: post →
    confirmedOf (h ++ pre) < info.slot ∧ Ancestor par info.slot (confirmedOf (h ++ pre)) ∧ lastFinal (h ++ pre) < info.slot ∧
      ∀ i, Ancestor par info.slot i → confirmedOf (h ++ pre) < i → LinkNoted X (h ++ pre) i

end LAM.Spec
