import Verif.Spec.TokenHistory
import Verif.Spec.TokenStore
/-!
# Histories of token store calls in which slots are finalized

Read off the list of calls; no function of the store is used except in `Accepted`, which asks whether the store takes an
account for one of its own.
-/
namespace LAM.Spec
open Token
open TokenStore (TOp)

/-- The highest slot notified as finalized; 0 if there is none. -/
def lastFinal (ops : List TOp) : Nat :=
  ops.foldl (fun n o => match o with | .slot _ info .finalized => max n info.slot | _ => n) 0

/-- Unfinalized states are submitted before a slot as high as theirs is finalized. -/
def OnTime (ops : List TOp) : Prop :=
  ∀ pre a c post, ops = pre ++ TOp.update a c :: post → c ≠ .finalized → lastFinal pre < a.slot

/-- Slot `k` was notified as processed, or as the highest confirmed slot so far, when it had already occurred. -/
def LinkNoted (X : Codecs) (ops : List TOp) (k : Nat) : Prop :=
  ∃ pre σ info c post, ops = pre ++ TOp.slot σ info c :: post ∧ info.slot = k ∧ Known X pre k ∧
    (c = .processed ∨ (c = .confirmed ∧ confirmedOf pre < k))

/-- Slots are finalized along one chain, and between a newly finalized slot and an older slot with an unfinalized state of
`pk` every slot is linked to its parent. -/
def Chained (X : Codecs) (par : Nat → Nat) (pk : Pubkey) (ops : List TOp) : Prop :=
  ∀ pre σ info post, ops = pre ++ TOp.slot σ info .finalized :: post → lastFinal pre < info.slot →
    (0 < lastFinal pre → Ancestor par info.slot (lastFinal pre)) ∧
    ∀ i k, Ancestor par info.slot i → Ancestor par i k → i ≠ k → lastFinal pre < k → submittedAt pre pk k ≠ [] →
      (i = info.slot → Known X pre i) ∧ (i ≠ info.slot → LinkNoted X pre i)

/-- The account a call submits. -/
def submittedBy : TOp → Option AccountData
  | .update a _ => some a
  | .init a => some a
  | .slot .. => none

/-- The call stores its account at once. -/
def AtOnce : TOp → Prop
  | .update _ c => c = .finalized
  | .init _ => True
  | .slot .. => False

/-- States of `pk` are stored at once only before the first slot is finalized. -/
def LoadedFirst (pk : Pubkey) (ops : List TOp) : Prop :=
  ∀ pre o post a, ops = pre ++ o :: post → AtOnce o → submittedBy o = some a → a.pubkey = pk → lastFinal pre = 0

/-- No account is closed whose key differs from `pk` but starts with the same four bytes. -/
def NoTwinClosed (X : Codecs) (pk : Pubkey) (ops : List TOp) : Prop :=
  ∀ o ∈ ops, ∀ a, submittedBy o = some a → a.pubkey ≠ pk → prefix4 a.pubkey = prefix4 pk →
    ∀ T T', classify X T a ≠ .ok (some (.deleted a.pubkey), T')

/-- Every unfinalized submission of `pk` is taken for a token program account and can be classified. -/
def Accepted (X : Codecs) (pk : Pubkey) (ops : List TOp) : Prop :=
  ∀ pre a c post s, ops = pre ++ TOp.update a c :: post → c ≠ .finalized → a.pubkey = pk →
    TokenStore.run X pre .empty = .ok s → s.isTokenAccount a = .ok true ∧ ∀ T, ∃ x T', classify X T a = .ok (some x, T')

/-- `a` was submitted as an unfinalized state and classified as `x`, with the mint table of that moment. -/
def Taken (X : Codecs) (ops : List TOp) (a : AccountData) (x : ProgramAccount) : Prop :=
  ∃ pre c post s s', ops = pre ++ TOp.update a c :: post ∧ c ≠ .finalized ∧ TokenStore.run X pre .empty = .ok s ∧
    TokenStore.run X (pre ++ [.update a c]) .empty = .ok s' ∧ classify X s.table a = .ok (some x, s'.table)

/-- `pk` is always submitted as a token account or a closed account, and no token account names it as its mint. -/
def OnlyToken (X : Codecs) (pk : Pubkey) (ops : List TOp) : Prop :=
  ∀ o ∈ ops, ∀ a, submittedBy o = some a → ∀ T x T', classify X T a = .ok (x, T') →
    (a.pubkey = pk → ∀ y, x = some y → (∃ t, y = .token t) ∨ y = .deleted pk) ∧
    (T.index.find pk = none → T'.index.find pk = none)

/-- `pk` is never submitted as closed. -/
def NeverClosed (X : Codecs) (pk : Pubkey) (ops : List TOp) : Prop :=
  ∀ o ∈ ops, ∀ a, submittedBy o = some a → a.pubkey = pk → ∀ T T', classify X T a ≠ .ok (some (.deleted pk), T')

/-- `pk` is never submitted as a token account. -/
def NeverToken (X : Codecs) (pk : Pubkey) (ops : List TOp) : Prop :=
  ∀ o ∈ ops, ∀ a, submittedBy o = some a → a.pubkey = pk → ∀ T t T', classify X T a ≠ .ok (some (.token t), T')

end LAM.Spec
