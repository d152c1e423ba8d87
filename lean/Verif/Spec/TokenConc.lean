import Verif.Model.TokenConc
import Verif.Spec.TokenStore
import Verif.Spec.TokenQuery
/-!
# Concurrent calls of the token program store: what is asked of them

Everything here is about the events of an execution (which thread made which call, and what it returned), not about how far a
thread has come inside a call.
-/
namespace LAM.TokConc
open Token Spec

/-- The last thing thread `t` did is to make the call `k`, which has not returned yet. -/
def LastCall (log : List (Nat × Event)) (t : Nat) (k : Call) : Prop :=
  ∃ pre mid, log = pre ++ (t, .call k) :: mid ∧ ∀ e ∈ mid, e.1 ≠ t

/-- No call is being executed. -/
def Quiet (w : World) : Prop := ∀ t k, ¬ LastCall w.log t k

/-- Every notified parent is older than its slot. -/
def ParentsOlder (log : List (Nat × Event)) : Prop :=
  ∀ t info c, (t, Event.call (.process info c)) ∈ log → info.parent < info.slot

/-! ## Answers -/

/-- The account was submitted. -/
def Submitted (log : List (Nat × Event)) (a : AccountData) : Prop := ∃ t c, (t, Event.call (.submit a c)) ∈ log

/-- The account was submitted as processed or confirmed. -/
def Noted (log : List (Nat × Event)) (a : AccountData) : Prop :=
  ∃ t c, (t, Event.call (.submit a (some c))) ∈ log ∧ c ≠ .finalized

/-- The slot was notified with this commitment. -/
def Notified (log : List (Nat × Event)) (c : Commitment) (slot : Nat) : Prop :=
  ∃ t info, (t, Event.call (.process info c)) ∈ log ∧ info.slot = slot

/-- `k` is the slot `n`, or its parent, or the parent of that, …, according to the notifications (of any commitment). -/
inductive Up (log : List (Nat × Event)) (n : Nat) : Nat → Prop where
  | self : Up log n n
  | parent {t info c} : Up log n info.slot → (t, Event.call (.process info c)) ∈ log → Up log n info.parent

/-- The slot, or one that descends from it, was notified as confirmed.  The store begins with 0 as the confirmed slot. -/
def ConfirmedChain (log : List (Nat × Event)) (k : Nat) : Prop := ∃ n, (n = 0 ∨ Notified log .confirmed n) ∧ Up log n k

/-- The account was submitted as finalized or without a commitment, or for a slot that was notified as finalized, itself or one
that descends from it. -/
def Settled (log : List (Nat × Event)) (a : AccountData) : Prop :=
  (∃ t c, (t, Event.call (.submit a c)) ∈ log ∧ (c = none ∨ c = some .finalized)) ∨
    (Noted log a ∧ ∃ n, Notified log .finalized n ∧ Up log n a.slot)

/-- The slot was notified as finalized, or is the 0 the store begins with. -/
def FinalSlot (log : List (Nat × Event)) (k : Nat) : Prop := k = 0 ∨ Notified log .finalized k

/-- Number of submitted accounts. -/
def submits (log : List (Nat × Event)) : Nat :=
  log.countP fun e => match e.2 with | .call (.submit ..) => true | _ => false

/-- `b` holds the content of `a`: both are a token account, a mint or a multisig account with the same fields. -/
inductive SameContent (X : Codecs) (a b : AccountData) : Prop where
  | token {bs bs' sa sb} : a.account.data.data X = .ok bs → HonestData X b.account.data bs' → AccountLayout bs sa →
      AccountLayout bs' sb → SameToken sa sb → SameContent X a b
  | mint {bs bs' m} : a.account.data.data X = .ok bs → HonestData X b.account.data bs' → MintLayout bs m → MintLayout bs' m →
      b.account.lamports = a.account.lamports → SameContent X a b
  | multisig {bs bs' ma mb} : a.account.data.data X = .ok bs → HonestData X b.account.data bs' → MultisigLayout bs ma →
      MultisigLayout bs' mb → mb.m = ma.m → mb.n = ma.n → mb.isInitialized = ma.isInitialized →
      mb.signers.filter (fun k => k ≠ Pubkey.default) = ma.signers.filter (fun k => k ≠ Pubkey.default) →
      b.account.lamports = a.account.lamports → SameContent X a b

/-- `b` is one of the accounts in `S`, with the same owner and content; it is not closed. -/
def Stems (X : Codecs) (S : AccountData → Prop) (b : AccountData) : Prop :=
  ∃ a p, S a ∧ TokenProgramOwned a p ∧ b.pubkey = a.pubkey ∧ b.account.owner = a.account.owner ∧ SameContent X a b

/-- What a read with commitment `c` may show: a finalized state, with the finalized slot; or, unless finalized states are asked for, a
state that was submitted as processed or confirmed, with its slot, which is on the confirmed chain if confirmed states are asked for. -/
def Shown (X : Codecs) (log : List (Nat × Event)) (c : Commitment) (b : AccountData) : Prop :=
  (Stems X (Settled log) b ∧ FinalSlot log b.slot) ∨
    (c ≠ .finalized ∧ Stems X (fun a => Noted log a ∧ a.slot = b.slot) b ∧ (c = .confirmed → ConfirmedChain log b.slot))

/-- `b` is a token account with this owner and, if one is given, this mint. -/
def TokenAccountOf (X : Codecs) (b : AccountData) (owner : Pubkey) (mint : Pubkey → Prop) : Prop :=
  ∃ bs sb, HonestData X b.account.data bs ∧ AccountLayout bs sb ∧ sb.owner = owner ∧ ∀ pk, mint pk → sb.mint = pk

/-- A token program is asked for the token accounts of an owner or a mint, or for mints. -/
def Answerable (program : Pubkey) (fs : Option (List AccountFilterType)) : Prop :=
  (program = Spl.tokenId ∨ program = Spl.token2022Id) ∧
    ∃ l, fs = some l ∧ (.datasize 82 ∈ l ∨ ∃ pk, AsksOwner program l pk ∨ AsksMint program l pk)

/-- The data of the account is a token account, a mint or a multisig account. -/
def Readable (X : Codecs) (a : AccountData) : Prop :=
  ∃ bs, a.account.data.data X = .ok bs ∧ ((∃ m, MintLayout bs m) ∨ (∃ sa, AccountLayout bs sa) ∨ ∃ m, MultisigLayout bs m)

/-- The answers that are in order when the calls of `log` have been made before. -/
def ReplyOK (X : Codecs) (log : List (Nat × Event)) : Call → Reply → Prop
  | .submit a c, .updated b => (∃ p, TokenProgramOwned a p) →
      (b = true → Readable X a) ∧
      (b = false → c = none ∨ c = some .finalized → (∃ bs, HonestData X a.account.data bs) → ¬ Readable X a)
  | .submit a _, .panicked => ∀ bs, ¬ HonestData X a.account.data bs
  | .process info c, .reported l => (c = .processed → l = []) ∧ ∀ b ∈ l,
      Stems X (fun a => Noted log a ∧ a.slot = b.slot ∧ a.wv = b.wv) b ∧ (c = .confirmed → b.slot = info.slot) ∧
      (c = .finalized → Up log info.slot b.slot)
  | .process _ c, .panicked => c ≠ .processed
  | .get pk c, .account o => ∀ b, o = some b → b.pubkey = pk ∧ Shown X log c b
  | .get .., .panicked => True
  | .gpa p fs c, .accounts (.ok l) => Answerable p fs ∧ ∀ b ∈ l, Shown X log c b ∧
      (c = .finalized → ∀ fl owner, fs = some fl → AsksOwner p fl owner → TokenAccountOf X b owner (AsksMint p fl))
  | .gpa p fs _, .accounts (.error e) => ¬ Answerable p fs ∧
      (e = .wrongIndex ↔ p ≠ Spl.tokenId ∧ p ≠ Spl.token2022Id) ∧ (e = .wrongIndex ∨ e = .shouldContainAnAccountFilter)
  | .gpa p fs _, .panicked => Answerable p fs
  | _, _ => False

/-! ## Calls one after the other -/

/-- Whether a call changes the store. -/
def Call.modifies : Call → Bool
  | .submit .. | .process .. => true
  | .get .. | .gpa .. => false

/-- The call of an operation of `TokenStore`. -/
def opCall : TokenStore.TOp → Call
  | .update a c => .submit a (some c)
  | .init a => .submit a none
  | .slot _ info c => .process info c

/-- The operation executed at once; `initilize_or_update_account` returns nothing, the Boolean is that of `update_account`. -/
def opResult (X : Codecs) (s : TokenStore) : TokenStore.TOp → Run (TokenStore × Reply)
  | .update a c => do let r ← s.updateAccount X a c; return (r.2, .updated r.1)
  | .init a => do let s' ← s.initAccount X a; let r ← s.updateAccount X a .finalized; return (s', .updated r.1)
  | .slot σ info c => do let r ← s.processSlot σ info c; return (r.2, .reported r.1)

/-- Operations one after the other, with what they return. -/
def seqRun (X : Codecs) (s : TokenStore) : List TokenStore.TOp → Run (TokenStore × List Reply)
  | [] => .ok (s, [])
  | op :: ops => do
    let (s, r) ← opResult X s op
    let (s, rs) ← seqRun X s ops
    return (s, r :: rs)

/-- A reading call executed at once. -/
def readResult (X : Codecs) (σ : Orders) (s : TokenStore) : Call → Run Reply
  | .get pk c => do return .account (← s.getAccount pk c)
  | .gpa p fs c => do return .accounts (← s.getProgramAccounts X σ p fs c)
  | _ => .panic

/-- The same store, except for the order in which the mints are iterated over (it is not fixed by a `DashMap`). -/
def Reordered (s s' : TokenStore) : Prop :=
  s'.mints.Perm s.mints ∧ (∀ i, s'.mints.find i = s.mints.find i) ∧ s' = { s with mints := s'.mints }

/-- The writing calls, in the order they were made. -/
def writeCalls (log : List (Nat × Event)) : List Call :=
  log.filterMap fun e => match e.2 with
    | .call k => if k.modifies then some k else none
    | .ret _ => none

/-- What writing calls returned, in the order they ended (those that panicked are left out). -/
def writeReplies (log : List (Nat × Event)) : List Reply :=
  log.filterMap fun e => match e.2 with
    | .ret (.updated b) => some (.updated b)
    | .ret (.reported l) => some (.reported l)
    | _ => none

/-- No writing call is being executed. -/
def NoWriter (w : World) : Prop := ∀ t k, LastCall w.log t k → k.modifies = false

/-- No writing call is being executed by a thread other than `t`. -/
def OnlyWriter (t : Nat) (w : World) : Prop := ∀ u k, LastCall w.log u k → k.modifies = true → u = t

/-- Steps of any threads, where no thread other than `t` executes a writing call at any time. -/
inductive Alone (E : Env) (t : Nat) : World → World → Prop where
  | refl {w} : OnlyWriter t w → Alone E t w w
  | tail {w w' w''} : Alone E t w w' → Step E w' w'' → OnlyWriter t w'' → Alone E t w w''

/-- Steps of any threads, where at most one writing call is being executed at any time. -/
inductive SingleWriter (E : Env) : World → World → Prop where
  | refl {w t} : OnlyWriter t w → SingleWriter E w w
  | tail {w w' w'' t} : SingleWriter E w w' → Step E w' w'' → OnlyWriter t w'' → SingleWriter E w w''

end LAM.TokConc
