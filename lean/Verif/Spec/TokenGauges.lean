import Verif.Model.Gauges
import Verif.Spec.TokenStream
import Verif.Spec.Processed
/-!
# What the gauges of the token program store are meant to show
-/
namespace LAM.Spec
open Token
open TokenStore (TOp)

/-- `ks` are the public keys that finalized token accounts are found under, each once. -/
def TokensAre (s : TokenStore) (ks : List Pubkey) : Prop :=
  ks.Nodup ∧ ∀ pk, pk ∈ ks ↔ ∃ t, s.tokens.getByPubkey pk = .ok (some t)

/-- Is the record marked as deleted? -/
def deletedRecord (b : Bytes) : Bool :=
  match TokenAccount.fromBytes b with
  | .ok t => t.isDeleted
  | _ => false

/-- The number of states that are not finalized yet. -/
def heldStates (s : TokenStore) : Nat := (s.processed.map (fun e => e.2.accounts.length)).sum

/-- No account is closed whose first four bytes are those of another account that is submitted. -/
def NoTwins (ops : List TOp) : Prop :=
  ∀ o ∈ ops, ∀ o' ∈ ops, ∀ a b, submittedBy o = some a → submittedBy o' = some b → prefix4 a.pubkey = prefix4 b.pubkey →
    (b.account.lamports = 0 ∨ (b.account.owner ≠ Spl.tokenId ∧ b.account.owner ≠ Spl.token2022Id)) → a.pubkey = b.pubkey

/-- Every slot with states that is not above a finalized slot is an ancestor of it, along parents the store knows. -/
def NothingDropped (X : Codecs) (ops : List TOp) : Prop :=
  ∀ l σ info l' s, ops = l ++ TOp.slot σ info .finalized :: l' → TokenStore.run X l .empty = .ok s →
    ∀ k e, BMap.find s.processed k = some e → e.accounts ≠ [] → k ≤ info.slot →
      OnChain (if s.finalizedSlot < info.slot then s.processed.updateSlotInfo info else s.processed) info.slot k

/-- The mint of a token account is stored before the token account is submitted. -/
def MintsFirst (X : Codecs) (ops : List TOp) : Prop :=
  ∀ l o l' s a, ops = l ++ o :: l' → TokenStore.run X l .empty = .ok s → submittedBy o = some a →
    ∃ bs, HonestData X a.account.data bs ∧ ∀ sa, AccountLayout bs sa → KnownMint s sa.mint

end LAM.Spec
