import Verif.Spec.ProgramSteady
import Verif.Spec.ProgramQuery
/-!
# What a store made from the simulator's snapshot should show
-/
namespace LAM.Spec
open Sim Token
open TokenStore (TOp)

/-- The store shows the token account `pk` with this owner and data, or, for `none`, no account. -/
def ShowsToken (X : Codecs) (s : TokenStore) (pk : Pubkey) : Option (Pubkey × Bytes) → Prop
  | none => s.getAccount pk .finalized = .ok none
  | some (owner, bs) => ∃ r bs' sa sa', s.getAccount pk .finalized = .ok (some r) ∧ r.pubkey = pk ∧ r.account.owner = owner ∧
      HonestData X r.account.data bs' ∧ AccountLayout bs sa ∧ AccountLayout bs' sa' ∧ SameToken sa sa'

/-- The store shows the multisig `pk` with this owner, these lamports and this data, up to the place of zero signers. -/
def ShowsMultisig (X : Codecs) (s : TokenStore) (pk owner : Pubkey) (lamports : Nat) (bs : Bytes) : Prop :=
  ∃ r bs' sm sm', s.getAccount pk .finalized = .ok (some r) ∧ r.pubkey = pk ∧ r.account.owner = owner ∧
    r.account.lamports = lamports ∧ HonestData X r.account.data bs' ∧ MultisigLayout bs sm ∧ MultisigLayout bs' sm' ∧ SameMultisig sm sm'

/-- The store shows the mint `pk` with this owner, these lamports and this data. -/
def ShowsMint (X : Codecs) (s : TokenStore) (pk owner : Pubkey) (lamports : Nat) (bs : Bytes) : Prop :=
  ∃ r bs' sm, s.getAccount pk .finalized = .ok (some r) ∧ r.pubkey = pk ∧ r.account.owner = owner ∧
    r.account.lamports = lamports ∧ HonestData X r.account.data bs' ∧ MintLayout bs sm ∧ MintLayout bs' sm

/-- The lamports in the stream are `u64`s, and the mints of the archive stay with the Token program. -/
def StreamTyped (ws : List (Nat × Written)) (evs : List Event) : Prop :=
  ∀ a c, TOp.update a c ∈ streamed evs → a.account.lamports < 2 ^ 64 ∧
    (ArchiveMint ws a.pubkey → a.account.owner ≠ Spl.token2022Id)

end LAM.Spec
