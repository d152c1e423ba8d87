import Verif.Spec.TokenStore
/-!
# Submissions that keep a set of mints known
-/
namespace LAM.Spec
open Token

/-- Submitting `a` respects the set `M` of known mints: its data decodes, a token account has its mint in `M` (and public
key, owner and mint related by `P`), and it does not delete a key of `M`. -/
structure Respects (X : Codecs) (M : Pubkey → Prop) (P : Pubkey → Pubkey → Pubkey → Prop) (a : AccountData) : Prop where
  data : ∃ bs, HonestData X a.account.data bs ∧ ∀ sa, AccountLayout bs sa → M sa.mint ∧ P a.pubkey sa.owner sa.mint
  kept : M a.pubkey → a.account.lamports ≠ 0 ∧ (a.account.owner = Spl.tokenId ∨ a.account.owner = Spl.token2022Id)

/-- `a` is a live mint account of a token program. -/
def IsMintAccount (X : Codecs) (a : AccountData) : Prop :=
  ∃ p bs sm, TokenProgramOwned a p ∧ HonestData X a.account.data bs ∧ MintLayout bs sm

end LAM.Spec
