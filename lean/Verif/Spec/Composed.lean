import Verif.Model.Composed
import Verif.Spec.TokenStore
import Verif.Spec.Spl
/-!
# Accounts that the token store has nothing to do with
-/
namespace LAM.Spec
open Token Composed

/-- The account that a call submits. -/
def submitted : SOp → Option AccountData
  | .update a _ => some a
  | .init a => some a
  | .slot .. => none

/-- Submitting `a` gives the token store nothing that looks like `pk`: if a token program owns `a`, then its public key starts with
other four bytes than `pk`, and if it is a token account, `pk` is not its mint. -/
def Aside (X : Codecs) (pk : Pubkey) (a : AccountData) : Prop :=
  a.account.owner = Spl.tokenId ∨ a.account.owner = Spl.token2022Id →
    prefix4 a.pubkey ≠ prefix4 pk ∧ ∀ bs sa, a.account.data.data X = .ok bs → AccountLayout bs sa → sa.mint ≠ pk

/-- The same call made to an in-memory store directly. -/
def direct (F : Filters) : SOp → Op
  | .update a c => .update F a c
  | .init a => .update F a .finalized
  | .slot o info c => .slot F o.main info c

/-- Slot notifications, and updates of `pk`. -/
def About (pk : Pubkey) : Op → Prop
  | .update _ a _ => a.pubkey = pk
  | .slot .. => True

instance (pk : Pubkey) : DecidablePred (About pk) := fun o => by cases o <;> (unfold About; infer_instance)

end LAM.Spec
