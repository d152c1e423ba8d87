import Verif.Spec.Program
import Verif.Spec.TokenQuery
/-!
# What the simulator program should list
-/
namespace LAM.Spec
open Sim Token
open TokenStore (TOp)

/-- In the archive and in the stream, the token account `pk` belongs to `own`. -/
structure OwnerKept (ws : List (Nat × Written)) (evs : List Event) (pk own : Pubkey) : Prop where
  archive : ∀ w ∈ tokenOwned (ws.map (·.2)), w.pubkey = pk → ∀ sa, AccountLayout w.data sa → sa.owner = own
  stream : ∀ a c, TOp.update a c ∈ streamed evs → a.pubkey = pk → ∀ bs sa, a.account.data = .uncompressed bs →
    AccountLayout bs sa → sa.owner = own

end LAM.Spec
