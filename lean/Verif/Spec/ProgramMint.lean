import Verif.Spec.ProgramQuery
/-!
# What the simulator program should list for a mint
-/
namespace LAM.Spec
open Sim Token
open TokenStore (TOp)

/-- In the archive and in the stream, the token account `pk` is one of the mint `mk`. -/
structure MintKept (ws : List (Nat × Written)) (evs : List Event) (pk mk : Pubkey) : Prop where
  archive : ∀ w ∈ tokenOwned (ws.map (·.2)), w.pubkey = pk → ∀ sa, AccountLayout w.data sa → sa.mint = mk
  stream : ∀ a c, TOp.update a c ∈ streamed evs → a.pubkey = pk → ∀ bs sa, a.account.data = .uncompressed bs →
    AccountLayout bs sa → sa.mint = mk

end LAM.Spec
