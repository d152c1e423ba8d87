import Verif.Spec.Program
/-!
# What the simulator program should answer for mints and multisigs
-/
namespace LAM.Spec
open Sim Token
open TokenStore (TOp)

/-- `pk` has data of this kind in the archive and in the stream; it stays with the token programs and is not closed. -/
structure SteadyKey (L : Bytes → Prop) (ws : List (Nat × Written)) (evs : List Event) (pk : Pubkey) : Prop where
  archive : ∀ w ∈ tokenOwned (ws.map (·.2)), w.pubkey = pk → L w.data
  stream : ∀ a c, TOp.update a c ∈ streamed evs → a.pubkey = pk → a.account.lamports ≠ 0 ∧
    (a.account.owner = Spl.tokenId ∨ a.account.owner = Spl.token2022Id) ∧ ∃ bs, a.account.data = .uncompressed bs ∧ L bs

/-- The data of a mint. -/
def MintData (bs : Bytes) : Prop := ∃ m, MintLayout bs m

/-- The data of a multisig. -/
def MultisigData (bs : Bytes) : Prop := ∃ m, MultisigLayout bs m

/-- The owner, the lamports and the data to be shown for `pk` at the last finalized slot: those of the newest state of the stream
on the finalized chain; if there is none, those of the last version in the archive. -/
inductive Now (ws : List (Nat × Written)) (evs : List Event) (par : Nat → Nat) (pk : Pubkey) : Pubkey → Nat → Bytes → Prop where
  | stream {a k bs} : NewestTrue (streamed evs) par pk (lastFinal (streamed evs)) a k → a.account.data = .uncompressed bs →
      Now ws evs par pk a.account.owner a.account.lamports bs
  | archive {w} : (∀ a k, ¬ NewestTrue (streamed evs) par pk (lastFinal (streamed evs)) a k) →
      LastOf (tokenOwned (ws.map (·.2))) w → w.pubkey = pk → Now ws evs par pk w.owner w.lamports w.data

end LAM.Spec
