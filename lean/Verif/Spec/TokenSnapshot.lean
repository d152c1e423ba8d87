import Verif.Spec.Token
import Verif.Spec.Snapshot
import Verif.Model.TokenSnapshot
/-!
# Ranges in token snapshots
-/
namespace LAM.Spec
open Token

/-- All integers of the mint fit in their Rust types. -/
structure MintFits (m : MintAccount) : Prop where
  lamports : U64 m.lamports
  supply : U64 m.supply
  additional : ∀ d, m.additionalData = some d → U64 d.length

/-- All integers of the multisig fit in their Rust types. -/
structure MultiSigFits (m : MultiSig) : Prop where
  lamports : U64 m.lamports
  signers : U64 m.signers.length

/-- All integers and lengths of the snapshot fit in their Rust types. -/
structure SnapshotFits (x : TokenSnapshot) : Prop where
  mints : U64 x.mints.length
  mint : ∀ e ∈ x.mints, e.1 < 2 ^ 32 ∧ MintFits e.2
  multisigs : U64 x.multisigs.length
  multisig : ∀ m ∈ x.multisigs, MultiSigFits m
  tokens : U64 x.tokens.length
  token : ∀ b ∈ x.tokens, U64 b.length

/-- The snapshot has an account with this public key. -/
inductive InSnapshot (x : TokenSnapshot) (pk : Pubkey) : Prop
  | multisig (m : MultiSig) (h : m ∈ x.multisigs) (e : m.pubkey = pk)
  | mint (m : Nat × MintAccount) (h : m ∈ x.mints) (e : m.2.pubkey = pk)
  | token (b : Bytes) (h : b ∈ x.tokens) (t : TokenAccount) (ht : TokenAccount.fromBytes b = .ok t) (e : t.pubkey = pk)

end LAM.Spec
