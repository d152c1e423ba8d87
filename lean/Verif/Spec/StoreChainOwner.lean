import Verif.Spec.StoreChain
/-!
# Accounts that change their owner, in histories that follow one chain
-/
namespace LAM.Spec

/-- How the states of `pk` in `h2`, which follows `h1`, may change the owner. -/
structure OwnersSettle (par : Nat → Nat) (base : Nat) (pk : Pubkey) (h1 h2 : List Op) : Prop where
  /-- The configured filters ask for its states. -/
  asked : ∀ F a c, Op.update F a c ∈ h2 → a.pubkey = pk → 0 < a.account.lamports → F.satisfies a = true
  /-- When it is closed it goes to an owner that never has it open. -/
  closed : ∀ x ∈ submissions pk h2, ∀ z ∈ submissions pk h2, x.account.lamports = 0 → 0 < z.account.lamports →
    x.account.owner ≠ z.account.owner
  /-- An owner that it leaves (finalized) does not get it back. -/
  noReturn : ∀ x ∈ submissions pk h2, ∀ y ∈ submissions pk h2, ∀ z ∈ submissions pk h2,
    ChainVisible par base .finalized (h1 ++ h2) x → ChainVisible par base .finalized (h1 ++ h2) y → Older x y → ¬ Older z y →
    0 < z.account.lamports → z.account.owner = x.account.owner → y.account.owner = x.account.owner
  /-- A state that is confirmed (finalized) when it arrives is not the first such state, or its owner is the only one so far. -/
  placed : ∀ pre F a c post, h2 = pre ++ Op.update F a c :: post → a.pubkey = pk → 0 < a.account.lamports → ∀ d, d ≠ .processed →
    ChainVisible par base d (h1 ++ pre) a → (∃ b ∈ submissions pk pre, ChainVisible par base d (h1 ++ pre) b) ∨
      ∀ b ∈ submissions pk pre, b.account.owner = a.account.owner
  /-- A state that is finalized when it arrives is newer than those before, or has the same owner. -/
  stale : ∀ pre F a c post x, h2 = pre ++ Op.update F a c :: post → a.pubkey = pk →
    ChainVisible par base .finalized (h1 ++ pre) a →
    NewestWhere (ChainVisible par base .finalized (h1 ++ pre)) (submissions pk pre) (some x) → ¬ Older x a →
    a.account.owner = x.account.owner

end LAM.Spec
