import Verif.Spec.History
import Verif.Spec.TokenHistory
/-!
# Histories of account store calls that follow one chain

Read off the list of calls; no function of the store is used.
-/
namespace LAM.Spec

/-- Slot `k` was notified with commitment `c`. -/
def Notified (c : Commitment) (h : List Op) (k : Nat) : Prop := ∃ F σ info, Op.slot F σ info c ∈ h ∧ info.slot = k

/-- Slot `k` is on the chain of a slot that was notified with commitment `c`. -/
def OnChainOf (par : Nat → Nat) (c : Commitment) (h : List Op) (k : Nat) : Prop := ∃ t, Notified c h t ∧ Ancestor par t k

/-- What a well-behaved source sends about a chain: `par` gives the parent of each slot, `base` is the first confirmed slot. -/
structure OneChain (par : Nat → Nat) (base : Nat) (h : List Op) : Prop where
  /-- No slot is before its parent. -/
  down : ∀ k, par k ≤ k
  older : ∀ k, base ≤ k → par k < k
  /-- Notifications tell the parent. -/
  parents : ∀ F σ info c, Op.slot F σ info c ∈ h → info.parent = par info.slot
  /-- Updates are sent as processed, or as finalized if they are older than the chain (from a snapshot). -/
  updates : ∀ F a c, Op.update F a c ∈ h → c = .processed ∨ (c = .finalized ∧ a.slot < base)
  /-- A slot is not notified as processed after it was confirmed. -/
  processed : ∀ pre F σ info post, h = pre ++ Op.slot F σ info .processed :: post → ¬ OnChainOf par .confirmed pre info.slot
  /-- Confirmed slots are on one chain that starts with `base`, and are not notified after they were finalized. -/
  confirmed : ∀ pre F σ info post, h = pre ++ Op.slot F σ info .confirmed :: post →
    Ancestor par info.slot base ∧ (info.slot = base ∨ Notified .confirmed pre base) ∧ ¬ OnChainOf par .finalized pre info.slot ∧
    ∀ t, Notified .confirmed pre t → Ancestor par info.slot t ∨ Ancestor par t info.slot
  /-- Slots are finalized in order, and after they were confirmed (except those before `base`). -/
  finalized : ∀ pre F σ info post, h = pre ++ Op.slot F σ info .finalized :: post →
    (∀ t, Notified .finalized pre t → t ≤ info.slot) ∧ (info.slot < base ∨ OnChainOf par .confirmed pre info.slot)

/-- Slot `j` was notified as processed before any account was updated in it. -/
def AnnouncedFirst (h : List Op) (j : Nat) : Prop :=
  ∃ pre F σ info post, h = pre ++ Op.slot F σ info .processed :: post ∧ info.slot = j ∧
    ∀ G a c, Op.update G a c ∈ pre → a.slot ≠ j

/-- When a slot is confirmed before one of its ancestors was, it was notified as processed, and these ancestors were announced
before their updates. -/
def ParentsKnown (par : Nat → Nat) (base : Nat) (h : List Op) : Prop :=
  ∀ pre F σ info post, h = pre ++ Op.slot F σ info .confirmed :: post → ∀ j, Ancestor par info.slot j → j ≠ info.slot →
    base ≤ j → ¬ OnChainOf par .confirmed pre j → Notified .processed pre info.slot ∧ AnnouncedFirst pre j

/-- When a slot is finalized, a slot after it is confirmed. -/
def FinalizedBehind (par : Nat → Nat) (base : Nat) (h : List Op) : Prop :=
  ∀ pre F σ info post, h = pre ++ Op.slot F σ info .finalized :: post → base ≤ info.slot →
    ∃ t, Notified .confirmed pre t ∧ Ancestor par t info.slot ∧ t ≠ info.slot

/-- The states of `pk` in `h2`, which follows `h1`, arrive before their slot is confirmed; later ones, except the first, may arrive
until a later slot is finalized. -/
def UpdatesInTime (par : Nat → Nat) (base : Nat) (pk : Pubkey) (h1 h2 : List Op) : Prop :=
  ∀ pre F a post, h2 = pre ++ Op.update F a .processed :: post → a.pubkey = pk →
    base ≤ a.slot ∧ (OnChainOf par .confirmed (h1 ++ pre) a.slot →
      submissions pk pre ≠ [] ∧ ∀ t, Notified .finalized (h1 ++ pre) t → t ≤ a.slot)

/-- The state is older than the chain, or of a slot on the chain of a slot notified with commitment `c`. -/
def ChainVisible (par : Nat → Nat) (base : Nat) (c : Commitment) (h : List Op) (a : AccountData) : Prop :=
  a.slot < base ∨ OnChainOf par c h a.slot

/-- The newest of the submissions with property `P`; of several with the same version, the first one. -/
def NewestWhere (P : AccountData → Prop) (l : List AccountData) : Option AccountData → Prop
  | none => ∀ a ∈ l, ¬ P a
  | some a => ∃ l1 l2, l = l1 ++ a :: l2 ∧ P a ∧ (∀ b ∈ l1, P b → Older b a) ∧ ∀ b ∈ l2, P b → ¬ Older a b

end LAM.Spec
