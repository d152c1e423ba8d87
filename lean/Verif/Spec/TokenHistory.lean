import Verif.Model.TokenStore
/-!
# Histories of token store calls

What was submitted and notified, read off the list of calls alone; no function of the store is used.
-/
namespace LAM.Spec
open Token
open TokenStore (TOp)

/-- The unfinalized states of `pk` submitted for slot `k`, oldest first. -/
def submittedAt (ops : List TOp) (pk : Pubkey) (k : Nat) : List AccountData :=
  ops.filterMap (fun o => match o with
    | .update a c => if c ≠ .finalized ∧ a.pubkey = pk ∧ a.slot = k then some a else none
    | _ => none)

/-- `a` has the highest write version, and is the first with it. -/
def Best (l : List AccountData) (a : AccountData) : Prop :=
  ∃ l1 l2, l = l1 ++ a :: l2 ∧ (∀ b ∈ l1, b.wv < a.wv) ∧ ∀ b ∈ l2, b.wv ≤ a.wv

/-- `k` is `s` or one of its ancestors. -/
inductive Ancestor (par : Nat → Nat) : Nat → Nat → Prop where
  | here {s} : Ancestor par s s
  | up {s k} : Ancestor par (par s) k → Ancestor par s k

/-- `a`, submitted for slot `k`, is the newest state of `pk` on the way from `s` to its ancestors. -/
inductive NewestTrue (ops : List TOp) (par : Nat → Nat) (pk : Pubkey) : Nat → AccountData → Nat → Prop where
  | here {s a} : Best (submittedAt ops pk s) a → NewestTrue ops par pk s a s
  | up {s a k} : submittedAt ops pk s = [] → NewestTrue ops par pk (par s) a k → NewestTrue ops par pk s a k

/-- The highest slot notified as confirmed; 0 if there is none. -/
def confirmedOf (ops : List TOp) : Nat :=
  ops.foldl (fun n o => match o with | .slot _ info .confirmed => max n info.slot | _ => n) 0

/-- Every notification carries the true parent, which is an older slot. -/
def TrueParents (par : Nat → Nat) (ops : List TOp) : Prop :=
  ∀ σ info c, TOp.slot σ info c ∈ ops → info.parent = par info.slot ∧ info.parent < info.slot

/-- Nothing was finalized by a slot notification. -/
def Unfinalized (ops : List TOp) : Prop := ∀ σ info, TOp.slot σ info .finalized ∉ ops

/-- The account belongs to a token program and can be classified. -/
def Parses (X : Codecs) (a : AccountData) : Prop :=
  (a.account.owner = Spl.tokenId ∨ a.account.owner = Spl.token2022Id) ∧
  ∀ T, ∃ x T', classify X T a = .ok (some x, T')

/-- Slot `k` occurred: it was notified, or an account was submitted for it. -/
def Known (X : Codecs) (ops : List TOp) (k : Nat) : Prop :=
  (∃ σ info c, TOp.slot σ info c ∈ ops ∧ info.slot = k) ∨
  ∃ a c, TOp.update a c ∈ ops ∧ c ≠ .finalized ∧ a.slot = k ∧ Parses X a

/-- Slot `k` was notified as processed at a moment when it had already occurred. -/
def ParentKept (X : Codecs) (ops : List TOp) (k : Nat) : Prop :=
  ∃ pre σ info post, ops = pre ++ TOp.slot σ info .processed :: post ∧ info.slot = k ∧ Known X pre k

end LAM.Spec
