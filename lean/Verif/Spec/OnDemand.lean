import Verif.Model.OnDemand
/-!
# What a call of the on-demand storage may do
-/
namespace LAM.Spec
open OnDemand

/-- The complete list of events of a call, one constructor per way it can go. -/
inductive Completed : Query → List Event → Prop where
  /-- the storage has the account or reports an error -/
  | hit (pk c a) : a ≠ .account none →
      Completed (.account pk c) [.call (.account pk c), .read a, .ret a]
  /-- not stored, not loading, but filtered: known not to exist -/
  | known (pk c) : Completed (.account pk c)
      [.call (.account pk c), .read (.account none), .filtered true, .ret (.account none)]
  /-- not stored, another call is loading it -/
  | waitedAccount (pk c a) : Completed (.account pk c)
      [.call (.account pk c), .read (.account none), .waited, .read a, .ret a]
  /-- not stored; loaded by this call -/
  | loadedAccount (pk c a) : Completed (.account pk c)
      [.call (.account pk c), .read (.account none), .filtered false, .subscribe true, .save true, .read a, .ret a]
  | accountNotSubscribed (pk c) : Completed (.account pk c)
      [.call (.account pk c), .read (.account none), .filtered false, .subscribe false,
        .ret (.error .errorSubscribingAccount)]
  | accountNotSaved (pk c) : Completed (.account pk c)
      [.call (.account pk c), .read (.account none), .filtered false, .subscribe true, .save false,
        .ret (.error .errorCreatingSnapshot)]
  /-- the filters contain the program query -/
  | contained (p fs c a) : Completed (.program p fs c)
      [.call (.program p fs c), .filtered true, .read a, .ret a]
  /-- not contained, another call is loading it -/
  | waitedProgram (p fs c a) : Completed (.program p fs c)
      [.call (.program p fs c), .filtered false, .waited, .read a, .ret a]
  /-- not contained; loaded by this call -/
  | loadedProgram (p fs c a) : Completed (.program p fs c)
      [.call (.program p fs c), .filtered false, .subscribe true, .addFilter, .save true, .read a, .ret a]
  | programNotSubscribed (p fs c) : Completed (.program p fs c)
      [.call (.program p fs c), .filtered false, .subscribe false, .ret (.error .errorSubscribingAccount)]
  | programNotSaved (p fs c) : Completed (.program p fs c)
      [.call (.program p fs c), .filtered false, .subscribe true, .addFilter, .save false,
        .ret (.error .errorCreatingSnapshot)]

/-- The thread is subscribing to the key, or loading its snapshot. -/
def Loads (p : Pc) (k : Key) : Prop :=
  ∃ q cv, q.key = k ∧ (p = .subscribing q cv ∨ p = .adding q cv ∨ p = .saving q cv ∨ p = .finishing q cv)

/-- The call whose events are `es` failed to load the key. -/
def FailedToLoad (es : List Event) (k : Key) : Prop :=
  ∃ q rest, es = .call q :: rest ∧ q.key = k ∧ (.subscribe false ∈ rest ∨ .save false ∈ rest)

end LAM.Spec
