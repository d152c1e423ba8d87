import Verif.Model.OnDemandStore
import Verif.Spec.Query
import Verif.Spec.History
/-!
# Loading on demand: what is configured, and what a source hands over
-/
namespace LAM.Spec
open Demand

/-- `filters` are the result of configuring `fs`, whose texts all decode. -/
def Configured (X : Codecs) (fs : List AccountFilter) (filters : SimpleFilterStore) : Prop :=
  (∀ f ∈ fs, FilterWellFormed X f) ∧ SimpleFilterStore.empty.addFilters X fs = .ok filters

/-- `w` came about by the calls `h` of its storage and by configuring `fs`. -/
structure Came (X : Codecs) (w : Sys) (h : List Op) (fs : List AccountFilter) : Prop where
  store : Store.empty.run h = .ok w.store
  filters : Configured X fs w.filters

/-- A source that, when asked to subscribe to `f`, succeeds and leaves the filters alone, and hands over `accounts`. -/
def Provides (S : Source) (f : AccountFilter) (accounts : List AccountData) : Prop :=
  (∀ filters, S.subscribe f filters = some filters) ∧ S.snapshot f = (accounts, true)

/-- What the source hands over for a query of `p` with `fs`: sound accounts of the program that pass the filters, no pubkey twice, none of
them known to the storage or ever known under another program. -/
structure Fetched (X : Codecs) (w : Sys) (h : List Op) (p : Pubkey) (fs : Option (List AccountFilterType)) (accounts : List AccountData) :
    Prop where
  honest : ∀ a ∈ accounts, Honest X a
  owner : ∀ a ∈ accounts, a.account.owner = p
  selected : ∀ a ∈ accounts, Selected X fs a
  alive : ∀ a ∈ accounts, 0 < a.account.lamports
  distinct : (accounts.map AccountData.pubkey).Nodup
  untracked : ∀ a ∈ accounts, w.store.containsKey a.pubkey = false
  stable : ∀ a ∈ accounts, ∀ b ∈ submissions a.pubkey h, b.account.owner = p

end LAM.Spec

namespace LAM.Demand
open LAM.Spec

/-- A source that only ever adds filters, ones whose texts decode. -/
def Source.Sound (X : Codecs) (S : Source) : Prop :=
  ∀ f s s', S.subscribe f s = some s' → ∃ gs, (∀ g ∈ gs, FilterWellFormed X g) ∧ s.addFilters X gs = .ok s'

/-- A call with a sound source and a query whose texts decode. -/
def Call.Sound (X : Codecs) : Call → Prop
  | .account S _ _ => Source.Sound X S
  | .program S _ _ fs _ => Source.Sound X S ∧ QueryWellFormed X fs
  | _ => True

/-- The account states that a call brings along: the one submitted, those the source hands over, or those of the snapshot. -/
def Call.brings : Call → List AccountData
  | .account S pk _ => (S.snapshot (accountFilter pk)).1
  | .program S _ p fs _ => (S.snapshot (programFilter p fs)).1
  | .update a _ => [a]
  | .slot .. => []
  | .init a => [a]
  | .load bs => (Bincode.deserialize bs).getD []

end LAM.Demand
