import Verif.Spec.Filter
/-!
# What queries should answer
-/
namespace LAM.Spec

/-- The stored data decompresses and the stored length is the length of the contents (true of everything
built with `Data::new`). -/
def Honest (X : Codecs) (a : AccountData) : Prop :=
  ∃ d, contents X a.account.data = some d ∧ a.account.data.len = d.length

/-- `b` is `a`, possibly with the data stored differently. -/
structure SameAccount (X : Codecs) (a b : AccountData) : Prop where
  pubkey : b.pubkey = a.pubkey
  slot : b.slot = a.slot
  wv : b.wv = a.wv
  lamports : b.account.lamports = a.account.lamports
  owner : b.account.owner = a.account.owner
  executable : b.account.executable = a.account.executable
  rentEpoch : b.account.rentEpoch = a.account.rentEpoch
  data : contents X b.account.data = contents X a.account.data

theorem SameAccount.refl (X : Codecs) (a : AccountData) : SameAccount X a a :=
  ⟨rfl, rfl, rfl, rfl, rfl, rfl, rfl, rfl⟩

/-- The account passes all filters of the query. -/
def Selected (X : Codecs) (fs : Option (List AccountFilterType)) (a : AccountData) : Prop :=
  ∀ l, fs = some l → ∀ f ∈ l, ∃ d, contents X a.account.data = some d ∧ Allows X f d

/-- The texts of all filters of the query decode. -/
def QueryWellFormed (X : Codecs) (fs : Option (List AccountFilterType)) : Prop :=
  ∀ l, fs = some l → ∀ f ∈ l, WellFormed X f

/-- The account with its data uncompressed. -/
def plain (X : Codecs) (a : AccountData) : AccountData :=
  match contents X a.account.data with
  | some d => { a with account := { a.account with data := .uncompressed d } }
  | none => a

end LAM.Spec
