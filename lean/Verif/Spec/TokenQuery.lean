import Verif.Spec.Filter
import Verif.Model.Spl
/-!
# Which program queries ask for token accounts
-/
namespace LAM.Spec

/-- The size a filter asks for. -/
def sizeOf? : AccountFilterType → Option Nat
  | .datasize n => some n
  | .memcmp _ => none

/-- The raw bytes a filter asks for at `off`. -/
def rawAt? (off : Nat) : AccountFilterType → Option Bytes
  | .memcmp ⟨o, .bytes b⟩ => if o = off then some b else none
  | _ => none

/-- The public key a filter asks for at `off`. -/
def keyAt? (off : Nat) (f : AccountFilterType) : Option Pubkey :=
  match rawAt? off f with
  | some b => if h : b.length = 32 then some ⟨b, h⟩ else none
  | none => none

/-- The last filter to which `p` applies gives `x`. -/
def LastIs {α : Type} (p : AccountFilterType → Option α) (l : List AccountFilterType) (x : α) : Prop :=
  ∃ pre f post, l = pre ++ f :: post ∧ p f = some x ∧ ∀ g ∈ post, p g = none

/-- The query asks for token accounts: the size is 165, or (Token-2022) the account type byte after them is 2. -/
def AsksTokens (program : Pubkey) (l : List AccountFilterType) : Prop :=
  LastIs sizeOf? l 165 ∨ (program = Spl.token2022Id ∧ LastIs (rawAt? 165) l [2])

/-- The query asks for the token accounts of an owner. -/
def AsksOwner (program : Pubkey) (l : List AccountFilterType) (owner : Pubkey) : Prop :=
  AsksTokens program l ∧ LastIs (keyAt? 32) l owner

/-- The query asks for the token accounts of a mint. -/
def AsksMint (program : Pubkey) (l : List AccountFilterType) (mint : Pubkey) : Prop :=
  AsksTokens program l ∧ LastIs (keyAt? 0) l mint

end LAM.Spec
