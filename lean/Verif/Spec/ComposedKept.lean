import Verif.Spec.Composed
import Verif.Spec.TokenHistory
/-!
# Accounts of the token programs behind the dispatcher
-/
namespace LAM.Spec
open Token Composed

/-- The unfinalized states of `pk` submitted for slot `k`. -/
def sentAt (ops : List SOp) (pk : Pubkey) (k : Nat) : List AccountData :=
  ops.filterMap (fun o => match o with
    | .update a c => if c ≠ .finalized ∧ a.pubkey = pk ∧ a.slot = k then some a else none
    | _ => none)

/-- Whatever is submitted for `pk` belongs to a token program and can be classified. -/
def OfTokenProgram (X : Codecs) (pk : Pubkey) (ops : List SOp) : Prop :=
  ∀ o ∈ ops, ∀ a, submitted o = some a → a.pubkey = pk → Parses X a

/-- Every unfinalized state of `pk` has a higher write version than those submitted before for its slot. -/
def SentInOrder (pk : Pubkey) (ops : List SOp) : Prop :=
  ∀ pre a c post, ops = pre ++ SOp.update a c :: post → c ≠ .finalized → a.pubkey = pk →
    ∀ d ∈ sentAt pre pk a.slot, d.wv < a.wv

end LAM.Spec
