import Verif.Spec.Token
import Verif.Model.TokenStorage
/-!
# The token account storage as a map
-/
namespace LAM.Spec
open Token TokenStorage

/-- The token account last saved for `pk` and not deleted since; calls are listed oldest first. -/
def lastSaved (pk : Pubkey) : List TokOp → Option TokenAccount
  | ops => ops.foldl (fun r o => match o with
    | .save t => if t.pubkey = pk then some t else r
    | .delete k => if k = pk then none else r) none

/-- The same, where deleting any public key with the same first four bytes forgets `pk` too. -/
def lastSavedSharing (pk : Pubkey) : List TokOp → Option TokenAccount
  | ops => ops.foldl (fun r o => match o with
    | .save t => if t.pubkey = pk then some t else r
    | .delete k => if k.bytes.take 4 = pk.bytes.take 4 then none else r) none

/-- The saved accounts have fields in range, and there are at most `2 ^ 32` calls. -/
def Admissible (ops : List TokOp) : Prop := (∀ t, TokOp.save t ∈ ops → TokenFits t) ∧ ops.length ≤ 2 ^ 32

/-- When a public key is deleted, no other stored key has the same first four bytes. -/
def DeletesDoNotCollide (ops : List TokOp) : Prop :=
  ∀ before k after, ops = before ++ TokOp.delete k :: after →
    ∀ pk, lastSaved pk before ≠ none → pk.bytes.take 4 = k.bytes.take 4 → pk = k

end LAM.Spec
