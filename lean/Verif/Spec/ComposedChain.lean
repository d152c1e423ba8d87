import Verif.Spec.ComposedKept
import Verif.Spec.TokenStream
/-!
# The chain of slots behind the dispatcher
-/
namespace LAM.Spec
open Token Composed
open TokenStore (TOp)

/-- A call as a token store alone would get it, if it concerns one. -/
def aloneCall : SOp → List TOp
  | .update a c => [.update a c]
  | .init a => if a.account.owner = Spl.tokenId ∨ a.account.owner = Spl.token2022Id then [.init a] else []
  | .slot o info c => [.slot o.first info c]

/-- The calls as a token store alone would get them. -/
def alone (ops : List SOp) : List TOp := ops.flatMap aloneCall

/-- A call with notifications made twice, the second time with the second iteration orders. -/
def twiceCall : SOp → List TOp
  | .slot o info c => [.slot o.first info c, .slot o.second info c]
  | o => aloneCall o

/-- The calls with notifications made twice. -/
def twice (ops : List SOp) : List TOp := ops.flatMap twiceCall

/-- The parent of slot `k` was told: a notification of `k` as processed, or as the highest confirmed slot so far when `k` had
already occurred. -/
def Told (X : Codecs) (ops : List SOp) (k : Nat) : Prop :=
  ∃ pre o info c post, ops = pre ++ SOp.slot o info c :: post ∧ info.slot = k ∧
    (c = .processed ∨ (c = .confirmed ∧ Known X (alone pre) k ∧ confirmedOf (alone pre) < k))

/-- Slots are finalized along one chain, and the parents between a newly finalized slot and an older slot with an unfinalized state
of `pk` were told. -/
def ToldChain (X : Codecs) (par : Nat → Nat) (pk : Pubkey) (ops : List SOp) : Prop :=
  ∀ pre o info post, ops = pre ++ SOp.slot o info .finalized :: post → lastFinal (alone pre) < info.slot →
    (0 < lastFinal (alone pre) → Ancestor par info.slot (lastFinal (alone pre))) ∧
    ∀ i k, Ancestor par info.slot i → Ancestor par i k → i ≠ k → lastFinal (alone pre) < k → submittedAt (alone pre) pk k ≠ [] →
      (i = info.slot → Known X (alone pre) i) ∧ (i ≠ info.slot → Told X pre i)

/-- Every unfinalized submission of `pk` is taken for a token program account and can be classified. -/
def AcceptedBehind (X : Codecs) (F : Filters) (pk : Pubkey) (ops : List SOp) : Prop :=
  ∀ pre a c post w, ops = pre ++ SOp.update a c :: post → c ≠ .finalized → a.pubkey = pk →
    Sys.run X F pre .empty = .ok w → w.token.isTokenAccount a = .ok true ∧ ∀ T, ∃ x T', classify X T a = .ok (some x, T')

/-- `a` was submitted as an unfinalized state and classified as `x`, with the mint table of that moment. -/
def TakenBehind (X : Codecs) (F : Filters) (ops : List SOp) (a : AccountData) (x : ProgramAccount) : Prop :=
  ∃ pre c post w T, ops = pre ++ SOp.update a c :: post ∧ c ≠ .finalized ∧ Sys.run X F pre .empty = .ok w ∧
    classify X w.token.table a = .ok (some x, T)

end LAM.Spec
