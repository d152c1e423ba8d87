import Verif.Props.TokenConcMints
import Verif.Lemmas.TokenConcMintList
/-!
# Concurrent calls of the token program store: queries for mints show all finalized mints that are not closed: C158
-/
namespace LAM.Props
open Spec Token TokConc

/-- **C158**. Whatever is executed at the same time: once a mint of the Token program was submitted as finalized and the call has
returned `true`, every later query for accounts of 82 bytes that succeeds has an account of its address in its answer, at all
commitments, if all submitted accounts of this address belong to the Token program and none is closed. -/
theorem C158_query (E : TokConc.Env) (w : TokConc.World) (hr : TokConc.Reachable E w) (hb : submits w.log ≤ 2 ^ 31)
    (a : AccountData) (ht : IsMint E.codecs a) (hn : AlwaysToken a.pubkey w.log) (pre mid post : List (Nat × Event)) (t : Nat)
    (program : Pubkey) (c : Commitment) (l : List AccountData)
    (hl : w.log = (pre ++ (t, .call (.gpa program (some [.datasize 82]) c)) :: mid) ++ (t, .ret (.accounts (.ok l))) :: post)
    (hm : ∀ e ∈ mid, e.1 ≠ t) (ha : Installed pre a) : ∃ b ∈ l, b.pubkey = a.pubkey := by
  obtain ⟨g, -, -, hk⟩ := listsMint ht hr hb hn
  exact hk.queries _ post t program c l hl ⟨pre, mid, rfl, hm, ha⟩

/-! ## Example -/

open DueLog

/-- After `halfwayT` thread 1 asks for the mints, and meanwhile thread 0 finishes its call and stores the mint again. -/
def mintListT : List TokConc.Move :=
  halfwayT ++ .call 1 (.gpa Spl.tokenId (some [.datasize 82]) .finalized) :: goT 1 1 ++ goT 0 2 ++
    .call 0 (.submit mintAcct (some .finalized)) :: goT 0 4 ++ goT 1 4

theorem mint_alwaysToken {log : List (Nat × Event)}
    (h : log.all (fun e => match e.2 with
      | .call (.submit b _) => b = mintAcct || b = tokenAcct Toy.alice 1 1 || b = amountAcct Toy.alice 5 2 2
      | _ => true) = true) : AlwaysToken mintAcct.pubkey log := by
  intro b hb _
  rcases submittedT_of h hb with rfl | rfl | rfl <;> exact ⟨by decide, rfl⟩

example : TokConc.Reachable oneShardT (playT mintListT) ∧ submits (playT mintListT).log ≤ 2 ^ 31 ∧ IsMint Toy.codecs mintAcct ∧
    AlwaysToken mintAcct.pubkey (playT mintListT).log ∧ Installed halfLog mintAcct ∧
    (playT mintListT).log = (halfLog ++ (1, .call (.gpa Spl.tokenId (some [.datasize 82]) .finalized)) :: [(0, .ret (.updated true)),
      (0, .call (.submit mintAcct (some .finalized))), (0, .ret (.updated true))]) ++
      (1, .ret (.accounts (.ok [mintToSolana aMint 0 0]))) :: [] :=
  ⟨playT_reachable _, by decide +kernel, mint_isMint, mint_alwaysToken (by decide +kernel), mint_installed, by decide +kernel⟩

end LAM.Props
