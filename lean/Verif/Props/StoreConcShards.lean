import Verif.Lemmas.StoreConcShards
import Verif.Props.StoreConc
/-!
# Concurrent calls of the in-memory account store: C88, which calls can wait for each other
-/
namespace LAM.Props
open Spec Store Conc

/-- **C88**, what holds besides `C88_calls_can_return_partial`: also with updates at the same time as notifications of finalized slots,
all calls can still return, as long as no update that is being executed is of an account in the shard of one that changed its owner.
Missing: updates in such shards at the same time as notifications of finalized slots. -/
theorem C88_shards_partial (E : Conc.Env) (w : Conc.World) (hr : Conc.Reachable E w) (hs : SeparateShards E w) :
    ∃ w', Conc.Steps E w w' ∧ Quiet w' := by
  obtain ⟨w', h, hi⟩ := calls_return_shards hr hs
  exact ⟨w', h, (quiet_iff (Steps.reachable hr h)).2 hi⟩

/-- **C88**. In particular there is no deadlock as long as no account changes its owner, whatever is executed at the same time. -/
theorem C88_same_owners_partial (E : Conc.Env) (w : Conc.World) (hr : Conc.Reachable E w)
    (ho : ∀ a b, Submitted w.log a → Submitted w.log b → a.pubkey = b.pubkey → a.account.owner = b.account.owner) :
    ∃ w', Conc.Steps E w w' ∧ Quiet w' := by
  refine C88_shards_partial E w hr ?_
  rintro t t' a c info pk - - ⟨b, b', h1, h2, h3, h4, h5⟩
  exact absurd (ho b b' h1 h2 (h3.trans h4.symm)) h5

/-! ## Cases in which they apply -/

/-- An update and a notification of a finalized slot, both holding locks, the update waiting for the account. -/
def finalizing : List Move :=
  firstUpdate ++ .call 0 (.update alice2 .processed) :: gos 0 7 ++ .call 1 (.process ⟨2, 1, 0⟩ .finalized) :: gos 1 3 ++
    .call 0 (.update alice3 .processed) :: gos 0 5

example : (played oneShard 2 progOnly finalizing).pc 0 = .upAccount alice3 .processed 0 ∧
    (played oneShard 2 progOnly finalizing).pc 1 = .prPromote .finalized 0 2 [] [] ∧
    ∃ w', Conc.Steps oneShard (played oneShard 2 progOnly finalizing) w' ∧ Quiet w' := by
  refine ⟨rfl, rfl, C88_same_owners_partial oneShard _ (played_reachable ..) ?_⟩
  have hl : (played oneShard 2 progOnly finalizing).log = [(0, .call (.update alice1 .finalized)), (0, .ret (.updated true)),
    (0, .call (.update alice2 .processed)), (0, .ret (.updated true)), (1, .call (.process ⟨2, 1, 0⟩ .finalized)),
    (0, .call (.update alice3 .processed))] := rfl
  have own : ∀ a, Submitted (played oneShard 2 progOnly finalizing).log a → a.account.owner = Toy.prog := by
    rintro a ⟨t, c, h⟩
    rw [hl] at h
    simp only [List.mem_cons, Prod.mk.injEq, Event.call.injEq, Call.update.injEq, reduceCtorEq, and_false, List.not_mem_nil, or_false,
      false_or] at h
    rcases h with ⟨-, rfl, -⟩ | ⟨-, rfl, -⟩ | ⟨-, rfl, -⟩ <;> rfl
  intro a b ha hb _
  rw [own a ha, own b hb]

/-- `bob` has a shard of its own. -/
def bobApart : Conc.Env := ⟨fun pk => if pk = Toy.bob then 1 else 0, true, Toy.codecs⟩

/-- `alice` changes its owner and is about to be removed by the notification, while `bob`, in another shard, is updated. -/
def otherShard : List Move :=
  firstUpdate ++ .call 0 (.update alice2' .processed) :: gos 0 8 ++ .call 1 (.process ⟨2, 1, 0⟩ .finalized) :: gos 1 5 ++
    .call 0 (.update (Toy.acct Toy.bob Toy.prog 5 3 3) .processed) :: gos 0 3

theorem otherShard_separate : SeparateShards bobApart (played bobApart 2 progOnly otherShard) := by
  rintro t t' a c info pk h1 - ⟨b, b', h3, h4, rfl, h6, h7⟩
  have hl : (played bobApart 2 progOnly otherShard).log = [(0, .call (.update alice1 .finalized)), (0, .ret (.updated true)),
    (0, .call (.update alice2' .processed)), (0, .ret (.updated true)), (1, .call (.process ⟨2, 1, 0⟩ .finalized)),
    (0, .call (.update (Toy.acct Toy.bob Toy.prog 5 3 3) .processed))] := rfl
  have sub : ∀ x, Submitted (played bobApart 2 progOnly otherShard).log x →
      x = alice1 ∨ x = alice2' ∨ x = Toy.acct Toy.bob Toy.prog 5 3 3 := by
    rintro x ⟨t, c, h⟩
    rw [hl] at h
    simp only [List.mem_cons, Prod.mk.injEq, Event.call.injEq, Call.update.injEq, reduceCtorEq, and_false, List.not_mem_nil, or_false,
      false_or] at h
    rcases h with ⟨-, rfl, -⟩ | ⟨-, rfl, -⟩ | ⟨-, rfl, -⟩ <;> simp
  have ha : a = Toy.acct Toy.bob Toy.prog 5 3 3 := by
    have := reachable_open (played_reachable ..) t _ h1
    match t with
    | 0 => obtain ⟨_, h⟩ := this; cases h; rfl
    | 1 => obtain ⟨_, h⟩ := this; cases h
    | t + 2 => exact this.elim
  have hb : b.pubkey = Toy.alice := by
    rcases sub b h3 with rfl | rfl | rfl
    · rfl
    · rfl
    · rcases sub b' h4 with rfl | rfl | rfl
      · exact absurd h6 (by decide)
      · exact absurd h6 (by decide)
      · exact absurd rfl h7
  rw [ha, hb]
  decide

example : (played bobApart 2 progOnly otherShard).pc 0 = .upPush (Toy.acct Toy.bob Toy.prog 5 3 3) .processed ∧
    (played bobApart 2 progOnly otherShard).pc 1 = .prDrop .finalized 0 alice2' [] [] ∧
    ∃ w', Conc.Steps bobApart (played bobApart 2 progOnly otherShard) w' ∧ Quiet w' :=
  ⟨rfl, rfl, C88_shards_partial bobApart _ (played_reachable ..) otherShard_separate⟩

end LAM.Props
