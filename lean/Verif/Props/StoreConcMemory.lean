import Verif.Lemmas.StoreConcMemory
import Verif.Props.StoreConc
/-!
# C154: what concurrent calls of the in-memory account store make it keep
-/
namespace LAM.Props
open Spec Store Conc

/-- **C154 (entries)**. However calls interleave, there are no more entries than updates were submitted. -/
theorem C154_entries (E : Conc.Env) (w : Conc.World) (hr : Conc.Reachable E w) :
    w.st.accounts.length ≤ submissions (fun _ => true) w.log :=
  Nat.le_trans (Nat.le_add_right _ _) (reachable_entries hr 0)

/-- **C154 (one entry)**. At every moment there is at most one entry with states of an account. -/
theorem C154_one_entry (E : Conc.Env) (w : Conc.World) (hr : Conc.Reachable E w) (pk : Pubkey) (i j : Nat) (e e' : ByCommitment)
    (he : w.st.accounts[i]? = some e) (he' : w.st.accounts[j]? = some e') (h : HasState pk e) (h' : HasState pk e') : i = j :=
  one_entry hr he he' h h'

/-- **C154 (states)**. At every moment the entries with states are no more than the accounts submitted. -/
theorem C154_states (E : Conc.Env) (w : Conc.World) (hr : Conc.Reachable E w) (keys : List Pubkey) (hk : AmongKeys keys w.log) :
    (w.st.accounts.filter (fun e => ¬ Vacated e)).length ≤ keys.length :=
  live_le hr hk

/-- **C154 (no account leaves)**. If no submitted state closes its account or is refused by the filters meanwhile, all entries are no more
than the accounts submitted. -/
theorem C154_none_leave (E : Conc.Env) (F : Filters) (w : Conc.World) (vs : List Conc.World) (h : Conc.Trace E (Conc.World.init F) vs w)
    (hn : NoneLeave vs) (keys : List Pubkey) (hk : AmongKeys keys w.log) : w.st.accounts.length ≤ keys.length :=
  all_le h hn hk

/-! ## Cases in which they apply -/

/-- `alice` changes its owner; a notification has removed it from the index and is about to delete its entry, while a new update of
`alice`, which no longer finds the entry, waits to add one. -/
def leaving : List Move :=
  firstUpdate ++ .call 0 (.update alice2' .processed) :: gos 0 8 ++ .call 1 (.process ⟨2, 1, 0⟩ .finalized) :: gos 1 6 ++
    .call 0 (.update alice3 .processed) :: gos 0 3

/-- Both are done. -/
def cameBack : List Move := leaving ++ gos 1 2 ++ gos 0 4

theorem leaving_keys : AmongKeys [Toy.alice] (played oneShard 2 progOnly leaving).log := by
  have hl : (played oneShard 2 progOnly leaving).log = [(0, .call (.update alice1 .finalized)), (0, .ret (.updated true)),
    (0, .call (.update alice2' .processed)), (0, .ret (.updated true)), (1, .call (.process ⟨2, 1, 0⟩ .finalized)),
    (0, .call (.update alice3 .processed))] := rfl
  rintro a ⟨t, c, h⟩
  rw [hl] at h
  simp only [List.mem_cons, Prod.mk.injEq, Event.call.injEq, Call.update.injEq, reduceCtorEq, and_false, List.not_mem_nil, or_false,
    false_or] at h
  rcases h with ⟨-, rfl, -⟩ | ⟨-, rfl, -⟩ | ⟨-, rfl, -⟩ <;> decide

/-- One entry with a state while it is left; two entries when `alice` is back, of three updates, one with a state. -/
example : (played oneShard 2 progOnly leaving).pc 0 = .upPush alice3 .processed ∧
    (played oneShard 2 progOnly leaving).pc 1 = .prClear .finalized 0 alice2' [] [] ∧
    ((played oneShard 2 progOnly leaving).st.accounts.filter (fun e => ¬ Vacated e)).length = 1 ∧
    AmongKeys [Toy.alice] (played oneShard 2 progOnly leaving).log ∧
    (played oneShard 2 progOnly cameBack).st.accounts.length = 2 ∧
    submissions (fun _ => true) (played oneShard 2 progOnly cameBack).log = 3 ∧
    ((played oneShard 2 progOnly cameBack).st.accounts.filter (fun e => ¬ Vacated e)).length = 1 :=
  ⟨rfl, rfl, by decide +kernel, leaving_keys, rfl, rfl, by decide +kernel⟩

/-- `alice` and `bob` are added at the same time by different threads, and updated. -/
def bothStay : List Move :=
  .call 0 (.update alice1 .finalized) :: .call 1 (.update (Toy.acct Toy.bob Toy.prog 5 3 3) .processed) :: gos 0 2 ++ gos 1 2 ++ gos 0 5 ++
    gos 1 5 ++ .call 0 (.update alice2 .processed) :: gos 0 3

/-- Whether every update submitted so far leaves its account open and is taken by the filters. -/
def stays (v : Conc.World) : Bool :=
  v.log.all fun e => match e.2 with
    | .call (.update a _) => a.account.lamports != 0 && v.filters.satisfies a
    | _ => true

theorem bothStay_stay : NoneLeave (moments oneShard 2 progOnly [] bothStay) := by
  have h : (moments oneShard 2 progOnly [] bothStay).all stays = true := by decide +kernel
  rintro v hv a ⟨t, c, hm⟩
  have := List.all_eq_true.1 (List.all_eq_true.1 h v hv) _ hm
  simpa using this

theorem bothStay_keys : AmongKeys [Toy.alice, Toy.bob] (played oneShard 2 progOnly bothStay).log := by
  have hl : (played oneShard 2 progOnly bothStay).log = [(0, .call (.update alice1 .finalized)),
    (1, .call (.update (Toy.acct Toy.bob Toy.prog 5 3 3) .processed)), (0, .ret (.updated true)), (1, .ret (.updated true)),
    (0, .call (.update alice2 .processed))] := rfl
  rintro a ⟨t, c, h⟩
  rw [hl] at h
  simp only [List.mem_cons, Prod.mk.injEq, Event.call.injEq, Call.update.injEq, reduceCtorEq, and_false, List.not_mem_nil, or_false,
    false_or] at h
  rcases h with ⟨-, rfl, -⟩ | ⟨-, rfl, -⟩ | ⟨-, rfl, -⟩ <;> decide

example : (played oneShard 2 progOnly bothStay).st.accounts.length = 2 ∧ (played oneShard 2 progOnly bothStay).st.accounts.length ≤ 2 :=
  ⟨rfl, C154_none_leave oneShard progOnly _ _ (trace_played (ms := []) rfl) bothStay_stay _ bothStay_keys⟩

/-- The entry of `bob` is the only one with states of `bob`. -/
example : ∃ e, (played oneShard 2 progOnly bothStay).st.accounts[1]? = some e ∧ HasState Toy.bob e ∧
    ∀ j e', (played oneShard 2 progOnly bothStay).st.accounts[j]? = some e' → HasState Toy.bob e' → j = 1 :=
  have h : HasState Toy.bob ⟨[(3, Toy.acct Toy.bob Toy.prog 5 3 3)], none, none⟩ :=
    ⟨Toy.acct Toy.bob Toy.prog 5 3 3, .inl ⟨3, rfl⟩, rfl⟩
  ⟨⟨[(3, Toy.acct Toy.bob Toy.prog 5 3 3)], none, none⟩, rfl, h, fun j _ he' h' =>
    C154_one_entry oneShard _ (played_reachable ..) Toy.bob j 1 _ _ he' rfl h' h⟩

end LAM.Props
