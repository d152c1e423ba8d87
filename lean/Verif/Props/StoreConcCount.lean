import Verif.Props.StoreConc
import Verif.Lemmas.StoreConcCount
/-!
# Concurrent calls of the in-memory account store report no update twice at a commitment: C150
-/
namespace LAM.Props
open Spec Conc

/-- **C150**. Whatever calls are executed at the same time, states of one slot that meet any condition are in the reports of slots of
commitment `c`, taken together, at most as often as such states were submitted. -/
theorem C150_count (E : Conc.Env) (w : Conc.World) (hr : Conc.Reachable E w) (c : Commitment) (slot : Nat) (P : AccountData → Bool)
    (hP : ∀ a, P a = true → a.slot = slot) : (reportsAt c [] w.log).countP P ≤ Conc.submissions P w.log := by
  obtain ⟨N, -, h⟩ := Conc.counted (c := c) hP hr
  omega

theorem isState_slot (pk : Pubkey) (slot wv : Nat) (a : AccountData) (h : Conc.IsState pk slot wv a = true) : a.slot = slot := by
  simp [Conc.IsState] at h; exact h.2.1

/-- **C150**. A state that was submitted once is in at most one report of a slot of commitment `c`. -/
theorem C150_one_report (E : Conc.Env) (w : Conc.World) (hr : Conc.Reachable E w) (c : Commitment)
    (pre mid post : List (Nat × Event)) (t u : Nat) (info info' : SlotInfo) (l l' : List AccountData) (b b' : AccountData)
    (hl : w.log = pre ++ (t, .ret (.reported l)) :: mid ++ (u, .ret (.reported l')) :: post)
    (ht : LastCall pre t (.process info c)) (hu : LastCall (pre ++ (t, .ret (.reported l)) :: mid) u (.process info' c))
    (hs : Conc.submissions (Conc.IsState b.pubkey b.slot b.wv) w.log = 1) (h : b ∈ l) (h' : b' ∈ l') :
    ¬ (b'.pubkey = b.pubkey ∧ b'.slot = b.slot ∧ b'.wv = b.wv) := by
  intro hk
  have hc := C150_count E w hr c b.slot (Conc.IsState b.pubkey b.slot b.wv) (isState_slot _ _ _)
  rw [hs] at hc
  have e1 : Conc.IsState b.pubkey b.slot b.wv b = true := by simp [Conc.IsState]
  have e2 : Conc.IsState b.pubkey b.slot b.wv b' = true := by simp [Conc.IsState, hk]
  have c1 : 0 < l.countP (Conc.IsState b.pubkey b.slot b.wv) := List.countP_pos_iff.2 ⟨b, h, e1⟩
  have c2 : 0 < l'.countP (Conc.IsState b.pubkey b.slot b.wv) := List.countP_pos_iff.2 ⟨b', h', e2⟩
  rw [hl, reportsAt_append, reportsAt_append] at hc
  simp only [reportsAt, reportAt, List.nil_append, Conc.lastOf_lastCall ht, Conc.lastOf_lastCall hu, List.countP_append, if_true] at hc
  omega

/-- **C150**. A state that was submitted once is in a report at most once. -/
theorem C150_once_in_report (E : Conc.Env) (w : Conc.World) (hr : Conc.Reachable E w) (c : Commitment)
    (pre post : List (Nat × Event)) (t : Nat) (info : SlotInfo) (l : List AccountData) (b : AccountData)
    (hl : w.log = pre ++ (t, .ret (.reported l)) :: post) (ht : LastCall pre t (.process info c))
    (hs : Conc.submissions (Conc.IsState b.pubkey b.slot b.wv) w.log = 1) (h : b ∈ l) :
    ∃ l1 l2, l = l1 ++ b :: l2 ∧ ∀ b' ∈ l1 ++ l2, ¬ (b'.pubkey = b.pubkey ∧ b'.slot = b.slot ∧ b'.wv = b.wv) := by
  obtain ⟨l1, l2, rfl⟩ := List.append_of_mem h
  refine ⟨l1, l2, rfl, fun b' h' hk => ?_⟩
  have hc := C150_count E w hr c b.slot (Conc.IsState b.pubkey b.slot b.wv) (isState_slot _ _ _)
  rw [hs] at hc
  have e1 : Conc.IsState b.pubkey b.slot b.wv b = true := by simp [Conc.IsState]
  have e2 : Conc.IsState b.pubkey b.slot b.wv b' = true := by simp [Conc.IsState, hk]
  have c0 : 0 < (l1 ++ l2).countP (Conc.IsState b.pubkey b.slot b.wv) := List.countP_pos_iff.2 ⟨b', h', e2⟩
  rw [hl, reportsAt_append] at hc
  simp only [reportsAt, reportAt, List.nil_append, Conc.lastOf_lastCall ht, List.countP_append, List.countP_cons, e1, if_true] at hc c0
  omega

/-! ## Cases in which they apply -/

/-- Thread 0 and thread 1 notify at the same time that slot 2 is finalized. -/
def bothFinalize : List Move :=
  firstUpdate ++ .call 0 (.update alice2 .processed) :: gos 0 7 ++
    .call 0 (.process ⟨2, 1, 0⟩ .finalized) :: .call 1 (.process ⟨2, 1, 0⟩ .finalized) :: gos 0 2 ++ gos 1 3 ++ gos 0 3

/-- The log up to then. -/
def bothFinalizeCalls : List (Nat × Event) :=
  [(0, .call (.update alice1 .finalized)), (0, .ret (.updated true)), (0, .call (.update alice2 .processed)), (0, .ret (.updated true)),
    (0, .call (.process ⟨2, 1, 0⟩ .finalized)), (1, .call (.process ⟨2, 1, 0⟩ .finalized))]

/-- Only one of them reports the state. -/
example : Conc.Reachable oneShard (played oneShard 2 progOnly bothFinalize) ∧
    (played oneShard 2 progOnly bothFinalize).log =
      bothFinalizeCalls ++ (1, .ret (.reported [])) :: [] ++ (0, .ret (.reported [alice2])) :: [] ∧
    reportsAt .finalized [] (played oneShard 2 progOnly bothFinalize).log = [alice2] ∧
    Conc.submissions (Conc.IsState Toy.alice 2 2) (played oneShard 2 progOnly bothFinalize).log = 1 ∧
    LastCall bothFinalizeCalls 1 (.process ⟨2, 1, 0⟩ .finalized) ∧
    LastCall (bothFinalizeCalls ++ (1, .ret (.reported [])) :: []) 0 (.process ⟨2, 1, 0⟩ .finalized) :=
  ⟨played_reachable .., rfl, rfl, rfl, ⟨bothFinalizeCalls.take 5, [], rfl, by simp⟩,
    ⟨bothFinalizeCalls.take 4, [(1, .call (.process ⟨2, 1, 0⟩ .finalized)), (1, .ret (.reported []))], rfl, by simp⟩⟩

/-- `alice` moves to the other program in slot 3, which removes the account; then the state of slot 2 is submitted and finalized again. -/
def reportedAgain : List Move :=
  firstUpdate ++ .call 0 (.update alice2 .processed) :: gos 0 7 ++ .call 0 (.process ⟨2, 1, 0⟩ .finalized) :: gos 0 5 ++
    .call 0 (.update (Toy.acct Toy.alice Toy.prog2 30 3 3) .processed) :: gos 0 8 ++ .call 0 (.process ⟨3, 2, 0⟩ .finalized) :: gos 0 8 ++
    .call 0 (.update alice2 .processed) :: gos 0 7 ++ .call 0 (.process ⟨2, 1, 0⟩ .finalized) :: gos 0 5

/-- It was submitted twice and is reported twice. -/
example : reportsAt .finalized [] (played oneShard 2 progOnly reportedAgain).log =
      [alice2, Toy.acct Toy.alice Toy.prog2 30 3 3, alice2] ∧
    Conc.submissions (Conc.IsState Toy.alice 2 2) (played oneShard 2 progOnly reportedAgain).log = 2 := ⟨rfl, rfl⟩

end LAM.Props
