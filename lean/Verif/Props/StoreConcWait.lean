import Verif.Lemmas.StoreConcWait
import Verif.Props.StoreConcLin
/-!
# Concurrent calls of the in-memory account store: C140

A slot is confirmed after all its updates have returned.
-/
namespace LAM.Props
open Spec Store Conc

/-- **C140**, as one would like it: when a slot is confirmed that was not confirmed before, and no other writing call is executed
meanwhile, what was read as processed and belongs to this slot is what is read as confirmed then, whatever calls were made at the
same time before. -/
def C140_statement : Prop :=
  ∀ (E : Conc.Env) (w w' : Conc.World) (Fs : List Filters) (log : List (Nat × Event)) (pk : Pubkey) (a : AccountData)
    (info : SlotInfo), Conc.Reachable E w → NoWriter w → Awaits a.slot w.log → w.st.getAccount pk .processed = .ok (some a) →
    SingleWriter E Fs w w' → NoWriter w' → w'.log = w.log ++ log → writeCalls log = [.process info .confirmed] →
    info.slot = a.slot → w'.st.getAccount pk .confirmed = .ok (some a)

/-- **C140**, what holds: it is so if no two updates of the same account were executed at the same time.  Updates of different
accounts, notifications and reads may be.  Missing: updates of the same account at the same time. -/
theorem C140_apart_partial (E : Conc.Env) (F : Filters) (w w' : Conc.World) (Fs : List Filters) (log : List (Nat × Event))
    (pk : Pubkey) (a : AccountData) (info : SlotInfo) (hap : ApartSteps E (World.init F) w) (hq : NoWriter w)
    (haw : Awaits a.slot w.log) (hread : w.st.getAccount pk .processed = .ok (some a)) (hs : SingleWriter E Fs w w')
    (hq' : NoWriter w') (hlog : w'.log = w.log ++ log) (hcall : writeCalls log = [.process info .confirmed])
    (hslot : info.slot = a.slot) : w'.st.getAccount pk .confirmed = .ok (some a) := by
  have hr : Conc.Reachable E w := ⟨F, hap.steps⟩
  have hi := reachable_inv hr hq
  have hw := apart_wait hap haw
  obtain ⟨ops, log2, hl2, hops, hrun, -⟩ := C89_one_writer_partial E w w' Fs hr hq hs hq'
  rw [hlog] at hl2
  cases List.append_cancel_left hl2
  rw [hcall] at hops
  have hi' := reachable_inv (Steps.reachable hr (hs.oneWriter hr).steps) hq'
  -- the only call is the notification
  obtain ⟨G, σ, s', r, hp, rfl⟩ : ∃ G σ s' r, w.st.processSlotData G σ info .confirmed = .ok (s', r) ∧ s' = w'.st := by
    match ops, hops with
    | [.slot G σ info' c'], hops =>
      simp only [List.map_cons, List.map_nil, opCall, List.cons.injEq, Call.process.injEq, and_true] at hops
      obtain ⟨rfl, rfl⟩ := hops
      simp only [seqRun, opResult, Run.bind_eq_ok, Run.pure_eq, Run.ok.injEq, Prod.mk.injEq] at hrun
      obtain ⟨q, ⟨⟨s', r⟩, hp, rfl⟩, q', rfl, h1, -⟩ := hrun
      exact ⟨G, σ, s', r, hp, h1⟩
    | [.update G a' c'], hops => simp [opCall] at hops
  -- what was read
  rw [getAccount_eq hi] at hread
  simp only [Run.ok.injEq] at hread
  cases hx : w.st.index pk with
  | none => rw [(hi.view_none pk).2 hx] at hread; simp at hread
  | some i =>
    obtain ⟨e, he, hok⟩ := hi.idx _ _ hx
    have hv : w.st.view pk = some e := by simp only [Store.view, hx, he]
    rw [hv] at hread
    simp only [Option.bind_some, Option.filter_eq_some_iff, decide_eq_true_eq] at hread
    obtain ⟨p, hlast, -, hfind, -⟩ := hok.last
    have : p = a := by
      have := hread.1
      simp only [ByCommitment.get, hlast, Option.some_or, Option.some.injEq] at this
      exact this
    subst this
    obtain ⟨e', he', hc'⟩ := confirm_noted hi hx he (by rw [hslot]; exact hfind) (fun b hb => by
        have h1 := hw.early i e b he hb
        obtain ⟨-, q, hq1, hq2⟩ := hok.conf b hb
        rw [hlast] at hq1; cases hq1
        simp only [Older] at hq2
        omega) (by rw [hslot]; exact hw.opened) (by rw [hslot]; exact hw.noted pk i e p hx he hfind) hp
    rw [getAccount_eq hi', he']
    simp [ByCommitment.get, hc', hread.2]

/-! ## Two first updates at the same time -/

/-- Both threads find the account unknown (`gos _ 2`); thread 0 makes it known, then thread 1 stores its state without recording
the account for slot 2. -/
def firstTwice : List Move :=
  .call 0 (.update alice1 .processed) :: .call 1 (.update alice2 .processed) :: gos 0 2 ++ gos 1 2 ++ gos 0 5 ++ gos 1 4

/-- Slot 2 is confirmed. -/
def confirm2nd : List Move := .call 0 (.process ⟨2, 1, 0⟩ .confirmed) :: gos 0 3

/-- **C140**, a counterexample: two threads submit the first states of an account at the same time.  The second one is read as
processed, but the notification of its slot does not confirm it: nothing is read as confirmed. -/
theorem C140_refuted : ¬ C140_statement := by
  intro h
  obtain ⟨Fs, hs⟩ := played_sole (E := oneShard) (n := 2) (F := progOnly) (ms := firstTwice) (ms' := confirm2nd) rfl
    (by decide +kernel)
  have := h oneShard _ _ Fs [(0, .call (.process ⟨2, 1, 0⟩ .confirmed)), (0, .ret (.reported []))] Toy.alice alice2 ⟨2, 1, 0⟩
    (played_reachable oneShard 2 progOnly firstTwice) (played_noWriter rfl rfl) ?_ rfl hs (played_noWriter rfl rfl) rfl rfl rfl
  · exact absurd this (by decide +kernel)
  · have hl : (played oneShard 2 progOnly firstTwice).log = [(0, .call (.update alice1 .processed)),
        (1, .call (.update alice2 .processed)), (0, .ret (.updated true)), (1, .ret (.updated true))] := rfl
    rw [hl]
    constructor
    · intro t a c hm _
      simp only [List.mem_cons, Prod.mk.injEq, Event.call.injEq, Call.update.injEq, reduceCtorEq, and_false, List.not_mem_nil,
        or_false] at hm
      rcases hm with ⟨-, -, rfl⟩ | ⟨-, -, rfl⟩ <;> rfl
    · intro t info c hm
      simp at hm

/-! ## An execution -/

/-- `alice` is known; while slot 1 is confirmed by thread 0, thread 1 updates `alice` for slot 2. -/
def meanwhile : List Move :=
  .call 0 (.update alice1 .processed) :: gos 0 7 ++ .call 0 (.process ⟨1, 0, 0⟩ .confirmed) :: .call 1 (.update alice2 .processed) ::
    gos 0 2 ++ gos 1 4 ++ gos 0 3 ++ gos 1 3

/-- Slot 2 is confirmed: the account recorded for it is promoted. -/
def confirmHeard : List Move := .call 0 (.process ⟨2, 1, 0⟩ .confirmed) :: gos 0 5

theorem meanwhile_log : (played oneShard 2 progOnly meanwhile).log = [(0, .call (.update alice1 .processed)),
    (0, .ret (.updated true)), (0, .call (.process ⟨1, 0, 0⟩ .confirmed)), (1, .call (.update alice2 .processed)),
    (0, .ret (.reported [alice1])), (1, .ret (.updated true))] := rfl

/-- The theorem above applies: slot 2 is confirmed afterwards, and so is the state of slot 2. -/
example : (played oneShard 2 progOnly (meanwhile ++ confirmHeard)).st.getAccount Toy.alice .confirmed = .ok (some alice2) := by
  obtain ⟨Fs, hs⟩ := played_sole (E := oneShard) (n := 2) (F := progOnly) (ms := meanwhile) (ms' := confirmHeard) rfl
    (by decide +kernel)
  refine C140_apart_partial oneShard progOnly _ _ Fs
    [(0, .call (.process ⟨2, 1, 0⟩ .confirmed)), (0, .ret (.reported [alice2]))] Toy.alice alice2 ⟨2, 1, 0⟩
    (played_apart rfl (by decide +kernel)) (played_noWriter rfl rfl) ?_ rfl hs (played_noWriter rfl rfl) rfl rfl rfl
  rw [meanwhile_log]
  constructor
  · intro t a c hm _
    simp only [List.mem_cons, Prod.mk.injEq, Event.call.injEq, Call.update.injEq, reduceCtorEq, and_false, List.not_mem_nil,
      or_false, false_or] at hm
    rcases hm with ⟨-, -, rfl⟩ | ⟨-, -, rfl⟩ <;> rfl
  · intro t info c hm
    simp only [List.mem_cons, Prod.mk.injEq, Event.call.injEq, Call.process.injEq, reduceCtorEq, and_false, List.not_mem_nil,
      or_false, false_or] at hm
    obtain ⟨-, rfl, rfl⟩ := hm
    decide

end LAM.Props
