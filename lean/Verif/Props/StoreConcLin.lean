import Verif.Lemmas.StoreConcLinEnd
import Verif.Props.StoreConc
/-!
# Concurrent calls of the in-memory account store: C89 for updates of different accounts
-/
namespace LAM.Props
open Spec Store Conc

/-- **C89**, what holds of writing calls at the same time: as long as they are updates of different accounts, with any number of
reads at the same time, and notifications are not made while other writing calls are executed, there is one order of the calls
such that

* making them one after the other in this order gives every thread the answers that it got,
* a call that returned before another one was made comes before it: whatever had happened at some moment, the calls that had
  returned were among the first ones of the order, and the only others among them were being executed,
* each call is made under filters that were in force in this order, and
* in the end `get_account` reads the same, and `get_program_accounts` finds the same.

Missing: updates of the same account at the same time, and notifications at the same time as other writing calls. -/
theorem C89_different_accounts_partial (E : Conc.Env) (w0 w : Conc.World) (Fs : List Filters) (hr : Conc.Reachable E w0)
    (h0 : NoWriter w0) (h : KeyedWriters E Fs w0 w) (hq : NoWriter w) : ∃ ds s log, w.log = w0.log ++ log ∧
      seqRun w0.st (ds.map (·.op)) = .ok (s, ds.map (·.reply)) ∧ (∀ t, writeEvents t log = doneEvents t ds) ∧
      (∀ l, l <+: log → ∃ es, es <+: ds ∧ TookEffect l es) ∧ (ds.map (fun d => opFilters d.op)).Sublist Fs ∧
      (∀ pk c, s.getAccount pk c = w.st.getAccount pk c) ∧
      ∀ X F busy p fs c l, w.st.getProgramAccounts X F busy p fs c = .ok (.ok l) →
        ∃ l', s.getProgramAccounts X F busy p fs c = .ok (.ok l') ∧ ∀ a, a ∈ l' ↔ a ∈ l := by
  obtain ⟨-, hl⟩ := keyed_lin hr h0 h
  have hr' := Steps.reachable hr h.steps
  have hm := noWriter_of hr' hq
  obtain ⟨-, key, hg⟩ := reachable_good hr'
  rcases hl with ⟨m, s, ds, log, hl, hu⟩ | ⟨m, s, s', ds, log, t, info, c, hl, hs, he, het, hq, hmt, -⟩
  · obtain ⟨hs, hev⟩ := hu.sim hm
    refine ⟨ds, s, log, hl.grown, hl.run, hev, hl.order, hl.filters, fun pk c => (hs.getAccount pk c).symm, ?_⟩
    intro X F busy p fs c l hq
    refine hs.gpa (fun o j hj => ?_) hl.owners hq
    unfold owns at hj
    cases hb : w.st.byOwner o with
    | none => rw [hb] at hj; simp at hj
    | some l => rw [hb] at hj; exact hg.ranges.owners o l hb j hj
  · rw [hm t] at hmt; cases hmt

/-! ## An execution -/

/-- `bob` falls in another shard. -/
def twoShards : Conc.Env := ⟨fun pk => if pk = Toy.bob then 1 else 0, true, Toy.codecs⟩

def bob1 : AccountData := Toy.acct Toy.bob Toy.prog 7 1 5

/-- Two threads make `alice` and `bob` known: `alice` comes first in the list of accounts, `bob` in the slot.  Then the slot is
confirmed. -/
def twoUpdates : List Move :=
  .call 0 (.update alice1 .processed) :: .call 1 (.update bob1 .processed) :: gos 0 4 ++ gos 1 7 ++ gos 0 3 ++
    .call 1 (.process ⟨1, 0, 0⟩ .confirmed) :: gos 1 7

def afterTwo : Conc.World := played twoShards 2 progOnly twoUpdates

/-- Both updates are executed at the same time, in the middle of it nothing has returned yet, and in the end both accounts are
confirmed. -/
example : (∃ Fs, KeyedWriters twoShards Fs (World.init progOnly) afterTwo) ∧ NoWriter (World.init progOnly) ∧ NoWriter afterTwo ∧
    afterTwo.log = [(0, .call (.update alice1 .processed)), (1, .call (.update bob1 .processed)), (1, .ret (.updated true)),
      (0, .ret (.updated true)), (1, .call (.process ⟨1, 0, 0⟩ .confirmed)), (1, .ret (.reported [alice1, bob1]))] ∧
    afterTwo.st.getAccount Toy.alice .confirmed = .ok (some alice1) ∧ afterTwo.st.getAccount Toy.bob .confirmed = .ok (some bob1) ∧
    afterTwo.st.getProgramAccounts Toy.codecs progOnly (fun _ => false) Toy.prog none .confirmed = .ok (.ok [alice1, bob1]) := by
  refine ⟨played_keyed rfl (by decide +kernel), ?_, ?_, rfl, rfl, rfl, rfl⟩
  · rintro t k ⟨pre, mid, h, -⟩; simp [World.init] at h
  · have hw : Within 2 afterTwo := by
      unfold afterTwo played
      cases h : schedule twoShards 2 (World.init progOnly) twoUpdates with
      | none => exact fun _ _ => rfl
      | some w => exact (schedule_sound (within_init 2 _) h).2
    refine (noWriter_iff (played_reachable ..)).2 fun t => ?_
    match t with
    | 0 => rfl
    | 1 => rfl
    | t + 2 => exact congrArg Pc.modifies (hw (t + 2) (by omega))

end LAM.Props
