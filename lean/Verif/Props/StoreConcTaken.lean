import Verif.Lemmas.StoreConcTaken
import Verif.Props.StoreConcSettled
/-!
# Concurrent calls of the in-memory account store: C153

Only accounts that the filters accepted are tracked, returned and reported.
-/
namespace LAM.Props
open Spec Store Conc

/-- **C153**. An account that was not tracked, and of which no update was being executed, and that is tracked later: in between there was
a moment at which an update of it was being executed, it was not tracked, and the filters of that moment accepted the update. -/
theorem C153_tracked (E : Conc.Env) (w0 w : Conc.World) (vs : List Conc.World) (pk : Pubkey) (hr : Conc.Reachable E w0)
    (hn : w0.st.containsKey pk = false) (hu : ∀ t a c, Conc.LastCall w0.log t (.update a c) → a.pubkey ≠ pk)
    (h : Trace E w0 vs w) (ht : w.st.containsKey pk = true) : TakenIn vs pk := by
  have hk := taken_trace (A := fun x => x = pk → TakenIn vs x) hr h
    (fun v hv t a c h1 h2 h3 _ => letsIn_takenIn v hv t a c h1 h2 h3) (taken_start hr hn hu)
  cases hi : w.st.index pk with
  | none => simp [containsKey, hi] at ht
  | some i => exact hk.idx pk i hi rfl

/-- **C153**. The account of a state in the answer of a read, of a query or of a notification was accepted by the filters of some moment
before. -/
theorem C153_answers (E : Conc.Env) (F : Filters) (w : Conc.World) (vs : List Conc.World) (h : Trace E (World.init F) vs w) (t : Nat)
    (r : Conc.Reply) (hr : (t, .ret r) ∈ w.log) (pk : Pubkey) (hs : Shows pk r) : TakenIn vs pk :=
  (said_trace h letsIn_takenIn).log t r hr pk hs

/-- **C153**. So was the account of an update that returns `true`. -/
theorem C153_updates (E : Conc.Env) (F : Filters) (w w' : Conc.World) (vs : List Conc.World) (h : Trace E (World.init F) vs w) (t : Nat)
    (a : AccountData) (c : Commitment) (hc : Conc.LastCall w.log t (.update a c)) (hs : Conc.Step E w w')
    (hl : w'.log = w.log ++ [(t, .ret (.updated true))]) : TakenIn vs a.pubkey := by
  have hr : Conc.Reachable E w := ⟨F, h.steps⟩
  obtain ⟨-, key, hg⟩ := reachable_good hr
  exact updated_taken hs hg (taken_trace ⟨F, .refl _⟩ h letsIn_takenIn (init_taken F)) (reachable_open hr t _ hc) hl

/-- **C153**. In particular an account whose updates the filters always refuse is never tracked, returned or reported. -/
theorem C153_refused (E : Conc.Env) (F : Filters) (w : Conc.World) (vs : List Conc.World) (h : Trace E (World.init F) vs w) (pk : Pubkey)
    (hno : ∀ v ∈ vs, ∀ a, Submitted v.log a → a.pubkey = pk → v.filters.satisfies a = false) :
    w.st.containsKey pk = false ∧ ∀ t r, (t, .ret r) ∈ w.log → ¬ Shows pk r := by
  have not : ¬ TakenIn vs pk := by
    rintro ⟨v, hv, t, a, c, ⟨pre, mid, hl, -⟩, hpk, -, hf⟩
    rw [hno v hv a ⟨t, c, by rw [hl]; simp⟩ hpk] at hf
    cases hf
  refine ⟨?_, fun t r hr hs => not (C153_answers E F w vs h t r hr pk hs)⟩
  cases ht : w.st.containsKey pk with
  | false => rfl
  | true =>
    exact absurd (C153_tracked E _ w vs pk ⟨F, .refl _⟩ rfl (fun t a c ⟨_, _, h, _⟩ => by simp [World.init] at h) h ht) not

/-! ## Cases in which they apply -/

/-- Thread 1 submits an account of another program while thread 0 submits one of interest. -/
def oneOfTwo : List Move :=
  .call 0 (.update alice1 .processed) :: gos 0 3 ++ .call 1 (.update (Toy.acct Toy.bob Toy.prog2 5 1 1) .processed) :: gos 0 3

/-- Thread 0 still has to insert the entry, thread 1 waits for the shard. -/
example : (played oneShard 2 progOnly oneOfTwo).st.containsKey Toy.alice = false ∧
    (played oneShard 2 progOnly (oneOfTwo ++ gos 0 1 ++ gos 1 1)).st.containsKey Toy.alice = true ∧
    (played oneShard 2 progOnly (oneOfTwo ++ gos 0 1 ++ gos 1 1)).log = [(0, .call (.update alice1 .processed)),
      (1, .call (.update (Toy.acct Toy.bob Toy.prog2 5 1 1) .processed)), (0, .ret (.updated true)), (1, .ret (.updated false))] :=
  ⟨rfl, rfl, rfl⟩

example : TakenIn (moments oneShard 2 progOnly [] (oneOfTwo ++ gos 0 1 ++ gos 1 1)) Toy.alice :=
  C153_tracked oneShard (World.init progOnly) (played oneShard 2 progOnly (oneOfTwo ++ gos 0 1 ++ gos 1 1)) _ Toy.alice ⟨progOnly, .refl _⟩ rfl
    (fun t a c ⟨_, _, h, _⟩ => by simp [World.init] at h) (trace_played (ms := []) rfl) rfl

example : TakenIn (moments oneShard 2 progOnly [] oneOfTwo) alice1.pubkey :=
  C153_updates oneShard progOnly (played oneShard 2 progOnly oneOfTwo) (played oneShard 2 progOnly (oneOfTwo ++ [.go 0])) _
    (trace_played (ms := []) rfl) 0 alice1 .processed ⟨[], [(1, .call (.update (Toy.acct Toy.bob Toy.prog2 5 1 1) .processed))], rfl, by simp⟩
    (played_step rfl) rfl

/-- The read of an account while its slot is confirmed. -/
example : TakenIn (moments oneShard 2 progOnly []
    (meanwhile ++ [.call 1 (.get Toy.alice .confirmed)] ++ readWhileConfirming ++ [.go 1])) Toy.alice :=
  C153_answers oneShard progOnly (played oneShard 2 progOnly
    (meanwhile ++ [.call 1 (.get Toy.alice .confirmed)] ++ readWhileConfirming ++ [.go 1])) _ (trace_played (ms := []) rfl) 1
    (.account (some alice2)) (List.mem_of_getElem? (i := 8) rfl) Toy.alice ⟨alice2, rfl, rfl⟩

/-- Whether the filters refuse every update of the account that was submitted so far. -/
def refuses (pk : Pubkey) (v : Conc.World) : Bool :=
  v.log.all fun e => match e.2 with
    | .call (.update a _) => !(a.pubkey == pk) || !v.filters.satisfies a
    | _ => true

theorem bob_refused : ∀ v ∈ moments oneShard 2 progOnly [] (oneOfTwo ++ gos 0 1 ++ gos 1 1), ∀ a, Submitted v.log a → a.pubkey = Toy.bob →
    v.filters.satisfies a = false := by
  have h : (moments oneShard 2 progOnly [] (oneOfTwo ++ gos 0 1 ++ gos 1 1)).all (refuses Toy.bob) = true := by decide +kernel
  rintro v hv a ⟨t, c, hm⟩ hpk
  have := List.all_eq_true.1 (List.all_eq_true.1 h v hv) _ hm
  simpa [hpk] using this

example : (played oneShard 2 progOnly (oneOfTwo ++ gos 0 1 ++ gos 1 1)).st.containsKey Toy.bob = false :=
  (C153_refused oneShard progOnly _ _ (trace_played (ms := []) rfl) Toy.bob bob_refused).1

end LAM.Props
