import Verif.Lemmas.OnDemandHist
import Verif.Basic.Toy
/-!
# Loading accounts on demand: C38 – C41, C66, C67
-/
namespace LAM.Props
open Spec OnDemand

variable {σ φ : Type}

/-! A small environment for examples: nothing is stored; program filters are remembered. -/

/-- The storage holds nothing; a program query is filtered once it was added. -/
def emptyEnv : Env Unit Bool where
  answer _ q := match q with | .account .. => .account none | .program .. => .accounts []
  filtered f q := match q with | .account .. => false | .program .. => f
  addFilter _ _ := true

/-- The fresh world of `emptyEnv`. -/
def w0 : OnDemand.World Unit Bool := .init () false

/-- A call for `alice`, and one for the accounts of a program. -/
def getAlice : Query := .account Toy.alice .processed
def getProg : Query := .program Toy.prog none .processed

/-! ## C38 -/

/-- **C38**. Every finished call went one of the ways listed in `Completed`. -/
theorem C38_call_shapes (E : Env σ φ) (w : OnDemand.World σ φ) (hr : Reachable E w) (t : Nat)
    (hi : w.pc t = .idle) (hn : w.hist t ≠ []) : ∃ q, Completed q (w.hist t) := by
  have := hist_reachable hr t
  rw [hi] at this
  rcases this with h | h
  · exact absurd h hn
  · exact h

/-- **C38**. A call that finds the account in the storage returns it and never contacts the source. -/
theorem C38_stored_served_directly (E : Env σ φ) (w : OnDemand.World σ φ) (hr : Reachable E w) (t : Nat)
    (pk : Pubkey) (c : Commitment) (a : AccountData) (rest : List Event)
    (hh : w.hist t = .call (.account pk c) :: .read (.account (some a)) :: rest) :
    w.pc t = .idle ∧ rest = [.ret (.account (some a))] := by
  have h := hist_reachable hr t
  cases hp : w.pc t with
  | idle =>
    rw [hp] at h
    refine ⟨rfl, ?_⟩
    rcases h with h | ⟨q, h⟩
    · rw [h] at hh; cases hh
    · rw [hh] at h
      cases h <;> simp
  | reread q => cases q <;> simp_all [HistOK, Query.pre3]
  | adding q cv => cases q <;> simp_all [HistOK, Query.pre2]
  | _ q => cases q <;> simp_all [HistOK, Query.pre, Query.pre2, Query.pre3]

/-- **C38**. "No such account" is answered only for an account that is filtered, or was being loaded, or was
subscribed and loaded by this call — and then only because the storage still says so afterwards. -/
theorem C38_none_only_after_loading (E : Env σ φ) (w : OnDemand.World σ φ) (hr : Reachable E w) (t : Nat)
    (pk : Pubkey) (c : Commitment) (mid : List Event) (hi : w.pc t = .idle)
    (hh : w.hist t = .call (.account pk c) :: .read (.account none) :: mid ++ [.ret (.account none)]) :
    mid = [.filtered true] ∨ mid = [.waited, .read (.account none)] ∨
      mid = [.filtered false, .subscribe true, .save true, .read (.account none)] := by
  obtain ⟨q, h⟩ := C38_call_shapes E w hr t hi (by rw [hh]; simp)
  rw [hh] at h
  generalize hes : Event.call (.account pk c) :: .read (.account none) :: mid ++ [.ret (.account none)] = es at h
  cases h with
  | hit _ _ a ha => simp at hes; grind
  | known => simp at hes; left; simpa using List.append_cancel_right (bs := [Event.ret (.account none)]) (by simpa using hes.2)
  | waitedAccount _ _ a =>
    simp only [List.cons_append, List.cons.injEq, true_and] at hes
    have := congrArg List.reverse hes.2
    simp at this
    obtain ⟨ha, this⟩ := this
    subst ha
    have := congrArg List.reverse this
    simp at this
    exact Or.inr (Or.inl this)
  | loadedAccount _ _ a =>
    simp only [List.cons_append, List.cons.injEq, true_and] at hes
    have := congrArg List.reverse hes.2
    simp at this
    obtain ⟨ha, this⟩ := this
    subst ha
    have := congrArg List.reverse this
    simp at this
    exact Or.inr (Or.inr this)
  | accountNotSubscribed =>
    have := congrArg List.reverse hes
    simp at this
  | accountNotSaved =>
    have := congrArg List.reverse hes
    simp at this
  | _ => simp at hes

private theorem es_of_move {hist : Nat → List Event} {t t' : Nat} {es es' : List Event}
    (h : upd hist t (hist t ++ es) t' = hist t' ++ es') : (t' = t ∧ es' = es) ∨ es' = [] := by
  simp only [upd] at h
  split at h
  · rename_i he; subst he; exact Or.inl ⟨rfl, (List.append_cancel_left h).symm⟩
  · exact Or.inr (by simpa using h)

/-- **C38**. The recorded reads are what the storage answers at that moment, to the query of the call. -/
theorem C38_reads_are_answers (E : Env σ φ) (w w' : OnDemand.World σ φ) (hr : Reachable E w) (hs : Step E w w')
    (t : Nat) (es : List Event) (ht : w'.hist t = w.hist t ++ es) (a : Answer) (ha : .read a ∈ es) :
    ∃ q rest, w.hist t = .call q :: rest ∧ a = E.answer w.store q := by
  have hh := hist_reachable hr
  cases hs with
  | env => simp at ht; subst ht; simp at ha
  | call t' q hp =>
    simp only [upd] at ht
    split at ht
    · rename_i he
      subst he
      exfalso
      cases hx : w.hist t with
      | nil => rw [hx] at ht; simp at ht; subst ht; simp at ha
      | cons e l =>
        rw [hx] at ht
        simp at ht
        obtain ⟨-, -, rfl⟩ := ht
        simp at ha
    · simp at ht; subst ht; simp at ha
  | notified => simp at ht; subst ht; simp at ha
  | hit t' pk c hp hn =>
    rcases es_of_move (hist := w.hist) ht with ⟨rfl, rfl⟩ | rfl
    · simp at ha
      have := hh t; rw [hp] at this
      exact ⟨_, _, this, ha⟩
    · simp at ha
  | miss t' pk c hp hn =>
    rcases es_of_move (hist := w.hist) ht with ⟨rfl, rfl⟩ | rfl
    · simp at ha
      have := hh t; rw [hp] at this
      exact ⟨_, _, this, by rw [ha, hn]⟩
    · simp at ha
  | reread t' q hp =>
    rcases es_of_move (hist := w.hist) ht with ⟨rfl, rfl⟩ | rfl
    · simp at ha
      have := hh t; rw [hp] at this
      rcases this with he | ⟨p, fs, c, rfl, he⟩
      · cases q <;> exact ⟨_, _, he, ha⟩
      · exact ⟨_, _, he, ha⟩
    · simp at ha
  | rereadLocked t' q hp =>
    rcases es_of_move (hist := w.hist) ht with ⟨rfl, rfl⟩ | rfl
    · simp at ha
      have := hh t; rw [hp] at this
      cases q <;> exact ⟨_, _, this, ha⟩
    · simp at ha
  | _ =>
    rcases es_of_move (hist := w.hist) ht with ⟨rfl, rfl⟩ | rfl
    · simp at ha
    · simp at ha

/-- A run in which thread 0 starts loading `alice`. -/
def w1 : OnDemand.World Unit Bool :=
  let a : OnDemand.World Unit Bool := { w0 with pc := upd w0.pc 0 (.start getAlice), hist := upd w0.hist 0 [.call getAlice] }
  let b := a.move 0 (.locking getAlice) [.read (.account none)]
  { b.move 0 (.subscribing getAlice 0) [.filtered false] with
    lock := upd b.lock .accounts (some 0), table := upd b.table (.account Toy.alice) (some 0), fresh := 1 }

theorem w1_reachable : Reachable emptyEnv w1 :=
  ⟨(), false, .tail (.tail (.tail (.refl _) (.call _ 0 getAlice rfl))
    (.miss _ 0 Toy.alice .processed rfl rfl)) (.insertAccount _ 0 Toy.alice .processed rfl rfl rfl rfl)⟩

/-- Thread 0 finds the account missing, filters do not know it, and loads it. -/
example : ∃ w, Reachable emptyEnv w ∧ w.pc 0 = .idle ∧ w.hist 0 =
    [.call getAlice, .read (.account none), .filtered false, .subscribe true, .save true, .read (.account none),
      .ret (.account none)] := by
  obtain ⟨x, f, h⟩ := w1_reachable
  exact ⟨_, ⟨x, f, .tail (.tail (.tail (.tail (.tail h (.subscribedAccount _ 0 Toy.alice .processed 0 rfl))
    (.saved _ 0 getAlice 0 rfl)) (.removed _ 0 getAlice 0 rfl rfl)) (.notified _ 0 getAlice (some 0) rfl))
    (.reread _ 0 getAlice rfl)⟩, rfl, rfl⟩

/-! ## C39 -/

/-- **C39**. In every reachable state at most one thread is subscribing to or loading a given key. -/
theorem C39_one_load_per_key (E : Env σ φ) (w : OnDemand.World σ φ) (hr : Reachable E w) (k : Key) (t t' : Nat)
    (ht : Loads (w.pc t) k) (ht' : Loads (w.pc t') k) : t = t' := by
  have hi := inv_reachable hr
  obtain ⟨q, cv, rfl, h⟩ := ht
  obtain ⟨q', cv', hk, h'⟩ := ht'
  refine hi.unique t t' q q' cv cv' ?_ ?_ hk.symm
  · rcases h with h | h | h | h <;> rw [h] <;> rfl
  · rcases h' with h | h | h | h <;> rw [h] <;> rfl

/-- Thread 0 is loading `alice`; thread 1 asks for it too and has to wait. -/
example : ∃ w, Reachable emptyEnv w ∧ Loads (w.pc 0) (.account Toy.alice) ∧ w.pc 1 = .waiting getAlice 0 := by
  obtain ⟨x, f, h⟩ := w1_reachable
  refine ⟨_, ⟨x, f, .tail (.tail (.tail (.tail h (.subscribedAccount _ 0 Toy.alice .processed 0 rfl))
    (.call _ 1 getAlice rfl)) (.miss _ 1 Toy.alice .processed rfl rfl))
    (.wait _ 1 getAlice 0 rfl rfl rfl)⟩, ⟨getAlice, 0, rfl, Or.inr (Or.inr (Or.inl rfl))⟩, rfl⟩

/-! ## C40 -/

/-- The full claim of **C40**, in its weakest form: after a failed load there is *some* continuation in which
somebody tries to load the key again. -/
def C40_statement : Prop :=
  ∀ (σ φ : Type) (E : Env σ φ) (w : OnDemand.World σ φ), Reachable E w → ∀ (t : Nat) (k : Key),
    FailedToLoad (w.hist t) k → ∃ w' t', Steps E w w' ∧ Loads (w'.pc t') k

/-- The state after the subscription of `alice` failed. -/
def wFailed : OnDemand.World Unit Bool :=
  { w1.move 0 .idle [.subscribe false, .ret (.error .errorSubscribingAccount)] with
    lock := upd w1.lock .accounts none, failed := [0] }

theorem wFailed_reachable : Reachable emptyEnv wFailed := by
  obtain ⟨x, f, h⟩ := w1_reachable
  exact ⟨x, f, .tail h (.subscribeFailed w1 0 getAlice 0 rfl)⟩

/-- **C40**. Once a load of a key has failed, nobody ever loads that key again, whatever happens afterwards. -/
theorem C40_failed_key_is_stuck (E : Env σ φ) (w : OnDemand.World σ φ) (hr : Reachable E w) (t : Nat) (k : Key)
    (hf : FailedToLoad (w.hist t) k) (w' : OnDemand.World σ φ) (hs : Steps E w w') (t' : Nat) :
    ¬ Loads (w'.pc t') k := by
  have hi := inv_reachable hr
  obtain ⟨cv, hk, hc⟩ := failsMarked_reachable hr t k hf
  obtain ⟨h1, h2⟩ := stuck_steps hi hs hk hc
  rintro ⟨q, cv', rfl, h⟩
  have hl : (w'.pc t').loading = some (q, cv') := by rcases h with h | h | h | h <;> rw [h] <;> rfl
  obtain ⟨h3, h4⟩ := (inv_steps hi hs).loader t' q cv' hl
  rw [h1] at h3
  cases h3
  exact h4 h2

/-- **C40** is false of the code. -/
theorem C40_retry_refuted : ¬ C40_statement := by
  intro h
  obtain ⟨w', t', hs, hl⟩ := h Unit Bool emptyEnv wFailed wFailed_reachable 0 (.account Toy.alice)
    ⟨getAlice, _, rfl, rfl, Or.inl (by simp [w0, World.init])⟩
  exact C40_failed_key_is_stuck emptyEnv wFailed wFailed_reachable 0 (.account Toy.alice)
    ⟨getAlice, _, rfl, rfl, Or.inl (by simp [w0, World.init])⟩ w' hs t' hl

/-- **C40 (partial)**. A failed load is reported to its caller as an error.  Missing: trying again, which is
impossible (see above). -/
theorem C40_failure_reported_partial (E : Env σ φ) (w : OnDemand.World σ φ) (hr : Reachable E w) (t : Nat) :
    (.subscribe false ∈ w.hist t → w.pc t = .idle ∧
      (w.hist t).getLast? = some (.ret (.error .errorSubscribingAccount))) ∧
    (.save false ∈ w.hist t → w.pc t = .idle ∧
      (w.hist t).getLast? = some (.ret (.error .errorCreatingSnapshot))) := by
  have h := hist_reachable hr t
  cases hp : w.pc t with
  | idle =>
    rw [hp] at h
    rcases h with h | ⟨q, h⟩
    · rw [h]; simp
    · generalize w.hist t = es at h
      cases h <;> simp
  | reread q =>
    rw [hp] at h
    rcases h with h | ⟨p, fs, c, rfl, h⟩
    · cases q <;> simp [h, Query.pre3]
    · simp [h]
  | adding q cv => rw [hp] at h; obtain ⟨h, -⟩ := h; cases q <;> simp [h, Query.pre2]
  | start q | locking q | waiting q | woken q | rereadLocked q | subscribing q | saving q | finishing q | notifying q =>
    rw [hp] at h; simp only [HistOK] at h; cases q <;> simp [h, Query.pre, Query.pre2, Query.pre3]

example : ∃ w, Reachable emptyEnv w ∧ Event.subscribe false ∈ w.hist 0 :=
  ⟨wFailed, wFailed_reachable, by simp [w0, World.init, wFailed, w1, World.move, upd]⟩

/-! ## C41 -/

/-- **C41**. Whoever waits for a key waits on the condition variable of a load of that key that is still in flight, or
whose loader is just about to notify it, or of one that failed. -/
theorem C41_waiters_not_lost (E : Env σ φ) (w : OnDemand.World σ φ) (hr : Reachable E w) (t : Nat) (q : Query) (cv : Nat)
    (hw : w.pc t = .waiting q cv) :
    (∃ t' q', q'.key = q.key ∧ (w.pc t' = .subscribing q' cv ∨ w.pc t' = .adding q' cv ∨ w.pc t' = .saving q' cv ∨
      w.pc t' = .finishing q' cv ∨ w.pc t' = .notifying q' (some cv))) ∨ cv ∈ w.failed := by
  have hi := inv_reachable hr
  rcases hi.waiting t q cv hw with h | ⟨t', q', h1, h2⟩
  · rcases (hi.table _ _ h).2 with hf | ⟨t', q', h1, h2⟩
    · exact Or.inr hf
    · refine Or.inl ⟨t', q', h2, ?_⟩
      cases hp : w.pc t' <;> rw [hp] at h1 <;> simp [Pc.loading] at h1 <;> obtain ⟨rfl, rfl⟩ := h1 <;> simp
  · exact Or.inl ⟨t', q', h2, by simp [h1]⟩

/-- **C41**. When the loader has notified, nobody is left waiting for this load, now or later. -/
theorem C41_notified_wakes_all (E : Env σ φ) (w w' w'' : OnDemand.World σ φ) (hr : Reachable E w) (t : Nat) (q : Query)
    (cv : Nat) (hp : w.pc t = .notifying q (some cv)) (hs : Step E w w') (hn : w'.pc t ≠ w.pc t)
    (hs' : Steps E w' w'') (t' : Nat) (q' : Query) : w''.pc t' ≠ .waiting q' cv :=
  (dead_steps (dead_of_notified (retired_reachable hr) hp hs hn) hs').2.2 t' q'

/-- **C41**. The loader notifies the condition variable its waiters wait on: the one it entered itself. -/
theorem C41_notifies_own_entry (E : Env σ φ) (w w' : OnDemand.World σ φ) (hr : Reachable E w) (t : Nat) (q : Query)
    (cv : Nat) (hp : w.pc t = .finishing q cv) (hs : Step E w w') (hn : w'.pc t ≠ w.pc t) :
    w'.pc t = .notifying q (some cv) := by
  have h := (inv_reachable hr).finishing t q cv hp
  revert hn
  cases hs <;> simp only [World.move, upd, notifyAll] <;> grind

/-- Thread 1 waits for the load of thread 0, which completes and wakes it. -/
example : ∃ w w', Reachable emptyEnv w ∧ w.pc 1 = .waiting getAlice 0 ∧ w.pc 0 = .notifying getAlice (some 0) ∧
    Step emptyEnv w w' ∧ w'.pc 0 = .reread getAlice ∧ w'.pc 1 = .woken getAlice := by
  obtain ⟨x, f, h⟩ := w1_reachable
  refine ⟨_, _, ⟨x, f, .tail (.tail (.tail (.tail (.tail (.tail h (.subscribedAccount _ 0 Toy.alice .processed 0 rfl))
    (.call _ 1 getAlice rfl)) (.miss _ 1 Toy.alice .processed rfl rfl))
    (.wait _ 1 getAlice 0 rfl rfl rfl)) (.saved _ 0 getAlice 0 rfl)) (.removed _ 0 getAlice 0 rfl rfl)⟩, rfl, rfl,
    .notified _ 0 getAlice (some 0) rfl, rfl, rfl⟩

/-! ## C66: program queries during a load -/

/-- The full claim of **C66**: while a thread has not yet saved the snapshot of a program query, no call for the same
query is answered from the storage. -/
def C66_statement : Prop :=
  ∀ (σ φ : Type) (E : Env σ φ) (w w' : OnDemand.World σ φ), Reachable E w → Step E w w' →
    ∀ (t t' : Nat) (q : Query) (cv : Nat), w.pc t = .saving q cv → (∃ p fs c, q = .program p fs c) →
      w.pc t' ≠ .reread q

/-- **C66** is false of the code: the filter is added before the snapshot is loaded, so that a second caller finds the
query filtered and reads the storage that does not hold the accounts yet. -/
theorem C66_answered_early_refuted : ¬ C66_statement := by
  intro h
  have hr : ∃ w, Reachable emptyEnv w ∧ w.pc 0 = .saving getProg 0 ∧ w.pc 1 = .reread getProg := by
    refine ⟨_, ⟨(), false, .tail (.tail (.tail (.tail (.tail (.tail (.tail (.refl _) (.call _ 0 getProg rfl))
      (.notContained _ 0 Toy.prog none .processed rfl rfl)) (.insertProgram _ 0 Toy.prog none .processed rfl rfl rfl))
      (.subscribedProgram _ 0 Toy.prog none .processed 0 rfl)) (.added _ 0 getProg 0 rfl)) (.call _ 1 getProg rfl))
      (.contained _ 1 Toy.prog none .processed rfl rfl)⟩, rfl, rfl⟩
  obtain ⟨w, hr, h0, h1⟩ := hr
  exact h Unit Bool emptyEnv w _ hr (.saved w 0 getProg 0 h0) 0 1 getProg 0 h0 ⟨_, _, _, rfl⟩ h1

/-- **C66 (partial)**. A program query is answered from the storage only after the filters contained it, or after
waiting for another load of it, or after this call itself subscribed and saved the snapshot.  Missing: that the
filters contain it only when its snapshot has been saved. -/
theorem C66_answered_from_storage_partial (E : Env σ φ) (w : OnDemand.World σ φ) (hr : Reachable E w) (t : Nat)
    (p : Pubkey) (fs : Option (List AccountFilterType)) (c : Commitment) (mid : List Event) (a : Answer)
    (hi : w.pc t = .idle) (hh : w.hist t = .call (.program p fs c) :: mid ++ [.read a, .ret a]) :
    mid = [.filtered true] ∨ mid = [.filtered false, .waited] ∨
      mid = [.filtered false, .subscribe true, .addFilter, .save true] := by
  obtain ⟨q, h⟩ := C38_call_shapes E w hr t hi (by rw [hh]; simp)
  rw [hh] at h
  generalize hes : Event.call (.program p fs c) :: mid ++ [.read a, .ret a] = es at h
  cases h with
  | contained | waitedProgram | loadedProgram =>
    simp only [List.cons_append, List.cons.injEq] at hes
    have := congrArg List.reverse hes.2
    simp at this
    have := congrArg List.reverse this.2
    simp at this
    simp [this]
  | programNotSubscribed | programNotSaved =>
    have := congrArg List.reverse hes
    simp at this
  | _ => simp at hes

/-- A program query that is loaded. -/
example : ∃ w, Reachable emptyEnv w ∧ w.pc 0 = .idle ∧ w.hist 0 = [.call getProg, .filtered false, .subscribe true,
    .addFilter, .save true, .read (.accounts []), .ret (.accounts [])] :=
  ⟨_, ⟨(), false, .tail (.tail (.tail (.tail (.tail (.tail (.tail (.tail (.tail (.refl _) (.call _ 0 getProg rfl))
    (.notContained _ 0 Toy.prog none .processed rfl rfl)) (.insertProgram _ 0 Toy.prog none .processed rfl rfl rfl))
    (.subscribedProgram _ 0 Toy.prog none .processed 0 rfl)) (.added _ 0 getProg 0 rfl)) (.saved _ 0 getProg 0 rfl))
    (.removed _ 0 getProg 0 rfl rfl)) (.notified _ 0 getProg (some 0) rfl)) (.reread _ 0 getProg rfl)⟩, rfl, rfl⟩

/-! ## C67: no deadlock -/

/-- **C67**. From every reachable state every call can still return: no interleaving of calls, time-outs, failures and
changes of the storage leaves a thread stuck for good. -/
theorem C67_calls_can_return (E : Env σ φ) (w : OnDemand.World σ φ) (hr : Reachable E w) (t : Nat) :
    ∃ w', Steps E w w' ∧ w'.pc t = .idle :=
  can_return _ (inv_reachable hr) t (Nat.le_refl _)

/-- **C67**. A mutex is held by at most one thread, and only by one that is subscribing or reading again. -/
theorem C67_mutual_exclusion (E : Env σ φ) (w : OnDemand.World σ φ) (hr : Reachable E w) (t t' : Nat) (m : Mutex)
    (ht : (∃ q cv, q.mutex = m ∧ w.pc t = .subscribing q cv) ∨ ∃ q, q.mutex = m ∧ w.pc t = .rereadLocked q)
    (ht' : (∃ q cv, q.mutex = m ∧ w.pc t' = .subscribing q cv) ∨ ∃ q, q.mutex = m ∧ w.pc t' = .rereadLocked q) :
    t = t' := by
  have hl := (inv_reachable hr).lock m
  have key : ∀ t, ((∃ q cv, q.mutex = m ∧ w.pc t = .subscribing q cv) ∨ ∃ q, q.mutex = m ∧ w.pc t = .rereadLocked q) →
      w.lock m = some t := by
    rintro t (⟨q, cv, rfl, h⟩ | ⟨q, rfl, h⟩) <;> exact (hl t).2 (by rw [h]; rfl)
  have h1 := key t ht
  rw [key t' ht'] at h1
  exact (Option.some.inj h1).symm

/-- While thread 0 subscribes, it holds the mutex. -/
example : Reachable emptyEnv w1 ∧ w1.pc 0 = .subscribing getAlice 0 ∧ w1.lock .accounts = some 0 :=
  ⟨w1_reachable, rfl, rfl⟩

end LAM.Props
