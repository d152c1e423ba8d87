import Verif.Lemmas.StoreConcOnce
import Verif.Basic.Toy
/-!
# Concurrent calls of the in-memory account store: C87 – C89, C93
-/
namespace LAM.Props
open Spec Store Conc

/-! ## Small executions for examples -/

/-- All pubkeys fall in one shard; waiting writers come first. -/
def oneShard : Conc.Env := ⟨fun _ => 0, true, Toy.codecs⟩

/-- Accounts of `Toy.prog` are of interest. -/
def progOnly : Filters := ⟨fun a => a.account.owner == Toy.prog, fun _ => true⟩

/-- The same thread takes so many steps. -/
def gos (t : Nat) : Nat → List Move
  | 0 => []
  | n + 1 => .go t :: gos t n

/-- `alice` in slots 1 and 2; in slot 2 the account may belong to the other program. -/
def alice1 : AccountData := Toy.acct Toy.alice Toy.prog 10 1 1
def alice2 : AccountData := Toy.acct Toy.alice Toy.prog 20 2 2
def alice2' : AccountData := Toy.acct Toy.alice Toy.prog2 20 2 2
def alice3 : AccountData := Toy.acct Toy.alice Toy.prog 30 3 3

/-- `update_account` of a new account takes 7 steps. -/
def firstUpdate : List Move := .call 0 (.update alice1 .finalized) :: gos 0 7

/-! ## C87: what every interleaving keeps -/

/-- **C87**. Whatever the interleaving, every call that returns gives an answer of its own kind: no call panics, except a
`get_program_accounts` with a filter text that does not decode or with a submitted account whose data does not decompress; and
every account state that is returned or reported was submitted before, belongs to the pubkey or owner asked for, and passes the
filters asked for. -/
theorem C87_answers (E : Conc.Env) (w : Conc.World) (hr : Conc.Reachable E w) (pre post : List (Nat × Event)) (t : Nat)
    (r : Reply) (hl : w.log = pre ++ (t, .ret r) :: post) : ∃ k, LastCall pre t k ∧ ReplyOK E pre k r :=
  (reachable_log hr).answers pre t r post hl

/-- **C87**. In every reachable state, also in the middle of calls, what an account is at finalized is not newer than at
confirmed, and at confirmed not newer than at processed. -/
theorem C87_commitments_ordered (E : Conc.Env) (w : Conc.World) (hr : Conc.Reachable E w) (pk : Pubkey) (i : Nat)
    (hi : w.st.index pk = some i) : ∃ e, w.st.accounts[i]? = some e ∧
      (∀ f, e.get .finalized = some f → ∃ c, e.get .confirmed = some c ∧ f.slot ≤ c.slot) ∧
      (∀ c, e.get .confirmed = some c → ∃ p, e.get .processed = some p ∧ ¬ Older p c) := by
  obtain ⟨-, key, hg⟩ := reachable_good hr
  obtain ⟨-, e, he, ho⟩ := hg.idx pk i hi
  refine ⟨e, he, fun f hf => (ho.fin f hf).2, fun c hc => ?_⟩
  obtain ⟨-, p, hp, hn⟩ := ho.conf c hc
  exact ⟨p, by rw [ho.get_processed]; exact hp, hn⟩

/-- **C87**. A `get_account` call, whatever runs at the same time, returns what the call would have returned on its own at some
moment between its beginning and its end. -/
theorem C87_get_account_atomic (E : Conc.Env) (t : Nat) (pk : Pubkey) (c : Commitment) (vs : List Conc.World) (r : Reply)
    (h : Performed E t (.get pk c) vs r) : ∃ v ∈ vs, ∃ o, v.st.getAccount pk c = .ok o ∧ r = .account o := by
  obtain ⟨w0, w1, w, w', hr, hcall, hl0, h, hc, hret, hl⟩ := h
  have hr' : Conc.Reachable E w1 := Steps.reachable hr (.tail (.refl _) hcall)
  obtain ⟨-, key, hg⟩ := reachable_good hr
  have hp : w1.pc t = .geLookup pk c := by
    rcases logStep hcall hg with ⟨h, -, -⟩ | ⟨x, k, h, hp⟩ | ⟨x, r, h, -, -, -⟩
    · rw [h] at hl0; simpa using congrArg List.length hl0
    · rw [h] at hl0; simp at hl0; obtain ⟨rfl, rfl⟩ := hl0; rw [hp, upd_self]; rfl
    · rw [h] at hl0; simp at hl0
  obtain ⟨l, hlog⟩ := steps_log hr' h.steps
  refine get_during hr' hp h ⟨w0.log, l, ?_, hc l hlog⟩ hret hl
  rw [hlog, hl0, List.append_assoc]; rfl

/-- **C87**. The locks do exclude each other: two threads never hold the same shard, nor write-lock the same account. -/
theorem C87_locks_exclusive (E : Conc.Env) (w : Conc.World) (hr : Conc.Reachable E w) (t t' : Nat) :
    (∀ pk pk', (w.pc t).shard = some pk → (w.pc t').shard = some pk' → E.shardOf pk = E.shardOf pk' → t = t') ∧
    (∀ i, (w.pc t).writes = some i → (w.pc t').writes = some i → t = t') :=
  ⟨(reachable_good hr).1.shard t t', (reachable_good hr).1.account t t'⟩

/-- Thread 1 looks up `alice` while thread 0 replaces it; the old state is still returned. -/
def readRace : List Move :=
  firstUpdate ++ .call 0 (.update alice2 .processed) :: .call 1 (.get Toy.alice .finalized) :: gos 0 3 ++ [.go 1] ++ gos 0 4 ++
    [.go 1, .go 1]

/-- After the race. -/
def readRaceEnd : Conc.World := played oneShard 2 progOnly readRace

example : Conc.Reachable oneShard readRaceEnd ∧ readRaceEnd.log.getLast? = some (1, .ret (.account (some alice1))) ∧
    readRaceEnd.st.getAccount Toy.alice .processed = .ok (some alice2) ∧ readRaceEnd.st.index Toy.alice = some 0 :=
  ⟨played_reachable .., rfl, rfl, rfl⟩

/-- The `get_account` call of the race, from its beginning to its end. -/
example : Performed oneShard 1 (.get Toy.alice .finalized)
    (moments oneShard 2 progOnly (readRace.take 10) ((readRace.take 19).drop 10)) (.account (some alice1)) :=
  performed_played (pre := readRace.take 9) (m := .go 1) [(0, .ret (.updated true))] rfl rfl rfl (by simp) rfl

/-! ## C93: queries -/

/-- **C93**. A `get_program_accounts` call is refused, with the error that says so, if the filters did not cover the query at some
moment of the call; else they covered it at some moment.  Its answer is made of what each account in the set of the owner was at
some moment of the call (of some moment, not all of the same one), where the set is as it was at one moment of the call. -/
theorem C93_moments (E : Conc.Env) (t : Nat) (p : Pubkey) (fs : Option (List AccountFilterType)) (c : Commitment)
    (vs : List Conc.World) (r : Reply) (hp : Performed E t (.gpa p fs c) vs r) :
    (∃ v ∈ vs, v.filters.contains ⟨[], some p, fs⟩ = false ∧ r = .accounts (.error .configDoesNotContainRequiredFilters)) ∨
    (∃ v ∈ vs, v.filters.contains ⟨[], some p, fs⟩ = true) ∧
      (r = .panicked ∨ ∃ l, r = .accounts (.ok l) ∧ ∃ u ∈ vs, ∀ b ∈ l, ∃ i ∈ (u.st.byOwner p).getD [], ∃ v ∈ vs, ∃ e a,
        v.st.accounts[i]? = some e ∧ e.get c = some a ∧ SameAccount E.codecs a b ∧ Selected E.codecs fs a ∧
          a.account.owner = p) := by
  cases gpa_during hp with
  | refused v hb h => exact .inl ⟨v, hb, h, rfl⟩
  | panicked hs => exact .inr ⟨hs, .inl rfl⟩
  | found hs u hu done parts hd h =>
    refine .inr ⟨hs, .inr ⟨_, rfl, u, hu, fun b hb => ?_⟩⟩
    obtain ⟨part, hpart, hb⟩ := List.mem_flatten.1 hb
    obtain ⟨i, hi, v, hv, e, he, hgo, -⟩ := forall₂_right h hpart
    obtain ⟨-, a, h1, h2, h3, h4, -⟩ := gpaOne_sound hgo hb
    exact ⟨i, hd.mem_iff.1 hi, v, hv, e, a, he, h1, h2, h3, h4⟩

/-- **C93**. A `get_program_accounts` call that succeeds does not miss an account: if at every moment of the call an account is
found by its pubkey, its index is in the set of the owner, and it belongs to the owner and passes the filters, then what the
account was at one of these moments is in the answer. -/
theorem C93_complete (E : Conc.Env) (t : Nat) (p : Pubkey) (fs : Option (List AccountFilterType)) (c : Commitment)
    (vs : List Conc.World) (l : List AccountData) (hp : Performed E t (.gpa p fs c) vs (.accounts (.ok l)))
    (hw : QueryWellFormed E.codecs fs) (pk : Pubkey)
    (hs : ∀ v ∈ vs, ∃ i a, v.st.index pk = some i ∧ i ∈ (v.st.byOwner p).getD [] ∧ v.st.getAccount pk c = .ok (some a) ∧
      Honest E.codecs a ∧ a.account.owner = p ∧ Selected E.codecs fs a) :
    ∃ b ∈ l, ∃ v ∈ vs, ∃ a, v.st.getAccount pk c = .ok (some a) ∧ SameAccount E.codecs a b := by
  have hi := performed_index hp (pk := pk) fun v hv => (hs v hv).elim fun i ⟨a, h, _⟩ => by rw [h]; simp
  cases gpa_during hp with
  | found _ u hu done parts hd h =>
    obtain ⟨i, hi⟩ := hi
    have hiu : i ∈ (u.st.byOwner p).getD [] := by
      obtain ⟨j, a, hj, hm, -⟩ := hs u hu
      rw [hi u hu] at hj; cases hj; exact hm
    obtain ⟨part, hpart, v, hv, e, he, hgo, -⟩ := forall₂_left h (hd.mem_iff.2 hiu)
    obtain ⟨j, a, hj, -, hga, hh, ho, hsel⟩ := hs v hv
    rw [hi v hv] at hj
    cases hj
    obtain ⟨hga', hpos⟩ := getAccount_some (hi v hv) he hga
    obtain ⟨x, hx, hfind⟩ := gpaOne_complete (X := E.codecs) (e := e) (c := c) p hw
      (fun a' ha' => by rw [hga'] at ha'; cases ha'; exact hh)
    rw [hgo] at hx
    cases hx
    obtain ⟨b, hb, hsame⟩ := hfind a hga' ho hpos hsel
    exact ⟨b, List.mem_flatten.2 ⟨part, hpart, hb⟩, v, hv, a, hga, hsame⟩

/-- **C93**. A `get_program_accounts` call during which no writing call is executed answers, up to the order of the accounts, what
it would have answered on its own in the store as it is all the time, with the filters of some moment of the call; it panics if
that call would. -/
theorem C93_alone (E : Conc.Env) (t : Nat) (p : Pubkey) (fs : Option (List AccountFilterType)) (c : Commitment)
    (vs : List Conc.World) (r : Reply) (hp : Performed E t (.gpa p fs c) vs r) (hq : ∀ v ∈ vs, NoWriter v) :
    ∃ s, (∀ v ∈ vs, v.st = s) ∧ ∃ v ∈ vs, match s.getProgramAccounts E.codecs v.filters (fun _ => false) p fs c with
      | .ok (.ok l) => ∃ l', r = .accounts (.ok l') ∧ l'.Perm l
      | .ok (.error e) => r = .accounts (.error e)
      | _ => r = .panicked := by
  obtain ⟨s, hst⟩ := performed_quiet hp hq
  refine ⟨s, hst, ?_⟩
  cases gpa_during hp with
  | refused v hb h => exact ⟨v, hb, by simp [Store.getProgramAccounts, h]⟩
  | panicked hs u hu v i e hv hi he h =>
    obtain ⟨v', hv', hc⟩ := hs
    refine ⟨v', hv', ?_⟩
    rw [getProgramAccounts_eq, if_pos hc]
    rw [hst u hu] at hi
    rw [hst v hv] at he
    cases hpass : gpaPass E.codecs s c p fs
        (((s.byOwner p).getD []).filter (fun _ => !false) ++ ((s.byOwner p).getD []).filter (fun _ => false)) with
    | ok l => exact (pass_blocked (l := ((s.byOwner p).getD []).filter (fun _ => !false) ++
        ((s.byOwner p).getD []).filter (fun _ => false)) (by simpa using hi) he h hpass).elim
    | _ => simp only [hpass]; exact trivial
  | found hs u hu done parts hd h =>
    obtain ⟨v', hv', hc⟩ := hs
    refine ⟨v', hv', ?_⟩
    rw [hst u hu] at hd
    have hpass := pass_of_parts (X := E.codecs) (s := s) (c := c) (p := p) (fs := fs) (is := done) (parts := parts)
      (h.imp fun i part ⟨v, hv, e, he, hgo, _⟩ => ⟨e, by rw [← hst v hv]; exact he, hgo⟩)
    obtain ⟨l, hl, hperm⟩ := gpaPass_perm (hd.trans (l₃ := ((s.byOwner p).getD []).filter (fun _ => !false) ++
      ((s.byOwner p).getD []).filter (fun _ => false)) (by simp)) hpass
    rw [getProgramAccounts_eq, if_pos hc]
    simp only [hl, Run.ok_bind, Run.pure_eq]
    exact ⟨_, rfl, hperm⟩

/-- **C93**. Whatever the interleaving, the answer of `get_program_accounts` has no pubkey twice, although an account that is removed
and submitted again during the call gets a new index. -/
theorem C93_no_pubkey_twice (E : Conc.Env) (w : Conc.World) (hr : Conc.Reachable E w) (t : Nat) (l : List AccountData)
    (hl : (t, .ret (.accounts (.ok l))) ∈ w.log) : (l.map (·.pubkey)).Nodup := reachable_once hr t l hl

/-- Thread 1 asks for the accounts of the program while thread 0 has locked `alice` in order to replace it: the account is visited
in the second pass, after the update. -/
def queryRace : List Move :=
  firstUpdate ++ .call 0 (.update alice2 .processed) :: gos 0 6 ++ .call 1 (.gpa Toy.prog none .processed) :: gos 1 6 ++ [.go 0] ++
    gos 1 2

/-- The query of the race, and the states passed through meanwhile. -/
def queryMoments : List Conc.World := moments oneShard 2 progOnly (queryRace.take 16) ((queryRace.take 24).drop 16)

theorem queryRace_performed : Performed oneShard 1 (.gpa Toy.prog none .processed) queryMoments (.accounts (.ok [alice2])) :=
  performed_played (pre := queryRace.take 15) (m := .go 1) [(0, .ret (.updated true))] rfl rfl rfl (by simp) rfl

/-- The query begins with the old state and ends with the new one; `alice` is there all the time. -/
example : QueryWellFormed oneShard.codecs none ∧ (∀ v ∈ queryMoments, ∃ i a, v.st.index Toy.alice = some i ∧
      i ∈ (v.st.byOwner Toy.prog).getD [] ∧ v.st.getAccount Toy.alice .processed = .ok (some a) ∧ Honest oneShard.codecs a ∧
      a.account.owner = Toy.prog ∧ Selected oneShard.codecs none a) ∧
    (∃ v ∈ queryMoments, v.st.getAccount Toy.alice .processed = .ok (some alice1)) := by
  refine ⟨by simp [QueryWellFormed], fun v hv => ?_, _, List.mem_map.2 ⟨0, by decide, rfl⟩, rfl⟩
  obtain ⟨j, hj, rfl⟩ := List.mem_map.1 hv
  have hj : j < 9 := List.mem_range.1 hj
  have sel : ∀ a, Selected oneShard.codecs none a := by simp [Selected]
  match j, hj with
  | 0, _ | 1, _ | 2, _ | 3, _ | 4, _ | 5, _ | 6, _ => exact ⟨0, alice1, rfl, List.mem_singleton.2 rfl, rfl, ⟨_, rfl, rfl⟩, rfl, sel _⟩
  | 7, _ | 8, _ => exact ⟨0, alice2, rfl, List.mem_singleton.2 rfl, rfl, ⟨_, rfl, rfl⟩, rfl, sel _⟩

/-- Two accounts in an answer. -/
example : ∃ w t l, Conc.Reachable oneShard w ∧ (t, .ret (.accounts (.ok l))) ∈ w.log ∧ l.map (·.pubkey) = [Toy.alice, Toy.bob] :=
  ⟨played oneShard 2 progOnly (firstUpdate ++ .call 0 (.update (Toy.acct Toy.bob Toy.prog 5 1 2) .finalized) :: gos 0 7 ++
    .call 1 (.gpa Toy.prog none .finalized) :: gos 1 8), 1, [alice1, Toy.acct Toy.bob Toy.prog 5 1 2], played_reachable ..,
    List.mem_of_mem_getLast? (by rfl), rfl⟩

/-- A query while another thread only reads. -/
def quietQuery : List Move :=
  firstUpdate ++ .call 0 (.get Toy.alice .finalized) :: gos 0 2 ++ .call 1 (.gpa Toy.prog none .processed) :: gos 1 3 ++ [.go 0] ++
    gos 1 4

example : Performed oneShard 1 (.gpa Toy.prog none .processed)
      (moments oneShard 2 progOnly (quietQuery.take 12) ((quietQuery.take 19).drop 12)) (.accounts (.ok [alice1])) ∧
    ∀ v ∈ moments oneShard 2 progOnly (quietQuery.take 12) ((quietQuery.take 19).drop 12), NoWriter v := by
  refine ⟨performed_played (pre := quietQuery.take 11) (m := .go 1) [(0, .ret (.account (some alice1)))] rfl rfl rfl (by simp) rfl,
    fun v hv => ?_⟩
  obtain ⟨j, hj, rfl⟩ := List.mem_map.1 hv
  have hj : j < 8 := List.mem_range.1 hj
  have hr := played_reachable oneShard 2 progOnly (quietQuery.take 12 ++ ((quietQuery.take 19).drop 12).take j)
  refine (noWriter_iff hr).2 fun t => ?_
  match j, hj, t with
  | 0, _, 0 | 1, _, 0 | 2, _, 0 | 3, _, 0 | 4, _, 0 | 5, _, 0 | 6, _, 0 | 7, _, 0 => rfl
  | 0, _, 1 | 1, _, 1 | 2, _, 1 | 3, _, 1 | 4, _, 1 | 5, _, 1 | 6, _, 1 | 7, _, 1 => rfl
  | 0, _, t + 2 | 1, _, t + 2 | 2, _, t + 2 | 3, _, t + 2 | 4, _, t + 2 | 5, _, t + 2 | 6, _, t + 2 | 7, _, t + 2 => rfl

/-! ## C88: deadlock -/

/-- **C88**, as one would like it: from every reachable state all calls can still return. -/
def C88_statement : Prop :=
  ∀ (E : Conc.Env) (w : Conc.World), Conc.Reachable E w → ∃ w', Conc.Steps E w w' ∧ Quiet w'

/-- `alice` changes its owner in slot 2, which is then finalized (thread 1) while `alice` is updated again (thread 0). -/
def deadlock : List Move :=
  firstUpdate ++ .call 0 (.update alice2' .processed) :: gos 0 8 ++ .call 1 (.process ⟨2, 1, 0⟩ .finalized) :: gos 1 5 ++
    .call 0 (.update alice3 .processed) :: gos 0 5

/-- The state in which both wait. -/
def deadlocked : Conc.World := played oneShard 2 progOnly deadlock

/-- **C88** is false of the code: `update_account` holds the shard of the pubkey (220) and waits for the account (224), while
`process_slot_data` holds the account (431) and waits for the shard to remove the pubkey (446). -/
theorem C88_refuted : ¬ C88_statement := by
  intro h
  obtain ⟨w', hs, hq⟩ := h oneShard deadlocked (played_reachable ..)
  have hr : Conc.Reachable oneShard deadlocked := played_reachable ..
  have h0 : deadlocked.pc 0 = .upAccount alice3 .processed 0 := rfl
  have h1 : deadlocked.pc 1 = .prDrop .finalized 0 alice2' [] [] := rfl
  obtain ⟨g, -⟩ := stuck hs h0 h1 rfl
  rw [(quiet_iff (Steps.reachable hr hs)).1 hq 0] at g
  cases g

/-- **C88**, what holds: from every reachable state in which no update is executed at the same time as a notification of a
finalized slot, all calls can still return, whatever else (other notifications, any number of updates and reads) is being
executed.  Missing: updates at the same time as notifications of finalized slots. -/
theorem C88_calls_can_return_partial (E : Conc.Env) (w : Conc.World) (hr : Conc.Reachable E w) (hs : Separate w) :
    ∃ w', Conc.Steps E w w' ∧ Quiet w' := by
  obtain ⟨w', h, hi⟩ := calls_return hr (apart_of hr hs)
  exact ⟨w', h, (quiet_iff (Steps.reachable hr h)).2 hi⟩

/-- An update and a notification of a confirmed slot, both holding locks. -/
def confirming : List Move :=
  firstUpdate ++ .call 0 (.update alice2 .processed) :: gos 0 7 ++ .call 1 (.process ⟨2, 1, 0⟩ .confirmed) :: gos 1 3 ++
    .call 0 (.update alice3 .processed) :: gos 0 5

example : Conc.Reachable oneShard (played oneShard 2 progOnly confirming) ∧ Separate (played oneShard 2 progOnly confirming) ∧
    (played oneShard 2 progOnly confirming).pc 0 = .upAccount alice3 .processed 0 ∧
    (played oneShard 2 progOnly confirming).pc 1 = .prPromote .confirmed 0 2 [] [] := by
  have hr := played_reachable oneShard 2 progOnly confirming
  refine ⟨hr, ?_, rfl, rfl⟩
  intro t t' a c info _ hc
  have := reachable_open hr t' _ hc
  match t' with
  | 0 => exact this.elim (fun _ h => by cases h)
  | 1 => exact this.elim (fun _ h => by cases h)
  | t' + 2 => exact this

/-! ## C89: one order of the calls -/

/-- **C89**, as one would like it: when calls are made concurrently and all have returned, reads are as if the writing calls had
been made one after the other in some order. -/
def C89_statement : Prop :=
  ∀ (E : Conc.Env) (w w' : Conc.World), Conc.Reachable E w → Quiet w → Conc.Steps E w w' → Quiet w' →
    ∃ ops s, (ops.map opCall).Perm (writeCalls (w'.log.drop w.log.length)) ∧ w.st.run ops = .ok s ∧
      ∀ pk c, s.getAccount pk c = w'.st.getAccount pk c

/-- The update of slot 2 has seen that the slot is not confirmed yet (thread 0); the slot is confirmed (thread 1); the update is
stored as processed only. -/
def lostConfirmation : List Move :=
  .call 0 (.update alice2 .processed) :: gos 0 3 ++ .call 1 (.process ⟨2, 1, 0⟩ .confirmed) :: gos 1 5 ++ gos 0 4

/-- Before and after. -/
def beforeRace : Conc.World := played oneShard 2 progOnly firstUpdate
def afterRace : Conc.World := played oneShard 2 progOnly (firstUpdate ++ lostConfirmation)

theorem quiet_played {F : Filters} {ms : List Move} (h0 : (played oneShard 2 F ms).pc 0 = .idle)
    (h1 : (played oneShard 2 F ms).pc 1 = .idle) (h : (schedule oneShard 2 (World.init F) ms).isSome = true) :
    Quiet (played oneShard 2 F ms) := by
  refine (quiet_iff (played_reachable ..)).2 fun t => ?_
  match t with
  | 0 => exact h0
  | 1 => exact h1
  | t + 2 =>
    revert h
    unfold played
    cases h : schedule oneShard 2 (World.init F) ms with
    | none => intro h; cases h
    | some w => exact fun _ => (schedule_sound (within_init 2 F) h).2 _ (by omega)

/-- The store with `alice` at index 0. -/
def tracked (slots : BMap SlotStatus) (e : ByCommitment) : Store :=
  { index := beforeRace.st.index, byOwner := beforeRace.st.byOwner, slots := slots, accounts := [e] }

/-- The update of slot 2 on its own, under any filters. -/
theorem update2 (F : Filters) (s : Store) (hk : s.containsKey Toy.alice = true) (s' : Store) (b : Bool)
    (h : (match (s.maybeUpdateSlotStatus alice2 .processed).1.index Toy.alice with
      | some i => updateOccupied F (s.maybeUpdateSlotStatus alice2 .processed).1 alice2
          (s.maybeUpdateSlotStatus alice2 .processed).2 i
      | none => .panic) = .ok (s', b)) : s.step (.update F alice2 .processed) = .ok s' := by
  have hk' : s.containsKey alice2.pubkey = true := hk
  have : s.updateAccount F alice2 .processed = .ok (s', b) := by
    unfold updateAccount
    simp only [hk', Bool.not_true, Bool.and_false, Bool.false_eq_true, if_false]
    revert h
    cases hx : (s.maybeUpdateSlotStatus alice2 .processed).1.index alice2.pubkey with
    | none => rw [show Toy.alice = alice2.pubkey from rfl, hx]; intro h; cases h
    | some i => rw [show Toy.alice = alice2.pubkey from rfl, hx]; exact id
  simp [Store.step, this]

/-- The confirmation of slot 2 on its own, under any filters and in any order. -/
theorem confirm2 (F : Filters) (σ : Order) (s s' : Store) (slots : BMap SlotStatus) (wl : Writable) (out : List AccountData)
    (hw : walk ⟨2, 1, 0⟩ .confirmed (s.slots.length + 1) s.slots [] 2 (some 1) = .ok (slots, wl)) (hl : wl = [] ∨ wl = [(0, 2)])
    (h : promoteAll F .confirmed { s with slots := slots } wl = .ok (s', out)) :
    s.step (.slot F σ ⟨2, 1, 0⟩ .confirmed) = .ok s' := by
  have hσ : σ.arrange wl = wl := by
    rcases hl with rfl | rfl
    · exact List.perm_nil.1 (σ.perm _)
    · exact List.perm_singleton.1 (σ.perm _)
  simp [Store.step, processSlotData, hw, hσ, dropOldSlots, h]

/-- **C89** is false of the code: `update_account` looks at the status of the slot (147-156) and stores the account later
(220-227); a confirmation in between is lost for this account.  In both orders of the two calls the account is confirmed. -/
theorem C89_refuted : ¬ C89_statement := by
  intro h
  obtain ⟨ops, s, hp, hs, hg⟩ := h oneShard beforeRace afterRace (played_reachable ..) (quiet_played rfl rfl rfl)
    (played_steps rfl) (quiet_played rfl rfl rfl)
  have hw : writeCalls (afterRace.log.drop beforeRace.log.length) =
      [.update alice2 .processed, .process ⟨2, 1, 0⟩ .confirmed] := rfl
  have hread : afterRace.st.getAccount Toy.alice .confirmed = .ok (some alice1) := rfl
  rw [hw] at hp
  have hlen := hp.length_eq
  rw [List.length_map] at hlen
  have key : s.getAccount Toy.alice .confirmed = .ok (some alice2) := by
    match ops, hlen with
    | [x, y], _ =>
      have hx := (hp.mem_iff (a := opCall x)).1 (by simp)
      have hy := (hp.mem_iff (a := opCall y)).1 (by simp)
      have h1 := (hp.mem_iff (a := Call.update alice2 .processed)).2 (by simp)
      have h2 := (hp.mem_iff (a := Call.process ⟨2, 1, 0⟩ .confirmed)).2 (by simp)
      cases x with
      | update F a c =>
        cases y with
        | update F' a' c' => simp [opCall] at h2
        | slot F' σ info c' =>
          simp only [opCall, List.mem_cons, reduceCtorEq, Call.update.injEq, Call.process.injEq,
            List.not_mem_nil, or_false, false_or] at hx hy
          obtain ⟨rfl, rfl⟩ := hx
          obtain ⟨rfl, rfl⟩ := hy
          have e1 := update2 F beforeRace.st rfl (tracked [(1, ⟨.finalized, [], none⟩), (2, ⟨.processed, [0], none⟩)]
            ⟨[(1, alice1), (2, alice2)], some alice1, some alice1⟩) true rfl
          have e2 := confirm2 F' σ (tracked [(1, ⟨.finalized, [], none⟩), (2, ⟨.processed, [0], none⟩)]
            ⟨[(1, alice1), (2, alice2)], some alice1, some alice1⟩)
            (tracked [(1, ⟨.confirmed, [], none⟩), (2, ⟨.confirmed, [0], some 1⟩)]
            ⟨[(1, alice1), (2, alice2)], some alice2, some alice1⟩)
            [(1, ⟨.confirmed, [], none⟩), (2, ⟨.confirmed, [0], some 1⟩)] [(0, 2)] [alice2] rfl (.inr rfl) rfl
          simp only [Store.run, e1, Run.ok_bind, e2, Run.ok.injEq] at hs
          subst hs; rfl
      | slot F σ info c =>
        cases y with
        | update F' a' c' =>
          simp only [opCall, List.mem_cons, reduceCtorEq, Call.update.injEq, Call.process.injEq,
            List.not_mem_nil, or_false, false_or] at hx hy
          obtain ⟨rfl, rfl⟩ := hx
          obtain ⟨rfl, rfl⟩ := hy
          have e1 := confirm2 F σ beforeRace.st (tracked [(1, ⟨.finalized, [], none⟩), (2, ⟨.confirmed, [], some 1⟩)]
            ⟨[(1, alice1)], some alice1, some alice1⟩)
            [(1, ⟨.finalized, [], none⟩), (2, ⟨.confirmed, [], some 1⟩)] [] [] rfl (.inl rfl) rfl
          have e2 := update2 F' (tracked [(1, ⟨.finalized, [], none⟩), (2, ⟨.confirmed, [], some 1⟩)]
            ⟨[(1, alice1)], some alice1, some alice1⟩) rfl
            (tracked [(1, ⟨.finalized, [], none⟩), (2, ⟨.confirmed, [0], some 1⟩)]
            ⟨[(1, alice1), (2, alice2)], some alice2, some alice1⟩) true rfl
          simp only [Store.run, e1, Run.ok_bind, e2, Run.ok.injEq] at hs
          subst hs; rfl
        | slot F' σ' info' c' => simp [opCall] at h1
  rw [hg, hread] at key
  cases key

/-- **C89**, what holds: as long as writing calls are made one at a time, with any number of reads at the same time, the store
and the answers of the writing calls are what the calls give one after the other in the order they were made, each under filters
that were in force in this order.  Missing: writing calls at the same time. -/
theorem C89_one_writer_partial (E : Conc.Env) (w0 w : Conc.World) (Fs : List Filters) (hr : Conc.Reachable E w0) (h0 : NoWriter w0)
    (h : SingleWriter E Fs w0 w) (hq : NoWriter w) : ∃ ops log, w.log = w0.log ++ log ∧ ops.map opCall = writeCalls log ∧
      seqRun w0.st ops = .ok (w.st, writeReplies log) ∧ (ops.map opFilters).Sublist Fs := by
  have h1 := h.oneWriter hr
  have hr' := Steps.reachable hr h1.steps
  obtain ⟨-, ht⟩ := one_writer hr (noWriter_of hr h0) h1
  have hm := noWriter_of hr' hq
  rcases ht with ⟨ops, log, -, hl, hc, hrun, hS⟩ | ⟨ops, log, t, info, c, hp, -⟩ | ⟨ops, log, t, op, s, hp, -⟩
  · exact ⟨ops, log, hl, hc.symm, hrun, hS⟩
  · have := hm t; rw [hp] at this; cases this
  · rw [hm t] at hp; cases hp

/-- In the race above (`readRace`) only thread 0 writes; two updates were made. -/
example : (∃ Fs, SingleWriter oneShard Fs (World.init progOnly) readRaceEnd) ∧ NoWriter (World.init progOnly) ∧
    NoWriter readRaceEnd ∧ writeCalls readRaceEnd.log = [.update alice1 .finalized, .update alice2 .processed] := by
  refine ⟨played_single rfl rfl, ?_, ?_, rfl⟩
  · rintro t k ⟨pre, mid, h, -⟩; simp [World.init] at h
  · exact fun t k h => absurd h (quiet_played rfl rfl rfl t k)

end LAM.Props
