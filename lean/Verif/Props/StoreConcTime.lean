import Verif.Lemmas.StoreConcTime
import Verif.Props.StoreConc
/-!
# Concurrent calls of the in-memory account store: C141

Reads do not go back in time, whatever other threads do.
-/
namespace LAM.Props
open Spec Store Conc

/-- A `get_account` call sees what the entry was when it began, or something newer. -/
private theorem get_later {E : Conc.Env} {w0 w' : Conc.World} {t : Nat} {pk : Pubkey} {c : Commitment} {vs : List Conc.World} {r : Reply}
    (hr : Conc.Reachable E w0) (h : During E t (.get pk c) w0 vs r w') (h0 : w0.st.containsKey pk = true) (ht : TrackedIn pk vs)
    {i : Nat} {e : ByCommitment} (hi : w0.st.index pk = some i) (he : w0.st.accounts[i]? = some e) {a : AccountData}
    (ha : e.get c = some a) : ∃ a', ¬ Older a' a ∧ Submitted w'.log a' ∧ a'.pubkey = pk ∧ r = .account (shown a') := by
  obtain ⟨w1, w, hcall, hl1, h, hn, hret, hl⟩ := h
  obtain ⟨v, hv, o, hget, rfl⟩ := C87_get_account_atomic E t pk c vs r ⟨w0, w1, w, w', hr, hcall, hl1, h, hn, hret, hl⟩
  obtain ⟨us, hus, hsub⟩ := h.upto hv
  have htr := Trace.append .refl hcall hus
  obtain ⟨hi', e', he', hgr⟩ := trace_grown hr htr (fun u hu => by
    rw [List.mem_append] at hu
    rcases hu with hu | hu
    · simp at hu; rw [hu]; exact h0
    · exact ht u (hsub u hu)) hi he
  have hrv := Steps.reachable hr htr.steps
  obtain ⟨-, key, hg⟩ := reachable_good hrv
  obtain ⟨a', ha', hold⟩ := hgr c a ha
  obtain ⟨hk, e'', he'', hok⟩ := hg.idx pk i hi'
  rw [he'] at he''; cases he''
  refine ⟨a', hold, ?_, hok.get_pubkey ha', ?_⟩
  · have hsubm : Submitted v.log a' := by
      rcases hg.entry i e' he' with rfl | ⟨-, h⟩
      · cases c <;> simp [dead, ByCommitment.get, BMap.lastVal] at ha'
      · exact h.get hok ha'
    obtain ⟨vs', hvs', -⟩ := h.from hv
    obtain ⟨l, hl'⟩ := steps_log hrv (.tail hvs'.steps hret)
    exact hsubm.mono fun e he => by rw [hl']; simp [he]
  · rw [getAccount_current (fun j hj => by rw [hi'] at hj; cases hj; exact (List.getElem?_eq_some_iff.1 he').1)] at hget
    simp only [current, Store.view, hi', he', Option.bind_some, Run.ok.injEq, ha'] at hget
    rw [← hget]
    simp [shown, Option.filter]

/-- After a read, the entry has what was read, or something newer. -/
private theorem get_then {E : Conc.Env} {w0 w1 w2 : Conc.World} {t : Nat} {pk : Pubkey} {c : Commitment} {vs us : List Conc.World}
    {a : AccountData} (hr : Conc.Reachable E w0) (h1 : During E t (.get pk c) w0 vs (.account (some a)) w1) (h2 : Trace E w1 us w2)
    (htv : TrackedIn pk vs) (htu : TrackedIn pk us) : Conc.Reachable E w2 ∧ ∃ i e a', w2.st.index pk = some i ∧
      w2.st.accounts[i]? = some e ∧ e.get c = some a' ∧ ¬ Older a' a := by
  obtain ⟨w0', w, hcall, hl1, h, hn, hret, hl⟩ := h1
  obtain ⟨v, hv, o, hget, ho⟩ := C87_get_account_atomic E t pk c vs _ ⟨w0, w0', w, w1, hr, hcall, hl1, h, hn, hret, hl⟩
  cases ho
  have hr0 := Steps.reachable hr (.tail (.refl _) hcall)
  obtain ⟨xs, hxs, -⟩ := h.upto hv
  have hrv := Steps.reachable hr0 hxs.steps
  obtain ⟨i, e, hi, he, -⟩ := tracked_entry hrv (htv v hv)
  obtain ⟨hga, -⟩ := getAccount_some hi he hget
  obtain ⟨ys, hys, hsub⟩ := h.from hv
  obtain ⟨hi2, e2, he2, hgr⟩ := trace_grown hrv (hys.append hret h2) (fun u hu => by
    rw [List.mem_append] at hu
    rcases hu with hu | hu
    · exact htv u (hsub u hu)
    · exact htu u hu) hi he
  obtain ⟨a2, ha2, hold⟩ := hgr c a hga
  exact ⟨Steps.reachable hrv (hys.append hret h2).steps, i, e2, a2, hi2, he2, ha2, hold⟩

/-- After an update, the entry has it, or something newer. -/
theorem update_then {E : Conc.Env} {w0 w1 w2 : Conc.World} {t : Nat} {a : AccountData} {c d : Commitment}
    {vs us : List Conc.World} {q : Reply} (hr : Conc.Reachable E w0) (hd : d = .processed ∨ c = .finalized)
    (h1 : During E t (.update a c) w0 vs q w1) (h2 : Trace E w1 us w2) (ht : TrackedIn a.pubkey us) :
    Conc.Reachable E w2 ∧ ∃ i e a', w2.st.index a.pubkey = some i ∧ w2.st.accounts[i]? = some e ∧ e.get d = some a' ∧
      ¬ Older a' a := by
  have hc := update_during hr h1
  obtain ⟨w0', w, hcall, hl1, h, hn, hret, hl⟩ := h1
  have hr1 : Conc.Reachable E w1 := Steps.reachable hr ((Steps.head hcall h.steps).tail hret)
  obtain ⟨i, e, hi, he, hh⟩ := hc (ht w1 h2.first)
  obtain ⟨hi2, e2, he2, hgr⟩ := trace_grown hr1 h2 ht hi he
  obtain ⟨b, hb, hold⟩ := hh.grown hgr d hd
  exact ⟨Steps.reachable hr1 h2.steps, i, e2, b, hi2, he2, hb, hold⟩

/-- **C141**. Reads never go back: if `get_account` returned a state, and a later call for the same account and commitment (made
after the first one has returned) returns, it shows a submitted state that is not older, or nothing if that state has no lamports.
Any calls may be executed meanwhile, as long as the account stays tracked. -/
theorem C141_reads_do_not_go_back (E : Conc.Env) (t t' : Nat) (pk : Pubkey) (c : Commitment) (w0 w1 w2 w3 : Conc.World)
    (vs us vs' : List Conc.World) (a : AccountData) (r : Reply) (hr : Conc.Reachable E w0)
    (h1 : During E t (.get pk c) w0 vs (.account (some a)) w1) (h2 : Trace E w1 us w2) (h3 : During E t' (.get pk c) w2 vs' r w3)
    (ht : TrackedIn pk (vs ++ us ++ vs')) :
    ∃ a', ¬ Older a' a ∧ Submitted w3.log a' ∧ a'.pubkey = pk ∧ r = .account (shown a') := by
  obtain ⟨hr2, i, e, a2, hi, he, ha, hold⟩ := get_then hr h1 h2 (fun v hv => ht v (by simp [hv])) (fun v hv => ht v (by simp [hv]))
  obtain ⟨a', h4, h5, h6, h7⟩ := get_later hr2 h3 (ht w2 (by simp [h2.last])) (fun u hu => ht u (by simp [hu])) hi he ha
  exact ⟨a', notOlder_trans hold h4, h5, h6, h7⟩

/-- A weaker commitment has a state as well, of the same slot or a later one. -/
private theorem weaker_get {pk : Pubkey} {e : ByCommitment} (ho : ByCommitment.EntryOK pk e) {c d : Commitment} (hd : d ≤ c) {a : AccountData}
    (ha : e.get c = some a) : ∃ b, e.get d = some b ∧ a.slot ≤ b.slot := by
  have conf : ∀ a, e.confirmed = some a → ∃ b, e.get .processed = some b ∧ a.slot ≤ b.slot := by
    intro a ha
    obtain ⟨-, p, hp, hn⟩ := ho.conf a ha
    refine ⟨p, by rw [ho.get_processed]; exact hp, ?_⟩
    simp only [Older] at hn; omega
  cases c <;> cases d <;> first
    | exact absurd hd (by decide)
    | exact ⟨a, ha, Nat.le_refl _⟩
    | exact conf a ha
    | exact (ho.fin a ha).2
    | (obtain ⟨-, x, hx, hle⟩ := ho.fin a ha
       obtain ⟨b, hb, hle'⟩ := conf x hx
       exact ⟨b, hb, Nat.le_trans hle hle'⟩)

/-- **C141**. What was returned for one commitment is known to later calls for weaker ones: they show a submitted state of the same
slot or a later one, or nothing if that state has no lamports. -/
theorem C141_weaker_commitments_are_not_behind (E : Conc.Env) (t t' : Nat) (pk : Pubkey) (c d : Commitment) (hd : d ≤ c)
    (w0 w1 w2 w3 : Conc.World) (vs us vs' : List Conc.World) (a : AccountData) (r : Reply) (hr : Conc.Reachable E w0)
    (h1 : During E t (.get pk c) w0 vs (.account (some a)) w1) (h2 : Trace E w1 us w2) (h3 : During E t' (.get pk d) w2 vs' r w3)
    (ht : TrackedIn pk (vs ++ us ++ vs')) :
    ∃ a', a.slot ≤ a'.slot ∧ Submitted w3.log a' ∧ a'.pubkey = pk ∧ r = .account (shown a') := by
  obtain ⟨hr2, i, e, a2, hi, he, ha, hold⟩ := get_then hr h1 h2 (fun v hv => ht v (by simp [hv])) (fun v hv => ht v (by simp [hv]))
  obtain ⟨-, key, hg⟩ := reachable_good hr2
  obtain ⟨-, e', he', ho⟩ := hg.idx pk i hi
  rw [he] at he'; cases he'
  obtain ⟨b, hb, hle⟩ := weaker_get ho hd ha
  obtain ⟨a', h4, h5, h6, h7⟩ := get_later hr2 h3 (ht w2 (by simp [h2.last])) (fun u hu => ht u (by simp [hu])) hi he hb
  refine ⟨a', ?_, h5, h6, h7⟩
  simp only [Older] at hold h4
  omega

/-- **C141**. No update is lost: a `get_account` call for processed that is made after an update of the account has returned shows a
submitted state that is not older, or nothing if that state has no lamports; for every commitment if the update was submitted as
finalized.  Any calls may be executed meanwhile, also updates of the same account, as long as the account stays tracked. -/
theorem C141_updates_are_not_lost (E : Conc.Env) (t t' : Nat) (a : AccountData) (c d : Commitment) (w0 w1 w2 w3 : Conc.World)
    (vs us vs' : List Conc.World) (q r : Reply) (hr : Conc.Reachable E w0) (hd : d = .processed ∨ c = .finalized)
    (h1 : During E t (.update a c) w0 vs q w1) (h2 : Trace E w1 us w2) (h3 : During E t' (.get a.pubkey d) w2 vs' r w3)
    (ht : TrackedIn a.pubkey (us ++ vs')) :
    ∃ a', ¬ Older a' a ∧ Submitted w3.log a' ∧ a'.pubkey = a.pubkey ∧ r = .account (shown a') := by
  obtain ⟨hr2, i, e, a2, hi, he, ha, hold⟩ := update_then hr hd h1 h2 (fun v hv => ht v (by simp [hv]))
  obtain ⟨a', h4, h5, h6, h7⟩ := get_later hr2 h3 (ht w2 (by simp [h2.last])) (fun u hu => ht u (by simp [hu])) hi he ha
  exact ⟨a', notOlder_trans hold h4, h5, h6, h7⟩

/-- What a query shows of an account was its entry at some moment of the call. -/
private theorem query_later {E : Conc.Env} {w0 w' : Conc.World} {t : Nat} {p pk : Pubkey} {fs : Option (List AccountFilterType)}
    {c : Commitment} {vs : List Conc.World} {l : List AccountData} (hr : Conc.Reachable E w0)
    (h : During E t (.gpa p fs c) w0 vs (.accounts (.ok l)) w') (h0 : w0.st.containsKey pk = true) (ht : TrackedIn pk vs)
    {i : Nat} {e : ByCommitment} (hi : w0.st.index pk = some i) (he : w0.st.accounts[i]? = some e) {a : AccountData}
    (ha : e.get c = some a) {b : AccountData} (hb : b ∈ l) (hpk : b.pubkey = pk) : ¬ Older b a := by
  obtain ⟨w1, w, hcall, hl1, h, hn, hret, hl⟩ := h
  cases gpa_during ⟨w0, w1, w, w', hr, hcall, hl1, h, hn, hret, hl⟩ with
  | found hs u hu done parts hd hf =>
    obtain ⟨part, hpart, hb⟩ := List.mem_flatten.1 hb
    obtain ⟨j, hj, v, hv, ej, hej, hgo, hfree⟩ := forall₂_right hf hpart
    obtain ⟨-, a', ha', hsame, -⟩ := gpaOne_sound hgo hb
    obtain ⟨us, hus, hsub⟩ := h.upto hv
    have htr := Trace.append .refl hcall hus
    obtain ⟨hi', e', he', hgr⟩ := trace_grown hr htr (fun u hu => by
      rw [List.mem_append] at hu
      rcases hu with hu | hu
      · simp at hu; rw [hu]; exact h0
      · exact ht u (hsub u hu)) hi he
    obtain ⟨-, key, hg⟩ := reachable_good (Steps.reachable hr htr.steps)
    -- the entry that was read is the one of the account
    have hnd : ej ≠ dead := by rintro rfl; cases c <;> simp [dead, ByCommitment.get, BMap.lastVal] at ha'
    have hkj : key j = pk := by
      rcases hg.entry j ej hej with h | ⟨h, -⟩
      · exact absurd h hnd
      · rw [← h.get_pubkey ha', ← hsame.pubkey, hpk]
    have hji : j = i := by
      rcases hg.own j ej hej with h | h | ⟨x, hx⟩ | ⟨x, hx⟩
      · exact absurd h hnd
      · rw [hkj, hi'] at h; cases h; rfl
      · have hp := hg.pcs x
        cases hq : v.pc x <;> rw [hq] at hx hp <;> simp only [Pc.making, reduceCtorEq, Option.some.injEq] at hx <;> subst hx
        all_goals
          obtain ⟨-, h1, h2, -⟩ := hp
          rw [← h2, hkj, hi'] at h1; cases h1
      · exfalso
        cases hq : v.pc x <;> rw [hq] at hx <;> simp only [Pc.clearing, reduceCtorEq, Option.some.injEq] at hx
        subst hx
        exact hfree x (by rw [hq]; rfl)
    subst hji
    rw [hej] at he'; cases he'
    obtain ⟨a'', ha'', hold⟩ := hgr c a ha
    rw [ha'] at ha''; cases ha''
    simp only [Older, hsame.slot, hsame.wv]
    exact hold

/-- **C141**. Queries never go back either: what a later `get_program_accounts` call shows of the account is not older than what
`get_account` showed for the same commitment. -/
theorem C141_queries_do_not_go_back (E : Conc.Env) (t t' : Nat) (pk p : Pubkey) (fs : Option (List AccountFilterType)) (c : Commitment)
    (w0 w1 w2 w3 : Conc.World) (vs us vs' : List Conc.World) (a b : AccountData) (l : List AccountData) (hr : Conc.Reachable E w0)
    (h1 : During E t (.get pk c) w0 vs (.account (some a)) w1) (h2 : Trace E w1 us w2)
    (h3 : During E t' (.gpa p fs c) w2 vs' (.accounts (.ok l)) w3) (ht : TrackedIn pk (vs ++ us ++ vs')) (hb : b ∈ l)
    (hpk : b.pubkey = pk) : ¬ Older b a := by
  obtain ⟨hr2, i, e, a2, hi, he, ha, hold⟩ := get_then hr h1 h2 (fun v hv => ht v (by simp [hv])) (fun v hv => ht v (by simp [hv]))
  exact notOlder_trans hold (query_later hr2 h3 (ht w2 (by simp [h2.last])) (fun u hu => ht u (by simp [hu])) hi he ha hb hpk)

/-- **C141**. Queries miss no update either: what a `get_program_accounts` call for processed that is made after an update has
returned shows of the account is not older than the update; for every commitment if the update was submitted as finalized. -/
theorem C141_queries_show_updates (E : Conc.Env) (t t' : Nat) (a : AccountData) (p : Pubkey) (fs : Option (List AccountFilterType))
    (c d : Commitment) (w0 w1 w2 w3 : Conc.World) (vs us vs' : List Conc.World) (b : AccountData) (l : List AccountData) (q : Reply)
    (hr : Conc.Reachable E w0) (hd : d = .processed ∨ c = .finalized) (h1 : During E t (.update a c) w0 vs q w1)
    (h2 : Trace E w1 us w2) (h3 : During E t' (.gpa p fs d) w2 vs' (.accounts (.ok l)) w3) (ht : TrackedIn a.pubkey (us ++ vs'))
    (hb : b ∈ l) (hpk : b.pubkey = a.pubkey) : ¬ Older b a := by
  obtain ⟨hr2, i, e, a2, hi, he, ha, hold⟩ := update_then hr hd h1 h2 (fun v hv => ht v (by simp [hv]))
  exact notOlder_trans hold (query_later hr2 h3 (ht w2 (by simp [h2.last])) (fun u hu => ht u (by simp [hu])) hi he ha hb hpk)

/-! ## An execution -/

/-- Thread 1 has looked up `alice`; thread 0 has begun to update it. -/
def lookedUp : List Move := firstUpdate ++ [.call 1 (.get Toy.alice .processed)] ++ [.go 1]

/-- Thread 1 returns the first state in the middle of the update. -/
def readEarly : List Move := lookedUp ++ [.call 0 (.update alice2 .processed)] ++ [.go 0, .go 0, .go 1] ++ [.go 1]

/-- The update returns. -/
def updatedThen : List Move := readEarly ++ gos 0 5

/-- Thread 1 reads again. -/
def readAgain : List Move := updatedThen ++ [.call 1 (.get Toy.alice .processed)] ++ gos 1 2 ++ [.go 1]

example : (played oneShard 2 progOnly readAgain).log = [(0, .call (.update alice1 .finalized)), (0, .ret (.updated true)),
    (1, .call (.get Toy.alice .processed)), (0, .call (.update alice2 .processed)), (1, .ret (.account (some alice1))),
    (0, .ret (.updated true)), (1, .call (.get Toy.alice .processed)), (1, .ret (.account (some alice2)))] := rfl

/-- The states passed through by the first read, after it, by the second read, by the query, and by the update. -/
def moments1 : List Conc.World := moments oneShard 2 progOnly (firstUpdate ++ [.call 1 (.get Toy.alice .processed)])
  [.go 1, .call 0 (.update alice2 .processed), .go 0, .go 0, .go 1]
def moments2 : List Conc.World := moments oneShard 2 progOnly readEarly (gos 0 5)
def moments3 : List Conc.World :=
  moments oneShard 2 progOnly (updatedThen ++ [.call 1 (.get Toy.alice .processed)]) (gos 1 2)
def moments4 : List Conc.World :=
  moments oneShard 2 progOnly (updatedThen ++ [.call 1 (.gpa Toy.prog none .processed)]) (gos 1 6)
def moments5 : List Conc.World :=
  moments oneShard 2 progOnly (lookedUp ++ [.call 0 (.update alice2 .processed)]) ([.go 0, .go 0, .go 1, .go 1] ++ gos 0 4)

theorem tracked1 : moments1.all (fun v => v.st.containsKey Toy.alice) = true := by decide +kernel
theorem tracked2 : moments2.all (fun v => v.st.containsKey Toy.alice) = true := by decide +kernel
theorem tracked3 : moments3.all (fun v => v.st.containsKey Toy.alice) = true := by decide +kernel
theorem tracked4 : moments4.all (fun v => v.st.containsKey Toy.alice) = true := by decide +kernel
theorem tracked5 : (played oneShard 2 progOnly updatedThen).st.containsKey Toy.alice = true := by decide +kernel

theorem first_read : During oneShard 1 (.get Toy.alice .processed) (played oneShard 2 progOnly firstUpdate) moments1
    (.account (some alice1)) (played oneShard 2 progOnly readEarly) :=
  during_played (pre := firstUpdate) (mid := [.go 1, .call 0 (.update alice2 .processed), .go 0, .go 0, .go 1]) (m := .go 1)
    [(0, .call (.update alice2 .processed))] rfl rfl rfl (by simp) rfl

theorem between : Trace oneShard (played oneShard 2 progOnly readEarly) moments2 (played oneShard 2 progOnly updatedThen) :=
  trace_played (ms := readEarly) (mid := gos 0 5) rfl

theorem second_read : During oneShard 1 (.get Toy.alice .processed) (played oneShard 2 progOnly updatedThen) moments3
    (.account (some alice2)) (played oneShard 2 progOnly readAgain) :=
  during_played (pre := updatedThen) (mid := gos 1 2) (m := .go 1) [] rfl rfl rfl (by simp) rfl

/-- Thread 1 queries the program instead. -/
def queryAgain : List Move := updatedThen ++ [.call 1 (.gpa Toy.prog none .processed)] ++ gos 1 6 ++ [.go 1]

theorem then_query : During oneShard 1 (.gpa Toy.prog none .processed) (played oneShard 2 progOnly updatedThen) moments4
    (.accounts (.ok [alice2])) (played oneShard 2 progOnly queryAgain) :=
  during_played (pre := updatedThen) (mid := gos 1 6) (m := .go 1) [] rfl rfl rfl (by simp) rfl

theorem the_update : During oneShard 0 (.update alice2 .processed) (played oneShard 2 progOnly lookedUp) moments5 (.updated true)
    (played oneShard 2 progOnly updatedThen) :=
  during_played (pre := lookedUp) (mid := [.go 0, .go 0, .go 1, .go 1] ++ gos 0 4) (m := .go 0)
    [(1, .ret (.account (some alice1)))] rfl rfl rfl (by simp) rfl

theorem tracked_reads : TrackedIn Toy.alice (moments1 ++ moments2 ++ moments3) :=
  tracked_of (by rw [List.all_append, List.all_append, tracked1, tracked2, tracked3]; rfl)
theorem tracked_query : TrackedIn Toy.alice (moments1 ++ moments2 ++ moments4) :=
  tracked_of (by rw [List.all_append, List.all_append, tracked1, tracked2, tracked4]; rfl)
theorem tracked_update : TrackedIn Toy.alice ([played oneShard 2 progOnly updatedThen] ++ moments3) :=
  tracked_of (by rw [List.all_append, List.all_cons, List.all_nil, tracked5, tracked3]; rfl)
theorem tracked_update_query : TrackedIn Toy.alice ([played oneShard 2 progOnly updatedThen] ++ moments4) :=
  tracked_of (by rw [List.all_append, List.all_cons, List.all_nil, tracked5, tracked4]; rfl)

/-- The two reads are as the first theorem says. -/
example : ∃ a', ¬ Older a' alice1 ∧ Reply.account (some alice2) = .account (shown a') := by
  obtain ⟨a', h, -, -, h'⟩ := C141_reads_do_not_go_back oneShard 1 1 Toy.alice .processed _ _ _ _ _ _ _ _ _
    (played_reachable oneShard 2 progOnly firstUpdate) first_read between second_read tracked_reads
  exact ⟨a', h, h'⟩

/-- So are the update and the second read. -/
example : ∃ a', ¬ Older a' alice2 ∧ Reply.account (some alice2) = .account (shown a') := by
  obtain ⟨a', h, -, -, h'⟩ := C141_updates_are_not_lost oneShard 0 1 alice2 .processed .processed _ _ _ _ _ _ _ _ _
    (played_reachable oneShard 2 progOnly lookedUp) (.inl rfl) the_update .refl second_read tracked_update
  exact ⟨a', h, h'⟩

/-- The query after the read, and after the update. -/
example : ¬ Older alice2 alice1 :=
  C141_queries_do_not_go_back oneShard 1 1 Toy.alice Toy.prog none .processed _ _ _ _ _ _ _ _ alice2 [alice2]
    (played_reachable oneShard 2 progOnly firstUpdate) first_read between then_query tracked_query (by simp) rfl

example : ¬ Older alice2 alice2 :=
  C141_queries_show_updates oneShard 0 1 alice2 Toy.prog none .processed .processed _ _ _ _ _ _ _ alice2 [alice2] _
    (played_reachable oneShard 2 progOnly lookedUp) (.inl rfl) the_update .refl then_query tracked_update_query (by simp) rfl

/-- Thread 1 reads the account as finalized, before thread 0 updates it, and later as processed. -/
def moments0 : List Conc.World := moments oneShard 2 progOnly (firstUpdate ++ [.call 1 (.get Toy.alice .finalized)])
  [.go 1, .call 0 (.update alice2 .processed), .go 0, .go 0, .go 1]
def readFinalized : List Move := firstUpdate ++ [.call 1 (.get Toy.alice .finalized)] ++
  [.go 1, .call 0 (.update alice2 .processed), .go 0, .go 0, .go 1] ++ [.go 1]
def momentsB : List Conc.World := moments oneShard 2 progOnly readFinalized (gos 0 5)
def momentsC : List Conc.World :=
  moments oneShard 2 progOnly (readFinalized ++ gos 0 5 ++ [.call 1 (.get Toy.alice .processed)]) (gos 1 2)

theorem finalized_read : During oneShard 1 (.get Toy.alice .finalized) (played oneShard 2 progOnly firstUpdate) moments0
    (.account (some alice1)) (played oneShard 2 progOnly readFinalized) :=
  during_played (pre := firstUpdate) (mid := [.go 1, .call 0 (.update alice2 .processed), .go 0, .go 0, .go 1]) (m := .go 1)
    [(0, .call (.update alice2 .processed))] rfl rfl rfl (by simp) rfl
theorem betweenB : Trace oneShard (played oneShard 2 progOnly readFinalized) momentsB
    (played oneShard 2 progOnly (readFinalized ++ gos 0 5)) := trace_played (ms := readFinalized) (mid := gos 0 5) rfl
theorem processed_read : During oneShard 1 (.get Toy.alice .processed) (played oneShard 2 progOnly (readFinalized ++ gos 0 5)) momentsC
    (.account (some alice2))
    (played oneShard 2 progOnly (readFinalized ++ gos 0 5 ++ [.call 1 (.get Toy.alice .processed)] ++ gos 1 2 ++ [.go 1])) :=
  during_played (pre := readFinalized ++ gos 0 5) (mid := gos 1 2) (m := .go 1) [] rfl rfl rfl (by simp) rfl

example : ∃ a', 1 ≤ a'.slot ∧ Reply.account (some alice2) = .account (shown a') := by
  obtain ⟨a', h, -, -, h'⟩ := C141_weaker_commitments_are_not_behind oneShard 1 1 Toy.alice .finalized .processed (by decide) _ _ _ _ _ _ _
    alice1 _ (played_reachable oneShard 2 progOnly firstUpdate) finalized_read betweenB processed_read
    (tracked_of (by
      rw [List.all_append, List.all_append, show moments0.all (fun v => v.st.containsKey Toy.alice) = true by decide +kernel,
        show momentsB.all (fun v => v.st.containsKey Toy.alice) = true by decide +kernel,
        show momentsC.all (fun v => v.st.containsKey Toy.alice) = true by decide +kernel]; rfl))
  exact ⟨a', h, h'⟩

end LAM.Props
