import Verif.Lemmas.StoreConcSettled
import Verif.Props.StoreConcWait
import Verif.Props.StoreConcTime
/-!
# Concurrent calls of the in-memory account store: C142

Confirmed and finalized states are of slots that were confirmed and finalized, whatever other threads do.
-/
namespace LAM.Props
open Spec Store Conc

/-- A state that a call has seen is of a slot that may have the commitment. -/
private theorem seen_due {F : Filters} {E : Conc.Env} {w0 w1 w w' v : Conc.World} {vs : List Conc.World} (hr : Conc.Reachable E w0)
    (hcall : Conc.Step E w0 w1) (h : Trace E w1 vs w) (hret : Conc.Step E w w') (hv : v ∈ vs) {i : Nat} {e : ByCommitment}
    (he : v.st.accounts[i]? = some e) : EntryDue F w'.log e := by
  obtain ⟨us, hus, -⟩ := h.upto hv
  obtain ⟨us', hus', -⟩ := h.from hv
  have hrv := Steps.reachable hr (Steps.head hcall hus.steps)
  obtain ⟨l, hl⟩ := steps_log hrv (.tail hus'.steps hret)
  exact ((reachable_traced hrv).entries i e he).mono fun x hx => by rw [hl]; simp [hx]

private theorem get_due {F : Filters} {E : Conc.Env} {t : Nat} {pk : Pubkey} {c : Commitment} {w0 w' : Conc.World}
    {vs : List Conc.World} {a : AccountData} (hr : Conc.Reachable E w0)
    (h : During E t (.get pk c) w0 vs (.account (some a)) w') (hc : c ≠ .processed) : Due F w'.log a.slot c := by
  obtain ⟨w1, w, hcall, hl1, h, hn, hret, hl⟩ := h
  obtain ⟨v, hv, o, hget, ho⟩ := C87_get_account_atomic E t pk c vs _ ⟨w0, w1, w, w', hr, hcall, hl1, h, hn, hret, hl⟩
  cases ho
  obtain ⟨us, hus, -⟩ := h.upto hv
  have hrv := Steps.reachable hr (Steps.head hcall hus.steps)
  cases hi : v.st.index pk with
  | none => simp [getAccount, hi] at hget
  | some i =>
    obtain ⟨-, key, hg⟩ := reachable_good hrv
    obtain ⟨-, e, he, -⟩ := hg.idx pk i hi
    obtain ⟨hga, -⟩ := getAccount_some hi he hget
    have hd : EntryDue F w'.log e := seen_due hr hcall h hret hv he
    cases c with
    | processed => exact absurd rfl hc
    | confirmed => exact hd.1 a hga
    | finalized => exact hd.2 a hga

private theorem gpa_due {F : Filters} {E : Conc.Env} {t : Nat} {p : Pubkey} {fs : Option (List AccountFilterType)} {c : Commitment}
    {w0 w' : Conc.World} {vs : List Conc.World} {l : List AccountData} {a : AccountData} (hr : Conc.Reachable E w0)
    (h : During E t (.gpa p fs c) w0 vs (.accounts (.ok l)) w') (hc : c ≠ .processed) (ha : a ∈ l) : Due F w'.log a.slot c := by
  obtain ⟨w1, w, hcall, hl1, h, hn, hret, hl⟩ := h
  cases gpa_during ⟨w0, w1, w, w', hr, hcall, hl1, h, hn, hret, hl⟩ with
  | found hs u hu done parts hd hf =>
    obtain ⟨part, hpart, hb⟩ := List.mem_flatten.1 ha
    obtain ⟨j, hj, v, hv, e, he, hgo, -⟩ := forall₂_right hf hpart
    obtain ⟨-, a', ha', hsame, -⟩ := gpaOne_sound hgo hb
    have hd : EntryDue F w'.log e := seen_due hr hcall h hret hv he
    rw [hsame.slot]
    cases c with
    | processed => exact absurd rfl hc
    | confirmed => exact hd.1 a' ha'
    | finalized => exact hd.2 a' ha'

private theorem reported_due {F : Filters} {E : Conc.Env} {t : Nat} {info : SlotInfo} {c : Commitment}
    {w0 w' : Conc.World} {vs : List Conc.World} {l : List AccountData} {a : AccountData} (hr : Conc.Reachable E w0)
    (h : During E t (.process info c) w0 vs (.reported l) w') (ha : a ∈ l) : Due F w'.log a.slot c := by
  obtain ⟨w1, w, hcall, hl1, h, hn, hret, hl⟩ := h
  have hr1 := Steps.reachable hr (.tail (.refl _) hcall)
  have hrw := Steps.reachable hr1 h.steps
  obtain ⟨c', hp⟩ := reported_from hret hl
  obtain ⟨k, hk, hlast⟩ := (reachable_log hrw).opened t (by rw [hp]; simp)
  obtain ⟨m, hm⟩ := steps_log hr1 h.steps
  have : k = .process info c := lastCall_during (w0log := w0.log) hlast ⟨m, by rw [hm, hl1]; simp, hn m hm⟩
  rw [hp, this] at hk
  obtain ⟨info', hk⟩ := hk
  cases hk
  have hd := (reachable_traced (F := F) hrw).pcs t
  rw [hp] at hd
  exact (hd.2 a ha).mono fun x hx => by rw [hl]; simp [hx]

/-- **C142**. What a `get_account` call for confirmed returns is a state of a slot that a call made before it returned has reported
confirmed (or finalized), or of an announced ancestor of such a slot, whatever calls are executed at the same time. -/
theorem C142_confirmed_reads (E : Conc.Env) (F : Filters) (t : Nat) (pk : Pubkey) (w0 w' : Conc.World) (vs : List Conc.World)
    (a : AccountData) (hr : Conc.Reachable E w0) (h : During E t (.get pk .confirmed) w0 vs (.account (some a)) w') :
    Settled .confirmed (told F w'.log) a.slot := (get_due hr h (by simp)).1 (by simp)

/-- **C142**. So is everything a `get_program_accounts` call for confirmed returns. -/
theorem C142_confirmed_queries (E : Conc.Env) (F : Filters) (t : Nat) (p : Pubkey) (fs : Option (List AccountFilterType))
    (w0 w' : Conc.World) (vs : List Conc.World) (l : List AccountData) (a : AccountData) (hr : Conc.Reachable E w0)
    (h : During E t (.gpa p fs .confirmed) w0 vs (.accounts (.ok l)) w') (ha : a ∈ l) :
    Settled .confirmed (told F w'.log) a.slot := (gpa_due hr h (by simp) ha).1 (by simp)

/-- **C142**. What is returned for finalized is of a slot reported finalized, or linked to such a slot by announced parents and by the
parents that the code makes up when it confirms a slot below a gap (without the latter the claim is false already for one thread,
see C17). -/
theorem C142_finalized_reads (E : Conc.Env) (F : Filters) (t : Nat) (pk : Pubkey) (w0 w' : Conc.World) (vs : List Conc.World)
    (a : AccountData) (hr : Conc.Reachable E w0) (h : During E t (.get pk .finalized) w0 vs (.account (some a)) w') :
    ∃ x, Reported .finalized (told F w'.log) x ∧ Linked (told F w'.log) x a.slot := (get_due hr h (by simp)).2 rfl

theorem C142_finalized_queries (E : Conc.Env) (F : Filters) (t : Nat) (p : Pubkey) (fs : Option (List AccountFilterType))
    (w0 w' : Conc.World) (vs : List Conc.World) (l : List AccountData) (a : AccountData) (hr : Conc.Reachable E w0)
    (h : During E t (.gpa p fs .finalized) w0 vs (.accounts (.ok l)) w') (ha : a ∈ l) :
    ∃ x, Reported .finalized (told F w'.log) x ∧ Linked (told F w'.log) x a.slot := (gpa_due hr h (by simp) ha).2 rfl

/-- **C142**. What a notification reports is likewise of a slot that may be considered confirmed, and of one that may be considered
finalized if that is what it notifies. -/
theorem C142_reports (E : Conc.Env) (F : Filters) (t : Nat) (info : SlotInfo) (c : Commitment) (w0 w' : Conc.World)
    (vs : List Conc.World) (l : List AccountData) (a : AccountData) (hr : Conc.Reachable E w0)
    (h : During E t (.process info c) w0 vs (.reported l) w') (ha : a ∈ l) :
    (c ≠ .processed → Settled .confirmed (told F w'.log) a.slot) ∧
    (c = .finalized → ∃ x, Reported .finalized (told F w'.log) x ∧ Linked (told F w'.log) x a.slot) := reported_due hr h ha

/-! ## A case in which they apply -/

/-- While thread 0 notifies that slot 2 is confirmed, thread 1 reads the account as confirmed. -/
def readWhileConfirming : List Move := [.go 1, .call 0 (.process ⟨2, 1, 0⟩ .confirmed)] ++ gos 0 4 ++ [.go 1]

/-- It sees the state of slot 2, although the notification has not returned. -/
theorem read_while_confirming : During oneShard 1 (.get Toy.alice .confirmed) (played oneShard 2 progOnly meanwhile)
    (moments oneShard 2 progOnly (meanwhile ++ [.call 1 (.get Toy.alice .confirmed)]) readWhileConfirming) (.account (some alice2))
    (played oneShard 2 progOnly (meanwhile ++ [.call 1 (.get Toy.alice .confirmed)] ++ readWhileConfirming ++ [.go 1])) :=
  during_played (pre := meanwhile) (mid := readWhileConfirming) (m := .go 1) [(0, .call (.process ⟨2, 1, 0⟩ .confirmed))]
    rfl rfl rfl (by simp) rfl

example : Settled .confirmed (told progOnly (played oneShard 2 progOnly
    (meanwhile ++ [.call 1 (.get Toy.alice .confirmed)] ++ readWhileConfirming ++ [.go 1])).log) 2 :=
  C142_confirmed_reads oneShard progOnly 1 Toy.alice _ _ _ alice2 (played_reachable oneShard 2 progOnly meanwhile) read_while_confirming

/-- While thread 0 notifies that slot 2 is confirmed, thread 1 queries the program. -/
def queryWhileConfirming : List Move := [.go 1, .call 0 (.process ⟨2, 1, 0⟩ .confirmed)] ++ gos 0 4 ++ gos 1 5

theorem query_while_confirming : During oneShard 1 (.gpa Toy.prog none .confirmed) (played oneShard 2 progOnly meanwhile)
    (moments oneShard 2 progOnly (meanwhile ++ [.call 1 (.gpa Toy.prog none .confirmed)]) queryWhileConfirming)
    (.accounts (.ok [alice2]))
    (played oneShard 2 progOnly (meanwhile ++ [.call 1 (.gpa Toy.prog none .confirmed)] ++ queryWhileConfirming ++ [.go 1])) :=
  during_played (pre := meanwhile) (mid := queryWhileConfirming) (m := .go 1) [(0, .call (.process ⟨2, 1, 0⟩ .confirmed))]
    rfl rfl rfl (by simp) rfl

example : Settled .confirmed (told progOnly (played oneShard 2 progOnly
    (meanwhile ++ [.call 1 (.gpa Toy.prog none .confirmed)] ++ queryWhileConfirming ++ [.go 1])).log) 2 :=
  C142_confirmed_queries oneShard progOnly 1 Toy.prog none _ _ _ [alice2] alice2 (played_reachable oneShard 2 progOnly meanwhile)
    query_while_confirming (by simp)

/-- Slot 2 is finalized; then thread 1 reads the account. -/
def finalized2nd : List Move := meanwhile ++ .call 0 (.process ⟨2, 1, 0⟩ .finalized) :: gos 0 5

theorem read_finalized : During oneShard 1 (.get Toy.alice .finalized) (played oneShard 2 progOnly finalized2nd)
    (moments oneShard 2 progOnly (finalized2nd ++ [.call 1 (.get Toy.alice .finalized)]) (gos 1 2)) (.account (some alice2))
    (played oneShard 2 progOnly (finalized2nd ++ [.call 1 (.get Toy.alice .finalized)] ++ gos 1 2 ++ [.go 1])) :=
  during_played (pre := finalized2nd) (mid := gos 1 2) (m := .go 1) [] rfl rfl rfl (by simp) rfl

example : ∃ x, Reported .finalized (told progOnly (played oneShard 2 progOnly
    (finalized2nd ++ [.call 1 (.get Toy.alice .finalized)] ++ gos 1 2 ++ [.go 1])).log) x ∧
    Linked (told progOnly (played oneShard 2 progOnly
      (finalized2nd ++ [.call 1 (.get Toy.alice .finalized)] ++ gos 1 2 ++ [.go 1])).log) x 2 :=
  C142_finalized_reads oneShard progOnly 1 Toy.alice _ _ _ alice2 (played_reachable oneShard 2 progOnly finalized2nd) read_finalized

theorem query_finalized : During oneShard 1 (.gpa Toy.prog none .finalized) (played oneShard 2 progOnly finalized2nd)
    (moments oneShard 2 progOnly (finalized2nd ++ [.call 1 (.gpa Toy.prog none .finalized)]) (gos 1 6)) (.accounts (.ok [alice2]))
    (played oneShard 2 progOnly (finalized2nd ++ [.call 1 (.gpa Toy.prog none .finalized)] ++ gos 1 6 ++ [.go 1])) :=
  during_played (pre := finalized2nd) (mid := gos 1 6) (m := .go 1) [] rfl rfl rfl (by simp) rfl

example : ∃ x, Reported .finalized (told progOnly (played oneShard 2 progOnly
    (finalized2nd ++ [.call 1 (.gpa Toy.prog none .finalized)] ++ gos 1 6 ++ [.go 1])).log) x ∧
    Linked (told progOnly (played oneShard 2 progOnly
      (finalized2nd ++ [.call 1 (.gpa Toy.prog none .finalized)] ++ gos 1 6 ++ [.go 1])).log) x 2 :=
  C142_finalized_queries oneShard progOnly 1 Toy.prog none _ _ _ [alice2] alice2 (played_reachable oneShard 2 progOnly finalized2nd)
    query_finalized (by simp)

/-- The notification reports the state of slot 2. -/
theorem notify_second : During oneShard 0 (.process ⟨2, 1, 0⟩ .finalized) (played oneShard 2 progOnly meanwhile)
    (moments oneShard 2 progOnly (meanwhile ++ [.call 0 (.process ⟨2, 1, 0⟩ .finalized)]) (gos 0 4)) (.reported [alice2])
    (played oneShard 2 progOnly (meanwhile ++ [.call 0 (.process ⟨2, 1, 0⟩ .finalized)] ++ gos 0 4 ++ [.go 0])) :=
  during_played (pre := meanwhile) (mid := gos 0 4) (m := .go 0) [] rfl rfl rfl (by simp) rfl

example : Settled .confirmed (told progOnly (played oneShard 2 progOnly
    (meanwhile ++ [.call 0 (.process ⟨2, 1, 0⟩ .finalized)] ++ gos 0 4 ++ [.go 0])).log) 2 :=
  (C142_reports oneShard progOnly 0 ⟨2, 1, 0⟩ .finalized _ _ _ [alice2] alice2 (played_reachable oneShard 2 progOnly meanwhile)
    notify_second (by simp)).1 (by simp)

end LAM.Props
