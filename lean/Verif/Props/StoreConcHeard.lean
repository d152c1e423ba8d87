import Verif.Lemmas.StoreConcHeard
import Verif.Props.StoreConcSettled
/-!
# Concurrent calls of the in-memory account store: C151

What reads show as confirmed or finalized is reported by a notification, or was submitted too late for it.
-/
namespace LAM.Props
open Spec Store Conc

/-- A state that a call has seen is known when it returns. -/
private theorem seen_known {F : Filters} {E : Conc.Env} {w0 w1 w w' v : Conc.World} {vs : List Conc.World} (hr : Conc.Reachable E w0)
    (hcall : Conc.Step E w0 w1) (h : Trace E w1 vs w) (hret : Conc.Step E w w') (hv : v ∈ vs) {i : Nat} {e : ByCommitment}
    (he : v.st.accounts[i]? = some e) {c : Commitment} (hc : c ≠ .processed) {a : AccountData} (ha : e.get c = some a) :
    Conc.Known F c w' a := by
  obtain ⟨us, hus, -⟩ := h.upto hv
  obtain ⟨us', hus', -⟩ := h.from hv
  have hrv := Steps.reachable hr (Steps.head hcall hus.steps)
  have hk := (reachable_known (F := F) hrv).2 i e he
  refine Known.steps hrv ?_ (.tail hus'.steps hret)
  cases c with
  | processed => exact absurd rfl hc
  | confirmed => exact hk.1 a ha
  | finalized => exact hk.2 a ha

private theorem get_known {F : Filters} {E : Conc.Env} {t : Nat} {pk : Pubkey} {c : Commitment} {w0 w' : Conc.World}
    {vs : List Conc.World} {a : AccountData} (hr : Conc.Reachable E w0)
    (h : During E t (.get pk c) w0 vs (.account (some a)) w') (hc : c ≠ .processed) :
    Conc.Reachable E w' ∧ Conc.Known F c w' a := by
  obtain ⟨w1, w, hcall, hl1, h, hn, hret, hl⟩ := h
  obtain ⟨v, hv, o, hget, ho⟩ := C87_get_account_atomic E t pk c vs _ ⟨w0, w1, w, w', hr, hcall, hl1, h, hn, hret, hl⟩
  cases ho
  refine ⟨Steps.reachable hr (.tail (Steps.head hcall h.steps) hret), ?_⟩
  obtain ⟨us, hus, -⟩ := h.upto hv
  have hrv := Steps.reachable hr (Steps.head hcall hus.steps)
  cases hi : v.st.index pk with
  | none => simp [getAccount, hi] at hget
  | some i =>
    obtain ⟨-, key, hg⟩ := reachable_good hrv
    obtain ⟨-, e, he, -⟩ := hg.idx pk i hi
    obtain ⟨hga, -⟩ := getAccount_some hi he hget
    exact seen_known hr hcall h hret hv he hc hga

private theorem known_rest {F : Filters} {E : Conc.Env} {w : Conc.World} {c : Commitment} {a : AccountData} (hr : Conc.Reachable E w)
    (hn : NoWriter w) (h : Conc.Known F c w a) : HeardOf c w.log a ∨ LateUpdate F c w.log a := by
  rcases h.told hr with h | h | ⟨t, info, c', h, -⟩ | ⟨t, d, h, -⟩
  · exact .inl h
  · exact .inr h
  · exact absurd (hn t _ h) (by simp [Conc.Call.modifies])
  · exact absurd (hn t _ h) (by simp [Conc.Call.modifies])

/-- **C151**. A state that `get_account` returns as confirmed or finalized, whatever other calls are executed meanwhile: as soon as no
update and no notification is being executed, it is in the report of a notification of that commitment or a higher one, or its slot
could already be considered to have that commitment when its update returned. -/
theorem C151_reads (E : Conc.Env) (F : Filters) (t : Nat) (pk : Pubkey) (c : Commitment) (w0 w' w2 : Conc.World) (vs : List Conc.World)
    (a : AccountData) (hr : Conc.Reachable E w0) (h : During E t (.get pk c) w0 vs (.account (some a)) w') (hc : c ≠ .processed)
    (hs : Conc.Steps E w' w2) (hn : NoWriter w2) : HeardOf c w2.log a ∨ LateUpdate F c w2.log a := by
  obtain ⟨hr', hk⟩ := get_known (F := F) hr h hc
  exact known_rest (Steps.reachable hr' hs) hn (hk.steps hr' hs)

/-- **C151**. At the moment it is returned, this is so, or a notification of that commitment or a higher one, or its late update, is still
being executed. -/
theorem C151_meanwhile (E : Conc.Env) (F : Filters) (t : Nat) (pk : Pubkey) (c : Commitment) (w0 w' : Conc.World) (vs : List Conc.World)
    (a : AccountData) (hr : Conc.Reachable E w0) (h : During E t (.get pk c) w0 vs (.account (some a)) w') (hc : c ≠ .processed) :
    HeardOf c w'.log a ∨ LateUpdate F c w'.log a ∨ Telling F c w'.log a := by
  obtain ⟨hr', hk⟩ := get_known (F := F) hr h hc
  exact hk.told hr'

/-- **C151**. The same of the states that `get_program_accounts` returns. -/
theorem C151_queries (E : Conc.Env) (F : Filters) (t : Nat) (p : Pubkey) (fs : Option (List AccountFilterType)) (c : Commitment)
    (w0 w' w2 : Conc.World) (vs : List Conc.World) (l : List AccountData) (b : AccountData) (hr : Conc.Reachable E w0)
    (h : During E t (.gpa p fs c) w0 vs (.accounts (.ok l)) w') (hc : c ≠ .processed) (hb : b ∈ l) (hs : Conc.Steps E w' w2)
    (hn : NoWriter w2) : ∃ a, SameAccount E.codecs a b ∧ (HeardOf c w2.log a ∨ LateUpdate F c w2.log a) := by
  obtain ⟨w1, w, hcall, hl1, h, hnt, hret, hl⟩ := h
  have hr' : Conc.Reachable E w' := Steps.reachable hr (.tail (Steps.head hcall h.steps) hret)
  cases gpa_during ⟨w0, w1, w, w', hr, hcall, hl1, h, hnt, hret, hl⟩ with
  | found hsu u hu done parts hd hf =>
    obtain ⟨part, hpart, hb⟩ := List.mem_flatten.1 hb
    obtain ⟨j, hj, v, hv, e, he, hgo, -⟩ := forall₂_right hf hpart
    obtain ⟨-, a, ha, hsame, -⟩ := gpaOne_sound hgo hb
    have hk : Conc.Known F c w' a := seen_known hr hcall h hret hv he hc ha
    exact ⟨a, hsame, known_rest (Steps.reachable hr' hs) hn (hk.steps hr' hs)⟩

/-- **C151**. While no update and no notification is being executed, it is so of what the store shows. -/
theorem C151_at_rest (E : Conc.Env) (F : Filters) (w : Conc.World) (hr : Conc.Reachable E w) (hn : NoWriter w) (pk : Pubkey)
    (c : Commitment) (a : AccountData) (hc : c ≠ .processed) (h : w.st.getAccount pk c = .ok (some a)) :
    HeardOf c w.log a ∨ LateUpdate F c w.log a := by
  cases hi : w.st.index pk with
  | none => simp [getAccount, hi] at h
  | some i =>
    obtain ⟨-, key, hg⟩ := reachable_good hr
    obtain ⟨-, e, he, -⟩ := hg.idx pk i hi
    obtain ⟨hga, -⟩ := getAccount_some hi he h
    have hk := (reachable_known (F := F) hr).2 i e he
    refine known_rest hr hn ?_
    cases c with
    | processed => exact absurd rfl hc
    | confirmed => exact hk.1 a hga
    | finalized => exact hk.2 a hga

/-! ## Cases in which they apply -/

/-- The read of `read_while_confirming`. -/
def confirmedThen : List Move :=
  meanwhile ++ [.call 1 (.get Toy.alice .confirmed)] ++ readWhileConfirming ++ [.go 1]

/-- Slot 1 was confirmed before; when the read returns, the notification of slot 2 has not; afterwards the state is reported. -/
example : (played oneShard 2 progOnly (confirmedThen ++ gos 0 1)).log =
    [(0, .call (.update alice1 .processed)), (0, .ret (.updated true)), (0, .call (.process ⟨1, 0, 0⟩ .confirmed)),
      (1, .call (.update alice2 .processed)), (0, .ret (.reported [alice1])), (1, .ret (.updated true)),
      (1, .call (.get Toy.alice .confirmed)), (0, .call (.process ⟨2, 1, 0⟩ .confirmed)), (1, .ret (.account (some alice2))),
      (0, .ret (.reported [alice2]))] := rfl

theorem confirmed_then_rest : NoWriter (played oneShard 2 progOnly (confirmedThen ++ gos 0 1)) :=
  fun t k h => absurd h (quiet_played rfl rfl rfl t k)

example : HeardOf .confirmed (played oneShard 2 progOnly (confirmedThen ++ gos 0 1)).log alice2 ∨
    LateUpdate progOnly .confirmed (played oneShard 2 progOnly (confirmedThen ++ gos 0 1)).log alice2 :=
  C151_reads oneShard progOnly 1 Toy.alice .confirmed _ _ _ _ alice2 (played_reachable oneShard 2 progOnly meanwhile) read_while_confirming
    (by simp) (played_steps (ms := confirmedThen) rfl) confirmed_then_rest

/-- A newer state of slot 1 after that slot was confirmed. -/
def alice1late : AccountData := Toy.acct Toy.alice Toy.prog 15 1 9

def lateThen : List Move := .call 0 (.update alice1 .processed) :: gos 0 7 ++ .call 0 (.process ⟨1, 0, 0⟩ .confirmed) :: gos 0 5 ++
  .call 0 (.update alice1late .processed) :: gos 0 7

/-- It is shown as confirmed and in no report. -/
example : NoWriter (played oneShard 2 progOnly lateThen) ∧
    (played oneShard 2 progOnly lateThen).st.getAccount Toy.alice .confirmed = .ok (some alice1late) ∧
    (played oneShard 2 progOnly lateThen).log =
      [(0, .call (.update alice1 .processed)), (0, .ret (.updated true)), (0, .call (.process ⟨1, 0, 0⟩ .confirmed)),
        (0, .ret (.reported [alice1])), (0, .call (.update alice1late .processed)), (0, .ret (.updated true))] :=
  ⟨fun t k h => absurd h (quiet_played rfl rfl rfl t k), rfl, rfl⟩

/-- A query instead of the read. -/
example : ∃ a, SameAccount oneShard.codecs a alice2 ∧
    (HeardOf .confirmed (played oneShard 2 progOnly
        (meanwhile ++ [.call 1 (.gpa Toy.prog none .confirmed)] ++ queryWhileConfirming ++ [.go 1] ++ gos 0 1)).log a ∨
      LateUpdate progOnly .confirmed (played oneShard 2 progOnly
        (meanwhile ++ [.call 1 (.gpa Toy.prog none .confirmed)] ++ queryWhileConfirming ++ [.go 1] ++ gos 0 1)).log a) :=
  C151_queries oneShard progOnly 1 Toy.prog none .confirmed _ _ _ _ [alice2] alice2 (played_reachable oneShard 2 progOnly meanwhile)
    query_while_confirming (by simp) (by simp) (played_steps rfl) (fun t k h => absurd h (quiet_played rfl rfl rfl t k))

end LAM.Props
