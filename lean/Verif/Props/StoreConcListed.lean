import Verif.Lemmas.StoreConcListed
import Verif.Props.StoreConcTime
/-!
# Concurrent calls of the in-memory account store: C155

An account that stays with its owner is in every answer for that owner.
-/
namespace LAM.Props
open Spec Store Conc

/-- **C155**. Once an update of an account that stays with its owner has returned true, the account is tracked at every later moment,
whatever calls are executed and however the filters are changed. -/
theorem C155_tracked (E : Conc.Env) (t : Nat) (a : AccountData) (c : Commitment) (p : Pubkey) (w0 w1 w2 : Conc.World)
    (vs : List Conc.World) (hr : Conc.Reachable E w0) (h1 : During E t (.update a c) w0 vs (.updated true) w1)
    (h2 : Conc.Steps E w1 w2) (ho : OwnedBy a.pubkey p w2.log) : w2.st.containsKey a.pubkey = true := by
  obtain ⟨w0', w, hcall, hl1, h, hn, hret, hl⟩ := h1
  have hrw : Conc.Reachable E w := Steps.reachable hr (Steps.head hcall h.steps)
  have hr1 : Conc.Reachable E w1 := Steps.reachable hrw (.tail (.refl _) hret)
  have how : OwnedBy a.pubkey p w.log := (ho.before hr1 h2).before hrw (.tail (.refl _) hret)
  have hc : LastCall w.log t (.update a c) := by
    obtain ⟨l, hl'⟩ := steps_log (Steps.reachable hr (.tail (.refl _) hcall)) h.steps
    exact ⟨w0.log, l, by rw [hl', hl1, List.append_assoc]; rfl, hn l hl'⟩
  obtain ⟨i, hi⟩ := updated_tracked hrw hret hc hl how
  simp [containsKey, listed_stays hr1 h2 ho hi]

/-- **C155**. At every moment, an account that stays with its owner is in the set of this owner if it is tracked. -/
theorem C155_listed (E : Conc.Env) (w : Conc.World) (hr : Conc.Reachable E w) (pk p : Pubkey) (ho : OwnedBy pk p w.log) (i : Nat)
    (hi : w.st.index pk = some i) : i ∈ (w.st.byOwner p).getD [] := (reachable_listed hr ho).idx i hi

/-- **C155**. A `get_account` call made after the update returned shows the account, in a state that is not older. -/
theorem C155_read (E : Conc.Env) (t t' : Nat) (a : AccountData) (p : Pubkey) (c d : Commitment) (w0 w1 w2 w3 : Conc.World)
    (vs us vs' : List Conc.World) (r : Reply) (hr : Conc.Reachable E w0) (hd : d = .processed ∨ c = .finalized)
    (h1 : During E t (.update a c) w0 vs (.updated true) w1) (h2 : Trace E w1 us w2) (h3 : During E t' (.get a.pubkey d) w2 vs' r w3)
    (ho : OwnedBy a.pubkey p w3.log) (hp : ∀ b, Submitted w3.log b → b.pubkey = a.pubkey → 0 < b.account.lamports) :
    ∃ b, r = .account (some b) ∧ b.pubkey = a.pubkey ∧ ¬ Older b a := by
  have h3' := h3
  obtain ⟨w2', w, hcall, hl1, h, hn, hret, hl⟩ := h3
  obtain ⟨w0', w', hcall', hl1', h', hn', hret', hl'⟩ := id h1
  have hr1 : Conc.Reachable E w1 := Steps.reachable hr ((Steps.head hcall' h'.steps).tail hret')
  have ht : TrackedIn a.pubkey (us ++ vs') := by
    intro v hv
    have hs : Conc.Steps E w1 v ∧ Conc.Steps E v w3 := by
      rw [List.mem_append] at hv
      rcases hv with hv | hv
      · obtain ⟨_, h4, -⟩ := h2.upto hv
        obtain ⟨_, h5, -⟩ := h2.from hv
        exact ⟨h4.steps, h5.steps.trans ((Steps.head hcall h.steps).tail hret)⟩
      · obtain ⟨_, h4, -⟩ := h.upto hv
        obtain ⟨_, h5, -⟩ := h.from hv
        exact ⟨h2.steps.trans (Steps.head hcall h4.steps), h5.steps.tail hret⟩
    exact C155_tracked E t a c p w0 w1 v vs hr h1 hs.1 (ho.before (Steps.reachable hr1 hs.1) hs.2)
  obtain ⟨b, h4, h5, h6, h7⟩ := C141_updates_are_not_lost E t t' a c d w0 w1 w2 w3 vs us vs' _ r hr hd h1 h2 h3' ht
  exact ⟨b, by rw [h7, shown, if_pos (hp b h5 h6)], h6, h4⟩

/-- **C155**. A query of the owner made after the update returned, if it succeeds, has the account in its answer, in a state that is
not older: for processed, or for any commitment if the update was submitted as finalized.  Meanwhile and during the query any calls may
be executed and the filters changed, as long as all submitted states of the account have this owner and lamports and pass the filters of
the query. -/
theorem C155_query (E : Conc.Env) (t t' : Nat) (a : AccountData) (p : Pubkey) (fs : Option (List AccountFilterType)) (c d : Commitment)
    (w0 w1 w2 w3 : Conc.World) (vs us vs' : List Conc.World) (l : List AccountData) (hr : Conc.Reachable E w0)
    (hd : d = .processed ∨ c = .finalized) (h1 : During E t (.update a c) w0 vs (.updated true) w1) (h2 : Trace E w1 us w2)
    (h3 : During E t' (.gpa p fs d) w2 vs' (.accounts (.ok l)) w3) (hw : QueryWellFormed E.codecs fs)
    (ho : OwnedBy a.pubkey p w3.log) (hp : Passing E a.pubkey fs w3.log) : ∃ b ∈ l, b.pubkey = a.pubkey ∧ ¬ Older b a := by
  obtain ⟨w2', w, hcall, hl1, h, hn, hret, hl⟩ := h3
  obtain ⟨w0', w', hcall', hl1', h', hn', hret', hl'⟩ := id h1
  have hr1 : Conc.Reachable E w1 := Steps.reachable hr ((Steps.head hcall' h'.steps).tail hret')
  have hr2 : Conc.Reachable E w2 := Steps.reachable hr1 h2.steps
  have tracked : ∀ v, Conc.Steps E w1 v → Conc.Steps E v w3 → v.st.containsKey a.pubkey = true := fun v h4 h5 =>
    C155_tracked E t a c p w0 w1 v vs hr h1 h4 (ho.before (Steps.reachable hr1 h4) h5)
  have moment : ∀ v ∈ vs', ∃ i e a', v.st.index a.pubkey = some i ∧ v.st.accounts[i]? = some e ∧ e.get d = some a' ∧ ¬ Older a' a ∧
      i ∈ (v.st.byOwner p).getD [] ∧ v.st.getAccount a.pubkey d = .ok (some a') ∧ Honest E.codecs a' ∧ a'.account.owner = p ∧
      Selected E.codecs fs a' := by
    intro v hv
    obtain ⟨us1, h4, hsub⟩ := h.upto hv
    obtain ⟨us2, h5, -⟩ := h.from hv
    have hv3 : Conc.Steps E v w3 := h5.steps.tail hret
    have htr := h2.append hcall h4
    obtain ⟨hrv, i, e, a', hi, he, ha, hold⟩ := update_then hr hd h1 htr (fun u hu => by
      obtain ⟨_, h6, -⟩ := htr.upto hu
      obtain ⟨_, h7, -⟩ := htr.from hu
      exact tracked u h6.steps (h7.steps.trans hv3))
    obtain ⟨-, key, hg⟩ := reachable_good hrv
    obtain ⟨hk, e', he', hok⟩ := hg.idx _ i hi
    rw [he] at he'; cases he'
    have hsubm : Submitted w3.log a' := by
      obtain ⟨l', hl''⟩ := steps_log hrv hv3
      have : Submitted v.log a' := by
        rcases hg.entry i e he with rfl | ⟨-, h⟩
        · exact absurd hok entryOK_dead
        · exact h.get hok ha
      exact this.mono fun e he => by rw [hl'']; simp [he]
    have hpk := hok.get_pubkey ha
    obtain ⟨hlam, hhon, hsel⟩ := hp a' hsubm hpk
    refine ⟨i, e, a', hi, he, ha, hold, C155_listed E v hrv _ p (ho.before hrv hv3) i hi, ?_, hhon, ho a' hsubm hpk, hsel⟩
    rw [getAccount_current (fun j hj => by rw [hi] at hj; cases hj; exact (List.getElem?_eq_some_iff.1 he).1)]
    simp [current, Store.view, hi, he, ha, Option.filter, hlam]
  obtain ⟨b, hb, v, hv, a', hget, hsame⟩ := C93_complete E t' p fs d vs' l ⟨w2, w2', w, w3, hr2, hcall, hl1, h, hn, hret, hl⟩ hw a.pubkey
    (fun v hv => by
      obtain ⟨i, e, a', hi, -, -, -, hm, hget, h4, h5, h6⟩ := moment v hv
      exact ⟨i, a', hi, hm, hget, h4, h5, h6⟩)
  obtain ⟨i, e, a'', hi, he, ha, hold, -, hget', -⟩ := moment v hv
  rw [hget] at hget'; cases hget'
  have hrv : Conc.Reachable E v := by
    obtain ⟨_, h4, -⟩ := h.upto hv
    exact Steps.reachable hr2 (Steps.head hcall h4.steps)
  obtain ⟨-, key, hg⟩ := reachable_good hrv
  obtain ⟨hk, e', he', hok⟩ := hg.idx _ i hi
  rw [he] at he'; cases he'
  refine ⟨b, hb, hsame.pubkey.trans (hok.get_pubkey ha), fun hb' => hold ?_⟩
  simpa [Older, hsame.slot, hsame.wv] using hb'

/-! ## An execution -/

/-- `alice` was submitted twice, both times as an account of `Toy.prog`. -/
theorem alice_stays : OwnedBy Toy.alice Toy.prog (played oneShard 2 progOnly queryAgain).log := by
  rintro a ⟨t, c, h⟩ -
  simp [show (played oneShard 2 progOnly queryAgain).log = [(0, .call (.update alice1 .finalized)), (0, .ret (.updated true)),
    (1, .call (.get Toy.alice .processed)), (0, .call (.update alice2 .processed)), (1, .ret (.account (some alice1))),
    (0, .ret (.updated true)), (1, .call (.gpa Toy.prog none .processed)), (1, .ret (.accounts (.ok [alice2])))] from rfl] at h
  rcases h with ⟨-, rfl, -⟩ | ⟨-, rfl, -⟩ <;> rfl

theorem alice_passes : Passing oneShard Toy.alice none (played oneShard 2 progOnly queryAgain).log := by
  rintro a ⟨t, c, h⟩ -
  simp [show (played oneShard 2 progOnly queryAgain).log = [(0, .call (.update alice1 .finalized)), (0, .ret (.updated true)),
    (1, .call (.get Toy.alice .processed)), (0, .call (.update alice2 .processed)), (1, .ret (.account (some alice1))),
    (0, .ret (.updated true)), (1, .call (.gpa Toy.prog none .processed)), (1, .ret (.accounts (.ok [alice2])))] from rfl] at h
  rcases h with ⟨-, rfl, -⟩ | ⟨-, rfl, -⟩ <;> exact ⟨by decide, ⟨_, rfl, rfl⟩, fun l h => by cases h⟩

/-- The query of thread 1 after the update of thread 0. -/
example : ∃ b ∈ [alice2], b.pubkey = Toy.alice ∧ ¬ Older b alice2 :=
  C155_query oneShard 0 1 alice2 Toy.prog none .processed .processed _ _ _ _ _ _ _ [alice2]
    (played_reachable oneShard 2 progOnly lookedUp) (.inl rfl) the_update .refl then_query (fun l h => by cases h) alice_stays alice_passes

example : (played oneShard 2 progOnly updatedThen).st.containsKey Toy.alice = true :=
  C155_tracked oneShard 0 alice2 .processed Toy.prog _ _ _ _ (played_reachable oneShard 2 progOnly lookedUp) the_update (.refl _) (by
    intro a ha
    obtain ⟨t, c, h⟩ := ha
    simp [show (played oneShard 2 progOnly updatedThen).log = [(0, .call (.update alice1 .finalized)), (0, .ret (.updated true)),
      (1, .call (.get Toy.alice .processed)), (0, .call (.update alice2 .processed)), (1, .ret (.account (some alice1))),
      (0, .ret (.updated true))] from rfl] at h
    rcases h with ⟨-, rfl, -⟩ | ⟨-, rfl, -⟩ <;> intro _ <;> rfl)

/-- The set of `Toy.prog` has the index of `alice` after the query. -/
example : 0 ∈ ((played oneShard 2 progOnly queryAgain).st.byOwner Toy.prog).getD [] :=
  C155_listed oneShard _ (played_reachable oneShard 2 progOnly queryAgain) Toy.alice Toy.prog alice_stays 0 rfl

/-- The read of thread 1 after the update. -/
example : ∃ b, Reply.account (some alice2) = .account (some b) ∧ b.pubkey = Toy.alice ∧ ¬ Older b alice2 := by
  have sub : ∀ a, Submitted (played oneShard 2 progOnly readAgain).log a → a = alice1 ∨ a = alice2 := by
    rintro a ⟨t, c, h⟩
    simp [show (played oneShard 2 progOnly readAgain).log = [(0, .call (.update alice1 .finalized)), (0, .ret (.updated true)),
      (1, .call (.get Toy.alice .processed)), (0, .call (.update alice2 .processed)), (1, .ret (.account (some alice1))),
      (0, .ret (.updated true)), (1, .call (.get Toy.alice .processed)), (1, .ret (.account (some alice2)))] from rfl] at h
    rcases h with ⟨-, rfl, -⟩ | ⟨-, rfl, -⟩ <;> simp
  exact C155_read oneShard 0 1 alice2 Toy.prog .processed .processed _ _ _ _ _ _ _ _
    (played_reachable oneShard 2 progOnly lookedUp) (.inl rfl) the_update .refl second_read
    (fun a h _ => by rcases sub a h with rfl | rfl <;> rfl) (fun a h _ => by rcases sub a h with rfl | rfl <;> decide)

end LAM.Props
