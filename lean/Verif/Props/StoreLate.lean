import Verif.Lemmas.StoreLate
import Verif.Props.Snapshot
/-!
# Snapshots that are older than what the account store has: C128
-/
namespace LAM.Props
open Spec Store

/-- `pk` reads the same, and is listed in the same program queries, in both stores. -/
def SameAbout (X : Codecs) (pk : Pubkey) (s s' : Store) : Prop :=
  (∀ c, s'.getAccount pk c = s.getAccount pk c) ∧
  ∀ G busy busy' p fs c r r', getProgramAccounts X G busy s p fs c = .ok (.ok r) →
    getProgramAccounts X G busy' s' p fs c = .ok (.ok r') → ∀ b, b.pubkey = pk → (b ∈ r ↔ b ∈ r')

/-- **C128**, the full claim: loading a snapshot does not disturb accounts of which the store has a newer finalized state. -/
def C128_statement : Prop :=
  ∀ (X : Codecs) (h : List Op) (s s' : Store) (F : Filters) (bs : Bytes) (l : List AccountData) (pk : Pubkey) (x : AccountData)
    (r : Except LoadError Unit), empty.run h = .ok s → s.getAccount pk .finalized = .ok (some x) → Bincode.deserialize bs = some l →
    (∀ a ∈ l, a.pubkey = pk → a.slot < x.slot) → loadFromSnapshot F s bs = .ok (s', r) → SameAbout X pk s s'

private theorem held_of_read {h : List Op} {s : Store} {pk : Pubkey} {x : AccountData} (hs : empty.run h = .ok s)
    (hx : s.getAccount pk .finalized = .ok (some x)) :
    ∃ i e, s.accounts[i]? = some e ∧ HeldAt s pk i e.get ∧ e.get .finalized = some x := by
  have hi := inv_run inv_empty hs
  rw [getAccount_stateAt hi] at hx
  simp only [Run.ok.injEq] at hx
  obtain ⟨y, hy, hsh⟩ := Option.bind_eq_some_iff.1 hx
  have hyx : y = x := by unfold shown at hsh; split at hsh <;> simp_all
  subst hyx
  unfold stateAt at hy
  cases hv : s.view pk with
  | none => rw [hv] at hy; cases hy
  | some e =>
    rw [hv] at hy
    cases hix : s.index pk with
    | none => rw [(hi.view_none pk).2 hix] at hv; cases hv
    | some i =>
      have hacc : s.accounts[i]? = some e := by rw [← view_of_index hix]; exact hv
      exact ⟨i, e, hacc, ⟨hix, e, hacc, fun _ => rfl⟩, hy⟩

private theorem read_of_held {s : Store} {pk : Pubkey} {i : Nat} {g : Commitment → Option AccountData} (hi : Inv s)
    (hg : HeldAt s pk i g) (c : Commitment) : s.getAccount pk c = .ok ((g c).bind shown) := by
  obtain ⟨e, hv, -, hget⟩ := hg.view
  rw [getAccount_stateAt hi, stateAt, hv, Option.bind_some, hget]

private theorem loaded {F : Filters} {s s' : Store} {bs : Bytes} {l : List AccountData} {r : Except LoadError Unit}
    (hd : Bincode.deserialize bs = some l) (hl : loadFromSnapshot F s bs = .ok (s', r)) : initAll F s l = .ok s' := by
  simp only [loadFromSnapshot, hd, Run.bind_eq_ok, Run.pure_eq, Run.ok.injEq, Prod.mk.injEq] at hl
  obtain ⟨t, h1, rfl, -⟩ := hl
  exact h1

/-- **C128 (partial)**, reads: they stay the same if the older states have the owner of the newer one, or are neither deleted nor
outside the configured filters.  Missing: other older states (false, see `C128_dropped`). -/
theorem C128_reads_partial (h : List Op) (s s' : Store) (F : Filters) (bs : Bytes) (l : List AccountData) (pk : Pubkey)
    (x : AccountData) (r : Except LoadError Unit) (hs : empty.run h = .ok s) (hx : s.getAccount pk .finalized = .ok (some x))
    (hd : Bincode.deserialize bs = some l) (hl : loadFromSnapshot F s bs = .ok (s', r))
    (hold : ∀ a ∈ l, a.pubkey = pk → a.slot < x.slot ∧
      (a.account.owner = x.account.owner ∨ (0 < a.account.lamports ∧ F.satisfies a = true))) (c : Commitment) :
    s'.getAccount pk c = s.getAccount pk c := by
  obtain ⟨i, e, -, hg, hfx⟩ := held_of_read hs hx
  have hi := inv_run inv_empty hs
  obtain ⟨hi', hg', -⟩ := held_initAll hfx l hi hg (loaded hd hl) hold
  rw [read_of_held hi' hg', read_of_held hi hg]

/-- **C128 (partial)**, reads and queries: they stay the same if the older states have the owner of the newer one.  Missing:
accounts that changed their owner (false). -/
theorem C128_partial (X : Codecs) (h : List Op) (s s' : Store) (F : Filters) (bs : Bytes) (l : List AccountData) (pk : Pubkey)
    (x : AccountData) (r : Except LoadError Unit) (hs : empty.run h = .ok s) (hx : s.getAccount pk .finalized = .ok (some x))
    (hd : Bincode.deserialize bs = some l) (hl : loadFromSnapshot F s bs = .ok (s', r))
    (hold : ∀ a ∈ l, a.pubkey = pk → a.slot < x.slot ∧ a.account.owner = x.account.owner) : SameAbout X pk s s' := by
  refine ⟨C128_reads_partial h s s' F bs l pk x r hs hx hd hl (fun a ha hp => ⟨(hold a ha hp).1, .inl (hold a ha hp).2⟩), ?_⟩
  intro G busy busy' p fs c r r' hr hr' b hb
  obtain ⟨i, e, hacc, hg, hfx⟩ := held_of_read hs hx
  have hi := inv_run inv_empty hs
  obtain ⟨hi', hg', ho⟩ := held_initAll hfx l hi hg (loaded hd hl) (fun a ha hp => ⟨(hold a ha hp).1, .inl (hold a ha hp).2⟩)
  rw [mem_query hi hg hr b hb, mem_query hi' hg' hr' b hb, ho (fun a ha hp => (hold a ha hp).2)]
  obtain ⟨-, e', hacc', hget'⟩ := hg'
  have key : ∀ fs, gpaOne X e' c p fs = gpaOne X e c p fs := by
    intro fs; simp only [gpaOne, ByCommitment.getFiltered, hget']
  constructor
  · rintro ⟨h1, e1, y, h2, h3, h4⟩
    rw [hacc] at h2; injection h2 with h2; subst h2
    exact ⟨h1, e', y, hacc', by rw [key]; exact h3, h4⟩
  · rintro ⟨h1, e1, y, h2, h3, h4⟩
    rw [hacc'] at h2; injection h2 with h2; subst h2
    exact ⟨h1, e, y, hacc, by rw [← key]; exact h3, h4⟩

/-- A snapshot with a state of Alice at slot 3. -/
private def olderAlice (owner : Pubkey) (lamports : Nat) : List AccountData := [Toy.acct Toy.alice owner lamports 3 1]

private theorem older_read (owner : Pubkey) (lamports : Nat) (hl : lamports < 2 ^ 64) :
    Bincode.deserialize (Bincode.serialize (olderAlice owner lamports)) = some (olderAlice owner lamports) := by
  refine Bincode.deserialize_eq_some.2 ⟨⟨by simp [olderAlice, U64], ?_⟩, [], by simp⟩
  intro a ha
  rw [olderAlice, List.mem_singleton] at ha
  subst ha
  exact ⟨hl, by simp [DataFits, Toy.acct, U64], by simp [Toy.acct, U64], by simp [Toy.acct, U64], by simp [Toy.acct, U64]⟩

private theorem older_loaded {F : Filters} {s s' : Store} (owner : Pubkey) (lamports : Nat) (hl : lamports < 2 ^ 64)
    (h : initAll F s (olderAlice owner lamports) = .ok s') :
    loadFromSnapshot F s (Bincode.serialize (olderAlice owner lamports)) = .ok (s', .ok ()) := by
  simp only [loadFromSnapshot, older_read owner lamports hl, h]; rfl

/-- What the store knows: a state of slot 5, finalized. -/
def knownAlice : List Op := [.update allowAll (Toy.acct Toy.alice Toy.prog 1 5 1) .finalized]

/-- The conditions of `C128_partial` are met. -/
example : ∃ s s', empty.run knownAlice = .ok s ∧
    s.getAccount Toy.alice .finalized = .ok (some (Toy.acct Toy.alice Toy.prog 1 5 1)) ∧
    loadFromSnapshot allowAll s (Bincode.serialize (olderAlice Toy.prog 7)) = .ok (s', .ok ()) ∧
    getProgramAccounts Toy.codecs allowAll (fun _ => false) s' Toy.prog none .confirmed =
      .ok (.ok [Toy.acct Toy.alice Toy.prog 1 5 1]) := by
  refine ⟨_, _, rfl, by decide, older_loaded Toy.prog 7 (by decide) rfl, ?_⟩
  rfl

/-- **C128** is false: an older state of another owner takes the account out of the list of its owner, although it still reads as
owned by it. -/
theorem C128_refuted : ¬ C128_statement := by
  intro h
  obtain ⟨-, h2⟩ := h Toy.codecs knownAlice _ _ allowAll (Bincode.serialize (olderAlice Toy.prog2 1)) _ Toy.alice
    (Toy.acct Toy.alice Toy.prog 1 5 1) (.ok ()) rfl (by decide) (older_read Toy.prog2 1 (by decide))
    (by intro a ha _; rw [olderAlice, List.mem_singleton] at ha; subst ha; decide)
    (older_loaded Toy.prog2 1 (by decide) rfl)
  have := h2 allowAll (fun _ => false) (fun _ => false) Toy.prog none .finalized [Toy.acct Toy.alice Toy.prog 1 5 1] [] rfl rfl
    (Toy.acct Toy.alice Toy.prog 1 5 1) rfl
  simp at this

/-- An older state of another owner without lamports removes the account: its newer state is gone. -/
theorem C128_dropped : ∃ s s', empty.run knownAlice = .ok s ∧
    s.getAccount Toy.alice .finalized = .ok (some (Toy.acct Toy.alice Toy.prog 1 5 1)) ∧
    loadFromSnapshot allowAll s (Bincode.serialize (olderAlice Toy.prog2 0)) = .ok (s', .ok ()) ∧
    (∀ c, s'.getAccount Toy.alice c = .ok none) ∧ s'.containsKey Toy.alice = false := by
  refine ⟨_, _, rfl, by decide, older_loaded Toy.prog2 0 (by decide) rfl, ?_⟩
  exact ⟨fun c => by cases c <;> decide, by decide⟩

/-- So does one that the configured filters do not ask for, with lamports. -/
theorem C128_dropped_filtered : ∃ (F : Filters) (s s' : Store),
    F.satisfies (Toy.acct Toy.alice Toy.prog 1 5 1) = true ∧
    empty.run [.update F (Toy.acct Toy.alice Toy.prog 1 5 1) .finalized] = .ok s ∧
    s.getAccount Toy.alice .finalized = .ok (some (Toy.acct Toy.alice Toy.prog 1 5 1)) ∧
    loadFromSnapshot F s (Bincode.serialize (olderAlice Toy.prog2 1)) = .ok (s', .ok ()) ∧
    (∀ c, s'.getAccount Toy.alice c = .ok none) ∧ s'.containsKey Toy.alice = false := by
  refine ⟨⟨fun a => decide (a.account.owner = Toy.prog), fun _ => true⟩, _, _, by decide, rfl, by decide, older_loaded Toy.prog2 1 (by decide) rfl, ?_⟩
  exact ⟨fun c => by cases c <;> decide, by decide⟩

end LAM.Props
