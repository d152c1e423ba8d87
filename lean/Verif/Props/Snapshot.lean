import Verif.Lemmas.Bincode
import Verif.Props.StoreQueries
/-!
# Snapshots of the in-memory store: C32, C33
-/
namespace LAM.Props
open Spec Store ByCommitment

theorem query_none_exact {h : List Op} {s : Store} (hs : empty.run h = .ok s) {X : Codecs}
    {F : Filters} {busy : Nat → Bool} {p : Pubkey} {c : Commitment} {r : List AccountData}
    (hr : getProgramAccounts X F busy s p none c = .ok (.ok r)) :
    ∀ a ∈ r, stateAt s a.pubkey c = some a := by
  have hi := inv_run inv_empty hs
  intro b hb
  rw [getProgramAccounts_eq] at hr
  split at hr
  · simp only [Run.bind_eq_ok, Run.pure_eq, Run.ok.injEq, Except.ok.injEq] at hr
    obtain ⟨r0, hr0, rfl⟩ := hr
    obtain ⟨i, -, e, x, he, hx, hbx⟩ := gpaPass_sound hr0 b hb
    unfold gpaOne at hx
    simp only at hx
    cases hg : e.get c with
    | none => rw [hg] at hx; simp at hx; subst hx; simp at hbx
    | some a =>
      rw [hg] at hx
      simp only at hx
      split at hx <;> simp at hx <;> subst hx <;> simp at hbx
      subst hbx
      obtain ⟨-, hv⟩ := index_of_get hi he hg
      simp [stateAt, hv, hg]
  · simp at hr

private theorem find_of_nodup {l : List AccountData} (hn : (l.map AccountData.pubkey).Nodup) {a : AccountData}
    (ha : a ∈ l) : l.find? (fun x => x.pubkey == a.pubkey) = some a := by
  induction l with
  | nil => simp at ha
  | cons b l ih =>
    simp only [List.map_cons, List.nodup_cons] at hn
    rcases List.mem_cons.1 ha with rfl | ha
    · simp
    · have : (b.pubkey == a.pubkey) = false := by
        simp only [beq_eq_false_iff_ne]
        intro he
        exact hn.1 (he ▸ List.mem_map_of_mem ha)
      simp [this, ih hn.2 ha]

theorem initAll_eq_run (F : Filters) (l : List AccountData) (s : Store) :
    initAll F s l = s.run (l.map (fun a => Op.update F a .finalized)) := by
  induction l generalizing s with
  | nil => rfl
  | cons a l ih =>
    simp only [initAll, List.map_cons, Store.run, step, initializeOrUpdate]
    cases s.updateAccount F a .finalized with
    | ok r => simp [ih]
    | panic => rfl
    | diverge => rfl

/-! ## C32 -/

/-- **C32**. A byte string decodes to `l` exactly when it starts with the encoding of `l`. -/
theorem C32_decodes_exactly_encodings (bs : Bytes) (l : List AccountData) :
    Bincode.deserialize bs = some l ↔ AllFit l ∧ ∃ rest, bs = Bincode.serialize l ++ rest :=
  Bincode.deserialize_eq_some

/-- **C32**. What `create_snapshot` produces decodes to exactly the accounts of the program query it
serialised, in the same order. -/
theorem C32_snapshot_roundtrip (h : List Op) (s : Store) (hs : empty.run h = .ok s)
    (hfit : ∀ F a c, Op.update F a c ∈ h → Fits a) (X : Codecs) (F : Filters) (busy : Nat → Bool) (p : Pubkey) (bs : Bytes)
    (hb : createSnapshot X F busy s p = .ok (.ok bs)) :
    ∃ l, getProgramAccounts X F busy s p none .finalized = .ok (.ok l) ∧
      (U64 l.length → Bincode.deserialize bs = some l) := by
  have hi := inv_run inv_empty hs
  simp only [createSnapshot, Run.bind_eq_ok] at hb
  obtain ⟨x, hx, hb⟩ := hb
  cases x with
  | error e => simp at hb
  | ok l =>
    simp at hb
    subst hb
    refine ⟨l, hx, fun hl => Bincode.deserialize_eq_some.2 ⟨⟨hl, ?_⟩, [], by simp⟩⟩
    intro a ha
    obtain ⟨-, F, c', hm⟩ := mem_submissions.1 (stateAt_submitted hs (query_none_exact hs hx a ha))
    exact hfit F _ c' hm

/-- **C32**. Input that is not an encoding is reported and changes nothing; any other input is loaded. -/
theorem C32_malformed_rejected (h : List Op) (s : Store) (hs : empty.run h = .ok s) (F : Filters) (bs : Bytes) :
    ((¬ ∃ l rest, AllFit l ∧ bs = Bincode.serialize l ++ rest) →
      loadFromSnapshot F s bs = .ok (s, .error .deserializationIssues)) ∧
    ((∃ l rest, AllFit l ∧ bs = Bincode.serialize l ++ rest) →
      ∃ s', loadFromSnapshot F s bs = .ok (s', .ok ())) := by
  have hi := inv_run inv_empty hs
  constructor
  · intro hn
    cases hd : Bincode.deserialize bs with
    | none => simp [loadFromSnapshot, hd]
    | some l =>
      obtain ⟨hf, rest, he⟩ := Bincode.deserialize_eq_some.1 hd
      exact absurd ⟨l, rest, hf, he⟩ hn
  · rintro ⟨l, rest, hf, he⟩
    have hd := Bincode.deserialize_eq_some.2 ⟨hf, rest, he⟩
    obtain ⟨s', hs', -⟩ := run_ok hi (l.map (fun a => Op.update F a .finalized))
    rw [← initAll_eq_run] at hs'
    exact ⟨s', by simp [loadFromSnapshot, hd, hs']⟩

/-- **C32**. Loading a snapshot is the same as submitting its accounts as finalized, one after the other. -/
theorem C32_load_is_finalized_updates (s : Store) (F : Filters) (l : List AccountData) (hf : AllFit l)
    (rest : Bytes) : loadFromSnapshot F s (Bincode.serialize l ++ rest) =
      (do let s' ← s.run (l.map (fun a => Op.update F a .finalized)); return (s', .ok ())) := by
  have hd := Bincode.deserialize_eq_some.2 ⟨hf, rest, rfl⟩
  simp only [loadFromSnapshot, hd, initAll_eq_run]

set_option maxRecDepth 4000 in
example : ∃ s bs, empty.run [.update allowAll (Toy.acct Toy.alice Toy.prog 1 5 1) .finalized,
      .update allowAll { lz4Acct with pubkey := Toy.bob } .finalized] = .ok s ∧
    createSnapshot Toy.codecs allowAll (fun _ => false) s Toy.prog = .ok (.ok bs) ∧
    Bincode.deserialize bs = some [Toy.acct Toy.alice Toy.prog 1 5 1, { lz4Acct with pubkey := Toy.bob }] ∧
    Bincode.deserialize (bs.take 20) = none := by
  refine ⟨_, _, rfl, rfl, ?_, ?_⟩ <;> decide

/-! ## C33 -/

/-- **C33**. Loading the snapshot of any reachable store into an empty store whose filters accept the
accounts reproduces them: at every commitment, a snapshotted pubkey reads as it does finalized in the source, other
pubkeys read as absent, and the program query returns the snapshotted list (in some order if locks are
busy). -/
theorem C33_snapshot_reproduces (h : List Op) (s : Store) (hs : empty.run h = .ok s)
    (hfit : ∀ F a c, Op.update F a c ∈ h → Fits a) (X : Codecs) (F F' : Filters) (busy : Nat → Bool)
    (p : Pubkey) (bs : Bytes) (l : List AccountData)
    (hl : getProgramAccounts X F busy s p none .finalized = .ok (.ok l)) (hlen : U64 l.length)
    (hb : createSnapshot X F busy s p = .ok (.ok bs))
    (hF : ∀ a ∈ l, F'.satisfies a = true) (hc : F'.contains ⟨[], some p, none⟩ = true) :
    ∃ s', loadFromSnapshot F' empty bs = .ok (s', .ok ()) ∧
      (∀ a ∈ l, ∀ c, s'.getAccount a.pubkey c = .ok (shown a) ∧
        s.getAccount a.pubkey .finalized = .ok (shown a)) ∧
      (∀ pk, (∀ a ∈ l, a.pubkey ≠ pk) → ∀ c, s'.getAccount pk c = .ok none) ∧
      (∀ c, getProgramAccounts X F' (fun _ => false) s' p none c = .ok (.ok l)) ∧
      ∀ busy' c, ∃ l', getProgramAccounts X F' busy' s' p none c = .ok (.ok l') ∧ l.Perm l' := by
  have hi := inv_run inv_empty hs
  obtain ⟨l0, hl0, hd⟩ := C32_snapshot_roundtrip h s hs hfit X F busy p bs hb
  rw [hl] at hl0
  simp only [Run.ok.injEq, Except.ok.injEq] at hl0
  subst hl0
  have hd := hd hlen
  obtain ⟨hnd, hsound⟩ := C27_query_sound h s hs X F busy p none .finalized l hl
  obtain ⟨s', hs', hld⟩ := loaded_all (F := F') (p := p) l [] empty (loaded_empty p) hF
    (fun a ha => (hsound a ha).1) (by simpa using hnd)
  simp only [List.nil_append] at hld
  have hown : ∀ a ∈ l, a.account.owner = p := fun a ha => (hsound a ha).1
  have hq : ∀ c, getProgramAccounts X F' (fun _ => false) s' p none c = .ok (.ok l) := by
    intro c
    rw [getProgramAccounts_eq, hc]
    simp only [if_true, hld.byOwner]
    rw [gpaPass_loaded hld hown c _ (by simp)]
    have h1 : ∀ x : List Nat, x.filter (fun _ => true) = x := fun x => by simp
    have h2 : ∀ x : List Nat, x.filter (fun _ => false) = [] := fun x => by simp
    simp only [Bool.not_false, h1, h2, List.append_nil, range_filterMap_getElem, Run.ok_bind, Run.pure_eq]
  refine ⟨s', by simp [loadFromSnapshot, hd, hs'], ?_, ?_, hq, ?_⟩
  · intro a ha c
    constructor
    · rw [loaded_view hld]
      have : l.find? (fun x => x.pubkey == a.pubkey) = some a := find_of_nodup hnd ha
      simp [this]
    · rw [getAccount_stateAt hi]
      simp [query_none_exact hs hl a ha]
  · intro pk hpk c
    rw [loaded_view hld]
    have : l.find? (fun x => x.pubkey == pk) = none := by
      rw [List.find?_eq_none]
      intro x hx
      simpa using hpk x hx
    simp [this]
  · intro busy' c
    exact C24_lock_order_irrelevant X F' s' (fun _ => false) busy' p none c l (hq c)

set_option maxRecDepth 4000 in
/-- A snapshot with an account whose newer, unfinalized state is not part of it. -/
example : ∃ s bs s', empty.run [.update allowAll (Toy.acct Toy.alice Toy.prog 1 5 1) .finalized,
      .update allowAll (Toy.acct Toy.bob Toy.prog 2 5 1) .finalized,
      .update allowAll (Toy.acct Toy.bob Toy.prog 3 6 1) .confirmed] = .ok s ∧
    createSnapshot Toy.codecs allowAll (fun _ => false) s Toy.prog = .ok (.ok bs) ∧
    loadFromSnapshot allowAll empty bs = .ok (s', .ok ()) ∧
    s.getAccount Toy.bob .processed = .ok (some (Toy.acct Toy.bob Toy.prog 3 6 1)) ∧
    s'.getAccount Toy.bob .processed = .ok (some (Toy.acct Toy.bob Toy.prog 2 5 1)) := by
  refine ⟨_, _, _, rfl, rfl, rfl, ?_, ?_⟩ <;> decide

end LAM.Props
