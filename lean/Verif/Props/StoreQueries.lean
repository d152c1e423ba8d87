import Verif.Lemmas.Recode
import Verif.Props.StoreReads
/-!
# Program queries of the in-memory store: C10, C24, C26 – C28, C34
-/
namespace LAM.Props
open Spec Store ByCommitment

/-- Everything submitted in the history decompresses and carries its right length. -/
def HonestHistory (X : Codecs) (h : List Op) : Prop := ∀ F a c, Op.update F a c ∈ h → Honest X a

private theorem honest_states {X : Codecs} {h : List Op} {s : Store} (hs : empty.run h = .ok s)
    (hh : HonestHistory X h) {i : Nat} {e : ByCommitment} {c : Commitment} {a : AccountData}
    (he : s.accounts[i]? = some e) (hg : e.get c = some a) : Honest X a := by
  have hi := inv_run inv_empty hs
  obtain ⟨-, hv⟩ := index_of_get hi he hg
  obtain ⟨-, F, c', hm⟩ := mem_submissions.1 (stateAt_submitted hs (pk := a.pubkey) (c := c)
    (show stateAt s a.pubkey c = some a by simp [stateAt, hv, hg]))
  exact hh F a c' hm

/-! ## C10 -/

/-- **C10**. Two histories that differ only in how the submitted data is compressed give, for every program
query, the same answer up to uncompressing the data (or both reject, or both panic on malformed filters),
provided the configured filters do not look at the stored form either. -/
theorem C10_compression_irrelevant (X : Codecs) (h1 h2 : List Op) (s1 s2 : Store)
    (hsame : h1.map (Op.mapAcc (plain X)) = h2.map (Op.mapAcc (plain X)))
    (hr1 : empty.run h1 = .ok s1) (hr2 : empty.run h2 = .ok s2)
    (hon1 : HonestHistory X h1) (hon2 : HonestHistory X h2)
    (hF1 : ∀ op ∈ h1, ∀ a, op.filters.satisfies (plain X a) = op.filters.satisfies a)
    (hF2 : ∀ op ∈ h2, ∀ a, op.filters.satisfies (plain X a) = op.filters.satisfies a)
    (F : Filters) (busy : Nat → Bool) (p : Pubkey) (fs : Option (List AccountFilterType)) (c : Commitment) :
    (getProgramAccounts X F busy s1 p fs c).map (Except.map (List.map (plain X))) =
      (getProgramAccounts X F busy s2 p fs c).map (Except.map (List.map (plain X))) := by
  have hst : s1.mapAcc (plain X) = s2.mapAcc (plain X) := by
    have e1 := run_mapAcc (recoding_plain X) h1 empty hF1
    have e2 := run_mapAcc (recoding_plain X) h2 empty hF2
    rw [hsame, e2, hr1, hr2] at e1
    simpa using e1.symm
  have key : ∀ (h : List Op) (s : Store), empty.run h = .ok s → HonestHistory X h →
      (getProgramAccounts X F busy s p fs c).map (Except.map (List.map (plain X))) =
      (getProgramAccounts X F busy (s.mapAcc (plain X)) p fs c).map (Except.map (List.map (plain X))) := by
    intro h s hs hh
    rw [getProgramAccounts_eq, getProgramAccounts_eq]
    split
    · have hb : (s.mapAcc (plain X)).byOwner p = s.byOwner p := rfl
      rw [hb]
      have hp := gpaPass_plain X s c (fun i e a he hg => honest_states hs hh he hg) p fs
        (((s.byOwner p).getD []).filter (fun i => !busy i) ++ ((s.byOwner p).getD []).filter (fun i => busy i))
      simp only
      revert hp
      generalize gpaPass X (s.mapAcc (plain X)) c p fs _ = x
      generalize gpaPass X s c p fs _ = y
      intro hp
      cases x <;> cases y <;> first | rfl | cases hp | skip
      simp only [Run.map_ok, Run.ok.injEq] at hp
      simp [Except.map, hp]
    · rfl
  rw [key h1 s1 hr1 hon1, key h2 s2 hr2 hon2, hst]

/-- The filters of the code do not look at the stored form. -/
theorem C10_simple_filters (X : Codecs) (s : SimpleFilterStore) (a : AccountData) :
    s.satisfies X (plain X a) = s.satisfies X a := satisfies_plain X s a

/-- An account stored with lz4, and its uncompressed counterpart. -/
def lz4Acct : AccountData :=
  { pubkey := Toy.alice, slot := 5, wv := 1,
    account := ⟨1, .lz4 [4, 1, 2, 3] 3, Toy.prog, false, 0⟩ }

/-- Different stored forms, same answer. -/
example : ∃ s1 s2, empty.run [.update allowAll (Toy.acct Toy.alice Toy.prog 1 5 1) .processed] = .ok s1 ∧
    empty.run [.update allowAll lz4Acct .processed] = .ok s2 ∧
    getProgramAccounts Toy.codecs allowAll (fun _ => false) s1 Toy.prog
      (some [.memcmp ⟨1, .bytes [2, 3]⟩]) .processed = .ok (.ok [Toy.acct Toy.alice Toy.prog 1 5 1]) ∧
    getProgramAccounts Toy.codecs allowAll (fun _ => false) s2 Toy.prog
      (some [.memcmp ⟨1, .bytes [2, 3]⟩]) .processed = .ok (.ok [Toy.acct Toy.alice Toy.prog 1 5 1]) ∧
    getProgramAccounts Toy.codecs allowAll (fun _ => false) s2 Toy.prog
      (some [.datasize 4]) .processed = .ok (.ok []) := ⟨_, _, rfl, rfl, rfl, rfl, rfl⟩

/-! ## C24, query part -/

/-- **C24** (queries). Which per-account locks are busy only permutes the answer. -/
theorem C24_lock_order_irrelevant (X : Codecs) (F : Filters) (s : Store) (busy busy' : Nat → Bool)
    (p : Pubkey) (fs : Option (List AccountFilterType)) (c : Commitment) (r : List AccountData)
    (h : getProgramAccounts X F busy s p fs c = .ok (.ok r)) :
    ∃ r', getProgramAccounts X F busy' s p fs c = .ok (.ok r') ∧ r.Perm r' := by
  rw [getProgramAccounts_eq] at h ⊢
  split at h
  · rename_i hc
    simp only [Run.bind_eq_ok, Run.pure_eq, Run.ok.injEq, Except.ok.injEq] at h
    obtain ⟨r0, hr0, rfl⟩ := h
    obtain ⟨r', hr', hp⟩ := gpaPass_perm
      ((filter_split_perm busy _).trans (filter_split_perm busy' ((s.byOwner p).getD [])).symm) hr0
    exact ⟨r', by rw [if_pos hc]; simp [hr'], hp⟩
  · simp at h

example : ∃ s, empty.run [.update allowAll (Toy.acct Toy.alice Toy.prog 1 5 1) .processed,
      .update allowAll (Toy.acct Toy.bob Toy.prog 1 5 1) .processed] = .ok s ∧
    getProgramAccounts Toy.codecs allowAll (fun _ => false) s Toy.prog none .processed =
      .ok (.ok [Toy.acct Toy.alice Toy.prog 1 5 1, Toy.acct Toy.bob Toy.prog 1 5 1]) ∧
    getProgramAccounts Toy.codecs allowAll (fun i => i == 0) s Toy.prog none .processed =
      .ok (.ok [Toy.acct Toy.bob Toy.prog 1 5 1, Toy.acct Toy.alice Toy.prog 1 5 1]) :=
  ⟨_, rfl, rfl, rfl⟩

/-! ## C26 -/

/-- The full claim of **C26**. -/
def C26_statement : Prop :=
  ∀ (h : List Op) (s : Store), empty.run h = .ok s →
    (∀ pk c a, s.getAccount pk c = .ok (some a) → 0 < a.account.lamports) ∧
    ∀ X F busy p fs c r, getProgramAccounts X F busy s p fs c = .ok (.ok r) →
      ∀ a ∈ r, 0 < a.account.lamports

/-- **C26** is false: a program query without filters returns deleted accounts. -/
theorem C26_deleted_hidden_refuted : ¬ C26_statement := by
  intro h
  have := (h [.update allowAll (Toy.acct Toy.alice Toy.prog 1 5 1) .processed,
    .update allowAll (Toy.acct Toy.alice Toy.prog 0 6 1) .processed] _ rfl).2 Toy.codecs allowAll
    (fun _ => false) Toy.prog none .processed [Toy.acct Toy.alice Toy.prog 0 6 1] rfl
    (Toy.acct Toy.alice Toy.prog 0 6 1) (by simp)
  revert this; decide

/-- **C26 (partial)**. `get_account`, and program queries with a filter list (even an empty one), never
return a deleted account.  Missing: program queries without filters (false). -/
theorem C26_deleted_hidden_partial (h : List Op) (s : Store) (hs : empty.run h = .ok s) :
    (∀ pk c a, s.getAccount pk c = .ok (some a) → 0 < a.account.lamports) ∧
    ∀ X F busy p l c r, getProgramAccounts X F busy s p (some l) c = .ok (.ok r) →
      ∀ a ∈ r, 0 < a.account.lamports := by
  have hi := inv_run inv_empty hs
  constructor
  · intro pk c a ha
    rw [getAccount_stateAt hi] at ha
    simp only [Run.ok.injEq] at ha
    cases hst : stateAt s pk c with
    | none => rw [hst] at ha; cases ha
    | some b =>
      rw [hst] at ha
      simp only [Option.bind_some, shown] at ha
      split at ha
      · simp at ha; subst ha; assumption
      · cases ha
  · intro X F busy p l c r hr a ha
    rw [getProgramAccounts_eq] at hr
    split at hr
    · simp only [Run.bind_eq_ok, Run.pure_eq, Run.ok.injEq, Except.ok.injEq] at hr
      obtain ⟨r0, hr0, rfl⟩ := hr
      obtain ⟨i, -, e, x, -, hx, hax⟩ := gpaPass_sound hr0 a ha
      obtain ⟨-, b, -, hsame, -, -, hl⟩ := gpaOne_sound hx hax
      rw [hsame.lamports]; exact hl (by simp)
    · simp at hr

example : ∃ s, empty.run [.update allowAll (Toy.acct Toy.alice Toy.prog 0 5 1) .processed,
      .update allowAll (Toy.acct Toy.bob Toy.prog 1 5 1) .processed] = .ok s ∧
    s.getAccount Toy.alice .processed = .ok none ∧
    getProgramAccounts Toy.codecs allowAll (fun _ => false) s Toy.prog (some []) .processed =
      .ok (.ok [Toy.acct Toy.bob Toy.prog 1 5 1]) := ⟨_, rfl, by decide, rfl⟩

/-! ## C27 -/

/-- **C27**. Every account in the answer of a program query is owned by the program, passes all filters, is
the current state of its pubkey at the commitment (data possibly uncompressed), and no pubkey occurs twice. -/
theorem C27_query_sound (h : List Op) (s : Store) (hs : empty.run h = .ok s) (X : Codecs) (F : Filters)
    (busy : Nat → Bool) (p : Pubkey) (fs : Option (List AccountFilterType)) (c : Commitment)
    (r : List AccountData) (hr : getProgramAccounts X F busy s p fs c = .ok (.ok r)) :
    (r.map AccountData.pubkey).Nodup ∧
    ∀ b ∈ r, b.account.owner = p ∧ Selected X fs b ∧
      ∃ a, stateAt s b.pubkey c = some a ∧ SameAccount X a b := by
  have hi := inv_run inv_empty hs
  rw [getProgramAccounts_eq] at hr
  split at hr
  · simp only [Run.bind_eq_ok, Run.pure_eq, Run.ok.injEq, Except.ok.injEq] at hr
    obtain ⟨r0, hr0, rfl⟩ := hr
    constructor
    · exact gpaPass_nodup hi ((filter_split_perm busy _).nodup_iff.2 (byOwner_nodup hi p)) hr0
    · intro b hb
      obtain ⟨i, -, e, x, he, hx, hbx⟩ := gpaPass_sound hr0 b hb
      obtain ⟨-, a, hg, hsame, hsel, ho, -⟩ := gpaOne_sound hx hbx
      obtain ⟨-, hv⟩ := index_of_get hi he hg
      refine ⟨by rw [hsame.owner]; exact ho, ?_, a, ?_, hsame⟩
      · intro l hl f hf
        rw [hsame.data]; exact hsel l hl f hf
      · rw [hsame.pubkey]; simp [stateAt, hv, hg]
  · simp at hr

/-- A query that selects one of two accounts of the program. -/
example : ∃ s, empty.run [.update allowAll (Toy.acct Toy.alice Toy.prog 1 5 1 [9]) .processed,
      .update allowAll (Toy.acct Toy.bob Toy.prog 1 5 1 [1, 2]) .processed] = .ok s ∧
    getProgramAccounts Toy.codecs allowAll (fun _ => false) s Toy.prog (some [.datasize 2]) .processed =
      .ok (.ok [Toy.acct Toy.bob Toy.prog 1 5 1 [1, 2]]) := ⟨_, rfl, rfl⟩

/-! ## C28 -/

/-- The full claim of **C28**. -/
def C28_statement : Prop :=
  ∀ (h : List Op) (s : Store), empty.run h = .ok s → ∀ (X : Codecs), HonestHistory X h →
    ∀ (F : Filters) (busy : Nat → Bool) (p : Pubkey) (fs : Option (List AccountFilterType)) (c : Commitment)
      (r : List AccountData), QueryWellFormed X fs → getProgramAccounts X F busy s p fs c = .ok (.ok r) →
    ∀ (pk : Pubkey) (a : AccountData), s.getAccount pk c = .ok (some a) → a.account.owner = p →
      Selected X fs a → ∃ b ∈ r, SameAccount X a b

/-- **C28** is false when the owner of an account changes: an account known as processed only, whose next
update is finalized and has a new owner, is not found under the new owner. -/
theorem C28_query_complete_refuted : ¬ C28_statement := by
  intro h
  obtain ⟨b, hb, -⟩ := h [.update allowAll (Toy.acct Toy.alice Toy.prog 1 5 1) .processed,
    .update allowAll (Toy.acct Toy.alice Toy.prog2 1 6 1) .finalized] _ rfl Toy.codecs
    (by
      intro F a c hm
      simp at hm
      rcases hm with ⟨-, rfl, -⟩ | ⟨-, rfl, -⟩ <;> exact ⟨[1, 2, 3], rfl, rfl⟩)
    allowAll (fun _ => false) Toy.prog2 none .finalized [] (by intro l hl; cases hl) rfl Toy.alice
    (Toy.acct Toy.alice Toy.prog2 1 6 1) (by decide) rfl (by intro l hl; cases hl)
  simp at hb

/-- It also fails when an account moves to another program and back before the first move is finalized. -/
theorem C28_moved_back_refuted : ∃ (h : List Op) (s : Store), empty.run h = .ok s ∧
    (∀ op ∈ h, op.filters.satisfies = fun _ => true) ∧
    s.getAccount Toy.alice .processed = .ok (some (Toy.acct Toy.alice Toy.prog 3 7 1)) ∧
    getProgramAccounts Toy.codecs allowAll (fun _ => false) s Toy.prog none .processed = .ok (.ok []) := by
  refine ⟨[.update allowAll (Toy.acct Toy.alice Toy.prog 1 4 1) .finalized,
    .update allowAll (Toy.acct Toy.alice Toy.prog2 1 5 1) .processed,
    .update allowAll (Toy.acct Toy.alice Toy.prog 3 7 1) .processed,
    .slot allowAll .asIs ⟨5, 4, 0⟩ .finalized], _, rfl, ?_, by decide, rfl⟩
  intro op hop
  simp at hop
  rcases hop with rfl | rfl | rfl | rfl <;> rfl

/-- **C28 (partial)**. An account whose owner never changed is found.  Missing: accounts that changed
owner (false). -/
theorem C28_query_complete_partial (h : List Op) (s : Store) (hs : empty.run h = .ok s) (X : Codecs)
    (hh : HonestHistory X h) (F : Filters) (busy : Nat → Bool) (p : Pubkey)
    (fs : Option (List AccountFilterType)) (c : Commitment) (r : List AccountData)
    (hw : QueryWellFormed X fs) (hr : getProgramAccounts X F busy s p fs c = .ok (.ok r))
    (pk : Pubkey) (a : AccountData) (hstable : ∀ b ∈ submissions pk h, b.account.owner = p)
    (ha : s.getAccount pk c = .ok (some a)) (hsel : Selected X fs a) :
    ∃ b ∈ r, SameAccount X a b := by
  have hi := inv_run inv_empty hs
  rw [getAccount_stateAt hi] at ha
  simp only [Run.ok.injEq] at ha
  obtain ⟨a', hst, hsh⟩ := Option.bind_eq_some_iff.1 ha
  have hlam : 0 < a'.account.lamports ∧ a' = a := by
    unfold shown at hsh
    split at hsh
    · simp at hsh; exact ⟨by assumption, hsh⟩
    · cases hsh
  obtain ⟨hlam, rfl⟩ := hlam
  have hown : a'.account.owner = p := hstable a' (stateAt_submitted hs hst)
  unfold stateAt at hst
  cases hv : s.view pk with
  | none => rw [hv] at hst; cases hst
  | some e =>
    rw [hv] at hst
    simp only [Option.bind_some] at hst
    obtain ⟨-, -, h3⟩ := stable_owner_listed pk p h s hs
      (fun F a c hm hpk => hstable a (mem_submissions.2 ⟨hpk, F, c, hm⟩)) e hv
    cases hix : s.index pk with
    | none => rw [(hi.view_none pk).2 hix] at hv; cases hv
    | some i =>
      have hin : i ∈ (s.byOwner p).getD [] := h3 i hix
      have hacc : s.accounts[i]? = some e := by rw [← view_of_index hix]; exact hv
      rw [getProgramAccounts_eq] at hr
      split at hr
      · simp only [Run.bind_eq_ok, Run.pure_eq, Run.ok.injEq, Except.ok.injEq] at hr
        obtain ⟨r0, hr0, rfl⟩ := hr
        have hok : ∀ j ∈ ((s.byOwner p).getD []).filter (fun i => !busy i) ++
            ((s.byOwner p).getD []).filter (fun i => busy i), ∃ e x, s.accounts[j]? = some e ∧
            gpaOne X e c p fs = .ok x := by
          intro j hj
          have hj' := (filter_split_perm busy _).mem_iff.1 hj
          have hlt := byOwner_lt hi p j hj'
          obtain ⟨x, hx, -⟩ := gpaOne_complete (X := X) (e := s.accounts[j]) (c := c) p hw
            (fun a hg => honest_states hs hh (List.getElem?_eq_getElem hlt) hg)
          exact ⟨_, x, List.getElem?_eq_getElem hlt, hx⟩
        obtain ⟨r1, hr1, hall⟩ := gpaPass_complete hok
        rw [hr0] at hr1; cases hr1
        obtain ⟨x, hx, hcomp⟩ := gpaOne_complete (X := X) (e := e) (c := c) p hw
          (fun a hg => honest_states hs hh hacc hg)
        obtain ⟨b, hb, hsame⟩ := hcomp a' hst hown hlam hsel
        exact ⟨b, hall i ((filter_split_perm busy _).mem_iff.2 hin) e x hacc hx b hb, hsame⟩
      · simp at hr

example : ∃ s, empty.run [.update allowAll (Toy.acct Toy.alice Toy.prog 1 5 1) .confirmed,
      .update allowAll (Toy.acct Toy.alice Toy.prog 2 7 1) .processed,
      .update allowAll (Toy.acct Toy.bob Toy.prog2 1 5 1) .processed] = .ok s ∧
    s.getAccount Toy.alice .confirmed = .ok (some (Toy.acct Toy.alice Toy.prog 1 5 1)) ∧
    getProgramAccounts Toy.codecs allowAll (fun _ => false) s Toy.prog none .confirmed =
      .ok (.ok [Toy.acct Toy.alice Toy.prog 1 5 1]) := ⟨_, rfl, by decide, rfl⟩

/-! ## C34 -/

/-- **C34**. A program query is rejected exactly when the configured filters do not contain it; otherwise
(decodable filters and data) it succeeds. -/
theorem C34_rejected_iff_not_contained (h : List Op) (s : Store) (hs : empty.run h = .ok s) (X : Codecs)
    (hh : HonestHistory X h) (F : Filters) (busy : Nat → Bool) (p : Pubkey)
    (fs : Option (List AccountFilterType)) (c : Commitment) (hw : QueryWellFormed X fs) :
    (F.contains ⟨[], some p, fs⟩ = false ∧
      getProgramAccounts X F busy s p fs c = .ok (.error .configDoesNotContainRequiredFilters)) ∨
    (F.contains ⟨[], some p, fs⟩ = true ∧ ∃ r, getProgramAccounts X F busy s p fs c = .ok (.ok r)) := by
  have hi := inv_run inv_empty hs
  rw [getProgramAccounts_eq]
  cases hc : F.contains ⟨[], some p, fs⟩ with
  | false => exact Or.inl ⟨rfl, by simp⟩
  | true =>
    refine Or.inr ⟨rfl, ?_⟩
    have hok : ∀ j ∈ ((s.byOwner p).getD []).filter (fun i => !busy i) ++
        ((s.byOwner p).getD []).filter (fun i => busy i), ∃ e x, s.accounts[j]? = some e ∧
        gpaOne X e c p fs = .ok x := by
      intro j hj
      have hj' := (filter_split_perm busy _).mem_iff.1 hj
      have hlt := byOwner_lt hi p j hj'
      obtain ⟨x, hx, -⟩ := gpaOne_complete (X := X) (e := s.accounts[j]) (c := c) p hw
        (fun a hg => honest_states hs hh (List.getElem?_eq_getElem hlt) hg)
      exact ⟨_, x, List.getElem?_eq_getElem hlt, hx⟩
    obtain ⟨r1, hr1, -⟩ := gpaPass_complete hok
    exact ⟨r1, by simp [hr1]⟩

/-- Both cases occur. -/
example : getProgramAccounts Toy.codecs ⟨fun _ => true, fun f => f.programId == some Toy.prog⟩ (fun _ => false)
      empty Toy.prog none .processed = .ok (.ok []) ∧
    getProgramAccounts Toy.codecs ⟨fun _ => true, fun f => f.programId == some Toy.prog⟩ (fun _ => false)
      empty Toy.prog2 none .processed = .ok (.error .configDoesNotContainRequiredFilters) := ⟨rfl, rfl⟩

end LAM.Props
