import Verif.Lemmas.Visible
import Verif.Props.StoreReads
/-!
# Slot notifications and the in-memory store: C16 – C24, C30, C31
-/
namespace LAM.Props
open Spec Store ByCommitment

/-! ## C16, C17 -/

/-- **C16**. A confirmed read shows a state of a slot that was reported confirmed (or finalized), or of
an announced ancestor of such a slot. -/
theorem C16_confirmed_reads_from_confirmed_slots (h : List Op) (s : Store) (hs : empty.run h = .ok s)
    (pk : Pubkey) (a : AccountData) (hr : s.getAccount pk .confirmed = .ok (some a)) :
    Settled .confirmed h a.slot := by
  have hi := inv_run inv_empty hs
  rw [getAccount_eq hi] at hr
  cases hv : s.view pk with
  | none => simp [hv] at hr
  | some e =>
    simp [hv, Option.filter_eq_some_iff] at hr
    exact (lineage h s hs).confState pk e a hv hr.1

/-- An update of slot 4 becomes visible when its child, slot 5, is confirmed. -/
example : ∃ s, empty.run [.update allowAll (Toy.acct Toy.alice Toy.prog 1 4 1) .processed,
    .slot allowAll .asIs ⟨5, 4, 0⟩ .processed, .slot allowAll .asIs ⟨5, 4, 0⟩ .confirmed] = .ok s ∧
    s.getAccount Toy.alice .confirmed = .ok (some (Toy.acct Toy.alice Toy.prog 1 4 1)) := ⟨_, rfl, by decide⟩

/-- The full claim of **C17**. -/
def C17_statement : Prop :=
  ∀ (h : List Op) (s : Store), empty.run h = .ok s → ∀ (pk : Pubkey) (a : AccountData),
    s.getAccount pk .finalized = .ok (some a) → Settled .finalized h a.slot

/-- Slots 9, 10, 11 extend slot 8, which the store has not heard of.  Confirming 11 gives slot 8 a status
whose parent is 10; finalizing 9 then also finalizes 10. -/
def prematureFinalization : List Op :=
  [.slot allowAll .asIs ⟨9, 8, 0⟩ .processed,
   .slot allowAll .asIs ⟨10, 9, 0⟩ .processed,
   .slot allowAll .asIs ⟨11, 10, 0⟩ .processed,
   .update allowAll (Toy.acct Toy.alice Toy.prog 1 10 1) .processed,
   .slot allowAll .asIs ⟨11, 10, 0⟩ .confirmed,
   .slot allowAll .asIs ⟨9, 8, 0⟩ .finalized]

/-- **C17** is false: a slot can be treated as finalized although only an earlier one was. -/
theorem C17_finalized_reads_refuted : ¬ C17_statement := by
  intro h
  have hset := h prematureFinalization _ rfl Toy.alice (Toy.acct Toy.alice Toy.prog 1 10 1) (by decide)
  have key : ∀ k, Settled .finalized prematureFinalization k → k = 9 ∨ k = 8 := by
    intro k hk
    induction hk with
    | reported hr =>
      rcases hr with ⟨F, σ, info, d, hm, hk, hle⟩ | ⟨F, a, d, hm, hk, hle⟩
      · simp only [prematureFinalization, List.mem_cons, Op.slot.injEq, reduceCtorEq, List.not_mem_nil,
          or_false, false_or] at hm
        rcases hm with ⟨-, -, rfl, rfl⟩ | ⟨-, -, rfl, rfl⟩ | ⟨-, -, rfl, rfl⟩ | ⟨-, -, rfl, rfl⟩ | ⟨-, -, rfl, rfl⟩
        · exact absurd hle (by decide)
        · exact absurd hle (by decide)
        · exact absurd hle (by decide)
        · exact absurd hle (by decide)
        · exact Or.inl hk.symm
      · simp only [prematureFinalization, List.mem_cons, Op.update.injEq, reduceCtorEq, List.not_mem_nil,
          or_false, false_or] at hm
        obtain ⟨-, -, rfl⟩ := hm
        exact absurd hle (by decide)
    | ancestor _ ha ih =>
      obtain ⟨F, σ, info, d, hm, hk, hp⟩ := ha
      simp only [prematureFinalization, List.mem_cons, Op.slot.injEq, reduceCtorEq, List.not_mem_nil,
        or_false, false_or] at hm
      rcases hm with ⟨-, -, rfl, -⟩ | ⟨-, -, rfl, -⟩ | ⟨-, -, rfl, -⟩ | ⟨-, -, rfl, -⟩ | ⟨-, -, rfl, -⟩ <;>
        simp_all <;> omega
  have := key _ hset
  simp [Toy.acct] at this

/-- **C17 (partial)**. A finalized read shows a slot reported finalized or one linked to such a slot by
announced parents and by the parents the code makes up when it confirms a slot below a gap.
Missing: excluding the made-up parents, which is false. -/
theorem C17_finalized_reads_partial (h : List Op) (s : Store) (hs : empty.run h = .ok s)
    (pk : Pubkey) (a : AccountData) (hr : s.getAccount pk .finalized = .ok (some a)) :
    ∃ x, Reported .finalized h x ∧ Linked h x a.slot := by
  have hi := inv_run inv_empty hs
  rw [getAccount_eq hi] at hr
  cases hv : s.view pk with
  | none => simp [hv] at hr
  | some e =>
    simp [hv, Option.filter_eq_some_iff] at hr
    exact (lineage h s hs).finState pk e a hv hr.1

/-- **C17 (partial)**. The claim holds for histories without `Confirmed` slot notifications. -/
theorem C17_finalized_reads_no_confirmed_partial (h : List Op) (s : Store) (hs : empty.run h = .ok s)
    (hno : ∀ F σ info, Op.slot F σ info .confirmed ∉ h)
    (pk : Pubkey) (a : AccountData) (hr : s.getAccount pk .finalized = .ok (some a)) :
    Settled .finalized h a.slot := by
  obtain ⟨x, hx, hl⟩ := C17_finalized_reads_partial h s hs pk a hr
  have hx' : Settled .finalized h x := .reported hx
  clear hx hr
  generalize a.slot = k at hl
  induction hl with
  | refl => exact hx'
  | announced _ ha ih => exact .ancestor (ih hx') ha
  | madeUp _ hm => exact absurd hm (hno _ _ _)

example : ∃ s, empty.run [.update allowAll (Toy.acct Toy.alice Toy.prog 1 4 1) .processed,
    .slot allowAll .asIs ⟨5, 4, 0⟩ .processed, .slot allowAll .asIs ⟨5, 4, 0⟩ .finalized] = .ok s ∧
    s.getAccount Toy.alice .finalized = .ok (some (Toy.acct Toy.alice Toy.prog 1 4 1)) := ⟨_, rfl, by decide⟩

/-! ## C18 -/

/-- **C18**. A pubkey was updated at slot `a.slot` since it is tracked, the slot is not confirmed yet and
no later slot was finalized.  Then notifying the slot at `c` (confirmed or finalized) makes a state of that
slot or a later one visible at `c` and below, unless finalization removed the pubkey. -/
theorem C18_confirming_makes_visible (h1 h2 : List Op) (s1 s2 : Store) (pk : Pubkey) (a : AccountData)
    (hr1 : empty.run h1 = .ok s1) (hun : s1.containsKey pk = false) (hr2 : s1.run h2 = .ok s2)
    (htr : StaysTracked s1 h2 pk) (ha : a ∈ submissions pk h2)
    (hnc : ¬ Settled .confirmed (h1 ++ h2) a.slot)
    (hnf : ∀ F σ info, Op.slot F σ info .finalized ∈ h1 ++ h2 → info.slot ≤ a.slot)
    (F : Filters) (σ : Order) (info : SlotInfo) (hslot : info.slot = a.slot) (c : Commitment)
    (hc : c ≠ .processed) (s3 : Store) (r : List AccountData)
    (hp : s2.processSlotData F σ info c = .ok (s3, r)) :
    (c = .confirmed → s3.containsKey pk = true) ∧
    (s3.containsKey pk = true → ∀ d, d ≠ .processed → d ≤ c →
      ∃ b, stateAt s3 pk d = some b ∧ a.slot ≤ b.slot) := by
  have hne : h2 ≠ [] := by rintro rfl; simp [submissions] at ha
  have hrunA : empty.run (h1 ++ h2) = .ok s2 := by rw [run_append, hr1]; exact hr2
  have hi := inv_run inv_empty hrunA
  obtain ⟨i, e, hL⟩ := logOK hr1 hun h2 s2 hne hr2 htr
  obtain ⟨s', r', hp', path, m', w, hcase⟩ := processSlot_case hi F σ info c
  rw [hp] at hp'; cases hp'
  -- the slot is recorded with the account and not confirmed
  obtain ⟨st, hf, hst, hmem⟩ : ∃ st, BMap.find s2.slots a.slot = some st ∧ st.commitment = .processed ∧
      i ∈ st.accountsUpdated := by
    rcases hL.waiting a ha with ⟨G, τ, info', hm, hlt⟩ | hse | h
    · have := hnf _ _ _ hm; omega
    · exact absurd hse hnc
    · exact h
  have hnec : st.commitment ≠ c := by rw [hst]; exact fun h => hc h.symm
  -- so it is the first slot of the walk
  have hpath : ∃ t, path = info.slot :: t := by
    have hw := hcase.walk
    rw [← hslot] at hf
    cases hw with
    | same hf' hc' => rw [hf] at hf'; cases hf'; exact absurd hc' hnec
    | stop => exact ⟨[], rfl⟩
    | next => exact ⟨_, rfl⟩
    | fresh hf' => rw [hf] at hf'; cases hf'
    | missing hf' => rw [hf] at hf'; cases hf'
  obtain ⟨t, hpath⟩ := hpath
  have hiu : i ∈ upd s2.slots info.slot := by rw [hslot]; exact mem_upd.2 ⟨st, hf, hmem⟩
  have hin : (i, info.slot) ∈ w := by
    obtain ⟨k, hk⟩ := gather_covers (m := s2.slots) (path := path) (w := []) (k := info.slot) (i := i)
      (by rw [hpath]; simp) hiu
    obtain ⟨p1, p2, hpp, hq⟩ := gather_first (m := s2.slots) (path := path) (w := []) (by simp) (by simp) hk
    have : k = info.slot := by
      cases p1 with
      | nil => rw [hpath] at hpp; simp at hpp; exact hpp.1.symm
      | cons y p1 =>
        rw [hpath] at hpp; simp at hpp
        exact absurd hiu (hq info.slot (by simp [hpp.1]))
    rw [← this, hcase.gathered]; exact hk
  rcases hcase.view hi pk with ⟨h0, -⟩ | ⟨i2, e2, h0, h2, -, ho, hcs⟩
  · rw [hL.index] at h0; cases h0
  rw [hL.index] at h0; cases h0
  rw [hL.view] at h2; cases h2
  obtain ⟨k, hk, hv, hx⟩ : ∃ k, (i, k) ∈ w ∧ s3.view pk = after F c e k ∧
      (s3.index pk = some i ∨ (s3.index pk = none ∧ after F c e k = none)) := by
    rcases hcs with ⟨hno, -⟩ | h
    · exact absurd hin (hno _)
    · exact h
  have hks : k = info.slot := by
    rw [hcase.gathered] at hk
    obtain ⟨p1, p2, hpp, hq⟩ := gather_first (m := s2.slots) (path := path) (w := []) (by simp) (by simp) hk
    cases p1 with
    | nil => rw [hpath] at hpp; simp at hpp; exact hpp.1.symm
    | cons y p1 =>
      rw [hpath] at hpp; simp at hpp
      exact absurd hiu (hq info.slot (by simp [hpp.1]))
  subst hks
  constructor
  · intro hcc
    have hsome : (after F c e info.slot).isSome = true := by
      unfold after
      split
      · rw [if_neg]
        · rfl
        · simp [Removes, hcc]
      · rfl
    rw [← hcase.inv.view_isSome, hv]; exact hsome
  · intro hck d hd hdc
    have hsome : (s3.view pk).isSome = true := by rw [hcase.inv.view_isSome]; exact hck
    obtain ⟨e', he'⟩ := Option.isSome_iff_exists.1 hsome
    have hpe := after_eq (by rw [← hv]; exact he')
    have hst' : stateAt s3 pk d = e'.get d := by simp [stateAt, he']
    rw [hst', hpe]
    -- what is stored for the slot
    have hpres := hL.present a ha
    rw [← hslot] at hpres ⊢
    have hconf : ∃ b, (e.promote info.slot c).1.confirmed = some b ∧ info.slot ≤ b.slot := by
      rw [promote_confirmed]
      cases hfp : BMap.find e.processed info.slot with
      | none =>
        rw [hfp] at hpres
        rcases hpres with hpres | ⟨f, hff, hlt⟩
        · simp at hpres
        · obtain ⟨x, hx, hle⟩ := (ho.fin f hff).2
          exact ⟨x, hx, by omega⟩
      | some y =>
        have hys := (ho.keys _ _ hfp).1
        simp only [if_neg hc]
        cases e.confirmed with
        | none => exact ⟨y, rfl, by omega⟩
        | some x =>
          simp only
          split
          · exact ⟨y, rfl, by omega⟩
          · exact ⟨x, rfl, by omega⟩
    have hfin : c = .finalized → ∃ b, (e.promote info.slot c).1.finalized = some b ∧ info.slot ≤ b.slot := by
      intro hcf
      rw [promote_finalized]
      cases hfp : BMap.find e.processed info.slot with
      | none =>
        rw [hfp] at hpres
        rcases hpres with hpres | ⟨f, hff, hlt⟩
        · simp at hpres
        · exact ⟨f, hff, by omega⟩
      | some y =>
        have hys := (ho.keys _ _ hfp).1
        simp only [if_pos hcf]
        cases e.finalized with
        | none => exact ⟨y, rfl, by omega⟩
        | some x =>
          simp only
          split
          · exact ⟨y, rfl, by omega⟩
          · exact ⟨x, rfl, by omega⟩
    cases d with
    | processed => exact absurd rfl hd
    | confirmed => exact hconf
    | finalized =>
      apply hfin
      cases c
      · exact absurd rfl hc
      · revert hdc; decide
      · rfl

example : ∃ s s' r, empty.run [.update allowAll (Toy.acct Toy.alice Toy.prog 1 4 1) .processed] = .ok s ∧
    s.processSlotData allowAll .asIs ⟨4, 3, 0⟩ .finalized = .ok (s', r) ∧
    s'.getAccount Toy.alice .finalized = .ok (some (Toy.acct Toy.alice Toy.prog 1 4 1)) :=
  ⟨_, _, _, rfl, rfl, by decide⟩

/-! ## C19 -/

/-- The full claim of **C19**: an update at `Processed`, accepted for a slot whose status is `Confirmed` or
`Finalized`, is visible at that commitment when it is newer than what is there. -/
def C19_statement : Prop :=
  ∀ (h : List Op) (s : Store), empty.run h = .ok s → ∀ (F : Filters) (a : AccountData) (st : SlotStatus)
    (s' : Store) (b : Bool), BMap.find s.slots a.slot = some st → st.commitment ≠ .processed →
    (∀ x, stateAt s a.pubkey st.commitment = some x → Older x a) →
    s.updateAccount F a .processed = .ok (s', b) → s'.containsKey a.pubkey = true →
    stateAt s' a.pubkey st.commitment = some a

/-- **C19** is false for accounts seen for the first time. -/
theorem C19_late_update_visible_refuted : ¬ C19_statement := by
  intro h
  have := h [.update allowAll (Toy.acct Toy.bob Toy.prog 1 5 1) .processed,
    .slot allowAll .asIs ⟨5, 4, 0⟩ .confirmed] _ rfl allowAll (Toy.acct Toy.alice Toy.prog 1 5 1)
    ⟨.confirmed, [0], some 4⟩ _ _ rfl (by decide) (by intro x hx; simp [stateAt, Store.view] at hx; revert hx; decide +revert) rfl rfl
  revert this; decide

/-- **C19 (partial)**. It holds for accounts that are tracked already.  Missing: new accounts (false). -/
theorem C19_late_update_visible_partial (h : List Op) (s : Store) (hs : empty.run h = .ok s) (F : Filters)
    (a : AccountData) (st : SlotStatus) (s' : Store) (b : Bool)
    (hf : BMap.find s.slots a.slot = some st) (hst : st.commitment ≠ .processed)
    (hold : ∀ x, stateAt s a.pubkey st.commitment = some x → Older x a)
    (htr : s.containsKey a.pubkey = true)
    (hu : s.updateAccount F a .processed = .ok (s', b)) (htr' : s'.containsKey a.pubkey = true) :
    stateAt s' a.pubkey st.commitment = some a ∧ b = true := by
  have hi := inv_run inv_empty hs
  obtain ⟨s2, b2, he, hc⟩ := updateAccount_case hi F a .processed
  rw [hu] at he; cases he
  have hi' := inv_updateCase hi hc
  have heff : s.effective a.slot .processed = st.commitment := by simp [effective, hf]
  have hvs : (s.view a.pubkey).isSome = true := by rw [hi.view_isSome]; exact htr
  have hvs' : (s'.view a.pubkey).isSome = true := by rw [hi'.view_isSome]; exact htr'
  rcases (view_updateCase hi hc a.pubkey).2 rfl with ⟨h1, -⟩ | ⟨h1, -⟩ | ⟨e, h1, -, h3, h4⟩ | ⟨e, -, -, h3, -⟩
  · rw [h1] at hvs; simp at hvs
  · rw [h1] at hvs; simp at hvs
  · rw [heff] at h3 h4
    have hold' : ∀ x, e.get st.commitment = some x → Older x a := by
      intro x hx; apply hold; simp [stateAt, h1, hx]
    have hnew : isNewer (e.get st.commitment) a = true := by
      cases hg : e.get st.commitment with
      | none => rfl
      | some x => rw [isNewer_some]; exact hold' x hg
    have hgoal : (e.update a st.commitment).1.get st.commitment = some a := by
      cases hcm : st.commitment with
      | processed => exact absurd hcm hst
      | confirmed =>
        rw [hcm] at hnew
        simp only [ByCommitment.get] at hnew ⊢
        rw [update_confirmed]; simp [hnew]
      | finalized =>
        rw [hcm] at hnew
        simp only [ByCommitment.get] at hnew ⊢
        rw [update_finalized]; simp [hnew]
    refine ⟨by simp [stateAt, h3, hgoal], ?_⟩
    rw [h4, update_flag]
    cases hcm : st.commitment with
    | processed => exact absurd hcm hst
    | confirmed => rw [hcm] at hnew; simp only [ByCommitment.get] at hnew; simp [hnew]
    | finalized => rw [hcm] at hnew; simp only [ByCommitment.get] at hnew; simp [hnew]
  · rw [h3] at hvs'; simp at hvs'

example : ∃ s s' b, empty.run [.update allowAll (Toy.acct Toy.alice Toy.prog 1 5 1) .processed,
      .slot allowAll .asIs ⟨5, 4, 0⟩ .confirmed] = .ok s ∧
    s.updateAccount allowAll (Toy.acct Toy.alice Toy.prog 7 5 2) .processed = .ok (s', b) ∧
    s'.getAccount Toy.alice .confirmed = .ok (some (Toy.acct Toy.alice Toy.prog 7 5 2)) :=
  ⟨_, _, _, rfl, rfl, by decide⟩

/-! ## C20 -/

private theorem promote_get {e : ByCommitment} {k : Nat} {c : Commitment} (hc : c ≠ .processed) :
    (e.promote k c).1.get c = (match (e.promote k c).2 with
      | some (a, _) => some a
      | none => e.get c) := by
  cases c with
  | processed => exact absurd rfl hc
  | confirmed =>
    unfold promote
    simp only [ByCommitment.get]
    (repeat' split) <;> simp_all
  | finalized =>
    unfold promote
    simp only [ByCommitment.get]
    (repeat' split) <;> simp_all

private theorem mem_reported {c : Commitment} {e : ByCommitment} {k : Nat} {a : AccountData} :
    a ∈ reported c e k ↔ ∃ p, (e.promote k c).2 = some (a, p) := by
  unfold reported
  split
  · rename_i x p h; simp [h]; exact eq_comm
  · rename_i h; simp [h]

/-- **C20**. The answer of `process_slot_data(slot, c)` lists, once per pubkey, exactly the new states of
the pubkeys whose state at commitment `c` advanced; a removed pubkey is listed too; nothing is listed for
`Processed`. -/
theorem C20_reports_exactly_the_changes (h : List Op) (s : Store) (hs : empty.run h = .ok s) (F : Filters)
    (σ : Order) (info : SlotInfo) (c : Commitment) (s' : Store) (r : List AccountData)
    (hp : s.processSlotData F σ info c = .ok (s', r)) :
    (c = .processed → r = []) ∧
    (r.map AccountData.pubkey).Nodup ∧
    (∀ a ∈ r, s.containsKey a.pubkey = true ∧
      ∀ x, stateAt s a.pubkey c = some x → x.slot < a.slot) ∧
    (c ≠ .processed → ∀ pk, s'.containsKey pk = true → ∀ a, (a ∈ r ∧ a.pubkey = pk) ↔
      (stateAt s' pk c = some a ∧ stateAt s pk c ≠ some a)) ∧
    (∀ pk, s.containsKey pk = true → s'.containsKey pk = false → ∃ a ∈ r, a.pubkey = pk) := by
  have hi := inv_run inv_empty hs
  obtain ⟨s2, r2, hp', path, m', w, hc⟩ := processSlot_case hi F σ info c
  rw [hp] at hp'; cases hp'
  -- elements of the answer
  have hel : ∀ i k a, (i, k) ∈ w → a ∈ reported c (s.at' i) k →
      s.index a.pubkey = some i ∧ ∃ e p, s.view a.pubkey = some e ∧ s.at' i = e ∧ EntryOK a.pubkey e ∧
        (e.promote k c).2 = some (a, p) := by
    intro i k a hw ha
    obtain ⟨p, hpr⟩ := mem_reported.1 ha
    have hlt : i < s.accounts.length := by
      rw [hc.gathered] at hw
      rcases mem_gather_sub hw with hw | ⟨-, hw⟩
      · simp at hw
      · exact upd_lt hi hw
    have hget : s.accounts[i]? = some (s.at' i) := by simp [at', hlt]
    rcases hi.own i _ hget with ⟨pk, hpk⟩ | hd
    · obtain ⟨e, he, ho⟩ := hi.idx _ _ hpk
      rw [hget] at he; simp at he
      have hk := (promote_result _ _ _ _ _).1 hpr
      have : a.pubkey = pk := (ho.keys _ _ (by rw [← he]; exact hk.2.1)).2
      subst this
      exact ⟨hpk, e, p, by rw [view_of_index hpk, hget, he], he, ho, by rw [← he]; exact hpr⟩
    · rw [hd, promote_dead] at hpr; simp at hpr
  have hmem : ∀ a, a ∈ r ↔ ∃ i k, (i, k) ∈ w ∧ a ∈ reported c (s.at' i) k := by
    intro a
    rw [hc.result, List.mem_flatMap]
    constructor
    · rintro ⟨x, hx, ha⟩; exact ⟨x.1, x.2, (σ.perm w).mem_iff.1 hx, ha⟩
    · rintro ⟨i, k, hx, ha⟩; exact ⟨(i, k), (σ.perm w).mem_iff.2 hx, ha⟩
  have huniq : ∀ i k k', (i, k) ∈ w → (i, k') ∈ w → k = k' := by
    intro i k k' h1 h2
    have hnd := hc.nodup
    generalize w = g at hnd h1 h2
    clear hel hmem hc hp
    induction g with
    | nil => simp at h1
    | cons x g ih =>
      simp only [List.map_cons, List.nodup_cons, List.mem_map, not_exists, not_and] at hnd
      rcases List.mem_cons.1 h1 with h1 | h1 <;> rcases List.mem_cons.1 h2 with h2 | h2
      · rw [← h1] at h2; simp at h2; exact h2.symm
      · exact absurd (by rw [← h1]) (hnd.1 _ h2)
      · exact absurd (by rw [← h2]) (hnd.1 _ h1)
      · exact ih hnd.2 h1 h2
  refine ⟨?_, ?_, ?_, ?_, ?_⟩
  · intro hcp
    apply List.eq_nil_iff_forall_not_mem.2
    intro a ha
    obtain ⟨i, k, hw, har⟩ := (hmem a).1 ha
    obtain ⟨-, e, p, -, -, -, hpr⟩ := hel i k a hw har
    exact ((promote_result _ _ _ _ _).1 hpr).1 hcp
  · have hw' : ∀ x ∈ σ.arrange w, x ∈ w := fun x hx => (σ.perm w).mem_iff.1 hx
    have hnd' : ((σ.arrange w).map Prod.fst).Nodup := ((σ.perm w).map Prod.fst).nodup_iff.2 hc.nodup
    rw [hc.result, List.Nodup, List.pairwise_map, List.pairwise_flatMap]
    constructor
    · intro x _
      unfold reported
      split <;> simp
    · rw [List.Nodup, List.pairwise_map] at hnd'
      refine hnd'.imp_of_mem ?_
      rintro ⟨i, k⟩ ⟨j, l⟩ hx hy hne a ha b hb hab
      have h1 := (hel i k a (hw' _ hx) ha).1
      have h2 := (hel j l b (hw' _ hy) hb).1
      rw [hab, h2] at h1
      simp at h1
      exact hne h1.symm
  · intro a ha
    obtain ⟨i, k, hw, har⟩ := (hmem a).1 ha
    obtain ⟨hidx, e, p, hv, -, -, hpr⟩ := hel i k a hw har
    refine ⟨by simp [containsKey, hidx], ?_⟩
    intro x hx
    have := (promote_result _ _ _ _ _).1 hpr
    simp [stateAt, hv] at hx
    exact this.2.2.2 x (by rw [this.2.2.1, hx])
  · intro hcp pk hck a
    constructor
    · rintro ⟨ha, rfl⟩
      obtain ⟨i, k, hw, har⟩ := (hmem a).1 ha
      obtain ⟨hidx, e, p, hv, hat, ho, hpr⟩ := hel i k a hw har
      have hrs := (promote_result _ _ _ _ _).1 hpr
      rcases hc.view hi a.pubkey with ⟨h0, -⟩ | ⟨i2, e2, h0, h2, -, -, hcs⟩
      · rw [hidx] at h0; cases h0
      rw [hidx] at h0; cases h0
      rw [hv] at h2; cases h2
      rcases hcs with ⟨hno, -⟩ | ⟨k2, hk2, hv2, -⟩
      · exact absurd hw (hno _)
      · have := huniq _ _ _ hw hk2
        subst this
        have hsome : (s'.view a.pubkey).isSome = true := by rw [hc.inv.view_isSome]; exact hck
        obtain ⟨e', he'⟩ := Option.isSome_iff_exists.1 hsome
        have hpe := after_eq (by rw [← hv2]; exact he')
        constructor
        · simp only [stateAt, he', Option.bind_some, hpe]
          rw [promote_get hcp, hpr]
        · simp only [stateAt, hv, Option.bind_some]
          intro hcon
          have := hrs.2.2.2 a (by rw [hrs.2.2.1, hcon])
          omega
    · rintro ⟨h1, h2⟩
      rcases hc.view hi pk with ⟨-, -, -, h0⟩ | ⟨i, e, hidx, hv, hat, ho, hcs⟩
      · simp [stateAt, h0] at h1
      rcases hcs with ⟨-, hv2, -⟩ | ⟨k, hk, hv2, -⟩
      · simp only [stateAt, hv2, hv, Option.bind_some] at h1 h2
        exact absurd h1 h2
      · have hsome : (s'.view pk).isSome = true := by rw [hc.inv.view_isSome]; exact hck
        obtain ⟨e', he'⟩ := Option.isSome_iff_exists.1 hsome
        have hpe := after_eq (by rw [← hv2]; exact he')
        simp only [stateAt, he', hv, Option.bind_some, hpe] at h1 h2
        rw [promote_get hcp] at h1
        split at h1
        · rename_i b p hpr
          simp at h1; subst h1
          refine ⟨(hmem b).2 ⟨i, k, hk, mem_reported.2 ⟨p, by rw [hat]; exact hpr⟩⟩, ?_⟩
          exact (ho.keys _ _ ((promote_result _ _ _ _ _).1 hpr).2.1).2
        · exact absurd h1 h2
  · intro pk hck hck'
    rcases hc.view hi pk with ⟨h0, -⟩ | ⟨i, e, hidx, hv, hat, ho, hcs⟩
    · simp [containsKey, h0] at hck
    rcases hcs with ⟨-, -, h0⟩ | ⟨k, hk, hv2, hx⟩
    · simp [containsKey, h0] at hck'
    · rcases hx with hx | ⟨-, hx⟩
      · simp [containsKey, hx] at hck'
      · unfold after at hx
        split at hx
        · rename_i a p hpr
          refine ⟨a, (hmem a).2 ⟨i, k, hk, mem_reported.2 ⟨_, by rw [hat]; exact hpr⟩⟩, ?_⟩
          exact (ho.keys _ _ ((promote_result _ _ _ _ _).1 hpr).2.1).2
        · simp at hx

/-- Two accounts of the slot; only the one that is not already confirmed at a later slot is reported. -/
example : ∃ s s' r, empty.run [.update allowAll (Toy.acct Toy.alice Toy.prog 1 5 1) .processed,
      .update allowAll (Toy.acct Toy.bob Toy.prog 1 5 1) .processed,
      .update allowAll (Toy.acct Toy.bob Toy.prog 2 9 1) .confirmed] = .ok s ∧
    s.processSlotData allowAll .asIs ⟨5, 4, 0⟩ .confirmed = .ok (s', r) ∧
    r = [Toy.acct Toy.alice Toy.prog 1 5 1] := ⟨_, _, _, rfl, rfl, by decide⟩

/-! ## C21 -/

/-- **C21**. Repeating a slot notification changes nothing and reports nothing. -/
theorem C21_slot_idempotent (h : List Op) (s : Store) (hs : empty.run h = .ok s) (F G : Filters)
    (σ τ : Order) (info : SlotInfo) (c : Commitment) (s' : Store) (r : List AccountData)
    (hp : s.processSlotData F σ info c = .ok (s', r)) :
    s'.processSlotData G τ info c = .ok (s', []) := by
  have hi := inv_run inv_empty hs
  obtain ⟨s2, r2, hp', path, m', w, hc⟩ := processSlot_case hi F σ info c
  rw [hp] at hp'; cases hp'
  have hsm := hc.walk.sorted hi.slotsSorted
  -- the status of the slot afterwards
  have hhead : (∃ st, BMap.find s'.slots info.slot = some st ∧ st.commitment = c) ∨
      (BMap.find s'.slots info.slot = none ∧ c = .finalized) := by
    have hfs : BMap.find s'.slots info.slot = BMap.find m' info.slot := by
      rw [hc.slots, find_dropOldSlots hsm, if_neg (by omega)]
    rw [hfs]
    have hw := hc.walk
    by_cases hpth : info.slot ∈ path
    · exact Or.inl ((hw.status info.slot).2 hpth)
    · cases hw with
      | same hf' hc' => exact Or.inl ⟨_, hf', hc'⟩
      | missing hf' hn => exact Or.inr ⟨hf', hn⟩
      | stop => simp at hpth
      | next => simp at hpth
      | fresh => simp at hpth
  have hwalk : Store.walk info c (s'.slots.length + 1) s'.slots [] info.slot (some info.parent) =
      .ok (s'.slots, []) := by
    unfold Store.walk
    rcases hhead with ⟨st, hf, hcm⟩ | ⟨hf, hcm⟩
    · simp [hf, hcm]
    · simp [hf, hcm]
  have hdrop : dropOldSlots s'.slots info.slot c = s'.slots := by
    apply BMap.ext (sorted_dropOldSlots hc.inv.slotsSorted _ _) hc.inv.slotsSorted
    intro k
    rw [find_dropOldSlots hc.inv.slotsSorted]
    split
    · rename_i hk
      rw [hc.slots, find_dropOldSlots hsm, if_pos hk]
    · rfl
  have harr : τ.arrange [] = [] := List.Perm.eq_nil (τ.perm [])
  unfold processSlotData
  simp [hwalk, hdrop, harr, promoteAll]

/-- The first notification reports the account, the second one nothing. -/
example : ∃ s s1, empty.run [.update allowAll (Toy.acct Toy.alice Toy.prog 1 5 1) .processed] = .ok s ∧
    s.processSlotData allowAll .asIs ⟨5, 4, 0⟩ .finalized = .ok (s1, [Toy.acct Toy.alice Toy.prog 1 5 1]) ∧
    s1.processSlotData allowAll .asIs ⟨5, 4, 0⟩ .finalized = .ok (s1, []) := ⟨_, _, rfl, rfl, rfl⟩

/-! ## C22 -/

/-- The full claim of **C22**. -/
def C22_statement : Prop :=
  ∀ (h : List Op) (s : Store), empty.run h = .ok s → ∀ (F : Filters) (a : AccountData) (c : Commitment)
    (s1 : Store) (b : Bool), s.updateAccount F a c = .ok (s1, b) →
    ∃ s2, s1.updateAccount F a c = .ok (s2, false) ∧ ∀ pk d, s2.getAccount pk d = s1.getAccount pk d

/-- **C22** is false: a new account of an already confirmed slot becomes confirmed only when it is
submitted again. -/
theorem C22_resubmission_refuted : ¬ C22_statement := by
  intro h
  obtain ⟨s2, h1, -⟩ := h [.update allowAll (Toy.acct Toy.bob Toy.prog 1 5 1) .processed,
    .slot allowAll .asIs ⟨5, 4, 0⟩ .confirmed] _ rfl allowAll (Toy.acct Toy.alice Toy.prog 1 5 1)
    .processed _ _ rfl
  obtain ⟨s3, h3⟩ : ∃ s3, (s2, false) = (s3, true) := by
    refine ⟨_, Run.ok.inj (h1.symm.trans rfl)⟩
  simp at h3

private theorem effective_add (s : Store) (k i : Nat) (c : Commitment) (t : Store)
    (ht : t.slots = (s.addIndexToSlot k i c).1.slots) : t.effective k c = s.effective k c := by
  unfold effective
  rw [ht, find_addIndexToSlot]
  simp only [if_true]
  split
  · rfl
  · cases BMap.find s.slots k <;> simp

private theorem update_again (e : ByCommitment) (a : AccountData)
    (c : Commitment) : ((e.update a c).1.update a c) = ((e.update a c).1, false) := by
  have hself : ¬ Older a a := Older.irrefl a
  have hpf : (updateProcessed (e.update a c).1.processed a).2 = false := by
    rw [updateProcessed_flag, update_processed, find_updateProcessed, if_pos rfl]
    split
    · rename_i p hp
      split
      · exact ⟨a, rfl, Nat.le_refl _⟩
      · exact ⟨p, rfl, by omega⟩
    · exact ⟨a, rfl, Nat.le_refl _⟩
  have hcn : c ≠ .processed → isNewer (e.update a c).1.confirmed a = false := by
    intro hc
    rw [update_confirmed, if_neg hc]
    split
    · rw [Bool.eq_false_iff, Ne, isNewer_some]; exact hself
    · rename_i h; simpa using h
  have hfn : c = .finalized → isNewer (e.update a c).1.finalized a = false := by
    intro hc
    rw [update_finalized]
    split
    · rw [Bool.eq_false_iff, Ne, isNewer_some]; exact hself
    · rename_i h; simpa [hc] using h
  have h1 : ((e.update a c).1.update a c).1.processed = (e.update a c).1.processed := by
    rw [update_processed]; exact updateProcessed_noop _ _ hpf
  have h2 : ((e.update a c).1.update a c).1.confirmed = (e.update a c).1.confirmed := by
    rw [update_confirmed]
    split
    · rfl
    · rename_i hc; rw [hcn hc]; simp
  have h3 : ((e.update a c).1.update a c).1.finalized = (e.update a c).1.finalized := by
    rw [update_finalized]
    split
    · rename_i hc; rw [hfn hc.1] at hc; simp at hc
    · rfl
  have h4 : ((e.update a c).1.update a c).2 = false := by
    rw [update_flag, hpf]
    cases c with
    | processed => simp
    | confirmed => simp [hcn (by simp)]
    | finalized => simp [hfn rfl]
  generalize hx : ((e.update a c).1.update a c) = x at *
  generalize hy : (e.update a c).1 = y at *
  obtain ⟨⟨p, q, u⟩, b⟩ := x
  obtain ⟨p', q', u'⟩ := y
  simp_all

/-- **C22 (partial)**. Submitting the same account again with the same commitment returns `false` and
changes no read, if the pubkey was tracked before the first submission and still is after it.
Missing: pubkeys that the first submission starts (false) or stops tracking. -/
theorem C22_resubmission_partial (h : List Op) (s : Store) (hs : empty.run h = .ok s) (F : Filters)
    (a : AccountData) (c : Commitment) (s1 : Store) (b : Bool)
    (hu : s.updateAccount F a c = .ok (s1, b)) (ht : s.containsKey a.pubkey = true)
    (ht1 : s1.containsKey a.pubkey = true) :
    ∃ s2, s1.updateAccount F a c = .ok (s2, false) ∧ ∀ pk d, s2.getAccount pk d = s1.getAccount pk d := by
  have hi := inv_run inv_empty hs
  obtain ⟨s1', b', he, hc⟩ := updateAccount_case hi F a c
  rw [hu] at he; cases he
  have hi1 := inv_updateCase hi hc
  obtain ⟨s2, b2, he2, hc2⟩ := updateAccount_case hi1 F a c
  have hi2 := inv_updateCase hi1 hc2
  have hvs : (s.view a.pubkey).isSome = true := by rw [hi.view_isSome]; exact ht
  have hvs1 : (s1.view a.pubkey).isSome = true := by rw [hi1.view_isSome]; exact ht1
  have heff : s1.effective a.slot c = s.effective a.slot c := by
    rcases find_updateCase hc with hsl | ⟨i, hsl⟩
    · unfold effective; rw [hsl]
    · exact effective_add s a.slot i c s1 hsl
  rcases (view_updateCase hi hc a.pubkey).2 rfl with ⟨h1, -⟩ | ⟨h1, -⟩ | ⟨e, h1, -, h3, -⟩ | ⟨e, -, -, h3, -⟩
  · rw [h1] at hvs; simp at hvs
  · rw [h1] at hvs; simp at hvs
  · have hag := update_again e a (s.effective a.slot c)
    rcases (view_updateCase hi1 hc2 a.pubkey).2 rfl with ⟨g1, -⟩ | ⟨g1, -⟩ | ⟨e1, g1, -, g3, g4⟩ | ⟨e1, g1, g2, -⟩
    · rw [h3] at g1; cases g1
    · rw [h3] at g1; cases g1
    · rw [h3] at g1; cases g1
      rw [heff, hag] at g3 g4
      refine ⟨s2, by rw [he2, g4], ?_⟩
      intro pk d
      rw [getAccount_eq hi2, getAccount_eq hi1]
      by_cases hpk : pk = a.pubkey
      · subst hpk; rw [g3, h3]
      · rw [(view_updateCase hi1 hc2 pk).1 hpk]
    · rw [h3] at g1; cases g1
      have := g2.1
      rw [heff, hag] at this; simp at this
  · rw [h3] at hvs1; simp at hvs1

/-- A tracked account: the first submission returns `true`, the second one `false`. -/
example : ∃ s s1 s2, empty.run [.update allowAll (Toy.acct Toy.alice Toy.prog 1 5 1) .processed] = .ok s ∧
    s.updateAccount allowAll (Toy.acct Toy.alice Toy.prog 2 6 1) .confirmed = .ok (s1, true) ∧
    s1.updateAccount allowAll (Toy.acct Toy.alice Toy.prog 2 6 1) .confirmed = .ok (s2, false) :=
  ⟨_, _, _, rfl, rfl, rfl⟩

/-! ## C23 -/

/-- The full claim of **C23**. -/
def C23_statement : Prop :=
  ∀ (h : List Op) (s : Store), empty.run h = .ok s → ∀ (F : Filters) (a : AccountData) (c : Commitment)
    (s' : Store), s.updateAccount F a c = .ok (s', false) →
    ∀ pk d, s'.getAccount pk d = s.getAccount pk d

/-- **C23** is false: an update at `Finalized` can replace the confirmed state and still return `false`. -/
theorem C23_false_means_unchanged_refuted : ¬ C23_statement := by
  intro h
  have := h staleConfirmed _ rfl allowAll (Toy.acct Toy.alice Toy.prog 2 5 2) .finalized _ rfl
    Toy.alice .confirmed
  revert this; decide

/-- **C23 (partial)**. It holds when the confirmed state of the pubkey is not older than the finalized
one.  Missing: the corner where it is (false). -/
theorem C23_false_means_unchanged_partial (h : List Op) (s : Store) (hs : empty.run h = .ok s) (F : Filters)
    (a : AccountData) (c : Commitment) (s' : Store)
    (hcorner : ∀ f x, stateAt s a.pubkey .finalized = some f → stateAt s a.pubkey .confirmed = some x →
      ¬ Older x f)
    (hu : s.updateAccount F a c = .ok (s', false)) (pk : Pubkey) (d : Commitment) :
    s'.getAccount pk d = s.getAccount pk d := by
  have hi := inv_run inv_empty hs
  obtain ⟨s2, b2, he, hc⟩ := updateAccount_case hi F a c
  rw [hu] at he; cases he
  have hi' := inv_updateCase hi hc
  rw [getAccount_eq hi', getAccount_eq hi]
  by_cases hpk : pk = a.pubkey
  · subst hpk
    rcases (view_updateCase hi hc a.pubkey).2 rfl with ⟨h1, -, h3, -⟩ | ⟨-, -, -, h4⟩ | ⟨e, h1, -, h3, h4⟩ | ⟨e, -, -, -, h4⟩
    · rw [h1, h3]
    · cases h4
    · have ho := hi.view h1
      have : (e.update a (s.effective a.slot c)).1 = e := by
        generalize s.effective a.slot c = c' at *
        have hfl := h4.symm
        rw [update_flag] at hfl
        simp only [Bool.or_eq_false_iff, Bool.and_eq_false_iff, decide_eq_false_iff_not] at hfl
        obtain ⟨⟨hpf, hcf⟩, hff⟩ := hfl
        have e1 : (e.update a c').1.processed = e.processed := by
          rw [update_processed]; exact updateProcessed_noop _ _ hpf
        have e2 : (e.update a c').1.confirmed = e.confirmed := by
          rw [update_confirmed]
          split
          · rfl
          · split
            · rename_i hcp hn
              cases c' with
              | processed => exact absurd rfl hcp
              | confirmed => simp [hn] at hcf
              | finalized =>
                simp at hff
                -- the finalized state is not older than `a`, the confirmed one is
                cases hef : e.finalized with
                | none => simp [hef, isNewer] at hff
                | some f =>
                  obtain ⟨-, x, hx, -⟩ := ho.fin f hef
                  rw [hx, isNewer_some] at hn
                  have hnf : ¬ Older f a := by
                    rw [hef] at hff; intro hcon; rw [← isNewer_some] at hcon; rw [hcon] at hff; cases hff
                  have := hcorner f x (by simp [stateAt, h1, ByCommitment.get, hef]) (by simp [stateAt, h1, ByCommitment.get, hx])
                  exfalso
                  simp only [Older] at *
                  omega
            · rfl
        have e3 : (e.update a c').1.finalized = e.finalized := by
          rw [update_finalized]
          split
          · rename_i hcc; simp [hcc.1, hcc.2] at hff
          · rfl
        generalize (e.update a c').1 = x at e1 e2 e3
        obtain ⟨p, q, u⟩ := x
        obtain ⟨p', q', u'⟩ := e
        simp_all
      rw [h1, h3, this]
    · cases h4
  · rw [(view_updateCase hi hc pk).1 hpk]

/-- A stale update of a tracked account returns `false`. -/
example : ∃ s s1, empty.run [.update allowAll (Toy.acct Toy.alice Toy.prog 1 5 3) .finalized] = .ok s ∧
    s.updateAccount allowAll (Toy.acct Toy.alice Toy.prog 2 5 2) .finalized = .ok (s1, false) :=
  ⟨_, _, rfl, rfl⟩

/-! ## C24 -/

/-- **C24** (slot notifications). Neither the state nor the multiset of reported accounts depends on the iteration order. -/
theorem C24_iteration_order_irrelevant (h : List Op) (s : Store) (hs : empty.run h = .ok s) (F : Filters)
    (σ τ : Order) (info : SlotInfo) (c : Commitment) :
    ∃ s' r1 r2, s.processSlotData F σ info c = .ok (s', r1) ∧
      s.processSlotData F τ info c = .ok (s', r2) ∧ r1.Perm r2 :=
  processSlot_order (inv_run inv_empty hs) F σ τ info c

/-- Reversing the order of two promoted accounts reverses the answer. -/
example : ∃ s s1 s2, empty.run [.update allowAll (Toy.acct Toy.alice Toy.prog 1 5 1) .processed,
      .update allowAll (Toy.acct Toy.bob Toy.prog 1 5 1) .processed] = .ok s ∧
    s.processSlotData allowAll .asIs ⟨5, 4, 0⟩ .confirmed =
      .ok (s1, [Toy.acct Toy.alice Toy.prog 1 5 1, Toy.acct Toy.bob Toy.prog 1 5 1]) ∧
    s.processSlotData allowAll ⟨List.reverse, List.reverse_perm⟩ ⟨5, 4, 0⟩ .confirmed =
      .ok (s2, [Toy.acct Toy.bob Toy.prog 1 5 1, Toy.acct Toy.alice Toy.prog 1 5 1]) :=
  ⟨_, _, _, rfl, rfl, rfl⟩

/-! ## C30, C31 -/

/-- **C30**. When slot `info.slot` is finalized, an account recorded for that slot keeps no processed
state older than the slot, except its newest one; its processed read does not change. -/
theorem C30_pruning (h : List Op) (s : Store) (hs : empty.run h = .ok s) (F : Filters) (σ : Order)
    (info : SlotInfo) (s' : Store) (r : List AccountData)
    (hp : s.processSlotData F σ info .finalized = .ok (s', r)) (pk : Pubkey) (i : Nat) (st : SlotStatus)
    (hidx : s.index pk = some i) (hf : BMap.find s.slots info.slot = some st)
    (hst : st.commitment ≠ .finalized) (hmem : i ∈ st.accountsUpdated) (e' : ByCommitment)
    (hv' : s'.view pk = some e') :
    (∀ k b, BMap.find e'.processed k = some b → k < info.slot →
      stateAt s' pk .processed = some b ∧ ∀ k' b', BMap.find e'.processed k' = some b' → k' = k) ∧
    stateAt s' pk .processed = stateAt s pk .processed := by
  have hi := inv_run inv_empty hs
  obtain ⟨s2, r2, hp', path, m', w, hc⟩ := processSlot_case hi F σ info .finalized
  rw [hp] at hp'; cases hp'
  have hpath : ∃ t, path = info.slot :: t := by
    have hw := hc.walk
    cases hw with
    | same hf' hc' => rw [hf] at hf'; cases hf'; exact absurd hc' hst
    | stop => exact ⟨[], rfl⟩
    | next => exact ⟨_, rfl⟩
    | fresh hf' => rw [hf] at hf'; cases hf'
    | missing hf' => rw [hf] at hf'; cases hf'
  obtain ⟨t, hpath⟩ := hpath
  have hiu : i ∈ upd s.slots info.slot := mem_upd.2 ⟨st, hf, hmem⟩
  have hfirst : ∀ k, (i, k) ∈ w → k = info.slot := by
    intro k hk
    rw [hc.gathered] at hk
    obtain ⟨p1, p2, hpp, hq⟩ := gather_first (m := s.slots) (path := path) (w := []) (by simp) (by simp) hk
    cases p1 with
    | nil => rw [hpath] at hpp; simp at hpp; exact hpp.1.symm
    | cons y p1 =>
      rw [hpath] at hpp; simp at hpp
      exact absurd hiu (hq info.slot (by simp [hpp.1]))
  obtain ⟨k0, hk0⟩ := gather_covers (m := s.slots) (path := path) (w := []) (k := info.slot) (i := i)
      (by rw [hpath]; simp) hiu
  rw [← hc.gathered] at hk0
  rcases hc.view hi pk with ⟨h0, -⟩ | ⟨i2, e, h0, h2, -, ho, hcs⟩
  · rw [hidx] at h0; cases h0
  rw [hidx] at h0; cases h0
  rcases hcs with ⟨hno, -⟩ | ⟨k, hk, hv, -⟩
  · exact absurd hk0 (hno _)
  have := hfirst k hk; subst this
  have hpe := after_eq (by rw [← hv]; exact hv')
  have hread : stateAt s' pk .processed = stateAt s pk .processed := by
    simp only [stateAt, hv', h2, Option.bind_some, hpe]; exact last_promote ho _ _
  refine ⟨?_, hread⟩
  intro k b hkb hlt
  have hmap : e'.processed = prune info.slot e.processed := by rw [hpe, promote_processed_map]; simp
  have ho' := entryOK_promote ho info.slot .finalized
  rw [← hpe] at ho'
  rw [hmap] at hkb
  have hold := prune_old ho.sorted hkb hlt
  constructor
  · simp only [stateAt, hv', Option.bind_some, ho'.get_processed, hmap, hold]
    rfl
  · intro k' b' hk'
    rw [hmap, hold] at hk'
    simp [BMap.find] at hk'
    exact hk'.1.symm

example : ∃ s s' r e, empty.run [.update allowAll (Toy.acct Toy.alice Toy.prog 1 3 1) .processed,
      .update allowAll (Toy.acct Toy.alice Toy.prog 2 5 1) .processed,
      .update allowAll (Toy.acct Toy.alice Toy.prog 3 8 1) .processed] = .ok s ∧
    s.processSlotData allowAll .asIs ⟨5, 4, 0⟩ .finalized = .ok (s', r) ∧
    s'.view Toy.alice = some e ∧ e.processed.map Prod.fst = [5, 8] := ⟨_, _, _, _, rfl, rfl, rfl, rfl⟩

/-- The full claim of **C31**. -/
def C31_statement : Prop :=
  ∀ (h : List Op) (s : Store), empty.run h = .ok s → ∀ (F : Filters) (σ : Order) (info : SlotInfo)
    (s' : Store) (r : List AccountData), s.processSlotData F σ info .finalized = .ok (s', r) →
    ∀ pk a, s.getAccount pk .processed = .ok (some a) → info.slot < a.slot →
      s'.getAccount pk .processed = .ok (some a)

/-- An account leaves the subscribed program in slot 5 and returns in slot 7; finalizing slot 5 forgets
the state of slot 7. -/
def departedAndReturned : List Op :=
  [.update (ownerOnly Toy.prog) (Toy.acct Toy.alice Toy.prog 1 4 1) .finalized,
   .update (ownerOnly Toy.prog) (Toy.acct Toy.alice Toy.prog2 1 5 1) .processed,
   .update (ownerOnly Toy.prog) (Toy.acct Toy.alice Toy.prog 3 7 1) .processed]

/-- **C31** is false. -/
theorem C31_later_states_survive_refuted : ¬ C31_statement := by
  intro h
  have := h departedAndReturned _ rfl (ownerOnly Toy.prog) .asIs ⟨5, 4, 0⟩ _ _ rfl Toy.alice
    (Toy.acct Toy.alice Toy.prog 3 7 1) (by decide) (by decide)
  revert this; decide

/-- **C31 (partial)**. A slot notification never changes the processed read of a pubkey that stays
tracked, and only a finalized one can stop tracking.  Missing: pubkeys removed by the call (false). -/
theorem C31_later_states_survive_partial (h : List Op) (s : Store) (hs : empty.run h = .ok s) (F : Filters)
    (σ : Order) (info : SlotInfo) (c : Commitment) (s' : Store) (r : List AccountData)
    (hp : s.processSlotData F σ info c = .ok (s', r)) (pk : Pubkey) (ht : s.containsKey pk = true) :
    (c ≠ .finalized → s'.containsKey pk = true) ∧
    (s'.containsKey pk = true → s'.getAccount pk .processed = s.getAccount pk .processed) := by
  have hi := inv_run inv_empty hs
  obtain ⟨s2, r2, hp', path, m', w, hc⟩ := processSlot_case hi F σ info c
  rw [hp] at hp'; cases hp'
  rcases hc.view hi pk with ⟨h0, -⟩ | ⟨i, e, h0, h2, -, ho, hcs⟩
  · simp [containsKey, h0] at ht
  rcases hcs with ⟨-, hv, hx⟩ | ⟨k, hk, hv, -⟩
  · exact ⟨fun _ => by simp [containsKey, hx], fun _ => by rw [getAccount_eq hc.inv, getAccount_eq hi, hv, h2]⟩
  · constructor
    · intro hcf
      rw [← hc.inv.view_isSome, hv]
      unfold after
      split
      · rw [if_neg]
        · rfl
        · simp [Removes, hcf]
      · rfl
    · intro hck
      have hsome : (s'.view pk).isSome = true := by rw [hc.inv.view_isSome]; exact hck
      obtain ⟨e', he'⟩ := Option.isSome_iff_exists.1 hsome
      have hpe := after_eq (by rw [← hv]; exact he')
      rw [getAccount_stateAt hc.inv, getAccount_stateAt hi]
      simp only [stateAt, he', h2, Option.bind_some, hpe]
      rw [last_promote ho]

/-- Finalizing slot 5 leaves the state of slot 8 in place. -/
example : ∃ s s' r, empty.run [.update allowAll (Toy.acct Toy.alice Toy.prog 2 5 1) .processed,
      .update allowAll (Toy.acct Toy.alice Toy.prog 3 8 1) .processed] = .ok s ∧
    s.processSlotData allowAll .asIs ⟨5, 4, 0⟩ .finalized = .ok (s', r) ∧
    s'.getAccount Toy.alice .processed = .ok (some (Toy.acct Toy.alice Toy.prog 3 8 1)) :=
  ⟨_, _, _, rfl, rfl, by decide⟩

end LAM.Props
