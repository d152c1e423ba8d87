import Verif.Model.Store
import Verif.Lemmas.ByCommitment
/-!
# Invariant of the in-memory store and effect of `update_account`
-/
namespace LAM
open Spec ByCommitment

namespace Store

/-- The states stored for a pubkey, if it is tracked. -/
def view (s : Store) (pk : Pubkey) : Option ByCommitment :=
  match s.index pk with
  | none => none
  | some i => s.accounts[i]?

/-- The empty per-account state left behind by a deletion. -/
def dead : ByCommitment := ⟨[], none, none⟩

/-- The store invariant. -/
structure Inv (s : Store) : Prop where
  idx : ∀ pk i, s.index pk = some i → ∃ e, s.accounts[i]? = some e ∧ EntryOK pk e
  own : ∀ (i : Nat) (e : ByCommitment), s.accounts[i]? = some e → (∃ pk, s.index pk = some i) ∨ e = dead
  owners : ∀ o l, s.byOwner o = some l → SSorted natLt l ∧ ∀ i ∈ l, i < s.accounts.length
  slotsSorted : BMap.Sorted s.slots
  slots : ∀ k st, BMap.find s.slots k = some st →
    SSorted natLt st.accountsUpdated ∧ ∀ i ∈ st.accountsUpdated, i < s.accounts.length

theorem inv_empty : Inv empty := by
  refine ⟨?_, ?_, ?_, ?_, ?_⟩ <;> simp [empty, BMap.Sorted]

theorem Inv.lt {s : Store} (h : Inv s) {pk : Pubkey} {i : Nat} (hi : s.index pk = some i) :
    i < s.accounts.length := by
  obtain ⟨e, he, -⟩ := h.idx pk i hi
  exact (List.getElem?_eq_some_iff.1 he).1

/-- Distinct pubkeys have distinct indexes. -/
theorem Inv.inj {s : Store} (h : Inv s) {pk pk' : Pubkey} {i : Nat} (hi : s.index pk = some i)
    (hi' : s.index pk' = some i) : pk = pk' := by
  obtain ⟨e, he, ho⟩ := h.idx pk i hi
  obtain ⟨e', he', ho'⟩ := h.idx pk' i hi'
  rw [he] at he'; cases he'
  obtain ⟨p, hp, h1, -⟩ := ho.last
  obtain ⟨q, hq, h2, -⟩ := ho'.last
  rw [hp] at hq; cases hq
  rw [← h1, ← h2]

theorem Inv.view {s : Store} (h : Inv s) {pk : Pubkey} {e : ByCommitment} (hv : s.view pk = some e) :
    EntryOK pk e := by
  unfold Store.view at hv
  split at hv
  · simp at hv
  · rename_i i hi
    obtain ⟨e', he', ho⟩ := h.idx pk i hi
    rw [hv] at he'; cases he'; exact ho

theorem Inv.view_isSome {s : Store} (h : Inv s) (pk : Pubkey) :
    (s.view pk).isSome = s.containsKey pk := by
  unfold Store.view containsKey
  split
  · rename_i hi; simp [hi]
  · rename_i i hi
    obtain ⟨e', he', ho⟩ := h.idx pk i hi
    simp [he', hi]

theorem Inv.view_none {s : Store} (h : Inv s) (pk : Pubkey) :
    s.view pk = none ↔ s.index pk = none := by
  have := h.view_isSome pk
  unfold containsKey at this
  cases h1 : s.view pk <;> cases h2 : s.index pk <;> simp_all

theorem view_of_index {s : Store} {pk : Pubkey} {i : Nat} (hi : s.index pk = some i) :
    s.view pk = s.accounts[i]? := by simp [Store.view, hi]

/-! ## Sets of indexes -/

theorem mem_setInsert (l : List Nat) (i j : Nat) : j ∈ setInsert l i ↔ j = i ∨ j ∈ l :=
  mem_sinsert natLt_strict i j l

theorem sorted_setInsert {l : List Nat} (h : SSorted natLt l) (i : Nat) :
    SSorted natLt (setInsert l i) := sorted_sinsert natLt_strict i l h

/-! ## Frame lemmas -/

@[simp] theorem addAccountOwner_index (s : Store) (i : Nat) (o : Pubkey) :
    (s.addAccountOwner i o).index = s.index := rfl
@[simp] theorem addAccountOwner_accounts (s : Store) (i : Nat) (o : Pubkey) :
    (s.addAccountOwner i o).accounts = s.accounts := rfl
@[simp] theorem addAccountOwner_slots (s : Store) (i : Nat) (o : Pubkey) :
    (s.addAccountOwner i o).slots = s.slots := rfl
@[simp] theorem removeAccountOwner_index (s : Store) (i : Nat) (o : Pubkey) :
    (s.removeAccountOwner i o).index = s.index := rfl
@[simp] theorem removeAccountOwner_accounts (s : Store) (i : Nat) (o : Pubkey) :
    (s.removeAccountOwner i o).accounts = s.accounts := rfl
@[simp] theorem removeAccountOwner_slots (s : Store) (i : Nat) (o : Pubkey) :
    (s.removeAccountOwner i o).slots = s.slots := rfl
@[simp] theorem setAt_index (s : Store) (i : Nat) (e : ByCommitment) : (s.setAt i e).index = s.index := rfl
@[simp] theorem setAt_byOwner (s : Store) (i : Nat) (e : ByCommitment) :
    (s.setAt i e).byOwner = s.byOwner := rfl
@[simp] theorem setAt_slots (s : Store) (i : Nat) (e : ByCommitment) : (s.setAt i e).slots = s.slots := rfl
@[simp] theorem setAt_accounts (s : Store) (i : Nat) (e : ByCommitment) :
    (s.setAt i e).accounts = s.accounts.set i e := rfl
@[simp] theorem dropKey_byOwner (s : Store) (pk : Pubkey) : (s.dropKey pk).byOwner = s.byOwner := rfl
@[simp] theorem dropKey_slots (s : Store) (pk : Pubkey) : (s.dropKey pk).slots = s.slots := rfl
@[simp] theorem dropKey_accounts (s : Store) (pk : Pubkey) : (s.dropKey pk).accounts = s.accounts := rfl
@[simp] theorem addIndexToSlot_index (s : Store) (k i : Nat) (c : Commitment) :
    (s.addIndexToSlot k i c).1.index = s.index := by cases c <;> rfl
@[simp] theorem addIndexToSlot_accounts (s : Store) (k i : Nat) (c : Commitment) :
    (s.addIndexToSlot k i c).1.accounts = s.accounts := by cases c <;> rfl
@[simp] theorem addIndexToSlot_byOwner (s : Store) (k i : Nat) (c : Commitment) :
    (s.addIndexToSlot k i c).1.byOwner = s.byOwner := by cases c <;> rfl

/-- Slot statuses after `add_account_index_to_slot_status`. -/
theorem find_addIndexToSlot (s : Store) (k i : Nat) (c : Commitment) (k' : Nat) :
    BMap.find (s.addIndexToSlot k i c).1.slots k' =
      if k = k' then
        some (let st := (BMap.find s.slots k).getD ⟨c, [], none⟩
              if c = .finalized then st
              else { st with accountsUpdated := setInsert st.accountsUpdated i })
      else BMap.find s.slots k' := by
  cases c <;> simp [addIndexToSlot, BMap.find_insert]

/-- The commitment an update for `slot` is treated with: a slot status that is already known wins
over the commitment of the update, unless the update is finalized. -/
def effective (s : Store) (slot : Nat) (c : Commitment) : Commitment :=
  if c = .finalized then .finalized
  else match BMap.find s.slots slot with
    | some st => st.commitment
    | none => c

theorem addIndexToSlot_commitment (s : Store) (k i : Nat) (c : Commitment) :
    (s.addIndexToSlot k i c).2 = s.effective k c := by
  cases c <;> simp [addIndexToSlot, effective] <;> cases BMap.find s.slots k <;> rfl

/-! ## Invariant preservation by the building blocks -/

theorem inv_addIndexToSlot {s : Store} (h : Inv s) {i : Nat} (hi : i < s.accounts.length) (k : Nat)
    (c : Commitment) : Inv (s.addIndexToSlot k i c).1 := by
  refine ⟨by simpa using h.idx, by simpa using h.own, by simpa using h.owners, ?_, ?_⟩
  · cases c <;> exact BMap.sorted_insert h.slotsSorted _ _
  · intro k' st hst
    rw [find_addIndexToSlot] at hst
    simp only [addIndexToSlot_accounts]
    split at hst
    · have base : ∀ st, (BMap.find s.slots k).getD ⟨c, [], none⟩ = st →
          SSorted natLt st.accountsUpdated ∧ ∀ j ∈ st.accountsUpdated, j < s.accounts.length := by
        intro st hst
        cases hf : BMap.find s.slots k with
        | none => rw [hf] at hst; simp at hst; subst hst; simp [SSorted]
        | some x => rw [hf] at hst; simp at hst; subst hst; exact h.slots _ _ hf
      have hb := base _ rfl
      simp only [Option.some.injEq] at hst
      subst hst
      split
      · exact hb
      · refine ⟨sorted_setInsert hb.1 i, ?_⟩
        intro j hj
        rcases (mem_setInsert _ _ _).1 hj with rfl | hj
        · exact hi
        · exact hb.2 j hj
    · exact h.slots _ _ hst

theorem inv_addAccountOwner {s : Store} (h : Inv s) {i : Nat} (hi : i < s.accounts.length)
    (o : Pubkey) : Inv (s.addAccountOwner i o) := by
  refine ⟨h.idx, h.own, ?_, h.slotsSorted, h.slots⟩
  intro o' l hl
  simp only [addAccountOwner] at hl
  split at hl
  · have hb : SSorted natLt ((s.byOwner o).getD []) ∧
        ∀ j ∈ (s.byOwner o).getD [], j < s.accounts.length := by
      cases hf : s.byOwner o with
      | none => simp [SSorted]
      | some l => exact h.owners _ _ hf
    simp at hl; subst hl
    refine ⟨sorted_setInsert hb.1 i, ?_⟩
    intro j hj
    rcases (mem_setInsert _ _ _).1 hj with rfl | hj
    · exact hi
    · exact hb.2 j hj
  · exact h.owners _ _ hl

theorem inv_removeAccountOwner {s : Store} (h : Inv s) (i : Nat) (o : Pubkey) :
    Inv (s.removeAccountOwner i o) := by
  refine ⟨h.idx, h.own, ?_, h.slotsSorted, h.slots⟩
  intro o' l hl
  simp only [removeAccountOwner] at hl
  split at hl
  · cases hf : s.byOwner o with
    | none => simp [hf] at hl
    | some l' =>
      simp [hf] at hl
      obtain ⟨h1, h2⟩ := h.owners _ _ hf
      subst hl
      refine ⟨List.Pairwise.filter _ h1, fun j hj => h2 j (List.mem_filter.1 hj).1⟩
  · exact h.owners _ _ hl

theorem inv_setAt {s : Store} (h : Inv s) {pk : Pubkey} {i : Nat} (hi : s.index pk = some i)
    {e : ByCommitment} (he : EntryOK pk e) : Inv (s.setAt i e) := by
  refine ⟨?_, ?_, ?_, h.slotsSorted, ?_⟩
  · intro pk' j hj
    simp only [setAt_accounts, List.getElem?_set]
    simp only [setAt_index] at hj
    split
    · rename_i hij
      subst hij
      have := h.inj hi hj; subst this
      simp [h.lt hi, he]
    · exact h.idx _ _ hj
  · intro j e' hj
    simp only [setAt_accounts, List.getElem?_set] at hj
    split at hj
    · rename_i hij; subst hij; exact Or.inl ⟨pk, hi⟩
    · exact h.own j e' hj
  · intro o l hl
    simpa using h.owners o l hl
  · intro k st hst
    simpa using h.slots k st hst

/-- Deleting a tracked account. -/
theorem inv_delete {s : Store} (h : Inv s) {pk : Pubkey} {i : Nat} (hi : s.index pk = some i) :
    Inv ((s.setAt i dead).dropKey pk) := by
  refine ⟨?_, ?_, ?_, h.slotsSorted, ?_⟩
  · intro pk' j hj
    simp only [dropKey, setAt_index] at hj
    split at hj
    · simp at hj
    · rename_i hne
      simp only [dropKey_accounts, setAt_accounts, List.getElem?_set]
      split
      · rename_i hij; subst hij
        exact absurd (h.inj hj hi) hne
      · exact h.idx _ _ hj
  · intro j e' hj
    simp only [dropKey_accounts, setAt_accounts, List.getElem?_set] at hj
    split at hj
    · rename_i hij; subst hij
      right
      simp [h.lt hi] at hj; exact hj.symm
    · rcases h.own j e' hj with ⟨pk', hp⟩ | hd
      · left
        refine ⟨pk', ?_⟩
        simp only [dropKey, setAt_index]
        split
        · rename_i heq; subst heq
          rw [hi] at hp; simp at hp; omega
        · exact hp
      · exact Or.inr hd
  · intro o l hl
    simpa using h.owners o l hl
  · intro k st hst
    simpa using h.slots k st hst

/-! ## `update_owner_delete_if_necessary` -/

/-- The account must be removed: its owner changed with finality and the new state is deleted or
not covered by the filters. -/
def Removes (F : Filters) (prev new : AccountData) (c : Commitment) : Bool :=
  decide (prev.account.owner ≠ new.account.owner) && decide (c = .finalized) &&
    (isDeleted new || !F.satisfies new)

/-- The owner index after an owner change. -/
def ownerStep (F : Filters) (s : Store) (prev new : AccountData) (i : Nat) (c : Commitment) : Store :=
  if prev.account.owner = new.account.owner then s
  else
    let s := if c = .finalized then s.removeAccountOwner i prev.account.owner else s
    if !isDeleted new && F.satisfies new then s.addAccountOwner i new.account.owner else s

theorem updateOwner_eq (F : Filters) (s : Store) (prev new : AccountData) (i : Nat) (c : Commitment)
    (h : prev.pubkey = new.pubkey) :
    updateOwnerDeleteIfNecessary F s prev new i c = .ok (ownerStep F s prev new i c, Removes F prev new c) := by
  unfold updateOwnerDeleteIfNecessary ownerStep Removes
  simp only [h, ne_eq, not_true_eq_false, if_false]
  by_cases ho : prev.account.owner = new.account.owner
  · simp [ho]
  · by_cases hc : c = .finalized
    · cases hd : isDeleted new <;> cases hs : F.satisfies new <;> simp [ho, hc]
    · cases hd : isDeleted new <;> cases hs : F.satisfies new <;> simp [ho, hc]

@[simp] theorem ownerStep_index (F : Filters) (s : Store) (p n : AccountData) (i : Nat) (c : Commitment) :
    (ownerStep F s p n i c).index = s.index := by
  unfold ownerStep; (repeat' split) <;> rfl
@[simp] theorem ownerStep_accounts (F : Filters) (s : Store) (p n : AccountData) (i : Nat) (c : Commitment) :
    (ownerStep F s p n i c).accounts = s.accounts := by
  unfold ownerStep; (repeat' split) <;> rfl
@[simp] theorem ownerStep_slots (F : Filters) (s : Store) (p n : AccountData) (i : Nat) (c : Commitment) :
    (ownerStep F s p n i c).slots = s.slots := by
  unfold ownerStep; (repeat' split) <;> rfl

theorem inv_ownerStep {s : Store} (h : Inv s) (F : Filters) (p n : AccountData) {i : Nat}
    (hi : i < s.accounts.length) (c : Commitment) : Inv (ownerStep F s p n i c) := by
  unfold ownerStep
  split
  · exact h
  · have h1 : Inv (if c = .finalized then s.removeAccountOwner i p.account.owner else s) := by
      split
      · exact inv_removeAccountOwner h _ _
      · exact h
    have h2 : i < (if c = .finalized then s.removeAccountOwner i p.account.owner else s).accounts.length := by
      split <;> simpa using hi
    simp only
    split
    · exact inv_addAccountOwner h1 h2 _
    · exact h1

/-- The owner index of a store with given accounts only depends on the owner index. -/
theorem ownerStep_setAt (F : Filters) (s : Store) (p n : AccountData) (i j : Nat) (e : ByCommitment)
    (c : Commitment) : ownerStep F (s.setAt j e) p n i c = (ownerStep F s p n i c).setAt j e := by
  unfold ownerStep
  (repeat' split) <;> rfl

/-! ## `update_account` -/

/-- Owner index after an update of a tracked account. -/
def ownerAfter (F : Filters) (s : Store) (prev : Option AccountData) (a : AccountData) (i : Nat)
    (c : Commitment) (up : Bool) : Store :=
  match up, prev with
  | true, some p => ownerStep F s p a i c
  | _, _ => s

@[simp] theorem ownerAfter_index (F : Filters) (s : Store) (p : Option AccountData) (n : AccountData)
    (i : Nat) (c : Commitment) (up : Bool) : (ownerAfter F s p n i c up).index = s.index := by
  unfold ownerAfter; split <;> simp
@[simp] theorem ownerAfter_accounts (F : Filters) (s : Store) (p : Option AccountData) (n : AccountData)
    (i : Nat) (c : Commitment) (up : Bool) : (ownerAfter F s p n i c up).accounts = s.accounts := by
  unfold ownerAfter; split <;> simp
@[simp] theorem ownerAfter_slots (F : Filters) (s : Store) (p : Option AccountData) (n : AccountData)
    (i : Nat) (c : Commitment) (up : Bool) : (ownerAfter F s p n i c up).slots = s.slots := by
  unfold ownerAfter; split <;> simp

/-- The update leads to removal of the tracked account. -/
def RemovedBy (F : Filters) (e : ByCommitment) (a : AccountData) (c : Commitment) : Prop :=
  (e.update a c).2 = true ∧ ∃ p, e.get c = some p ∧ Removes F p a c = true

/-- The store after a new account was added. -/
def createdStore (s : Store) (a : AccountData) (c : Commitment) : Store where
  index := fun k => if k = a.pubkey then some s.accounts.length else s.index k
  byOwner := (s.addAccountOwner s.accounts.length a.account.owner).byOwner
  slots := (s.addIndexToSlot a.slot s.accounts.length c).1.slots
  accounts := s.accounts ++ [ByCommitment.new a c]

/-- The possible effects of `update_account`. -/
inductive UpdateCase (F : Filters) (s : Store) (a : AccountData) (c : Commitment) :
    Store → Bool → Prop where
  | rejected (hi : s.index a.pubkey = none) (hf : F.satisfies a = false) : UpdateCase F s a c s false
  | created (hi : s.index a.pubkey = none) (hf : F.satisfies a = true) :
      UpdateCase F s a c
        (createdStore s a c) true
  | kept (i : Nat) (e : ByCommitment) (hi : s.index a.pubkey = some i) (he : s.accounts[i]? = some e)
      (hr : ¬ RemovedBy F e a (s.effective a.slot c)) :
      UpdateCase F s a c
        (ownerAfter F ((s.addIndexToSlot a.slot i c).1.setAt i (e.update a (s.effective a.slot c)).1)
          (e.get (s.effective a.slot c)) a i (s.effective a.slot c)
          (e.update a (s.effective a.slot c)).2)
        (e.update a (s.effective a.slot c)).2
  | removed (i : Nat) (e : ByCommitment) (hi : s.index a.pubkey = some i) (he : s.accounts[i]? = some e)
      (hr : RemovedBy F e a (s.effective a.slot c)) :
      UpdateCase F s a c
        (((ownerAfter F (s.addIndexToSlot a.slot i c).1
          (e.get (s.effective a.slot c)) a i (s.effective a.slot c) true).setAt i dead).dropKey a.pubkey)
        true

theorem setAt_setAt (s : Store) (i : Nat) (e e' : ByCommitment) :
    (s.setAt i e).setAt i e' = s.setAt i e' := by
  simp [setAt, List.set_set]

/-- Every call of `update_account` on a well-formed store returns, with one of the listed effects. -/
theorem updateAccount_case {s : Store} (h : Inv s) (F : Filters) (a : AccountData) (c : Commitment) :
    ∃ s' b, s.updateAccount F a c = .ok (s', b) ∧ UpdateCase F s a c s' b := by
  unfold updateAccount
  cases hi : s.index a.pubkey with
  | none =>
    cases hf : F.satisfies a with
    | false =>
      refine ⟨s, false, ?_, .rejected hi hf⟩
      split
      · rfl
      · simp [maybeUpdateSlotStatus, hi, updateVacant, hf]
    | true =>
      refine ⟨_, true, ?_, .created hi hf⟩
      simp [maybeUpdateSlotStatus, hi, updateVacant, hf, createdStore]
      cases c <;> exact ⟨rfl, rfl⟩
  | some i =>
    obtain ⟨e, he, hok⟩ := h.idx _ _ hi
    have hck : s.containsKey a.pubkey = true := by simp [containsKey, hi]
    simp only [hck, Bool.not_true, Bool.and_false, Bool.false_eq_true, if_false]
    have hm : s.maybeUpdateSlotStatus a c = ((s.addIndexToSlot a.slot i c).1, s.effective a.slot c) := by
      simp only [maybeUpdateSlotStatus, hi]
      rw [← addIndexToSlot_commitment s a.slot i c]
    simp only [hm, addIndexToSlot_index, hi]
    unfold updateOccupied
    simp only [addIndexToSlot_accounts, he, Run.unwrap_some, Run.ok_bind]
    by_cases hr : RemovedBy F e a (s.effective a.slot c)
    · obtain ⟨hup, p, hp, hrem⟩ := hr
      have hpk : p.pubkey = a.pubkey := hok.get_pubkey hp
      refine ⟨_, _, ?_, .removed i e hi he ⟨hup, p, hp, hrem⟩⟩
      simp only [hup, if_true, hp, updateOwner_eq F _ p a i _ hpk, Run.ok_bind, hrem, Run.pure_eq,
        ownerStep_setAt, ownerAfter, setAt_setAt]
      rfl
    · refine ⟨_, _, ?_, .kept i e hi he hr⟩
      cases hup : (e.update a (s.effective a.slot c)).2 with
      | false => simp [ownerAfter]
      | true =>
        cases hp : e.get (s.effective a.slot c) with
        | none => simp [ownerAfter]
        | some p =>
          have hpk : p.pubkey = a.pubkey := hok.get_pubkey hp
          have hrem : Removes F p a (s.effective a.slot c) = false := by
            cases hr' : Removes F p a (s.effective a.slot c) with
            | false => rfl
            | true => exact absurd ⟨hup, p, hp, hr'⟩ hr
          simp [updateOwner_eq F _ p a i _ hpk, hrem, ownerAfter]

theorem inv_ownerAfter {s : Store} (h : Inv s) (F : Filters) (p : Option AccountData) (n : AccountData)
    {i : Nat} (hi : i < s.accounts.length) (c : Commitment) (up : Bool) :
    Inv (ownerAfter F s p n i c up) := by
  unfold ownerAfter; split
  · exact inv_ownerStep h F _ _ hi _
  · exact h

theorem inv_updateCase {F : Filters} {s s' : Store} {a : AccountData} {c : Commitment} {b : Bool}
    (h : Inv s) (hc : UpdateCase F s a c s' b) : Inv s' := by
  cases hc with
  | rejected => exact h
  | created hi hf =>
    -- push the new entry first
    have hlen : ∀ j, j < s.accounts.length → j < (s.accounts ++ [ByCommitment.new a c]).length := by
      intro j hj; simp; omega
    let s1 : Store := { index := fun k => if k = a.pubkey then some s.accounts.length else s.index k,
                        byOwner := s.byOwner, slots := s.slots,
                        accounts := s.accounts ++ [ByCommitment.new a c] }
    have h1 : Inv s1 := by
      refine ⟨?_, ?_, ?_, h.slotsSorted, ?_⟩
      · intro pk j hj
        simp only [s1] at hj ⊢
        split at hj
        · rename_i hpk; subst hpk
          simp at hj; subst hj
          exact ⟨_, by simp, entryOK_new a c⟩
        · obtain ⟨e, he, ho⟩ := h.idx _ _ hj
          refine ⟨e, ?_, ho⟩
          rw [List.getElem?_append_left (List.getElem?_eq_some_iff.1 he).1]; exact he
      · intro j e hj
        simp only [s1] at hj ⊢
        by_cases hjl : j < s.accounts.length
        · rw [List.getElem?_append_left hjl] at hj
          rcases h.own j e hj with ⟨pk, hp⟩ | hd
          · left
            refine ⟨pk, ?_⟩
            rw [if_neg]
            · exact hp
            · rintro rfl; rw [hi] at hp; simp at hp
          · exact Or.inr hd
        · left
          refine ⟨a.pubkey, ?_⟩
          have : j < (s.accounts ++ [ByCommitment.new a c]).length := (List.getElem?_eq_some_iff.1 hj).1
          simp at this
          have : j = s.accounts.length := by omega
          simp [this]
      · intro o l hl
        obtain ⟨h1, h2⟩ := h.owners o l hl
        exact ⟨h1, fun i hi => hlen i (h2 i hi)⟩
      · intro k st hst
        obtain ⟨h1, h2⟩ := h.slots k st hst
        exact ⟨h1, fun i hi => hlen i (h2 i hi)⟩
    have hb : s.accounts.length < s1.accounts.length := by simp [s1]
    have h2 := inv_addAccountOwner h1 hb a.account.owner
    have h3 := inv_addIndexToSlot h2 (i := s.accounts.length) (by simpa using hb) a.slot c
    have : ((s1.addAccountOwner s.accounts.length a.account.owner).addIndexToSlot a.slot s.accounts.length c).1 =
        (createdStore s a c) := by
      cases c <;> rfl
    rw [this] at h3
    exact h3
  | kept i e hi he hr =>
    obtain ⟨e', he', hok⟩ := h.idx _ _ hi
    rw [he] at he'; cases he'
    have h1 := inv_addIndexToSlot h (h.lt hi) a.slot c
    have h2 := inv_setAt h1 (pk := a.pubkey) (i := i) (by simpa using hi)
      (entryOK_update hok (s.effective a.slot c))
    exact inv_ownerAfter h2 F _ _ (by simpa using h.lt hi) _ _
  | removed i e hi he hr =>
    have h1 := inv_addIndexToSlot h (h.lt hi) a.slot c
    have h2 := inv_ownerAfter h1 F (e.get (s.effective a.slot c)) a (i := i)
      (by simpa using h.lt hi) (s.effective a.slot c) true
    exact inv_delete h2 (by simpa using hi)

/-! ### Effect on views -/

theorem view_created {s : Store} {a : AccountData} {c : Commitment}
    (h : Inv s) (pk : Pubkey) :
    Store.view (createdStore s a c) pk =
      if pk = a.pubkey then some (ByCommitment.new a c) else s.view pk := by
  unfold Store.view createdStore
  by_cases hpk : pk = a.pubkey
  · simp [hpk]
  · simp only [hpk, if_false]
    cases hi : s.index pk with
    | none => rfl
    | some i => simp only; rw [List.getElem?_append_left (h.lt hi)]

theorem view_setAt {s : Store} (h : Inv s) {pk : Pubkey} {i : Nat} (hi : s.index pk = some i)
    (e : ByCommitment) (pk' : Pubkey) :
    (s.setAt i e).view pk' = if pk' = pk then some e else s.view pk' := by
  unfold Store.view
  simp only [setAt_index, setAt_accounts, List.getElem?_set]
  by_cases hpk : pk' = pk
  · subst hpk; simp [hi, h.lt hi]
  · simp only [hpk, if_false]
    cases hi' : s.index pk' with
    | none => rfl
    | some j =>
      simp only
      split
      · rename_i hij; subst hij; exact absurd (h.inj hi' hi) hpk
      · rfl

theorem view_congr {s t : Store} (hi : s.index = t.index) (ha : s.accounts = t.accounts) (pk : Pubkey) :
    s.view pk = t.view pk := by simp [Store.view, hi, ha]

/-- Reads of other pubkeys are not affected by an update; the updated pubkey's states change as
`AccountDataByCommitment` says. -/
theorem view_updateCase {F : Filters} {s s' : Store} {a : AccountData} {c : Commitment} {b : Bool}
    (h : Inv s) (hc : UpdateCase F s a c s' b) (pk : Pubkey) :
    (pk ≠ a.pubkey → s'.view pk = s.view pk) ∧
    (pk = a.pubkey →
      (s.view pk = none ∧ F.satisfies a = false ∧ s'.view pk = none ∧ b = false) ∨
      (s.view pk = none ∧ F.satisfies a = true ∧ s'.view pk = some (ByCommitment.new a c) ∧ b = true) ∨
      (∃ e, s.view pk = some e ∧ ¬ RemovedBy F e a (s.effective a.slot c) ∧
        s'.view pk = some (e.update a (s.effective a.slot c)).1 ∧
        b = (e.update a (s.effective a.slot c)).2) ∨
      (∃ e, s.view pk = some e ∧ RemovedBy F e a (s.effective a.slot c) ∧ s'.view pk = none ∧ b = true)) := by
  cases hc with
  | rejected hi hf =>
    refine ⟨fun _ => rfl, ?_⟩
    rintro rfl
    have : s.view a.pubkey = none := (h.view_none _).2 hi
    exact Or.inl ⟨this, hf, this, rfl⟩
  | created hi hf =>
    constructor
    · intro hne; rw [view_created h, if_neg hne]
    · rintro rfl
      refine Or.inr (Or.inl ⟨(h.view_none _).2 hi, hf, ?_, rfl⟩)
      rw [view_created h, if_pos rfl]
  | kept i e hi he hr =>
    have h1 := inv_addIndexToSlot h (h.lt hi) a.slot c
    have hv : ∀ pk', (ownerAfter F ((s.addIndexToSlot a.slot i c).1.setAt i
          (e.update a (s.effective a.slot c)).1)
          (e.get (s.effective a.slot c)) a i (s.effective a.slot c)
          (e.update a (s.effective a.slot c)).2).view pk' =
        if pk' = a.pubkey then some (e.update a (s.effective a.slot c)).1 else s.view pk' := by
      intro pk'
      rw [view_congr (t := (s.addIndexToSlot a.slot i c).1.setAt i
          (e.update a (s.effective a.slot c)).1) (by simp) (by simp)]
      rw [view_setAt h1 (pk := a.pubkey) (by simpa using hi)]
      split
      · rfl
      · exact view_congr (by simp) (by simp) _
    constructor
    · intro hne; rw [hv, if_neg hne]
    · rintro rfl
      refine Or.inr (Or.inr (Or.inl ⟨e, by rw [view_of_index hi, he], hr, ?_, rfl⟩))
      rw [hv, if_pos rfl]
  | removed i e hi he hr =>
    constructor
    · intro hne
      unfold Store.view
      simp only [dropKey, setAt_index, ownerAfter_index, addIndexToSlot_index, hne, if_false,
        setAt_accounts, ownerAfter_accounts, addIndexToSlot_accounts]
      cases hj : s.index pk with
      | none => rfl
      | some j =>
        simp only
        rw [List.getElem?_set_ne]
        rintro rfl
        exact hne (h.inj hj hi)
    · rintro rfl
      refine Or.inr (Or.inr (Or.inr ⟨e, by rw [view_of_index hi, he], hr, ?_, rfl⟩))
      simp [Store.view, dropKey]

end Store
end LAM
