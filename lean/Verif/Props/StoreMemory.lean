import Verif.Props.StoreReads
import Verif.Spec.Memory
/-!
# C120: what the account store keeps
-/
namespace LAM.Props
open LAM LAM.Store LAM.Spec

/-- **C120**. The store has no more entries than there are accounts; once a slot is finalized it keeps
of every account at most one state of a slot up to it, and nothing about slots before it. -/
def C120_statement : Prop :=
  ∀ (h : List Op) (s : Store), empty.run h = .ok s →
    (∀ keys, Among keys h → s.accounts.length ≤ keys.length) ∧
    ∀ F σ info s' r, s.processSlotData F σ info .finalized = .ok (s', r) →
      (∀ e ∈ s'.accounts, OneUpTo info.slot e.processed) ∧
      ∀ k st, BMap.find s'.slots k = some st → info.slot ≤ k

theorem updates_append (l m : List Op) : updates (l ++ m) = updates l ++ updates m := by
  simp [updates]

/-- **C120 (statuses)**. Nothing about slots before the finalized one is kept. -/
theorem C120_statuses (h : List Op) (s : Store) (hs : empty.run h = .ok s) (F : Filters) (σ : Order)
    (info : SlotInfo) (s' : Store) (r : List AccountData)
    (hp : s.processSlotData F σ info .finalized = .ok (s', r)) (k : Nat) (st : SlotStatus)
    (hk : BMap.find s'.slots k = some st) : info.slot ≤ k := by
  have hi := inv_run inv_empty hs
  obtain ⟨s2, r2, hp', path, m', w, hc⟩ := processSlot_case hi F σ info .finalized
  rw [hp] at hp'; cases hp'
  rw [hc.slots, find_dropOldSlots (hc.walk.sorted hi.slotsSorted)] at hk
  simp at hk
  exact hk.1

/-- The status of slot 5 is dropped when slot 6 is finalized. -/
example : ∃ s s' r, empty.run [.update allowAll (Toy.acct Toy.alice Toy.prog 1 5 1) .processed] = .ok s ∧ s.slots ≠ [] ∧
    s.processSlotData allowAll .asIs ⟨6, 5, 0⟩ .finalized = .ok (s', r) ∧ BMap.find s'.slots 5 = none := by
  refine ⟨_, _, _, rfl, ?_, rfl, ?_⟩ <;> decide

/-- Every entry is the entry of a tracked account unless it was vacated. -/
theorem entries_tracked (h : List Op) (s : Store) (hs : empty.run h = .ok s) (i : Nat) (e : ByCommitment)
    (he : s.accounts[i]? = some e) (hv : ¬ Vacated e) :
    ∃ pk, s.index pk = some i ∧ ∃ F a c, Op.update F a c ∈ h ∧ a.pubkey = pk := by
  have hi := inv_run inv_empty hs
  rcases hi.own i e he with ⟨pk, hp⟩ | hd
  · refine ⟨pk, hp, ?_⟩
    have hview : s.view pk = some e := by rw [view_of_index hp, he]
    obtain ⟨p, -, -, hf, -⟩ := (hi.view hview).last
    obtain ⟨hpk, F, c, hm⟩ := mem_submissions.1 (processed_submitted hs hview hf)
    exact ⟨F, p, c, hm, hpk⟩
  · exact absurd (by simp [Vacated, hd, dead]) hv

/-- As many things as can be told apart by members of `keys` are no more than those. -/
theorem pigeon {α : Type} [DecidableEq α] : ∀ (l keys : List α), l.Nodup → (∀ x ∈ l, x ∈ keys) →
    l.length ≤ keys.length := by
  intro l
  induction l with
  | nil => simp
  | cons x l ih =>
    intro keys hn hm
    rw [List.nodup_cons] at hn
    have h1 := ih (keys.erase x) hn.2 (by
      intro y hy
      have hne : y ≠ x := by rintro rfl; exact hn.1 hy
      exact (List.mem_erase_of_ne hne).2 (hm y (by simp [hy])))
    have h2 := List.length_erase_of_mem (hm x (by simp))
    have h3 : 0 < keys.length := List.length_pos_of_mem (hm x (by simp))
    simp only [List.length_cons]
    omega

/-- The key an entry is tracked under, found among `keys`. -/
def keyOf (s : Store) (keys : List Pubkey) (i : Nat) : Option Pubkey :=
  keys.find? (fun k => s.index k == some i)

/-- Entries that are tracked are no more than the accounts. -/
theorem entries_le {s : Store} {keys : List Pubkey} (l : List Nat) (hn : l.Nodup)
    (ht : ∀ i ∈ l, ∃ pk ∈ keys, s.index pk = some i) : l.length ≤ keys.length := by
  have hk : ∀ i ∈ l, ∃ pk, keyOf s keys i = some pk ∧ pk ∈ keys ∧ s.index pk = some i := by
    intro i hi
    obtain ⟨pk, hm, hx⟩ := ht i hi
    cases hf : keyOf s keys i with
    | none =>
      have := List.find?_eq_none.1 hf pk hm
      simp [hx] at this
    | some k =>
      have h1 := List.find?_some hf
      exact ⟨k, rfl, List.mem_of_find?_eq_some hf, by simpa using h1⟩
  have h1 : (l.map (keyOf s keys)).Nodup := by
    rw [List.nodup_iff_pairwise_ne, List.pairwise_map]
    refine List.Pairwise.imp_of_mem ?_ hn
    intro a b ha hb hne heq
    obtain ⟨p, hp, -, hpi⟩ := hk a ha
    obtain ⟨q, hq, -, hqi⟩ := hk b hb
    rw [hp, hq] at heq
    cases heq
    rw [hpi] at hqi
    exact hne (by simpa using hqi)
  have h2 := pigeon (l.map (keyOf s keys)) (keys.map some) h1 (by
    intro x hx
    obtain ⟨i, hi, rfl⟩ := List.mem_map.1 hx
    obtain ⟨p, hp, hm, -⟩ := hk i hi
    rw [hp]; exact List.mem_map_of_mem hm)
  simpa using h2

theorem entries_submitted (h : List Op) (s : Store) (hs : empty.run h = .ok s) :
    s.accounts.length ≤ (updates h).length := by
  revert h s
  apply history_induction
  · simp [empty]
  · intro h s op s' _ hi ih hs
    rw [updates_append]
    cases op with
    | update F a c =>
      obtain ⟨s2, b, he, hc⟩ := updateAccount_case hi F a c
      simp only [step, he, Run.ok_bind, Run.pure_eq, Run.ok.injEq] at hs
      subst hs
      cases hc <;> simp [createdStore, updates] <;> simp [updates] at ih <;> omega
    | slot F σ info c =>
      obtain ⟨s2, r, he, path, m', w, hc⟩ := processSlot_case hi F σ info c
      simp only [step, he, Run.ok_bind, Run.pure_eq, Run.ok.injEq] at hs
      subst hs
      rw [hc.len]; simp; omega

theorem noneLeaves_front {h : List Op} {op : Op} (hn : NoneLeaves (h ++ [op])) : NoneLeaves h := by
  intro a ha
  obtain ⟨h1, h2⟩ := hn a (by rw [updates_append]; exact List.mem_append_left _ ha)
  exact ⟨h1, fun op' ho => h2 op' (List.mem_append_left _ ho)⟩

theorem mem_updates {h : List Op} {a : AccountData} : a ∈ updates h ↔ ∃ F c, Op.update F a c ∈ h := by
  simp only [updates, List.mem_filterMap]
  constructor
  · rintro ⟨op, ho, hm⟩
    cases op with
    | update F b c => simp at hm; subst hm; exact ⟨F, c, ho⟩
    | slot => simp at hm
  · rintro ⟨F, c, ho⟩; exact ⟨_, ho, rfl⟩

theorem not_removes {F : Filters} {p a : AccountData} {c : Commitment} (h1 : a.account.lamports ≠ 0)
    (h2 : F.satisfies a = true) : Removes F p a c = false := by
  simp [Removes, isDeleted, h1, h2]

/-- When no state leaves, every entry is the entry of a tracked account. -/
theorem all_tracked (h : List Op) (s : Store) (hs : empty.run h = .ok s) :
    NoneLeaves h → ∀ i < s.accounts.length, ∃ pk, s.index pk = some i := by
  revert h s
  apply history_induction
  · simp [empty]
  · intro h s op s' hrun hi ih hs hn i hlt
    have ih := ih (noneLeaves_front hn)
    cases op with
    | update F a c =>
      obtain ⟨h1, h2⟩ := hn a (mem_updates.2 ⟨F, c, by simp⟩)
      have h2 := h2 (.update F a c) (by simp)
      simp only [filtersOf] at h2
      obtain ⟨s2, b, he, hc⟩ := updateAccount_case hi F a c
      simp only [step, he, Run.ok_bind, Run.pure_eq, Run.ok.injEq] at hs
      subst hs
      cases hc with
      | rejected => exact ih i hlt
      | created hx hf =>
        simp only [createdStore, List.length_append, List.length_singleton] at hlt ⊢
        by_cases hl : i = s.accounts.length
        · exact ⟨a.pubkey, by simp [hl]⟩
        · obtain ⟨pk, hp⟩ := ih i (by omega)
          refine ⟨pk, ?_⟩
          have : pk ≠ a.pubkey := by rintro rfl; rw [hx] at hp; simp at hp
          simp [this, hp]
      | kept j e hj => simpa using ih i (by simpa using hlt)
      | removed j e hj he2 hr =>
        obtain ⟨-, p, -, hrem⟩ := hr
        rw [not_removes h1 h2] at hrem; simp at hrem
    | slot F σ info c =>
      obtain ⟨s2, r, he, path, m', w, hc⟩ := processSlot_case hi F σ info c
      simp only [step, he, Run.ok_bind, Run.pure_eq, Run.ok.injEq] at hs
      subst hs
      rw [hc.len] at hlt
      obtain ⟨pk, hp⟩ := ih i hlt
      refine ⟨pk, ?_⟩
      rcases hc.view hi pk with ⟨h0, -⟩ | ⟨j, e, hj, hv, hat, hok, ⟨-, -, h3⟩ | ⟨k, hk, -, h3 | ⟨-, h3⟩⟩⟩
      · rw [hp] at h0; simp at h0
      · rw [hp] at hj; rw [h3, hj]
      · rw [hp] at hj; rw [h3, hj]
      · exfalso
        unfold after at h3
        split at h3
        · rename_i a p hpr
          have hfind : BMap.find e.processed k = some a := by
            unfold ByCommitment.promote at hpr
            split at hpr
            · rename_i x hx
              cases c <;> simp at hpr
              · split at hpr
                · split at hpr <;> simp_all
                · simp_all
              · split at hpr
                · split at hpr <;> simp_all
                · simp_all
            · split at hpr <;> simp at hpr
          have hsub := processed_submitted hrun hv hfind
          obtain ⟨-, F', c', hm⟩ := mem_submissions.1 hsub
          obtain ⟨h1, h2⟩ := hn a (mem_updates.2 ⟨F', c', List.mem_append_left _ hm⟩)
          have h2 := h2 (.slot F σ info c) (by simp)
          simp only [filtersOf] at h2
          rw [not_removes h1 h2] at h3; simp at h3
        · simp at h3

/-- **C120 (partial)**. Entries that hold a state are no more than the accounts submitted; all entries
together are no more than the states submitted, and no more than the accounts if no state closes its
account or leaves the filters.  Missing: entries of closed accounts, which are kept (`C120_grows`), and
states of abandoned slots (`C120_forks_kept`). -/
theorem C120_partial (h : List Op) (s : Store) (hs : empty.run h = .ok s) (keys : List Pubkey)
    (hk : Among keys h) :
    (s.accounts.filter (fun e => ¬ Vacated e)).length ≤ keys.length ∧
    s.accounts.length ≤ (updates h).length ∧
    (NoneLeaves h → s.accounts.length ≤ keys.length) := by
  refine ⟨?_, entries_submitted h s hs, ?_⟩
  · have hlen : (s.accounts.filter (fun e => ¬ Vacated e)).length =
        ((List.range s.accounts.length).filter (fun i => ¬ Vacated ((s.accounts[i]?).getD dead))).length := by
      rw [← List.countP_eq_length_filter, ← List.countP_eq_length_filter]
      have hmap : s.accounts = (List.range s.accounts.length).map (fun i => (s.accounts[i]?).getD dead) := by
        apply List.ext_getElem
        · simp
        · intro i h1 h2; simp [List.getElem?_eq_getElem h1]
      have h1 : s.accounts.countP (fun e => ¬ Vacated e) =
          ((List.range s.accounts.length).map (fun i => (s.accounts[i]?).getD dead)).countP (fun e => ¬ Vacated e) := by
        rw [← hmap]
      rw [h1, List.countP_map]
      rfl
    rw [hlen]
    refine entries_le (s := s) _ (List.Pairwise.filter _ List.nodup_range) ?_
    intro i hi
    rw [List.mem_filter, List.mem_range] at hi
    obtain ⟨h1, h2⟩ := hi
    have he : s.accounts[i]? = some s.accounts[i] := List.getElem?_eq_getElem h1
    simp [he] at h2
    obtain ⟨pk, hp, F, a, c, hm, hpk⟩ := entries_tracked h s hs i _ he h2
    exact ⟨pk, hpk ▸ hk F a c hm, hp⟩
  · intro hn
    have := entries_le (s := s) (keys := keys) (List.range s.accounts.length) List.nodup_range (by
      intro i hi
      rw [List.mem_range] at hi
      obtain ⟨pk, hp⟩ := all_tracked h s hs hn i hi
      have hinv := inv_run inv_empty hs
      obtain ⟨e, he, hok⟩ := hinv.idx _ _ hp
      have hview : s.view pk = some e := by rw [view_of_index hp, he]
      obtain ⟨p, -, -, hf, -⟩ := hok.last
      obtain ⟨hpk, F, c, hm⟩ := mem_submissions.1 (processed_submitted hs hview hf)
      exact ⟨pk, hpk ▸ hk F p c hm, hp⟩)
    simpa using this

example : ∃ s, empty.run [.update allowAll (Toy.acct Toy.alice Toy.prog 1 5 1) .processed,
    .update allowAll (Toy.acct Toy.bob Toy.prog 1 5 1) .processed,
    .update allowAll (Toy.acct Toy.alice Toy.prog 2 6 1) .processed] = .ok s ∧
    Among [Toy.alice, Toy.bob] [.update allowAll (Toy.acct Toy.alice Toy.prog 1 5 1) .processed,
    .update allowAll (Toy.acct Toy.bob Toy.prog 1 5 1) .processed,
    .update allowAll (Toy.acct Toy.alice Toy.prog 2 6 1) .processed] ∧ s.accounts.length = 2 := by
  refine ⟨_, rfl, ?_, rfl⟩
  intro F a c h
  simp at h
  rcases h with ⟨-, rfl, -⟩ | ⟨-, rfl, -⟩ | ⟨-, rfl, -⟩ <;> simp [Toy.acct]

/-- Filters that take the accounts of one program. -/
def churnFilter : Filters := ⟨fun a => decide (a.account.owner = Toy.prog), fun _ => true⟩

/-- The account is opened and closed again, each in a slot that is finalized. -/
def churn (n : Nat) : List Op :=
  [.update churnFilter (Toy.acct Toy.alice Toy.prog 5 (n + 1) 1) .processed,
   .slot churnFilter .asIs ⟨n + 1, n, 0⟩ .finalized,
   .update churnFilter (Toy.acct Toy.alice Pubkey.default 0 (n + 2) 1) .processed,
   .slot churnFilter .asIs ⟨n + 2, n + 1, 0⟩ .finalized]

/-- Nothing is tracked and nothing but the last finalized slot is known. -/
structure Churned (n k : Nat) (s : Store) : Prop where
  index : ∀ pk, s.index pk = none
  len : s.accounts.length = k
  vacated : ∀ e ∈ s.accounts, Vacated e
  slots : s.slots = [] ∨ ∃ st, s.slots = [(n, st)] ∧ st.commitment = .finalized

theorem churn_open (n : Nat) (s : Store) (hi : ∀ pk, s.index pk = none)
    (hs : s.slots = [] ∨ ∃ st, s.slots = [(n, st)] ∧ st.commitment = .finalized) :
    ∃ s' st, s.run ((churn n).take 2) = .ok s' ∧ (∀ pk, s'.index pk = if pk = Toy.alice then some s.accounts.length else none) ∧
      s'.accounts = s.accounts ++ [⟨[(n + 1, Toy.acct Toy.alice Toy.prog 5 (n + 1) 1)],
        some (Toy.acct Toy.alice Toy.prog 5 (n + 1) 1), some (Toy.acct Toy.alice Toy.prog 5 (n + 1) 1)⟩] ∧
      s'.slots = [(n + 1, st)] ∧ st.commitment = .finalized := by
  have a1 : ¬ (n + 1 < n) := by omega
  have a3 : n < n + 1 := by omega
  rcases hs with hs | ⟨st, hs, hc⟩
  · refine ⟨⟨fun k => if k = Toy.alice then some s.accounts.length else s.index k,
        (s.addAccountOwner s.accounts.length Toy.prog).byOwner,
        [(n + 1, ⟨.finalized, [s.accounts.length], some n⟩)], s.accounts ++ [⟨[(n + 1, Toy.acct Toy.alice Toy.prog 5 (n + 1) 1)],
        some (Toy.acct Toy.alice Toy.prog 5 (n + 1) 1), some (Toy.acct Toy.alice Toy.prog 5 (n + 1) 1)⟩]⟩, _, ?_, ?_, rfl, rfl, rfl⟩
    · simp [churn, run, step, updateAccount, isDeleted, churnFilter, Toy.acct, containsKey, maybeUpdateSlotStatus, hi, updateVacant,
        addAccountOwner, addIndexToSlot, hs, processSlotData, walk, BMap.find, BMap.insert, addWritable, setInsert, dropOldSlots,
        Order.asIs, promoteAll, promoteOne, ByCommitment.new, ByCommitment.promote, sinsert, setAt, ByCommitment.prune]
    · simp [hi]
  · refine ⟨⟨fun k => if k = Toy.alice then some s.accounts.length else s.index k,
        (s.addAccountOwner s.accounts.length Toy.prog).byOwner,
        [(n + 1, ⟨.finalized, [s.accounts.length], some n⟩)], s.accounts ++ [⟨[(n + 1, Toy.acct Toy.alice Toy.prog 5 (n + 1) 1)],
        some (Toy.acct Toy.alice Toy.prog 5 (n + 1) 1), some (Toy.acct Toy.alice Toy.prog 5 (n + 1) 1)⟩]⟩, _, ?_, ?_, rfl, rfl, rfl⟩
    · simp [churn, run, step, updateAccount, isDeleted, churnFilter, Toy.acct, containsKey, maybeUpdateSlotStatus, hi, updateVacant,
        addAccountOwner, addIndexToSlot, hs, hc, processSlotData, walk, BMap.find, BMap.insert, addWritable, setInsert, dropOldSlots,
        Order.asIs, promoteAll, promoteOne, ByCommitment.new, ByCommitment.promote, sinsert, setAt, ByCommitment.prune, a1, a3]
    · simp [hi]

theorem churn_close (n L : Nat) (s : Store) (st : SlotStatus) (acc : List ByCommitment)
    (hi : ∀ pk, s.index pk = if pk = Toy.alice then some L else none)
    (hl : acc.length = L)
    (ha : s.accounts = acc ++ [⟨[(n + 1, Toy.acct Toy.alice Toy.prog 5 (n + 1) 1)],
        some (Toy.acct Toy.alice Toy.prog 5 (n + 1) 1), some (Toy.acct Toy.alice Toy.prog 5 (n + 1) 1)⟩])
    (hs : s.slots = [(n + 1, st)]) (hc : st.commitment = .finalized) :
    ∃ s' st', s.run ((churn n).drop 2) = .ok s' ∧ (∀ pk, s'.index pk = none) ∧ s'.accounts = acc ++ [⟨[], none, none⟩] ∧
      s'.slots = [(n + 2, st')] ∧ st'.commitment = .finalized := by
  have hne : ¬ (Pubkey.default = Toy.prog) := by decide
  have hne' : ¬ (Toy.prog = Pubkey.default) := by decide
  have a1 : ¬ (n + 2 < n + 1) := by omega
  have a3 : n + 1 < n + 2 := by omega
  subst hl
  refine ⟨⟨fun k => if k = Toy.alice then none else s.index k, (s.removeAccountOwner acc.length Toy.prog).byOwner,
    [(n + 2, ⟨.finalized, [acc.length], some (n + 1)⟩)], acc ++ [⟨[], none, none⟩]⟩, _, ?_, ?_, rfl, rfl, rfl⟩
  · simp [churn, run, step, updateAccount, isDeleted, churnFilter, Toy.acct, containsKey, maybeUpdateSlotStatus, hi, ha,
        addIndexToSlot, hs, hc, processSlotData, walk, BMap.find, BMap.insert, addWritable, setInsert, dropOldSlots,
        Order.asIs, promoteAll, promoteOne, ByCommitment.promote, sinsert, setAt, ByCommitment.prune, a1, a3,
        updateOccupied, ByCommitment.get, ByCommitment.update, ByCommitment.updateProcessed,
        updateOwnerDeleteIfNecessary, hne, hne', BMap.lastVal, removeAccountOwner, dropKey, ByCommitment.delete]
  · intro pk; simp only [hi]; split <;> rfl

theorem churn_once {n k : Nat} {s : Store} (h : Churned n k s) :
    ∃ s', s.run (churn n) = .ok s' ∧ Churned (n + 2) (k + 1) s' := by
  obtain ⟨s1, st, hr1, hi1, ha1, hs1, hc1⟩ := churn_open n s h.index h.slots
  obtain ⟨s2, st', hr2, hi2, ha2, hs2, hc2⟩ := churn_close n s.accounts.length s1 st s.accounts hi1 rfl ha1 hs1 hc1
  refine ⟨s2, ?_, hi2, ?_, ?_, Or.inr ⟨st', hs2, hc2⟩⟩
  · rw [← List.take_append_drop 2 (churn n), run_append, hr1]
    exact hr2
  · rw [ha2]; simp [h.len]
  · intro e he
    rw [ha2] at he
    rcases List.mem_append.1 he with he | he
    · exact h.vacated e he
    · simp at he; subst he; simp [Vacated]

/-- The account is opened and closed `k` times. -/
def churns : Nat → List Op
  | 0 => []
  | k + 1 => churns k ++ churn (2 * k)

/-- **C120 (entries)**. However many entries: all of them are entries of one account, and none holds a
state. -/
theorem C120_grows (k : Nat) : ∃ h s, empty.run h = .ok s ∧ Among [Toy.alice] h ∧
    s.accounts.length = k ∧ (∀ e ∈ s.accounts, Vacated e) ∧ ∀ c, s.getAccount Toy.alice c = .ok none := by
  have key : ∃ s, empty.run (churns k) = .ok s ∧ Churned (2 * k) k s := by
    induction k with
    | zero => exact ⟨empty, rfl, by simp [empty], rfl, by simp [empty], Or.inl rfl⟩
    | succ k ih =>
      obtain ⟨s, hr, hc⟩ := ih
      obtain ⟨s', hr', hc'⟩ := churn_once hc
      exact ⟨s', by rw [churns, run_append, hr]; exact hr', hc'⟩
  obtain ⟨s, hr, hc⟩ := key
  refine ⟨churns k, s, hr, ?_, hc.len, hc.vacated, ?_⟩
  · intro F a c hm
    clear hr hc s
    induction k with
    | zero => simp [churns] at hm
    | succ k ih =>
      rcases List.mem_append.1 hm with hm | hm
      · exact ih hm
      · simp [churn] at hm
        rcases hm with ⟨-, rfl, -⟩ | ⟨-, rfl, -⟩ <;> simp [Toy.acct]
  · intro c; simp [getAccount, hc.index]

/-- **C120** is false. -/
theorem C120_refuted : ¬ C120_statement := by
  intro h
  obtain ⟨ops, s, hr, hk, hl, -⟩ := C120_grows 2
  have := (h ops s hr).1 _ hk
  simp [hl] at this

/-- The account is updated in slots of an abandoned fork. -/
def fork : Nat → List Op
  | 0 => []
  | n + 1 => fork n ++ [.update allowAll (Toy.acct Toy.alice Toy.prog 5 (n + 1) 1) .processed]

theorem length_insert_new {V : Type} (m : BMap V) (k : Nat) (v : V) (h : BMap.find m k = none) :
    (BMap.insert m k v).length = m.length + 1 := by
  induction m with
  | nil => rfl
  | cons e t ih =>
    obtain ⟨a, b⟩ := e
    simp only [BMap.find] at h
    simp only [BMap.insert]
    split
    · simp
    · split
      · rename_i h1 h2; subst h2; simp at h
      · rename_i h1 h2
        simp only [show ¬ a = k from fun h => h2 h.symm, if_false] at h
        simp [ih h]

theorem dropWhile_nil {α : Type} {p : α → Bool} {l : List α} (h : ∀ x ∈ l, p x = true) : l.dropWhile p = [] := by
  induction l with
  | nil => rfl
  | cons x l ih => simp [List.dropWhile, h x (by simp), ih (fun y hy => h y (by simp [hy]))]

theorem fork_kept (n : Nat) : ∃ s, empty.run (fork n) = .ok s ∧ (∀ k st, BMap.find s.slots k = some st → k ≤ n) ∧
    ((n = 0 ∧ s.accounts = [] ∧ ∀ pk, s.index pk = none) ∨ ∃ e, s.index Toy.alice = some 0 ∧ s.accounts = [e] ∧ e.processed.length = n ∧
      ∀ x ∈ e.processed, x.1 ≤ n) := by
  induction n with
  | zero => exact ⟨empty, rfl, by simp [empty], Or.inl ⟨rfl, rfl, by simp [empty]⟩⟩
  | succ n ih =>
    obtain ⟨s, hr, hsl, hs⟩ := ih
    obtain ⟨s2, b, he, hc⟩ := updateAccount_case (inv_run inv_empty hr) allowAll (Toy.acct Toy.alice Toy.prog 5 (n + 1) 1) .processed
    have hpk : (Toy.acct Toy.alice Toy.prog 5 (n + 1) 1).pubkey = Toy.alice := rfl
    have hslot : (Toy.acct Toy.alice Toy.prog 5 (n + 1) 1).slot = n + 1 := rfl
    have heff : s.effective (n + 1) .processed = .processed := by
      unfold effective
      cases hf : BMap.find s.slots (n + 1) with
      | none => rfl
      | some st => have := hsl _ _ hf; omega
    refine ⟨s2, ?_, ?_, ?_⟩
    · rw [fork, run_append, hr]; simp [Run.bind, run, step, he]
    · intro k st hk
      cases hc with
      | rejected => have := hsl _ _ hk; omega
      | created =>
        simp only [createdStore, find_addIndexToSlot, hslot] at hk
        split at hk
        · omega
        · have := hsl _ _ hk; omega
      | kept i e =>
        simp only [ownerAfter_slots, setAt_slots, find_addIndexToSlot, hslot] at hk
        split at hk
        · omega
        · have := hsl _ _ hk; omega
      | removed i e =>
        simp only [dropKey_slots, ownerAfter_slots, setAt_slots, find_addIndexToSlot, hslot] at hk
        split at hk
        · omega
        · have := hsl _ _ hk; omega
    · right
      rcases hs with ⟨h0, ha, hi⟩ | ⟨e, hi, ha, hl, hm⟩
      · cases hc with
        | rejected hi hf => simp [allowAll] at hf
        | created => exact ⟨ByCommitment.new (Toy.acct Toy.alice Toy.prog 5 (n + 1) 1) .processed, by simp [createdStore, hpk, ha], by simp [createdStore, ha], by simp [ByCommitment.new, h0],
            by simp [ByCommitment.new, hslot]⟩
        | kept i e hi2 => rw [hi] at hi2; simp at hi2
        | removed i e hi2 => rw [hi] at hi2; simp at hi2
      · cases hc with
        | rejected hi2 hf => simp [allowAll] at hf
        | created hi2 => rw [hpk, hi] at hi2; simp at hi2
        | removed i e hi2 he2 hr2 =>
          obtain ⟨-, p, -, hrem⟩ := hr2
          simp [Removes, hslot, heff] at hrem
        | kept i e2 hi2 he2 =>
          rw [hpk, hi] at hi2; cases hi2
          simp [ha] at he2; subst he2
          have hnone : BMap.find e.processed (n + 1) = none := by
            cases hf : BMap.find e.processed (n + 1) with
            | none => rfl
            | some x => have := hm _ (BMap.mem_of_find hf); simp only at this; omega
          refine ⟨_, by simpa using hi, by simp [ha]; rfl, ?_, ?_⟩
          · simp [hslot, heff, ByCommitment.update, ByCommitment.updateProcessed, hnone, length_insert_new _ _ _ hnone, hl]
          · intro x hx
            simp [hslot, heff, ByCommitment.update, ByCommitment.updateProcessed, hnone] at hx
            rcases BMap.mem_insert hx with rfl | hx
            · exact Nat.le_refl _
            · have := hm x hx; omega

/-- **C120 (states)**. However many states of slots that were abandoned: they are kept when a later slot
is finalized, although nothing is known any more of the slots. -/
theorem C120_forks_kept (n : Nat) (hn : 0 < n) : ∃ h s s' r, empty.run h = .ok s ∧
    s.processSlotData allowAll .asIs ⟨n + 1, 0, 0⟩ .finalized = .ok (s', r) ∧ s'.slots = [] ∧
    ∃ e, s'.accounts = [e] ∧ (e.processed.filter (fun x => x.1 ≤ n)).length = n := by
  obtain ⟨s, hr, hsl, hs⟩ := fork_kept n
  have hi := inv_run inv_empty hr
  have hf : BMap.find s.slots (n + 1) = none := by
    cases hf : BMap.find s.slots (n + 1) with
    | none => rfl
    | some st => have := hsl _ _ hf; omega
  refine ⟨_, s, { s with slots := dropOldSlots s.slots (n + 1) .finalized }, [], hr, ?_, ?_, ?_⟩
  · simp [processSlotData, walk, hf, promoteAll, Order.asIs]
  · simp only [dropOldSlots, if_true]
    refine dropWhile_nil ?_
    intro x hx
    have := hsl _ _ (BMap.find_of_mem hi.slotsSorted hx)
    simp; omega
  · rcases hs with ⟨h0, -⟩ | ⟨e, -, ha, hl, hm⟩
    · omega
    · refine ⟨e, ha, ?_⟩
      rw [List.filter_eq_self.2 (by intro x hx; simpa using hm x hx), hl]

end LAM.Props
