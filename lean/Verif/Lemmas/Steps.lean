import Verif.Lemmas.Slots
/-!
# Calls as steps on a well-formed store
-/
namespace LAM
open Spec ByCommitment

namespace Store

theorem find_dropWhile {m : BMap SlotStatus} (hs : BMap.Sorted m) (slot k : Nat) :
    BMap.find (m.dropWhile (fun e => e.1 < slot)) k = if k < slot then none else BMap.find m k := by
  induction m with
  | nil => simp
  | cons e t ih =>
    obtain ⟨a, b⟩ := e
    have hs' := hs
    simp only [BMap.Sorted, List.pairwise_cons] at hs
    simp only [List.dropWhile_cons]
    by_cases ha : a < slot
    · simp only [ha, decide_true, if_true]
      rw [ih hs.2]
      by_cases hk : k < slot
      · simp [hk]
      · simp only [hk, if_false, BMap.find]
        rw [if_neg (by omega)]
    · simp only [ha, decide_false, Bool.false_eq_true, if_false]
      by_cases hk : k < slot
      · simp only [hk, if_true]
        cases hf : BMap.find ((a, b) :: t) k with
        | none => rfl
        | some v =>
          have := BMap.mem_of_find hf
          rcases List.mem_cons.1 this with h | h
          · simp at h; omega
          · have := hs.1 _ h; simp at this; omega
      · simp [hk]

theorem find_dropOldSlots {m : BMap SlotStatus} (hs : BMap.Sorted m) (slot : Nat) (c : Commitment)
    (k : Nat) : BMap.find (dropOldSlots m slot c) k =
      if c = .finalized ∧ k < slot then none else BMap.find m k := by
  unfold dropOldSlots
  by_cases hc : c = .finalized
  · simp only [hc, if_true, true_and]; exact find_dropWhile hs slot k
  · simp [hc]

theorem sorted_dropOldSlots {m : BMap SlotStatus} (hs : BMap.Sorted m) (slot : Nat) (c : Commitment) :
    BMap.Sorted (dropOldSlots m slot c) := by
  unfold dropOldSlots
  split
  · exact List.Pairwise.sublist (List.dropWhile_sublist _) hs
  · exact hs

/-- The effect of `process_slot_data`: the slots on `path` were raised and the accounts `w` recorded for
them were promoted. -/
structure SlotCase (F : Filters) (σ : Order) (s : Store) (info : SlotInfo) (c : Commitment)
    (s' : Store) (r : List AccountData) (path : List Nat) (m' : BMap SlotStatus) (w : Writable) : Prop where
  walk : Walk info c s.slots [] info.slot (some info.parent) path m' w
  gathered : w = gather s.slots path []
  nodup : (w.map Prod.fst).Nodup
  inv : Inv s'
  slots : s'.slots = dropOldSlots m' info.slot c
  len : s'.accounts.length = s.accounts.length
  result : r = (σ.arrange w).flatMap (fun x => reported c (s.at' x.1) x.2)
  index_same : ∀ pk, (∀ x ∈ w, s.index pk ≠ some x.1) → s'.index pk = s.index pk
  acc_same : ∀ j, (∀ x ∈ w, x.1 ≠ j) → s'.accounts[j]? = s.accounts[j]?
  promoted : ∀ pk x, x ∈ w → s.index pk = some x.1 → Promoted F c s' pk x.1 (s.at' x.1) x.2
  owns_same : ∀ o j, (∀ x ∈ w, x.1 ≠ j) → (owns s' o j ↔ owns s o j)
  owns_prom : ∀ o x, x ∈ w → (owns s' o x.1 ↔ ListedProm F c (s.at' x.1) x.2 o (owns s o x.1))
  acc_prom : ∀ x ∈ w, s'.accounts[x.1]? = some ((after F c (s.at' x.1) x.2).getD dead)
  owner_some : ∀ o, (s'.byOwner o).isSome = true ↔
    (s.byOwner o).isSome = true ∨ ∃ x ∈ w, Adds F c (s.at' x.1) x.2 o

theorem upd_lt {s : Store} (h : Inv s) {k i : Nat} (hi : i ∈ upd s.slots k) : i < s.accounts.length := by
  unfold upd at hi
  cases hf : BMap.find s.slots k with
  | none => simp [hf] at hi
  | some st => simp [hf] at hi; exact (h.slots _ _ hf).2 _ hi

theorem inv_withSlots {s : Store} (h : Inv s) {m : BMap SlotStatus} (hs : BMap.Sorted m)
    (hm : ∀ k st, BMap.find m k = some st →
      SSorted natLt st.accountsUpdated ∧ ∀ i ∈ st.accountsUpdated, i < s.accounts.length) :
    Inv { s with slots := m } := ⟨h.idx, h.own, h.owners, hs, hm⟩

theorem processSlot_case' {s : Store} (h : Inv s) (F : Filters) (σ : Order) (info : SlotInfo)
    (c : Commitment) {m' : BMap SlotStatus} {w : Writable}
    (hw : Store.walk info c (s.slots.length + 1) s.slots [] info.slot (some info.parent) = .ok (m', w)) :
    ∃ s' r path, s.processSlotData F σ info c = .ok (s', r) ∧ SlotCase F σ s info c s' r path m' w := by
  obtain ⟨path, hW⟩ := walk_rel _ _ _ _ _ _ _ hw
  have hg := hW.gathered
  have hnd : (w.map Prod.fst).Nodup := by rw [hg]; exact nodup_gather _ _ _ (by simp)
  have hsm := hW.sorted h.slotsSorted
  have hlt : ∀ x ∈ w, x.1 < s.accounts.length := by
    intro x hx
    rw [hg] at hx
    rcases mem_gather_sub hx with hx | hx
    · simp at hx
    · exact upd_lt h hx.2
  have hinv : Inv { s with slots := dropOldSlots m' info.slot c } := by
    refine inv_withSlots h (sorted_dropOldSlots hsm _ _) ?_
    intro k st hst
    rw [find_dropOldSlots hsm] at hst
    split at hst
    · simp at hst
    · have hu := hW.upd_eq k
      have hu' : st.accountsUpdated = upd s.slots k := by rw [← hu]; simp [upd, hst]
      rw [hu']
      refine ⟨?_, fun i hi => upd_lt h hi⟩
      unfold upd
      cases hf : BMap.find s.slots k with
      | none => simp [SSorted]
      | some st' => simpa using (h.slots _ _ hf).1
  have hperm := σ.perm w
  obtain ⟨s', r, hr, h', hsl, hlen, hrr, hidx, hacc, hp, ho, hoo, hai, hos⟩ :=
    promoteAll_spec F c (σ.arrange w) _ hinv ((hperm.map Prod.fst).nodup_iff.2 hnd)
      (by intro x hx; exact hlt x (hperm.mem_iff.1 hx))
  refine ⟨s', r, path, ?_, hW, hg, hnd, h', by rw [hsl], hlen, hrr, ?_, ?_, ?_, ?_, ?_, ?_, ?_⟩
  · simp [processSlotData, hw, hr]
  · intro pk hpk; exact hidx pk (fun x hx => hpk x (hperm.mem_iff.1 hx))
  · intro j hj; exact hacc j (fun x hx => hj x (hperm.mem_iff.1 hx))
  · intro pk x hx hp'; exact hp pk x (hperm.mem_iff.2 hx) hp'
  · intro o j hj; exact ho o j (fun x hx => hj x (hperm.mem_iff.1 hx))
  · intro o x hx; exact hoo o x (hperm.mem_iff.2 hx)
  · intro x hx; exact hai x (hperm.mem_iff.2 hx)
  · intro o; rw [hos o]; simp only [hperm.mem_iff]; rfl

theorem walk_total {s : Store} (h : Inv s) (info : SlotInfo) (c : Commitment) : ∃ m' w,
    Store.walk info c (s.slots.length + 1) s.slots [] info.slot (some info.parent) = .ok (m', w) :=
  walk_ok (info := info) (c := c) (s.slots.length + 1) s.slots []
    info.slot (some info.parent) h.slotsSorted (by have := pending_le c s.slots; omega)

theorem processSlot_case {s : Store} (h : Inv s) (F : Filters) (σ : Order) (info : SlotInfo)
    (c : Commitment) : ∃ s' r, s.processSlotData F σ info c = .ok (s', r) ∧
      ∃ path m' w, SlotCase F σ s info c s' r path m' w := by
  obtain ⟨m', w, hw⟩ := walk_total h info c
  obtain ⟨s', r, path, he, hc⟩ := processSlot_case' h F σ info c hw
  exact ⟨s', r, he, path, m', w, hc⟩

/-- Two stores that agree on everything observable about owner sets are equal. -/
theorem ext_of_spec {s t : Store} (hs : Inv s) (ht : Inv t) (h1 : ∀ pk, s.index pk = t.index pk)
    (h2 : ∀ j : Nat, s.accounts[j]? = t.accounts[j]?) (h3 : s.slots = t.slots)
    (h4 : ∀ o, (s.byOwner o).isSome = true ↔ (t.byOwner o).isSome = true)
    (h5 : ∀ o j, owns s o j ↔ owns t o j) : s = t := by
  have hb : s.byOwner = t.byOwner := by
    funext o
    have h4 := h4 o
    have h5 := h5 o
    unfold owns at h5
    cases ha : s.byOwner o with
    | none =>
      cases hb : t.byOwner o with
      | none => rfl
      | some l => rw [ha, hb] at h4; simp at h4
    | some l =>
      cases hb : t.byOwner o with
      | none => rw [ha, hb] at h4; simp at h4
      | some l' =>
        rw [ha, hb] at h5
        simp only [Option.getD_some] at h5
        rw [sorted_ext natLt_strict l l' (hs.owners o l ha).1 (ht.owners o l' hb).1 h5]
  have hi : s.index = t.index := funext h1
  have hacc : s.accounts = t.accounts := List.ext_getElem? h2
  cases s; cases t
  simp_all

/-- The outcome of `process_slot_data` does not depend on the iteration order. -/
theorem processSlot_order {s : Store} (h : Inv s) (F : Filters) (σ τ : Order) (info : SlotInfo)
    (c : Commitment) : ∃ s' r1 r2, s.processSlotData F σ info c = .ok (s', r1) ∧
      s.processSlotData F τ info c = .ok (s', r2) ∧ r1.Perm r2 := by
  obtain ⟨m', w, hw⟩ := walk_total h info c
  obtain ⟨s1, r1, p1, he1, h1⟩ := processSlot_case' h F σ info c hw
  obtain ⟨s2, r2, p2, he2, h2⟩ := processSlot_case' h F τ info c hw
  have hss : s1 = s2 := by
    apply ext_of_spec h1.inv h2.inv
    · intro pk
      by_cases hx : ∃ x ∈ w, s.index pk = some x.1
      · obtain ⟨x, hx, hp⟩ := hx
        have a1 := h1.promoted pk x hx hp
        have a2 := h2.promoted pk x hx hp
        unfold Promoted at a1 a2
        split at a1
        · rename_i e' he'; simp only [he'] at a2; rw [a1.1, a2.1]
        · rename_i he'; simp only [he'] at a2; rw [a1.1, a2.1]
      · have hx' : ∀ x ∈ w, s.index pk ≠ some x.1 := fun x hx' hp => hx ⟨x, hx', hp⟩
        rw [h1.index_same pk hx', h2.index_same pk hx']
    · intro j
      by_cases hx : ∃ x ∈ w, x.1 = j
      · obtain ⟨x, hx, rfl⟩ := hx
        rw [h1.acc_prom x hx, h2.acc_prom x hx]
      · have hx' : ∀ x ∈ w, x.1 ≠ j := fun x hx' hp => hx ⟨x, hx', hp⟩
        rw [h1.acc_same j hx', h2.acc_same j hx']
    · rw [h1.slots, h2.slots]
    · intro o; rw [h1.owner_some o, h2.owner_some o]
    · intro o j
      by_cases hx : ∃ x ∈ w, x.1 = j
      · obtain ⟨x, hx, rfl⟩ := hx
        rw [h1.owns_prom o x hx, h2.owns_prom o x hx]
      · have hx' : ∀ x ∈ w, x.1 ≠ j := fun x hx' hp => hx ⟨x, hx', hp⟩
        rw [h1.owns_same o j hx', h2.owns_same o j hx']
  subst hss
  refine ⟨s1, r1, r2, he1, he2, ?_⟩
  rw [h1.result, h2.result]
  exact ((σ.perm w).trans (τ.perm w).symm).flatMap_right _

/-- View of a pubkey after a slot notification. -/
theorem SlotCase.view {F σ s info c s' r path m' w} (hc : SlotCase F σ s info c s' r path m' w)
    (h : Inv s) (pk : Pubkey) :
    (s.index pk = none ∧ s'.index pk = none ∧ s.view pk = none ∧ s'.view pk = none) ∨
    (∃ i e, s.index pk = some i ∧ s.view pk = some e ∧ s.at' i = e ∧ EntryOK pk e ∧
      (((∀ k, (i, k) ∉ w) ∧ s'.view pk = some e ∧ s'.index pk = some i) ∨
       (∃ k, (i, k) ∈ w ∧ s'.view pk = after F c e k ∧
          (s'.index pk = some i ∨ (s'.index pk = none ∧ after F c e k = none))))) := by
  cases hi : s.index pk with
  | none =>
    left
    have h2 : s'.index pk = none := by
      rw [hc.index_same pk]
      · exact hi
      · intro x _; rw [hi]; simp
    exact ⟨rfl, h2, (h.view_none pk).2 hi, (hc.inv.view_none pk).2 h2⟩
  | some i =>
    right
    obtain ⟨e, he, hok⟩ := h.idx _ _ hi
    have hat : s.at' i = e := by simp [at', he]
    refine ⟨i, e, rfl, by rw [view_of_index hi, he], hat, hok, ?_⟩
    by_cases hw : ∃ k, (i, k) ∈ w
    · right
      obtain ⟨k, hk⟩ := hw
      have := hc.promoted pk (i, k) hk hi
      simp only [hat] at this
      refine ⟨k, hk, ?_⟩
      unfold Promoted at this
      split at this
      · rename_i e' hae
        exact ⟨by rw [view_of_index this.1, this.2, hae], Or.inl this.1⟩
      · rename_i hae
        exact ⟨by rw [hae]; exact (hc.inv.view_none pk).2 this.1, Or.inr ⟨this.1, hae⟩⟩
    · left
      have hw' : ∀ k, (i, k) ∉ w := fun k hk => hw ⟨k, hk⟩
      refine ⟨hw', ?_⟩
      have h1 : s'.index pk = some i := by
        rw [hc.index_same pk]
        · exact hi
        · intro x hx; rw [hi]; intro hxx; simp at hxx
          exact hw' x.2 (by rw [hxx]; exact hx)
      refine ⟨?_, h1⟩
      rw [view_of_index h1, hc.acc_same i]
      · exact he
      · intro x hx hxx; exact hw' x.2 (by rw [← hxx]; exact hx)

/-! ## Steps and histories -/

theorem step_ok {s : Store} (h : Inv s) (op : Op) : ∃ s', s.step op = .ok s' ∧ Inv s' := by
  cases op with
  | update F a c =>
    obtain ⟨s', b, he, hc⟩ := updateAccount_case h F a c
    exact ⟨s', by simp [step, he], inv_updateCase h hc⟩
  | slot F σ info c =>
    obtain ⟨s', r, he, path, m', w, hc⟩ := processSlot_case h F σ info c
    exact ⟨s', by simp [step, he], hc.inv⟩

theorem run_ok {s : Store} (h : Inv s) (ops : List Op) : ∃ s', s.run ops = .ok s' ∧ Inv s' := by
  induction ops generalizing s with
  | nil => exact ⟨s, rfl, h⟩
  | cons op ops ih =>
    obtain ⟨s1, h1, hi1⟩ := step_ok h op
    obtain ⟨s2, h2, hi2⟩ := ih hi1
    exact ⟨s2, by simp [run, h1, h2], hi2⟩

theorem inv_step {s s' : Store} (h : Inv s) {op : Op} (hs : s.step op = .ok s') : Inv s' := by
  obtain ⟨s2, h2, hi⟩ := step_ok h op
  rw [hs] at h2; cases h2; exact hi

theorem inv_run {s s' : Store} (h : Inv s) {ops : List Op} (hs : s.run ops = .ok s') : Inv s' := by
  obtain ⟨s2, h2, hi⟩ := run_ok h ops
  rw [hs] at h2; cases h2; exact hi

theorem run_append (s : Store) (l m : List Op) :
    s.run (l ++ m) = (s.run l).bind (fun s' => s'.run m) := by
  induction l generalizing s with
  | nil => rfl
  | cons op l ih =>
    simp only [List.cons_append, run]
    cases s.step op with
    | ok s1 => simp [ih]
    | panic => rfl
    | diverge => rfl

theorem run_snoc {s s' : Store} {l : List Op} {op : Op} (h : s.run (l ++ [op]) = .ok s') :
    ∃ s1, s.run l = .ok s1 ∧ s1.step op = .ok s' := by
  rw [run_append] at h
  cases hl : s.run l with
  | ok s1 =>
    refine ⟨s1, rfl, ?_⟩
    simp only [hl, Run.bind, run] at h
    cases hs : s1.step op with
    | ok s2 => rw [hs] at h; simpa using h
    | panic => rw [hs] at h; simp at h
    | diverge => rw [hs] at h; simp at h
  | panic => rw [hl] at h; simp [Run.bind] at h
  | diverge => rw [hl] at h; simp [Run.bind] at h

theorem run_snoc_ok {s s1 s' : Store} {l : List Op} {op : Op} (h1 : s.run l = .ok s1)
    (h2 : s1.step op = .ok s') : s.run (l ++ [op]) = .ok s' := by
  rw [run_append, h1]; simp [Run.bind, run, h2]

/-- How one call changes the states of one pubkey. -/
inductive ViewStep (s : Store) (pk : Pubkey) : Op → Option ByCommitment → Option ByCommitment → Prop where
  | other {F a c v} (h : pk ≠ a.pubkey) : ViewStep s pk (.update F a c) v v
  | rejected {F a c} (h : pk = a.pubkey) (hf : F.satisfies a = false) :
      ViewStep s pk (.update F a c) none none
  | created {F a c} (h : pk = a.pubkey) (hf : F.satisfies a = true) :
      ViewStep s pk (.update F a c) none (some (ByCommitment.new a c))
  | updated {F a c e} (h : pk = a.pubkey) (ho : EntryOK pk e)
      (hr : ¬ RemovedBy F e a (s.effective a.slot c)) :
      ViewStep s pk (.update F a c) (some e) (some (e.update a (s.effective a.slot c)).1)
  | removed {F a c e} (h : pk = a.pubkey) (ho : EntryOK pk e)
      (hr : RemovedBy F e a (s.effective a.slot c)) :
      ViewStep s pk (.update F a c) (some e) none
  | idle {F σ info c v} : ViewStep s pk (.slot F σ info c) v v
  | promoted {F σ info c e v'} (k : Nat) (ho : EntryOK pk e) (ha : after F c e k = v') :
      ViewStep s pk (.slot F σ info c) (some e) v'

theorem viewStep {s s' : Store} (h : Inv s) {op : Op} (hs : s.step op = .ok s') (pk : Pubkey) :
    ViewStep s pk op (s.view pk) (s'.view pk) := by
  cases op with
  | update F a c =>
    obtain ⟨s2, b, he, hc⟩ := updateAccount_case h F a c
    simp only [step, he, Run.ok_bind, Run.pure_eq, Run.ok.injEq] at hs
    subst hs
    by_cases hpk : pk = a.pubkey
    · have := (view_updateCase h hc pk).2 hpk
      rcases this with ⟨h1, h2, h3, -⟩ | ⟨h1, h2, h3, -⟩ | ⟨e, h1, h2, h3, -⟩ | ⟨e, h1, h2, h3, -⟩
      · rw [h1, h3]; exact .rejected hpk h2
      · rw [h1, h3]; exact .created hpk h2
      · have ho := h.view h1
        rw [h1, h3]; exact .updated hpk ho h2
      · have ho := h.view h1
        rw [h1, h3]; exact .removed hpk ho h2
    · rw [(view_updateCase h hc pk).1 hpk]; exact .other hpk
  | slot F σ info c =>
    obtain ⟨s2, r, he, path, m', w, hc⟩ := processSlot_case h F σ info c
    simp only [step, he, Run.ok_bind, Run.pure_eq, Run.ok.injEq] at hs
    subst hs
    rcases hc.view h pk with ⟨-, -, h1, h2⟩ | ⟨i, e, -, h1, -, ho, ⟨-, h2, -⟩ | ⟨k, -, h2, -⟩⟩
    · rw [h1, h2]; exact .idle
    · rw [h1, h2]; exact .idle
    · rw [h1, h2]; exact .promoted k ho rfl

theorem after_eq {F : Filters} {c : Commitment} {e e' : ByCommitment} {k : Nat}
    (h : after F c e k = some e') : e' = (e.promote k c).1 := by
  unfold after at h
  split at h
  · split at h <;> simp_all
  · simp_all

/-- Reading an account. -/
theorem getAccount_eq {s : Store} (h : Inv s) (pk : Pubkey) (c : Commitment) :
    s.getAccount pk c = .ok ((s.view pk).bind (fun e => (e.get c).filter (fun a => decide (a.account.lamports > 0)))) := by
  unfold getAccount
  cases hi : s.index pk with
  | none => simp [(h.view_none pk).2 hi]
  | some i =>
    obtain ⟨e, he, -⟩ := h.idx _ _ hi
    simp only [he, Run.unwrap_some, Run.ok_bind, view_of_index hi, Option.bind_some]
    cases hg : e.get c with
    | none => simp
    | some a => simp only [Option.filter_some]; split <;> simp_all

/-- States reachable from the empty store. -/
def Reachable (s : Store) : Prop := ∃ h, empty.run h = .ok s

theorem Reachable.inv {s : Store} (h : Reachable s) : Inv s := by
  obtain ⟨l, hl⟩ := h; exact inv_run inv_empty hl

theorem snoc_induction {α : Type} {P : List α → Prop} (hnil : P [])
    (hsnoc : ∀ l a, P l → P (l ++ [a])) : ∀ l, P l := by
  intro l
  rw [← List.reverse_reverse l]
  induction l.reverse with
  | nil => exact hnil
  | cons a t ih => rw [List.reverse_cons]; exact hsnoc _ _ ih

/-- Induction over histories, last call first. -/
theorem history_induction {P : List Op → Store → Prop} (hnil : P [] empty)
    (hstep : ∀ h s op s', empty.run h = .ok s → Inv s → P h s → s.step op = .ok s' → P (h ++ [op]) s') :
    ∀ h s, empty.run h = .ok s → P h s := by
  intro h
  refine snoc_induction (P := fun h => ∀ s, empty.run h = .ok s → P h s) ?_ ?_ h
  · intro s hs; simp [run] at hs; subst hs; exact hnil
  · intro l op ih s hs
    obtain ⟨s1, h1, h2⟩ := run_snoc hs
    exact hstep l s1 op s h1 (inv_run inv_empty h1) (ih s1 h1) h2

end Store
end LAM
