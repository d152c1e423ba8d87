import Verif.Model.ByCommitment
import Verif.Spec.Version
/-!
# Lemmas about the per-account states
-/
namespace LAM
open Spec

namespace ByCommitment

theorem isNewer_iff (x : Option AccountData) (a : AccountData) :
    isNewer x a = true ↔ ∀ y, x = some y → Older y a := by
  cases x with
  | none => simp [isNewer]
  | some y => simp [isNewer, Older]

theorem isNewer_some (y a : AccountData) : isNewer (some y) a = true ↔ Older y a := by
  simp [isNewer_iff]

theorem isNewer_some' (y a : AccountData) : isNewer (some y) a = decide (Older y a) := by
  rw [Bool.eq_iff_iff, isNewer_some]; simp

/-- What holds of the states stored for one tracked pubkey. -/
structure EntryOK (pk : Pubkey) (e : ByCommitment) : Prop where
  sorted : BMap.Sorted e.processed
  keys : ∀ k a, BMap.find e.processed k = some a → a.slot = k ∧ a.pubkey = pk
  nonempty : e.processed ≠ []
  conf : ∀ a, e.confirmed = some a → a.pubkey = pk ∧
    ∃ p, BMap.lastVal e.processed = some p ∧ ¬ Older p a
  fin : ∀ a, e.finalized = some a → a.pubkey = pk ∧
    ∃ c, e.confirmed = some c ∧ a.slot ≤ c.slot

theorem EntryOK.last {pk : Pubkey} {e : ByCommitment} (h : EntryOK pk e) :
    ∃ p, BMap.lastVal e.processed = some p ∧ p.pubkey = pk ∧ BMap.find e.processed p.slot = some p ∧
      ∀ k a, BMap.find e.processed k = some a → k ≤ p.slot := by
  cases hl : BMap.lastVal e.processed with
  | none => exact absurd (BMap.lastVal_eq_none.1 hl) h.nonempty
  | some p =>
    obtain ⟨k, hk, hm⟩ := BMap.lastVal_eq_some h.sorted hl
    obtain ⟨h1, h2⟩ := h.keys k p hk
    subst h1
    exact ⟨p, rfl, h2, hk, hm⟩

theorem EntryOK.get_processed {pk : Pubkey} {e : ByCommitment} (h : EntryOK pk e) :
    e.get .processed = BMap.lastVal e.processed := by
  obtain ⟨p, hp, -⟩ := h.last
  simp [get, hp]

theorem EntryOK.get_pubkey {pk : Pubkey} {e : ByCommitment} (h : EntryOK pk e) {c : Commitment}
    {a : AccountData} (ha : e.get c = some a) : a.pubkey = pk := by
  cases c with
  | processed =>
    rw [h.get_processed] at ha
    obtain ⟨p, hp, hpk, -⟩ := h.last
    rw [hp] at ha; simp at ha; subst ha; exact hpk
  | confirmed => exact (h.conf a ha).1
  | finalized => exact (h.fin a ha).1

/-! ## new -/

theorem entryOK_new (a : AccountData) (c : Commitment) : EntryOK a.pubkey (new a c) := by
  refine ⟨by simp [new, BMap.Sorted], ?_, by simp [new], ?_, ?_⟩
  · intro k b hb
    simp only [new, BMap.find] at hb
    split at hb <;> simp_all
  · intro b hb
    simp only [new] at hb ⊢
    split at hb <;> simp_all
    subst hb
    exact ⟨a, by simp [BMap.lastVal], Older.irrefl a⟩
  · intro b hb
    simp only [new] at hb ⊢
    split at hb <;> simp_all

theorem get_new (a : AccountData) (c d : Commitment) :
    (new a c).get d = if d ≤ c then some a else none := by
  cases c <;> cases d <;> simp [new, get, BMap.lastVal] <;> decide

/-! ## update -/

/-- Lookups after an update of the processed map. -/
theorem find_updateProcessed (m : BMap AccountData) (a : AccountData) (k : Nat) :
    BMap.find (updateProcessed m a).1 k =
      if a.slot = k then
        (match BMap.find m k with
          | some p => if p.wv < a.wv then some a else some p
          | none => some a)
      else BMap.find m k := by
  unfold updateProcessed
  cases h : BMap.find m a.slot with
  | none => simp only [BMap.find_insert]; split <;> simp_all
  | some p =>
    simp only
    split
    · simp only [BMap.find_insert]; split <;> simp_all
    · split
      · simp_all; omega
      · simp_all

theorem sorted_updateProcessed {m : BMap AccountData} (h : BMap.Sorted m) (a : AccountData) :
    BMap.Sorted (updateProcessed m a).1 := by
  unfold updateProcessed
  split
  · split
    · exact BMap.sorted_insert h _ _
    · exact h
  · exact BMap.sorted_insert h _ _

/-- The flag tells whether the processed map changed. -/
theorem updateProcessed_flag (m : BMap AccountData) (a : AccountData) :
    (updateProcessed m a).2 = false ↔ ∃ p, BMap.find m a.slot = some p ∧ a.wv ≤ p.wv := by
  unfold updateProcessed
  cases h : BMap.find m a.slot with
  | none => simp
  | some p =>
    simp only
    split
    · simp; omega
    · simp; omega

theorem updateProcessed_noop (m : BMap AccountData) (a : AccountData)
    (h : (updateProcessed m a).2 = false) : (updateProcessed m a).1 = m := by
  obtain ⟨p, hp, hw⟩ := (updateProcessed_flag m a).1 h
  unfold updateProcessed
  simp [hp, Nat.not_lt.2 hw]

/-- The newest processed state after an update. -/
theorem last_updateProcessed {m : BMap AccountData} (hs : BMap.Sorted m)
    (hk : ∀ k b, BMap.find m k = some b → b.slot = k) {p : AccountData}
    (hl : BMap.lastVal m = some p) (a : AccountData) :
    BMap.lastVal (updateProcessed m a).1 = some (if Older p a then a else p) := by
  obtain ⟨k, hfk, hmax⟩ := BMap.lastVal_eq_some hs hl
  have hpk := hk k p hfk
  subst hpk
  by_cases ho : Older p a
  · simp only [ho, if_true]
    apply BMap.lastVal_of_max (sorted_updateProcessed hs a) (k := a.slot)
    · rw [find_updateProcessed]
      simp only [if_true]
      split
      · rename_i q hq
        have h1 := hmax _ _ hq
        have : p.slot = a.slot := by simp only [Older] at ho; omega
        rw [← this, hfk] at hq; simp at hq; subst hq
        have : p.wv < a.wv := by simp only [Older] at ho; omega
        simp [this]
      · rfl
    · intro k' v' hv
      rw [find_updateProcessed] at hv
      split at hv
      · omega
      · have := hmax _ _ hv; simp only [Older] at ho; omega
  · simp only [ho, if_false]
    apply BMap.lastVal_of_max (sorted_updateProcessed hs a) (k := p.slot)
    · rw [find_updateProcessed]
      split
      · rename_i he
        rw [hfk]
        have : ¬ p.wv < a.wv := by simp only [Older] at ho; omega
        simp [this]
      · exact hfk
    · intro k' v' hv
      rw [find_updateProcessed] at hv
      split at hv
      · simp only [Older] at ho; omega
      · exact hmax _ _ hv

theorem update_processed (e : ByCommitment) (a : AccountData) (c : Commitment) :
    (e.update a c).1.processed = (updateProcessed e.processed a).1 := by
  unfold update
  cases c <;> simp only <;> (try split) <;> rfl

theorem update_confirmed (e : ByCommitment) (a : AccountData) (c : Commitment) :
    (e.update a c).1.confirmed =
      if c = .processed then e.confirmed else if isNewer e.confirmed a then some a else e.confirmed := by
  unfold update
  cases c <;> simp only [reduceCtorEq, if_true, if_false] <;> (repeat' split) <;> rfl

theorem update_finalized (e : ByCommitment) (a : AccountData) (c : Commitment) :
    (e.update a c).1.finalized =
      if c = .finalized ∧ isNewer e.finalized a = true then some a else e.finalized := by
  unfold update
  cases c <;> simp only [reduceCtorEq, false_and, true_and, if_false] <;> (repeat' split) <;> simp_all

theorem update_flag (e : ByCommitment) (a : AccountData) (c : Commitment) :
    (e.update a c).2 = ((updateProcessed e.processed a).2 ||
      (decide (c = .confirmed) && isNewer e.confirmed a) ||
      (decide (c = .finalized) && isNewer e.finalized a)) := by
  unfold update
  cases c <;> simp <;> split <;> simp_all

theorem entryOK_update {e : ByCommitment} {a : AccountData} (h : EntryOK a.pubkey e)
    (c : Commitment) : EntryOK a.pubkey (e.update a c).1 := by
  obtain ⟨p, hp, hppk, hpf, hpm⟩ := h.last
  have hlast := last_updateProcessed h.sorted (fun k b hb => (h.keys k b hb).1) hp a
  refine ⟨?_, ?_, ?_, ?_, ?_⟩
  · rw [update_processed]; exact sorted_updateProcessed h.sorted a
  · intro k b hb
    rw [update_processed, find_updateProcessed] at hb
    split at hb
    · rename_i hk
      split at hb
      · rename_i q hq
        split at hb
        · simp at hb; subst hb; exact ⟨hk, rfl⟩
        · simp at hb; subst hb; exact h.keys _ _ hq
      · simp at hb; subst hb; exact ⟨hk, rfl⟩
    · exact h.keys _ _ hb
  · rw [update_processed]
    intro hn
    rw [hn] at hlast; simp [BMap.lastVal] at hlast
  · intro b hb
    rw [update_confirmed] at hb
    rw [update_processed]
    have old : ∀ b, e.confirmed = some b → b.pubkey = a.pubkey ∧
        ∃ p, BMap.lastVal (updateProcessed e.processed a).1 = some p ∧ ¬ Older p b := by
      intro b hb
      obtain ⟨h1, q, hq, hn⟩ := h.conf b hb
      rw [hp] at hq; simp at hq; subst hq
      refine ⟨h1, _, hlast, ?_⟩
      split
      · rename_i ho; intro ho2; exact hn (ho.trans ho2)
      · exact hn
    have new : a.pubkey = a.pubkey ∧
        ∃ p, BMap.lastVal (updateProcessed e.processed a).1 = some p ∧ ¬ Older p a := by
      refine ⟨rfl, _, hlast, ?_⟩
      split
      · exact Older.irrefl a
      · assumption
    split at hb
    · exact old b hb
    · split at hb
      · simp at hb; subst hb; exact new
      · exact old b hb
  · intro b hb
    rw [update_finalized] at hb
    rw [update_confirmed]
    split at hb
    · rename_i hc
      simp at hb; subst hb
      refine ⟨rfl, ?_⟩
      rw [if_neg (by simp [hc.1])]
      split
      · exact ⟨_, rfl, Nat.le_refl _⟩
      · rename_i hn
        cases hcf : e.confirmed with
        | none => simp [hcf, isNewer] at hn
        | some x =>
          refine ⟨x, rfl, ?_⟩
          rw [hcf, isNewer_some] at hn
          simp only [Older] at hn; omega
    · obtain ⟨h1, x, hx, hle⟩ := h.fin b hb
      refine ⟨h1, ?_⟩
      split
      · exact ⟨x, hx, hle⟩
      · split
        · rename_i hn
          refine ⟨_, rfl, ?_⟩
          rw [hx, isNewer_some] at hn
          simp only [Older] at hn; omega
        · exact ⟨x, hx, hle⟩

/-! ## prune -/

theorem prune_suffix (slot : Nat) (m : BMap AccountData) : ∃ l, m = l ++ prune slot m ∧ ∀ e ∈ l, e.1 < slot := by
  fun_induction prune slot m with
  | case1 => exact ⟨[], by simp, by simp⟩
  | case2 => exact ⟨[], by simp, by simp⟩
  | case3 e e' t h ih =>
    obtain ⟨l, hl, hb⟩ := ih
    refine ⟨e :: l, by rw [List.cons_append, ← hl], ?_⟩
    intro x hx
    rcases List.mem_cons.1 hx with rfl | hx
    · exact h
    · exact hb x hx
  | case4 => exact ⟨[], by simp, by simp⟩

theorem prune_ne_nil {slot : Nat} {m : BMap AccountData} (h : m ≠ []) : prune slot m ≠ [] := by
  fun_induction prune slot m <;> simp_all

theorem sorted_prune {slot : Nat} {m : BMap AccountData} (h : BMap.Sorted m) :
    BMap.Sorted (prune slot m) := by
  obtain ⟨l, hl, -⟩ := prune_suffix slot m
  rw [hl] at h
  exact (List.pairwise_append.1 h).2.1

theorem last_prune (slot : Nat) (m : BMap AccountData) :
    BMap.lastVal (prune slot m) = BMap.lastVal m := by
  fun_induction prune slot m with
  | case3 e e' t h ih => rw [ih]; simp [BMap.lastVal]
  | _ => rfl

theorem find_prune_some {slot : Nat} {m : BMap AccountData} (hs : BMap.Sorted m) {k : Nat}
    {a : AccountData} (h : BMap.find (prune slot m) k = some a) : BMap.find m k = some a := by
  obtain ⟨l, hl, -⟩ := prune_suffix slot m
  apply BMap.find_of_mem hs
  rw [hl]
  exact List.mem_append_right _ (BMap.mem_of_find h)

/-- Entries at or above the finalized slot are kept. -/
theorem find_prune_ge {slot : Nat} {m : BMap AccountData} (hs : BMap.Sorted m) {k : Nat}
    (hk : slot ≤ k) : BMap.find (prune slot m) k = BMap.find m k := by
  cases h : BMap.find m k with
  | none =>
    cases h' : BMap.find (prune slot m) k with
    | none => rfl
    | some a => rw [find_prune_some hs h'] at h; simp at h
  | some a =>
    obtain ⟨l, hl, hb⟩ := prune_suffix slot m
    have hm := BMap.mem_of_find h
    rw [hl] at hm
    rcases List.mem_append.1 hm with hm | hm
    · have := hb _ hm; simp at this; omega
    · exact BMap.find_of_mem (sorted_prune hs) hm

/-- After pruning, an entry below the slot can only be the single newest one. -/
theorem prune_old {slot : Nat} {m : BMap AccountData} {k : Nat} {a : AccountData}
    (hs : BMap.Sorted m) (h : BMap.find (prune slot m) k = some a) (hk : k < slot) :
    prune slot m = [(k, a)] := by
  fun_induction prune slot m with
  | case1 => simp at h
  | case2 e =>
    obtain ⟨x, y⟩ := e
    simp only [BMap.find] at h
    split at h <;> simp_all
  | case3 e e' t hlt ih =>
    exact ih (by simp only [BMap.Sorted, List.pairwise_cons] at hs ⊢; exact hs.2) h
  | case4 e e' t hge =>
    exfalso
    have hm := BMap.mem_of_find h
    rcases List.mem_cons.1 hm with rfl | hm
    · simp at hge; omega
    · simp only [BMap.Sorted, List.pairwise_cons] at hs
      have := hs.1 _ hm
      simp at this; omega

/-! ## promote -/

theorem promote_processed_map (e : ByCommitment) (slot : Nat) (c : Commitment) :
    (e.promote slot c).1.processed = if c = .finalized then prune slot e.processed else e.processed := by
  unfold promote
  cases c <;> (repeat' split) <;> simp_all <;> omega

theorem promote_confirmed (e : ByCommitment) (slot : Nat) (c : Commitment) :
    (e.promote slot c).1.confirmed =
      (match BMap.find e.processed slot with
        | none => e.confirmed
        | some a => if c = .processed then e.confirmed else
            (match e.confirmed with
              | some x => if x.slot < a.slot then some a else some x
              | none => some a)) := by
  unfold promote
  cases c <;> (repeat' split) <;> simp_all <;> omega

theorem promote_finalized (e : ByCommitment) (slot : Nat) (c : Commitment) :
    (e.promote slot c).1.finalized =
      (match BMap.find e.processed slot with
        | none => e.finalized
        | some a => if c = .finalized then
            (match e.finalized with
              | some x => if x.slot < a.slot then some a else some x
              | none => some a) else e.finalized) := by
  unfold promote
  cases c <;> (repeat' split) <;> simp_all <;> omega

/-- What a promotion reports: the state of that slot, if it is newer (by slot) than what was there,
together with what was there. -/
theorem promote_result (e : ByCommitment) (slot : Nat) (c : Commitment) (a : AccountData)
    (prev : Option AccountData) :
    (e.promote slot c).2 = some (a, prev) ↔
      c ≠ .processed ∧ BMap.find e.processed slot = some a ∧ prev = e.get c ∧
      ∀ p, prev = some p → p.slot < a.slot := by
  unfold promote
  cases hf : BMap.find e.processed slot with
  | none => simp; split <;> simp
  | some b =>
    cases c with
    | processed => simp
    | confirmed =>
      simp only [get]
      cases hc : e.confirmed with
      | none => grind
      | some x => grind
    | finalized =>
      simp only [get]
      cases hc : e.finalized with
      | none => grind
      | some x => grind

theorem entryOK_promote {pk : Pubkey} {e : ByCommitment} (h : EntryOK pk e) (slot : Nat)
    (c : Commitment) : EntryOK pk (e.promote slot c).1 := by
  have hlast : BMap.lastVal (e.promote slot c).1.processed = BMap.lastVal e.processed := by
    rw [promote_processed_map]; split
    · exact last_prune _ _
    · rfl
  have hfind : ∀ k a, BMap.find (e.promote slot c).1.processed k = some a →
      BMap.find e.processed k = some a := by
    intro k a; rw [promote_processed_map]; split
    · exact find_prune_some h.sorted
    · exact id
  obtain ⟨p, hp, hppk, hpf, hpm⟩ := h.last
  refine ⟨?_, ?_, ?_, ?_, ?_⟩
  · rw [promote_processed_map]; split
    · exact sorted_prune h.sorted
    · exact h.sorted
  · intro k a ha; exact h.keys k a (hfind k a ha)
  · rw [promote_processed_map]; split
    · exact prune_ne_nil h.nonempty
    · exact h.nonempty
  · intro a ha
    rw [hlast]
    rw [promote_confirmed] at ha
    have hnew : ∀ a, BMap.find e.processed slot = some a → a.pubkey = pk ∧
        ∃ p, BMap.lastVal e.processed = some p ∧ ¬ Older p a := by
      intro a ha
      obtain ⟨h1, h2⟩ := h.keys _ _ ha
      refine ⟨h2, p, hp, ?_⟩
      have := hpm _ _ ha
      intro ho
      have heq : a.slot = p.slot := by simp only [Older] at ho; omega
      rw [← h1, heq, hpf] at ha; simp at ha; subst ha
      exact Older.irrefl _ ho
    split at ha
    · exact h.conf a ha
    · rename_i b hb
      split at ha
      · exact h.conf a ha
      · split at ha
        · rename_i x hx
          split at ha
          · simp at ha; subst ha; exact hnew _ hb
          · simp at ha; subst ha; exact h.conf _ hx
        · simp at ha; subst ha; exact hnew _ hb
  · intro a ha
    rw [promote_finalized] at ha
    rw [promote_confirmed]
    cases hf : BMap.find e.processed slot with
    | none => simp only [hf] at ha ⊢; exact h.fin a ha
    | some b =>
      simp only [hf] at ha ⊢
      obtain ⟨hb1, hb2⟩ := h.keys _ _ hf
      split at ha
      · rename_i hc
        subst hc
        simp only [reduceCtorEq, if_false]
        have hnewc : ∃ x, (match e.confirmed with
            | some x => if x.slot < b.slot then some b else some x
            | none => some b) = some x ∧ b.slot ≤ x.slot := by
          split
          · split
            · exact ⟨b, rfl, Nat.le_refl _⟩
            · exact ⟨_, rfl, by omega⟩
          · exact ⟨b, rfl, Nat.le_refl _⟩
        split at ha
        · rename_i x hx
          split at ha
          · simp at ha; subst ha; exact ⟨hb2, hnewc⟩
          · simp at ha; subst ha
            obtain ⟨h1, y, hy, hle⟩ := h.fin _ hx
            refine ⟨h1, ?_⟩
            rw [hy]; simp only
            split
            · exact ⟨_, rfl, by omega⟩
            · exact ⟨_, rfl, hle⟩
        · simp at ha; subst ha; exact ⟨hb2, hnewc⟩
      · obtain ⟨h1, y, hy, hle⟩ := h.fin a ha
        refine ⟨h1, ?_⟩
        split
        · exact ⟨y, hy, hle⟩
        · rw [hy]; simp only
          split
          · exact ⟨_, rfl, by omega⟩
          · exact ⟨_, rfl, hle⟩

end ByCommitment
end LAM
