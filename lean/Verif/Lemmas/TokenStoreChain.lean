import Verif.Lemmas.TokenStoreRead
/-!
# Recorded parents over histories, and termination
-/
namespace LAM

/-- The call returns or panics. -/
def Run.Ends (x : Run α) : Prop := x ≠ .diverge

namespace Run

theorem ends_ok (a : α) : (ok a).Ends := by simp [Ends]

theorem ends_unwrap (x : Option α) : (unwrap x).Ends := by cases x <;> simp [Ends, unwrap]

theorem Ends.bind {x : Run α} {f : α → Run β} (h : x.Ends) (hf : ∀ a, x = ok a → (f a).Ends) : (x >>= f).Ends := by
  cases x with
  | ok a => exact hf a rfl
  | panic => simp [Ends]
  | diverge => exact absurd rfl h

theorem ends_allM {f : α → Run Bool} (l : List α) (h : ∀ x ∈ l, (f x).Ends) : (allM f l).Ends := by
  induction l with
  | nil => exact ends_ok _
  | cons a l ih =>
    refine (h a (by simp)).bind (fun b _ => ?_)
    split
    · exact ih (fun x hx => h x (by simp [hx]))
    · exact ends_ok _

end Run

open Run

theorem ends_slice (d : Bytes) (a b : Nat) : (slice d a b).Ends := by unfold slice; split <;> simp [Ends]

theorem ends_windowMatch (o : Nat) (p d : Bytes) : (windowMatch o p d).Ends := by
  unfold windowMatch
  split
  · exact ends_ok _
  · refine (ends_slice _ _ _).bind (fun t _ => ?_)
    split
    · exact ends_ok _
    · exact (ends_slice _ _ _).bind (fun _ _ => ends_ok _)

theorem ends_allows (X : Codecs) (f : AccountFilterType) (d : Bytes) : (f.allows X d).Ends := by
  cases f with
  | datasize n => exact ends_ok _
  | memcmp m =>
    simp only [AccountFilterType.allows, MemcmpFilter.bytesMatch]
    split
    · exact ends_windowMatch _ _ _
    · refine Ends.bind ?_ (fun _ _ => ends_windowMatch _ _ _)
      unfold MemcmpFilter.bytes
      split
      · exact ends_ok _
      · exact ends_unwrap _
      · exact ends_unwrap _

theorem ends_data (X : Codecs) (d : Data) : (d.data X).Ends := by
  cases d
  · exact ends_ok _
  · exact ends_unwrap _
  · exact ends_unwrap _

theorem ends_mapRun {f : α → Run β} (l : List α) (h : ∀ x, (f x).Ends) : (mapRun f l).Ends := by
  induction l with
  | nil => exact ends_ok _
  | cons a l ih => exact (h a).bind (fun _ _ => ih.bind (fun _ _ => ends_ok _))

namespace Token
open Spec ProcStore
open TokenStore (TOp)

theorem ends_filterRun {f : α → Run Bool} (l : List α) (h : ∀ x, (f x).Ends) : (TokenStorage.filterRun f l).Ends := by
  induction l with
  | nil => exact ends_ok _
  | cons a l ih => exact (h a).bind (fun _ _ => ih.bind (fun _ _ => ends_ok _))

theorem ends_tokensToSolana (mints : AMap Nat MintAccount) (slot : Nat) (l : List TokenAccount) :
    (TokenStore.tokensToSolana mints slot l).Ends := by
  induction l with
  | nil => exact ends_ok _
  | cons a l ih =>
    exact Ends.bind (tokenToSolana_ne_diverge _ _ _ _) (fun _ _ => ih.bind (fun _ _ => ends_ok _))

theorem ends_getByIndex (s : TokenStorage) (l : List Nat) : (s.getByIndex l).Ends :=
  ends_mapRun _ (fun _ => ends_unwrap _)

theorem ends_gpaFinalized (X : Codecs) (σ : Orders) (s : TokenStore) (program : Pubkey) (filters : Option (List AccountFilterType)) :
    (s.gpaFinalized X σ program filters).Ends := by
  unfold TokenStore.gpaFinalized
  split
  · exact ends_ok _
  · split
    · refine Ends.bind ?_ (fun _ _ => ?_)
      · split
        · exact (ends_unwrap _).bind (fun _ _ => ends_ok _)
        · exact ends_ok _
      · split
        · exact (ends_getByIndex _ _).bind (fun _ _ => (ends_tokensToSolana _ _ _).bind (fun _ _ => ends_ok _))
        · exact ends_ok _
    · split
      · split
        · exact (ends_getByIndex _ _).bind (fun _ _ => (ends_tokensToSolana _ _ _).bind (fun _ _ => ends_ok _))
        · exact ends_ok _
      · exact ends_ok _
    · split
      · refine (ends_filterRun _ (fun a => ?_)).bind (fun _ _ => ends_ok _)
        exact (ends_data X _).bind (fun d _ => ends_allM _ (fun f _ => ends_allows X f d))
      · exact ends_ok _

theorem ends_overlay (mints : AMap Nat MintAccount) (l : List AccountData) (r : Answers) : (TokenStore.overlay mints l r).Ends := by
  induction l generalizing r with
  | nil => cases r <;> simp [TokenStore.overlay, Ends]
  | cons a l ih =>
    cases r with
    | nil => simp [TokenStore.overlay, Ends]
    | cons x r =>
      cases x with
      | none => exact (ih r).bind (fun _ _ => ends_ok _)
      | some x =>
        obtain ⟨x, slot⟩ := x
        exact Ends.bind (toSolana_ne_diverge _ _ _ _) (fun _ _ => (ih r).bind (fun _ _ => ends_ok _))

/-! ## Recorded parents -/

/-- Every recorded parent is related to its slot by `R`. -/
def ParentsIn (R : Nat → Nat → Prop) (P : ProcStore) : Prop := ∀ k e p, BMap.find P k = some e → e.parent = some p → R k p

theorem parentsIn_insertAccount {R : Nat → Nat → Prop} {P : ProcStore} (h : ParentsIn R P) (pk : Pubkey) (x : ProgramAccount)
    (wv slot : Nat) : ParentsIn R (P.insertAccount pk x wv slot).2 := by
  intro k e p hk hp
  unfold ProcStore.insertAccount at hk
  cases hf : BMap.find P slot with
  | none =>
    simp only [hf, BMap.find_insert] at hk
    split at hk
    · cases hk; simp at hp
    · exact h k e p hk hp
  | some e0 =>
    have put : ∀ k e, BMap.find (BMap.insert P slot { e0 with accounts := e0.accounts.insert pk ⟨x, wv⟩ }) k = some e →
        e.parent = some p → R k p := by
      intro k e hk hp
      rw [BMap.find_insert] at hk
      split at hk
      · rename_i e'; cases hk; rw [← e']; exact h slot e0 p hf hp
      · exact h k e p hk hp
    simp only [hf] at hk
    split at hk
    · split at hk
      · exact put k e hk hp
      · exact h k e p hk hp
    · exact put k e hk hp

theorem parentsIn_updateSlotInfo {R : Nat → Nat → Prop} {P : ProcStore} (h : ParentsIn R P) {info : SlotInfo}
    (hi : R info.slot info.parent) : ParentsIn R (P.updateSlotInfo info) := by
  intro k e p hk hp
  unfold ProcStore.updateSlotInfo at hk
  split at hk
  · rw [BMap.find_insert] at hk
    split at hk
    · rename_i e'; cases hk; simp at hp; rw [← e', ← hp]; exact hi
    · exact h k e p hk hp
  · rw [BMap.find_insert] at hk
    split at hk
    · cases hk; simp at hp
    · exact h k e p hk hp

theorem parentsIn_sub {R : Nat → Nat → Prop} {P P' : ProcStore} (h : ParentsIn R P)
    (hs : ∀ k e, BMap.find P' k = some e → BMap.find P k = some e) : ParentsIn R P' :=
  fun k e p hk hp => h k e p (hs k e hk) hp

theorem addFinalized_processed {s s' : TokenStore} {x : ProgramAccount} (h : s.addFinalized x = .ok s') :
    s'.processed = s.processed ∧ s'.confirmedSlot = s.confirmedSlot := by
  cases x with
  | token t =>
    simp only [TokenStore.addFinalized, Run.bind_eq_ok] at h
    obtain ⟨⟨⟨i, b⟩, tk⟩, -, h⟩ := h
    cases b <;> · simp at h; subst h; exact ⟨rfl, rfl⟩
  | mint m =>
    simp only [TokenStore.addFinalized] at h
    split at h <;> · simp at h; subst h; exact ⟨rfl, rfl⟩
  | multisig m pk => simp only [TokenStore.addFinalized, Run.ok.injEq] at h; subst h; exact ⟨rfl, rfl⟩
  | deleted pk =>
    simp only [TokenStore.addFinalized] at h
    split at h
    · simp at h; subst h; exact ⟨rfl, rfl⟩
    · simp only [Run.bind_eq_ok] at h
      obtain ⟨tk, -, h⟩ := h
      simp at h; subst h; exact ⟨rfl, rfl⟩

theorem addAll_processed (l : List (Processed × Nat)) {s s' : TokenStore} (h : TokenStore.addAll l s = .ok s') :
    s'.processed = s.processed ∧ s'.confirmedSlot = s.confirmedSlot := by
  induction l generalizing s with
  | nil => simp [TokenStore.addAll] at h; subst h; exact ⟨rfl, rfl⟩
  | cons a l ih =>
    simp only [TokenStore.addAll, Run.bind_eq_ok] at h
    obtain ⟨s1, h1, h⟩ := h
    have e1 := addFinalized_processed h1
    have e2 := ih h
    exact ⟨by rw [e2.1, e1.1], by rw [e2.2, e1.2]⟩

/-- What a submission does to the table of waiting states. -/
theorem update_processed {X : Codecs} {s s' : TokenStore} {a : AccountData} {c : Commitment} {b : Bool}
    (h : s.updateAccount X a c = .ok (b, s')) : s'.confirmedSlot = s.confirmedSlot ∧ (s'.processed = s.processed ∨
      ∃ x, s'.processed = (s.processed.insertAccount a.pubkey x a.wv a.slot).2) := by
  unfold TokenStore.updateAccount at h
  simp only [Run.bind_eq_ok] at h
  obtain ⟨isT, -, h⟩ := h
  split at h
  · simp at h; obtain ⟨-, rfl⟩ := h; exact ⟨rfl, .inl rfl⟩
  · simp only [Run.bind_eq_ok] at h
    obtain ⟨⟨r, T⟩, -, h⟩ := h
    simp only at h
    split at h
    · simp at h; obtain ⟨-, rfl⟩ := h; exact ⟨rfl, .inl rfl⟩
    · rename_i x
      split at h
      · simp only [Run.pure_eq, Run.ok.injEq, Prod.mk.injEq] at h
        obtain ⟨-, rfl⟩ := h
        exact ⟨rfl, .inr ⟨x, rfl⟩⟩
      · simp only [Run.bind_eq_ok] at h
        obtain ⟨s1, hs1, h⟩ := h
        simp only [Run.pure_eq, Run.ok.injEq, Prod.mk.injEq] at h
        obtain ⟨-, rfl⟩ := h
        have := addFinalized_processed hs1
        exact ⟨this.2, .inl this.1⟩

/-- What a confirmed notification does to the table of waiting states. -/
theorem confirmed_processed {s s' : TokenStore} {σ : Orders} {info : SlotInfo} {notes : List AccountData}
    (h : s.processSlot σ info .confirmed = .ok (notes, s')) :
    s'.confirmedSlot = max s.confirmedSlot info.slot ∧
    (s'.processed = s.processed ∨ s'.processed = s.processed.updateSlotInfo info) ∧
    (s.confirmedSlot < info.slot → s'.processed = s.processed.updateSlotInfo info) := by
  simp only [TokenStore.processSlot, Run.bind_eq_ok] at h
  obtain ⟨⟨l, P⟩, hg, h⟩ := h
  simp only [Run.pure_eq, Run.ok.injEq, Prod.mk.injEq] at h
  obtain ⟨-, rfl⟩ := h
  unfold ProcStore.getProcessedForSlot at hg
  by_cases hlt : s.confirmedSlot < info.slot
  · rw [if_pos hlt] at hg
    rw [if_pos hlt]
    have hin : BMap.find (s.processed.updateSlotInfo info) info.slot ≠ none := by
      unfold ProcStore.updateSlotInfo; split <;> simp [BMap.find_insert]
    have : P = s.processed.updateSlotInfo info := by
      simp only at hg
      split at hg
      · simp only [Run.bind_eq_ok] at hg
        obtain ⟨_, -, hg⟩ := hg
        simp at hg; exact hg.2.symm
      · rename_i hn; exact absurd hn hin
    exact ⟨by simp only; omega, .inr this, fun _ => this⟩
  · rw [if_neg hlt] at hg
    rw [if_neg hlt]
    refine ⟨by simp only; omega, ?_, fun h => absurd h hlt⟩
    split at hg
    · simp only [Run.bind_eq_ok] at hg
      obtain ⟨_, -, hg⟩ := hg
      simp at hg; exact .inl hg.2.symm
    · simp at hg; exact .inr hg.2.symm

/-- What a finalized notification does to the table of waiting states. -/
theorem finalized_processed {s s' : TokenStore} {σ : Orders} {info : SlotInfo} {notes : List AccountData}
    (hs : BMap.Sorted s.processed)
    (h : s.processSlot σ info .finalized = .ok (notes, s')) : s'.confirmedSlot = s.confirmedSlot ∧
    ∀ k e, BMap.find s'.processed k = some e → BMap.find s.processed k = some e := by
  unfold TokenStore.processSlot at h
  simp only [Run.bind_eq_ok] at h
  generalize hs0 : (if s.finalizedSlot < info.slot then
        { s with finalizedSlot := info.slot, processed := s.processed.updateSlotInfo info } else s) = s0 at h
  have hp0 : ∀ k, k ≠ info.slot → BMap.find s0.processed k = BMap.find s.processed k := by
    intro k hk
    rw [← hs0]; split
    · unfold ProcStore.updateSlotInfo
      simp only
      split <;> rw [BMap.find_insert, if_neg (fun e => hk e.symm)]
    · rfl
  have hc0 : s0.confirmedSlot = s.confirmedSlot := by rw [← hs0]; split <;> simp
  have hsort0 : BMap.Sorted s0.processed := by
    rw [← hs0]; split
    · unfold ProcStore.updateSlotInfo
      simp only
      split <;> exact BMap.sorted_insert hs _ _
    · exact hs
  obtain ⟨⟨P', l⟩, hfz, notes', -, s1, hadd, h⟩ := h
  simp only [Run.pure_eq, Run.ok.injEq, Prod.mk.injEq] at h
  obtain ⟨-, rfl⟩ := h
  obtain ⟨e1, e2⟩ := addAll_processed _ hadd
  simp only at e1 e2
  refine ⟨by rw [e2, hc0], ?_⟩
  rw [e1]
  unfold finalize at hfz
  simp only [Run.bind_eq_ok] at hfz
  obtain ⟨⟨P1, found⟩, hl, hfz⟩ := hfz
  simp only [Run.pure_eq, Run.ok.injEq, Prod.mk.injEq] at hfz
  obtain ⟨rfl, -⟩ := hfz
  obtain ⟨g1, -, g3, -⟩ := finalizeLoop_spec _ hl hsort0 AMap.distinct_nil
  intro k e hk
  rw [find_dropUpTo g1] at hk
  split at hk
  · simp at hk
  · rename_i hlt
    by_cases hc : OnChain s0.processed info.slot k
    · rw [(g3 k).1 hc] at hk; simp at hk
    · rw [(g3 k).2 hc, hp0 k (by omega)] at hk; exact hk

theorem sorted_insertAccount {P : ProcStore} (h : BMap.Sorted P) (pk : Pubkey) (x : ProgramAccount) (wv slot : Nat) :
    BMap.Sorted (P.insertAccount pk x wv slot).2 := by
  unfold ProcStore.insertAccount
  split
  · split
    · split
      · exact BMap.sorted_insert h _ _
      · exact h
    · exact BMap.sorted_insert h _ _
  · exact BMap.sorted_insert h _ _

theorem sorted_updateSlotInfo {P : ProcStore} (h : BMap.Sorted P) (info : SlotInfo) : BMap.Sorted (P.updateSlotInfo info) := by
  unfold ProcStore.updateSlotInfo
  split <;> exact BMap.sorted_insert h _ _

theorem finalized_sorted {s s' : TokenStore} {σ : Orders} {info : SlotInfo} {notes : List AccountData}
    (hs : BMap.Sorted s.processed) (h : s.processSlot σ info .finalized = .ok (notes, s')) : BMap.Sorted s'.processed := by
  unfold TokenStore.processSlot at h
  simp only [Run.bind_eq_ok] at h
  generalize hs0 : (if s.finalizedSlot < info.slot then
        { s with finalizedSlot := info.slot, processed := s.processed.updateSlotInfo info } else s) = s0 at h
  have hsort0 : BMap.Sorted s0.processed := by
    rw [← hs0]; split
    · exact sorted_updateSlotInfo hs info
    · exact hs
  obtain ⟨⟨P', l⟩, hfz, notes', -, s1, hadd, h⟩ := h
  simp only [Run.pure_eq, Run.ok.injEq, Prod.mk.injEq] at h
  obtain ⟨-, rfl⟩ := h
  rw [(addAll_processed _ hadd).1]
  unfold finalize at hfz
  simp only [Run.bind_eq_ok] at hfz
  obtain ⟨⟨P1, found⟩, hl, hfz⟩ := hfz
  simp only [Run.pure_eq, Run.ok.injEq, Prod.mk.injEq] at hfz
  obtain ⟨rfl, -⟩ := hfz
  exact BMap.sorted_dropWhile (finalizeLoop_spec _ hl hsort0 AMap.distinct_nil).1 _

/-- One call: the table stays sorted and recorded parents come from notifications. -/
theorem step_parents {X : Codecs} {R : Nat → Nat → Prop} {s s' : TokenStore} {o : TOp} (hs : BMap.Sorted s.processed)
    (h : ParentsIn R s.processed) (ho : ∀ σ info c, o = .slot σ info c → R info.slot info.parent)
    (hr : s.step X o = .ok s') : BMap.Sorted s'.processed ∧ ParentsIn R s'.processed := by
  have hupd : ∀ a c b, s.updateAccount X a c = .ok (b, s') → BMap.Sorted s'.processed ∧ ParentsIn R s'.processed := by
    intro a c b hu
    rcases (update_processed hu).2 with e | ⟨x, e⟩
    · rw [e]; exact ⟨hs, h⟩
    · rw [e]; exact ⟨sorted_insertAccount hs _ _ _ _, parentsIn_insertAccount h _ _ _ _⟩
  cases o with
  | update a c =>
    simp only [TokenStore.step, Run.bind_eq_ok] at hr
    obtain ⟨⟨b, s1⟩, h1, hr⟩ := hr
    simp at hr; subst hr
    exact hupd a c b h1
  | init a =>
    simp only [TokenStore.step, init_eq_update, Run.bind_eq_ok] at hr
    obtain ⟨⟨b, s1⟩, h1, hr⟩ := hr
    simp at hr; subst hr
    exact hupd a .finalized b h1
  | slot σ info c =>
    simp only [TokenStore.step, Run.bind_eq_ok] at hr
    obtain ⟨⟨b, s1⟩, h1, hr⟩ := hr
    simp at hr; subst hr
    have hi := ho σ info c rfl
    cases c with
    | processed =>
      simp only [TokenStore.processSlot, Run.ok.injEq, Prod.mk.injEq] at h1
      obtain ⟨-, rfl⟩ := h1
      exact ⟨sorted_updateSlotInfo hs _, parentsIn_updateSlotInfo h hi⟩
    | confirmed =>
      obtain ⟨-, e | e, -⟩ := confirmed_processed h1
      · rw [e]; exact ⟨hs, h⟩
      · rw [e]; exact ⟨sorted_updateSlotInfo hs _, parentsIn_updateSlotInfo h hi⟩
    | finalized => exact ⟨finalized_sorted hs h1, parentsIn_sub h (finalized_processed hs h1).2⟩

theorem run_parents {X : Codecs} {R : Nat → Nat → Prop} (ops : List TOp) {s s' : TokenStore} (hs : BMap.Sorted s.processed)
    (h : ParentsIn R s.processed) (ho : ∀ σ info c, TOp.slot σ info c ∈ ops → R info.slot info.parent)
    (hr : TokenStore.run X ops s = .ok s') : BMap.Sorted s'.processed ∧ ParentsIn R s'.processed := by
  induction ops generalizing s with
  | nil => simp [TokenStore.run] at hr; subst hr; exact ⟨hs, h⟩
  | cons o os ih =>
    simp only [TokenStore.run, Run.bind_eq_ok] at hr
    obtain ⟨s1, h1, hr⟩ := hr
    obtain ⟨g1, g2⟩ := step_parents hs h (fun σ info c e => ho σ info c (by simp [e])) h1
    exact ih g1 g2 (fun σ info c e => ho σ info c (by simp [e])) hr

theorem storeRun_append {X : Codecs} (l l' : List TOp) {s s' : TokenStore} :
    TokenStore.run X (l ++ l') s = .ok s' ↔ ∃ s1, TokenStore.run X l s = .ok s1 ∧ TokenStore.run X l' s1 = .ok s' := by
  induction l generalizing s with
  | nil => simp [TokenStore.run]
  | cons o os ih =>
    simp only [List.cons_append, TokenStore.run, Run.bind_eq_ok, ih]
    constructor
    · rintro ⟨a, h1, b, h2, h3⟩; exact ⟨b, ⟨a, h1, h2⟩, h3⟩
    · rintro ⟨b, ⟨a, h1, h2⟩, h3⟩; exact ⟨a, h1, b, h2, h3⟩

/-- Without finalized notifications: a slot with an entry keeps one, and a recorded parent that agrees with `par` stays. -/
theorem step_keeps {X : Codecs} {par : Nat → Nat} {s s' : TokenStore} {o : TOp}
    (ho : ∀ σ info c, o = .slot σ info c → c ≠ .finalized ∧ info.parent = par info.slot)
    (hr : s.step X o = .ok s') (k : Nat) :
    (BMap.find s.processed k ≠ none → BMap.find s'.processed k ≠ none) ∧
    ((∃ e, BMap.find s.processed k = some e ∧ e.parent = some (par k)) →
      ∃ e, BMap.find s'.processed k = some e ∧ e.parent = some (par k)) := by
  have hins : ∀ pk x wv slot, (BMap.find s.processed k ≠ none → BMap.find (s.processed.insertAccount pk x wv slot).2 k ≠ none) ∧
      ((∃ e, BMap.find s.processed k = some e ∧ e.parent = some (par k)) →
      ∃ e, BMap.find (s.processed.insertAccount pk x wv slot).2 k = some e ∧ e.parent = some (par k)) := by
    intro pk x wv slot
    unfold ProcStore.insertAccount
    cases hf : BMap.find s.processed slot with
    | none =>
      simp only [BMap.find_insert]
      by_cases e : slot = k
      · subst e; simp [hf]
      · simp [e]
    | some e0 =>
      by_cases e : slot = k
      · subst e
        have put : ∀ f, (BMap.find (BMap.insert s.processed slot { e0 with accounts := f }) slot ≠ none) ∧
          (e0.parent = some (par slot) → ∃ e, BMap.find (BMap.insert s.processed slot { e0 with accounts := f }) slot = some e ∧
            e.parent = some (par slot)) := by
          intro f; simp [BMap.find_insert]
        simp only [hf]
        split
        · split
          · exact ⟨fun _ => (put _).1, by rintro ⟨e, he, hp⟩; cases he; exact (put _).2 hp⟩
          · exact ⟨fun _ => by simp [hf], by rintro ⟨e, he, hp⟩; cases he; exact ⟨_, hf, hp⟩⟩
        · exact ⟨fun _ => (put _).1, by rintro ⟨e, he, hp⟩; cases he; exact (put _).2 hp⟩
      · have put : ∀ v, BMap.find (BMap.insert s.processed slot v) k = BMap.find s.processed k := by
          intro v; rw [BMap.find_insert, if_neg e]
        simp only
        split
        · split
          · simp [put]
          · exact ⟨id, id⟩
        · simp [put]
  have hup : ∀ info : SlotInfo, info.parent = par info.slot →
      (BMap.find s.processed k ≠ none → BMap.find (s.processed.updateSlotInfo info) k ≠ none) ∧
      ((∃ e, BMap.find s.processed k = some e ∧ e.parent = some (par k)) →
      ∃ e, BMap.find (s.processed.updateSlotInfo info) k = some e ∧ e.parent = some (par k)) := by
    intro info hi
    unfold ProcStore.updateSlotInfo
    cases hf : BMap.find s.processed info.slot with
    | none =>
      simp only [BMap.find_insert]
      by_cases e : info.slot = k
      · subst e; simp [hf]
      · simp [e]
    | some e0 =>
      simp only [BMap.find_insert]
      by_cases e : info.slot = k
      · subst e; simp [hi]
      · simp [e]
  have hupd : ∀ a c b, s.updateAccount X a c = .ok (b, s') → (BMap.find s.processed k ≠ none → BMap.find s'.processed k ≠ none) ∧
    ((∃ e, BMap.find s.processed k = some e ∧ e.parent = some (par k)) →
      ∃ e, BMap.find s'.processed k = some e ∧ e.parent = some (par k)) := by
    intro a c b hu
    rcases (update_processed hu).2 with e | ⟨x, e⟩
    · rw [e]; exact ⟨id, id⟩
    · rw [e]; exact hins _ _ _ _
  cases o with
  | update a c =>
    simp only [TokenStore.step, Run.bind_eq_ok] at hr
    obtain ⟨⟨b, s1⟩, h1, hr⟩ := hr
    simp at hr; subst hr
    exact hupd a c b h1
  | init a =>
    simp only [TokenStore.step, init_eq_update, Run.bind_eq_ok] at hr
    obtain ⟨⟨b, s1⟩, h1, hr⟩ := hr
    simp at hr; subst hr
    exact hupd a .finalized b h1
  | slot σ info c =>
    simp only [TokenStore.step, Run.bind_eq_ok] at hr
    obtain ⟨⟨b, s1⟩, h1, hr⟩ := hr
    simp at hr; subst hr
    obtain ⟨hc, hi⟩ := ho σ info c rfl
    cases c with
    | processed =>
      simp only [TokenStore.processSlot, Run.ok.injEq, Prod.mk.injEq] at h1
      obtain ⟨-, rfl⟩ := h1
      exact hup info hi
    | confirmed =>
      obtain ⟨-, e | e, -⟩ := confirmed_processed h1
      · rw [e]; exact ⟨id, id⟩
      · rw [e]; exact hup info hi
    | finalized => exact absurd rfl hc

theorem run_keeps {X : Codecs} {par : Nat → Nat} (ops : List TOp) {s s' : TokenStore}
    (ho : ∀ σ info c, TOp.slot σ info c ∈ ops → c ≠ .finalized ∧ info.parent = par info.slot)
    (hr : TokenStore.run X ops s = .ok s') (k : Nat) :
    (BMap.find s.processed k ≠ none → BMap.find s'.processed k ≠ none) ∧
    ((∃ e, BMap.find s.processed k = some e ∧ e.parent = some (par k)) →
      ∃ e, BMap.find s'.processed k = some e ∧ e.parent = some (par k)) := by
  induction ops generalizing s with
  | nil => simp [TokenStore.run] at hr; subst hr; exact ⟨id, id⟩
  | cons o os ih =>
    simp only [TokenStore.run, Run.bind_eq_ok] at hr
    obtain ⟨s1, h1, hr⟩ := hr
    obtain ⟨g1, g2⟩ := step_keeps (fun σ info c e => ho σ info c (by simp [e])) h1 k
    obtain ⟨g3, g4⟩ := ih (fun σ info c e => ho σ info c (by simp [e])) hr
    exact ⟨fun h => g3 (g1 h), fun h => g4 (g2 h)⟩

/-- A read of one account. -/
theorem getAccount_eq {s : TokenStore} (hs : BMap.Sorted s.processed) (pk : Pubkey) {c : Commitment} (hc : c ≠ .finalized) {r : Answers}
    (h : s.processed.getAccounts [pk] c s.confirmedSlot = .ok r) :
    (∀ x k, Newest s.processed pk c s.confirmedSlot x k → s.getAccount pk c = x.account.toSolana s.mints k 0) ∧
    ((∀ x k, ¬ Newest s.processed pk c s.confirmedSlot x k) → s.getAccount pk c = s.getFinalized pk) := by
  obtain ⟨h1, h2⟩ := getAccounts_spec hs h
  have h2 := h2 0 pk rfl
  have hg : s.getAccount pk c = (do match ← Run.unwrap r.head? with
    | some (x, slot) => x.account.toSolana s.mints slot 0
    | none => s.getFinalized pk) := by
    unfold TokenStore.getAccount
    rw [if_neg hc, h]; rfl
  cases r with
  | nil => simp at h1
  | cons a l =>
    simp only [List.head?_cons, Run.unwrap_some, Run.ok_bind] at hg
    simp only [List.getElem?_cons_zero, Option.some.injEq] at h2
    constructor
    · intro x k hx
      rw [(h2 x k).2 hx] at hg
      exact hg
    · intro hx
      cases a with
      | none => exact hg
      | some v => exact absurd ((h2 v.1 v.2).1 rfl) (hx _ _)

end Token
end LAM
