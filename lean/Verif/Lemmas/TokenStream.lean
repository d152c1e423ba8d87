import Verif.Lemmas.TokenStoreHist
import Verif.Lemmas.TokenStoreRead
import Verif.Spec.TokenStream
/-!
# Histories in which slots are finalized: helper lemmas
-/
namespace LAM.Token
open Spec ProcStore Run
open TokenStore (TOp)

/-! ## Lists of calls -/

theorem snoc_split {pre post ops : List TOp} {x o : TOp} (h : ops ++ [o] = pre ++ x :: post) :
    (post = [] ∧ pre = ops ∧ x = o) ∨ ∃ post', ops = pre ++ x :: post' := by
  rcases List.eq_nil_or_concat post with rfl | ⟨l, y, rfl⟩
  · left
    have := List.append_inj' h rfl
    simp at this
    exact ⟨rfl, this.1.symm, this.2.symm⟩
  · right
    rw [List.concat_eq_append, ← List.cons_append, ← List.append_assoc] at h
    exact ⟨l, (List.append_inj' h rfl).1⟩

theorem snoc_split_left {pre post ops : List TOp} {x o : TOp} (h : ops = pre ++ x :: post) :
    ops ++ [o] = pre ++ x :: (post ++ [o]) := by simp [h]

theorem lastFinal_snoc (ops : List TOp) (o : TOp) : lastFinal (ops ++ [o]) =
    match o with | .slot _ info .finalized => max (lastFinal ops) info.slot | _ => lastFinal ops := by
  simp only [lastFinal, List.foldl_append, List.foldl_cons, List.foldl_nil]
  cases o with
  | slot σ info c => cases c <;> rfl
  | _ => rfl

theorem lastFinal_snoc_of {ops : List TOp} {o : TOp} (h : ∀ σ info, o ≠ .slot σ info .finalized) :
    lastFinal (ops ++ [o]) = lastFinal ops := by
  rw [lastFinal_snoc]
  split
  · exact absurd rfl (h _ _)
  · rfl

theorem onTime_left {ops : List TOp} {o : TOp} (h : OnTime (ops ++ [o])) : OnTime ops :=
  fun pre a c post e => h pre a c (post ++ [o]) (snoc_split_left e)

theorem parents_left {par : Nat → Nat} {ops : List TOp} {o : TOp} (h : TrueParents par (ops ++ [o])) : TrueParents par ops :=
  fun σ info c hm => h σ info c (by simp [hm])

theorem chained_left {X : Codecs} {par : Nat → Nat} {pk : Pubkey} {ops : List TOp} {o : TOp} (h : Chained X par pk (ops ++ [o])) :
    Chained X par pk ops :=
  fun pre σ info post e => h pre σ info (post ++ [o]) (snoc_split_left e)

theorem accepted_left {X : Codecs} {pk : Pubkey} {ops : List TOp} {o : TOp} (h : Accepted X pk (ops ++ [o])) : Accepted X pk ops :=
  fun pre a c post s e => h pre a c (post ++ [o]) s (snoc_split_left e)

theorem loadedFirst_left {pk : Pubkey} {ops : List TOp} {o : TOp} (h : LoadedFirst pk (ops ++ [o])) : LoadedFirst pk ops :=
  fun pre o' post a e => h pre o' (post ++ [o]) a (snoc_split_left e)

/-- Submissions for slots already passed by a finalized slot are complete. -/
theorem submitted_frozen {ops : List TOp} {o : TOp} (h : OnTime (ops ++ [o])) (pk : Pubkey) {k : Nat} (hk : k ≤ lastFinal ops) :
    submittedAt (ops ++ [o]) pk k = submittedAt ops pk k := by
  rw [submissions_snoc]
  cases o with
  | update a c =>
    by_cases hc : c = .finalized
    · simp [submittedAt, hc]
    · have := h ops a c [] rfl hc
      simp only [submittedAt, List.filterMap_cons, List.filterMap_nil]
      rw [if_neg (by omega)]
      simp
  | _ => simp [submittedAt]

theorem submitted_zero {ops : List TOp} (h : OnTime ops) (pk : Pubkey) : submittedAt ops pk 0 = [] := by
  unfold submittedAt
  rw [List.filterMap_eq_nil_iff]
  intro o ho
  cases o with
  | update a c =>
    simp only [ite_eq_right_iff, reduceCtorEq, imp_false, not_and]
    intro hc _ h0
    obtain ⟨pre, post, e⟩ := List.append_of_mem ho
    have := h pre a c post e hc
    omega
  | _ => rfl

/-! ## Chains -/

theorem ancestor_le {par : Nat → Nat} (hd : ∀ i, par i ≤ i) {s k : Nat} (h : Ancestor par s k) : k ≤ s := by
  induction h with
  | here => exact Nat.le_refl _
  | @up s k _ ih => have := hd s; omega

theorem newest_congr {ops ops' : List TOp} {par : Nat → Nat} (hd : ∀ i, par i ≤ i) {pk : Pubkey} {s k : Nat} {a : AccountData}
    (he : ∀ i, i ≤ s → submittedAt ops' pk i = submittedAt ops pk i) (h : NewestTrue ops par pk s a k) :
    NewestTrue ops' par pk s a k := by
  induction h with
  | here hb => exact .here (by rw [he _ (Nat.le_refl _)]; exact hb)
  | @up s a k hs _ ih =>
    exact .up (by rw [he _ (Nat.le_refl _)]; exact hs) (ih (fun i hi => he i (by have := hd s; omega)))

theorem newest_from {ops : List TOp} {par : Nat → Nat} (hd : ∀ i, par i ≤ i) {pk : Pubkey} {f F k : Nat} {a : AccountData}
    (hF : Ancestor par f F) (h : NewestTrue ops par pk f a k) (hk : k ≤ F) : NewestTrue ops par pk F a k := by
  induction hF with
  | here => exact h
  | @up s F hF ih =>
    have h1 := ancestor_le hd hF
    have h2 := hd s
    cases h with
    | here hb =>
      have : F = k := by omega
      subst this; exact .here hb
    | up _ h => exact ih h hk

theorem newestTrue_unique {ops : List TOp} {par : Nat → Nat} {pk : Pubkey} {s k k' : Nat} {a a' : AccountData}
    (h : NewestTrue ops par pk s a k) (h' : NewestTrue ops par pk s a' k') : a = a' ∧ k = k' := by
  induction h with
  | here hb =>
    cases h' with
    | here hb' => exact ⟨best_unique hb hb', rfl⟩
    | up hs _ => rw [hs] at hb; obtain ⟨l1, l2, h, -⟩ := hb; simp at h
  | up hs _ ih =>
    cases h' with
    | here hb' => rw [hs] at hb'; obtain ⟨l1, l2, h, -⟩ := hb'; simp at h
    | up _ h' => exact ih h'

/-- What is recorded comes from the best submission. -/
def RecordedBy (R : AccountData → ProgramAccount → Prop) (l : List AccountData) (x : Option Processed) : Prop :=
  (l = [] ∧ x = none) ∨ ∃ a y, x = some y ∧ Best l a ∧ y.wv = a.wv ∧ R a y.account

/-- Finding the newest submitted state above slot `F`. -/
theorem newestTrue_above {R : AccountData → ProgramAccount → Prop} {P : ProcStore} {ops : List TOp} {par : Nat → Nat} {pk : Pubkey} {F s k : Nat} {a : AccountData}
    (hd : ∀ i, par i ≤ i) (hrec : ∀ i, F < i → RecordedBy R (submittedAt ops pk i) (stateAt P i pk)) (hF : F < k)
    (hl : ∀ i, Ancestor par s i → Ancestor par i k → i ≠ k → ∃ e, BMap.find P i = some e ∧ e.parent = some (par i))
    (h : NewestTrue ops par pk s a k) :
    ∃ x, NewestOn P pk s x k ∧ x.wv = a.wv ∧ R a x.account := by
  induction h with
  | @here s a hb =>
    rcases hrec s hF with ⟨h, -⟩ | ⟨a', y, h, hb', hw, hcl⟩
    · rw [h] at hb; obtain ⟨l1, l2, h, -⟩ := hb; simp at h
    · cases best_unique hb hb'
      refine ⟨y, ?_, hw, hcl⟩
      unfold stateAt at h
      cases he : BMap.find P s with
      | none => simp [he] at h
      | some e => exact .here he (by simpa [he] using h)
  | @up s a k hs hn ih =>
    obtain ⟨x, h1, h2⟩ := ih hF (fun i hi => hl i (.up hi))
    have hsk : s ≠ k := by rintro rfl; exact newest_submitted hn hs
    have hk := ancestor_le hd (ancestor_of_newest hn)
    have := hd s
    obtain ⟨e, he, hpe⟩ := hl s .here (.up (ancestor_of_newest hn)) hsk
    refine ⟨x, .up he ?_ hpe h1, h2⟩
    rcases hrec s (by omega) with ⟨-, h⟩ | ⟨a', y, h, hb', -⟩
    · simpa [stateAt, he] using h
    · rw [hs] at hb'; obtain ⟨l1, l2, h, -⟩ := hb'; simp at h

/-- What is found above slot `F` is the newest submitted state. -/
theorem newestOn_above {R : AccountData → ProgramAccount → Prop} {P : ProcStore} {ops : List TOp} {par : Nat → Nat} {pk : Pubkey} {F s k : Nat} {x : Processed}
    (hd : ∀ i, par i ≤ i) (hp : ParentsIn (fun k p => p = par k) P)
    (hrec : ∀ i, F < i → RecordedBy R (submittedAt ops pk i) (stateAt P i pk)) (hF : F < k)
    (h : NewestOn P pk s x k) :
    k ≤ s ∧ ∃ a, NewestTrue ops par pk s a k ∧ x.wv = a.wv ∧ R a x.account := by
  induction h with
  | @here s e x he hx =>
    have hst : stateAt P s pk = some x := by simp [stateAt, he, hx]
    rcases hrec s hF with ⟨-, h⟩ | ⟨a, y, h, hb, hw, hcl⟩
    · rw [hst] at h; simp at h
    · rw [hst] at h; cases h
      exact ⟨Nat.le_refl _, a, .here hb, hw, hcl⟩
  | @up s e p x k he hx hpar _ ih =>
    obtain ⟨h0, a, h1, h2⟩ := ih hF
    have hps := hp s e p he hpar
    subst hps
    have := hd s
    refine ⟨by omega, a, .up ?_ h1, h2⟩
    rcases hrec s (by omega) with ⟨h, -⟩ | ⟨a, y, h, -⟩
    · exact h
    · simp [stateAt, he, hx] at h

theorem newestOn_state {P : ProcStore} {pk : Pubkey} {s k : Nat} {x : Processed} (h : NewestOn P pk s x k) :
    stateAt P k pk = some x := by
  obtain ⟨e, h1, h2⟩ := newest_mem h
  simp [stateAt, h1, h2]

/-! ## One finalization -/

theorem stateAt_noted (s : TokenStore) (info : SlotInfo) (n k : Nat) (pk : Pubkey) :
    stateAt (noted s info n) k pk = stateAt s.processed k pk := by
  unfold noted; split
  · exact stateAt_updateSlotInfo _ _ _ _
  · rfl

theorem parents_noted {R : Nat → Nat → Prop} {s : TokenStore} {info : SlotInfo} {n : Nat} (h : ParentsIn R s.processed)
    (hi : R info.slot info.parent) : ParentsIn R (noted s info n) := by
  unfold noted; split
  · intro k e p he hp
    unfold ProcStore.updateSlotInfo at he
    split at he
    · rename_i e0 he0
      rw [BMap.find_insert] at he
      split at he
      · rename_i hk; subst hk
        simp only [Option.some.injEq] at he
        subst he
        simp only [Option.some.injEq] at hp
        subst hp; exact hi
      · exact h k e p he hp
    · rw [BMap.find_insert] at he
      split at he
      · simp only [Option.some.injEq] at he
        subst he; simp at hp
      · exact h k e p he hp
  · exact h

theorem onChain_le {P : ProcStore} (h : ParentsIn (fun k p => p < k) P) {a b : Nat} (hab : OnChain P a b) : b ≤ a := by
  induction hab with
  | here _ => exact Nat.le_refl _
  | up h1 h2 _ ih => have := h _ _ _ h1 h2; omega

theorem ParentsIn.imp {R R' : Nat → Nat → Prop} {P : ProcStore} (h : ParentsIn R P) (hi : ∀ k p, R k p → R' k p) : ParentsIn R' P :=
  fun k e p h1 h2 => hi _ _ (h k e p h1 h2)

/-- A finalization clears the slots up to the finalized one and leaves the others. -/
theorem finalized_table {X : Codecs} {par : Nat → Nat} {ops : List TOp} {s s' : TokenStore} {σ : Orders} {info : SlotInfo}
    {notes : List AccountData} (hn : ops.length < 2 ^ 31 - 1) (hp : TrueParents par (ops ++ [.slot σ info .finalized]))
    (hr : TokenStore.run X ops .empty = .ok s) (hs : s.processSlot σ info .finalized = .ok (notes, s')) :
    s'.confirmedSlot = s.confirmedSlot ∧ s'.finalizedSlot = max s.finalizedSlot info.slot ∧
    (∀ k, k ≤ info.slot → BMap.find s'.processed k = none) ∧
    ∀ k, info.slot < k → BMap.find s'.processed k = BMap.find s.processed k := by
  obtain ⟨slots, orig, inv⟩ := reach_inv (by omega) hr
  obtain ⟨slots', orig', inv', h1, h2, h3, -⟩ := finalized_spec inv hn hs
  obtain ⟨hsort, hpar⟩ := parents_of (R := fun k p => p < k) (fun σ info c h => (parents_left hp σ info c h).2) hr
  refine ⟨h1, h2, fun k hk => (h3 k).1 (.inl hk), fun k hk => (h3 k).2 ?_⟩
  rintro (h | h)
  · omega
  · have := onChain_le (parents_noted hpar (hp σ info .finalized (by simp)).2) h
    omega

theorem step_slot {X : Codecs} {s s' : TokenStore} {σ : Orders} {info : SlotInfo} {c : Commitment}
    (h : s.step X (.slot σ info c) = .ok s') : ∃ notes, s.processSlot σ info c = .ok (notes, s') := by
  simp only [TokenStore.step, Run.bind_eq_ok] at h
  obtain ⟨⟨b, s1⟩, h1, h⟩ := h
  simp at h; subst h
  exact ⟨b, h1⟩

theorem run_snoc {X : Codecs} {ops : List TOp} {o : TOp} {s' : TokenStore} (h : TokenStore.run X (ops ++ [o]) .empty = .ok s') :
    ∃ s, TokenStore.run X ops .empty = .ok s ∧ s.step X o = .ok s' := by
  obtain ⟨s1, h1, h2⟩ := (storeRun_append _ _).1 h
  simp only [TokenStore.run, Run.bind_eq_ok] at h2
  obtain ⟨s2, h2, h3⟩ := h2
  simp at h3; subst h3
  exact ⟨s1, h1, h2⟩

/-- Whether a call finalizes a slot. -/
theorem finalizing (o : TOp) : (∃ σ info, o = .slot σ info .finalized) ∨ ∀ σ info, o ≠ .slot σ info .finalized := by
  cases o with
  | slot σ info c =>
    cases c with
    | finalized => exact .inl ⟨σ, info, rfl⟩
    | _ => exact .inr (by simp)
  | _ => exact .inr (by simp)

/-! ## The newest finalized and confirmed slots -/

theorem addFinalized_slot {s s' : TokenStore} {x : ProgramAccount} (h : s.addFinalized x = .ok s') :
    s'.finalizedSlot = s.finalizedSlot := by
  cases x with
  | token t =>
    simp only [TokenStore.addFinalized, Run.bind_eq_ok] at h
    obtain ⟨⟨⟨i, b⟩, tk⟩, -, h⟩ := h
    cases b <;> · simp at h; subst h; rfl
  | mint m =>
    simp only [TokenStore.addFinalized] at h
    split at h <;> · simp at h; subst h; rfl
  | multisig m pk => simp only [TokenStore.addFinalized, Run.ok.injEq] at h; subst h; rfl
  | deleted pk =>
    simp only [TokenStore.addFinalized] at h
    split at h
    · simp at h; subst h; rfl
    · simp only [Run.bind_eq_ok] at h
      obtain ⟨_, -, h⟩ := h
      simp at h; subst h; rfl

theorem update_slots {X : Codecs} {s s' : TokenStore} {a : AccountData} {c : Commitment} {b : Bool}
    (h : s.updateAccount X a c = .ok (b, s')) : s'.finalizedSlot = s.finalizedSlot := by
  unfold TokenStore.updateAccount at h
  simp only [Run.bind_eq_ok] at h
  obtain ⟨isT, -, h⟩ := h
  split at h
  · simp at h; obtain ⟨-, rfl⟩ := h; rfl
  · simp only [Run.bind_eq_ok] at h
    obtain ⟨⟨r, T⟩, -, h⟩ := h
    simp only at h
    split at h
    · simp at h; obtain ⟨-, rfl⟩ := h; rfl
    · split at h
      · simp only [Run.pure_eq, Run.ok.injEq, Prod.mk.injEq] at h
        obtain ⟨-, rfl⟩ := h
        rfl
      · simp only [Run.bind_eq_ok] at h
        obtain ⟨s1, hs1, h⟩ := h
        simp only [Run.pure_eq, Run.ok.injEq, Prod.mk.injEq] at h
        obtain ⟨-, rfl⟩ := h
        exact (addFinalized_slot hs1).trans rfl

theorem slot_slots {s s' : TokenStore} {σ : Orders} {info : SlotInfo} {c : Commitment} (hc : c ≠ .finalized)
    {n : List AccountData} (h : s.processSlot σ info c = .ok (n, s')) : s'.finalizedSlot = s.finalizedSlot := by
  cases c with
  | processed =>
    simp only [TokenStore.processSlot, Run.ok.injEq, Prod.mk.injEq] at h
    obtain ⟨-, rfl⟩ := h; rfl
  | confirmed =>
    simp only [TokenStore.processSlot, Run.bind_eq_ok] at h
    obtain ⟨⟨l, P⟩, hg, h⟩ := h
    simp only [Run.pure_eq, Run.ok.injEq, Prod.mk.injEq] at h
    obtain ⟨-, rfl⟩ := h
    simp only
    split <;> rfl
  | finalized => exact absurd rfl hc

theorem run_slots {X : Codecs} {par : Nat → Nat} {s : TokenStore} (ops : List TOp) (hn : ops.length < 2 ^ 31)
    (hp : TrueParents par ops) (hr : TokenStore.run X ops .empty = .ok s) :
    s.finalizedSlot = lastFinal ops ∧ s.confirmedSlot = confirmedOf ops := by
  induction ops using List.reverseRecOn generalizing s with
  | nil => simp [TokenStore.run] at hr; subst hr; exact ⟨rfl, rfl⟩
  | append_singleton ops o ih =>
    obtain ⟨s1, h1, h2⟩ := run_snoc hr
    simp only [List.length_append, List.length_cons, List.length_nil] at hn
    obtain ⟨ih1, ih2⟩ := ih (by omega) (parents_left hp) h1
    have hco := confirmedOf_snoc ops o
    have hlo := lastFinal_snoc ops o
    cases o with
    | update a c =>
      simp only [TokenStore.step, Run.bind_eq_ok] at h2
      obtain ⟨⟨b, s3⟩, h3, h2⟩ := h2
      simp at h2; subst h2
      rw [(update_processed h3).1, update_slots h3, ih1, ih2, hco, hlo]; exact ⟨rfl, rfl⟩
    | init a =>
      simp only [TokenStore.step, init_eq_update, Run.bind_eq_ok] at h2
      obtain ⟨⟨b, s3⟩, h3, h2⟩ := h2
      simp at h2; subst h2
      rw [(update_processed h3).1, update_slots h3, ih1, ih2, hco, hlo]; exact ⟨rfl, rfl⟩
    | slot σ info c =>
      obtain ⟨n, h3⟩ := step_slot h2
      cases c with
      | processed =>
        rw [slot_slots (by simp) h3, ih1, hco, hlo]
        simp only [TokenStore.processSlot, Run.ok.injEq, Prod.mk.injEq] at h3
        obtain ⟨-, rfl⟩ := h3
        exact ⟨rfl, ih2⟩
      | confirmed =>
        rw [slot_slots (by simp) h3, ih1, hco, hlo, (confirmed_processed h3).1, ih2]
        exact ⟨rfl, rfl⟩
      | finalized =>
        obtain ⟨e1, e2, -⟩ := finalized_table (by omega) hp h1 h3
        rw [e1, e2, hco, hlo, ih1, ih2]
        exact ⟨rfl, rfl⟩

/-! ## The table of waiting states -/

theorem known_snoc {X : Codecs} {ops : List TOp} {o : TOp} {k : Nat} (h : Known X (ops ++ [o]) k) : Known X ops k ∨ Known X [o] k := by
  rcases h with ⟨σ, info, c, ho, hk⟩ | ⟨a, c, ho, hk⟩
  · simp only [List.mem_append] at ho
    rcases ho with ho | ho
    · exact .inl (.inl ⟨σ, info, c, ho, hk⟩)
    · exact .inr (.inl ⟨σ, info, c, ho, hk⟩)
  · simp only [List.mem_append] at ho
    rcases ho with ho | ho
    · exact .inl (.inr ⟨a, c, ho, hk⟩)
    · exact .inr (.inr ⟨a, c, ho, hk⟩)

/-- Slots above the finalized one that occurred are in the table. -/
theorem stream_known {X : Codecs} {par : Nat → Nat} {s : TokenStore} (ops : List TOp) (hn : ops.length < 2 ^ 31)
    (hp : TrueParents par ops) (hr : TokenStore.run X ops .empty = .ok s) {k : Nat} (hk : lastFinal ops < k) (h : Known X ops k) :
    BMap.find s.processed k ≠ none := by
  induction ops using List.reverseRecOn generalizing s with
  | nil => simp [Known] at h
  | append_singleton ops o ih =>
    obtain ⟨s1, h1, h2⟩ := run_snoc hr
    simp only [List.length_append, List.length_cons, List.length_nil] at hn
    have hlo := lastFinal_snoc ops o
    rcases finalizing o with ⟨σ, info, rfl⟩ | hf
    · simp only at hlo
      obtain ⟨n, h3⟩ := step_slot h2
      obtain ⟨-, -, -, e⟩ := finalized_table (by omega) hp h1 h3
      rw [e k (by omega)]
      refine ih (by omega) (parents_left hp) h1 (by omega) ?_
      rcases known_snoc h with h | h
      · exact h
      · rcases h with ⟨σ', info', c, ho, hk'⟩ | ⟨a, c, ho, -⟩
        · simp at ho; rw [ho.2.1] at hk'; omega
        · simp at ho
    · rw [lastFinal_snoc_of hf] at hk
      rcases known_snoc h with h | h
      · refine (step_keeps (par := par) ?_ h2 k).1 (ih (by omega) (parents_left hp) h1 hk h)
        intro σ info c e
        exact ⟨fun hc => hf σ info (by rw [e, hc]), (hp σ info c (by simp [e])).1⟩
      · exact step_known hf h h2

/-- Slots above the finalized one whose link was notified have it in the table. -/
theorem stream_linked {X : Codecs} {par : Nat → Nat} {s : TokenStore} (ops : List TOp) (hn : ops.length < 2 ^ 31)
    (hp : TrueParents par ops) (hr : TokenStore.run X ops .empty = .ok s) {k : Nat} (hk : lastFinal ops < k)
    (h : LinkNoted X ops k) : ∃ e, BMap.find s.processed k = some e ∧ e.parent = some (par k) := by
  induction ops using List.reverseRecOn generalizing s with
  | nil => obtain ⟨pre, σ, info, c, post, e, -⟩ := h; simp at e
  | append_singleton ops o ih =>
    obtain ⟨s1, h1, h2⟩ := run_snoc hr
    simp only [List.length_append, List.length_cons, List.length_nil] at hn
    have hlo := lastFinal_snoc ops o
    obtain ⟨pre, σ, info, c, post, e, rfl, hkn, hc⟩ := h
    rcases snoc_split e with ⟨-, rfl, rfl⟩ | ⟨post', e'⟩
    · have hf : c ≠ .finalized := by rcases hc with rfl | ⟨rfl, -⟩ <;> simp
      rw [lastFinal_snoc_of (by simp; exact hf)] at hk
      have hin := stream_known pre (by omega) (parents_left hp) h1 hk hkn
      have hco := (run_slots pre (by omega) (parents_left hp) h1).2
      obtain ⟨n, h3⟩ := step_slot h2
      have hpar := (hp σ info c (by simp)).1
      have : s.processed = s1.processed.updateSlotInfo info := by
        rcases hc with rfl | ⟨rfl, hc⟩
        · simp only [TokenStore.processSlot, Run.ok.injEq, Prod.mk.injEq] at h3
          obtain ⟨-, rfl⟩ := h3; rfl
        · exact (confirmed_processed h3).2.2 (by rw [hco]; exact hc)
      rw [this]
      unfold ProcStore.updateSlotInfo
      cases hf : BMap.find s1.processed info.slot with
      | none => exact absurd hf hin
      | some e => exact ⟨_, by simp only [BMap.find_insert, if_true]; rfl, by simp [hpar]⟩
    · have hl : LinkNoted X ops info.slot := ⟨pre, σ, info, c, post', e', rfl, hkn, hc⟩
      rcases finalizing o with ⟨σ', info', rfl⟩ | hf
      · simp only at hlo
        obtain ⟨n, h3⟩ := step_slot h2
        obtain ⟨-, -, -, e⟩ := finalized_table (by omega) hp h1 h3
        rw [e _ (by omega)]
        exact ih (by omega) (parents_left hp) h1 (by omega) hl
      · rw [lastFinal_snoc_of hf] at hk
        refine (step_keeps (par := par) ?_ h2 _).2 (ih (by omega) (parents_left hp) h1 hk hl)
        intro σ info c e
        exact ⟨fun hc => hf σ info (by rw [e, hc]), (hp σ info c (by simp [e])).1⟩

/-- No state waits at or below the finalized slot. -/
theorem stream_cleared {X : Codecs} {par : Nat → Nat} {s : TokenStore} (ops : List TOp) (hn : ops.length < 2 ^ 31)
    (hp : TrueParents par ops) (ht : OnTime ops) (hr : TokenStore.run X ops .empty = .ok s) {k : Nat} (hk : k ≤ lastFinal ops)
    (pk : Pubkey) : stateAt s.processed k pk = none := by
  induction ops using List.reverseRecOn generalizing s with
  | nil => simp [TokenStore.run] at hr; subst hr; simp [stateAt, TokenStore.empty]
  | append_singleton ops o ih =>
    obtain ⟨s1, h1, h2⟩ := run_snoc hr
    simp only [List.length_append, List.length_cons, List.length_nil] at hn
    have hlo := lastFinal_snoc ops o
    rcases finalizing o with ⟨σ, info, rfl⟩ | hf
    · simp only at hlo
      obtain ⟨n, h3⟩ := step_slot h2
      obtain ⟨-, -, e0, e⟩ := finalized_table (by omega) hp h1 h3
      by_cases hki : k ≤ info.slot
      · simp [stateAt, e0 k hki]
      · have := ih (by omega) (parents_left hp) (onTime_left ht) h1 (by omega)
        simpa [stateAt, e k (by omega)] using this
    · rw [lastFinal_snoc_of hf] at hk
      have ih := ih (by omega) (parents_left hp) (onTime_left ht) h1 hk
      cases o with
      | slot σ info c =>
        obtain ⟨n, h3⟩ := step_slot h2
        rw [slot_stateAt (fun e => hf σ info (by rw [e])) h3]; exact ih
      | init a =>
        simp only [TokenStore.step, init_eq_update, Run.bind_eq_ok] at h2
        obtain ⟨⟨b, s3⟩, h3, h2⟩ := h2
        simp at h2; subst h2
        rw [update_final_processed h3]; exact ih
      | update a c =>
        simp only [TokenStore.step, Run.bind_eq_ok] at h2
        obtain ⟨⟨b, s3⟩, h3, h2⟩ := h2
        simp at h2; subst h2
        by_cases hc : c = .finalized
        · subst hc; rw [update_final_processed h3]; exact ih
        · have := ht ops a c [] rfl hc
          rcases (update_processed h3).2 with e | ⟨x, e⟩
          · rw [e]; exact ih
          · rw [e, stateAt_insertAccount, if_neg (by omega)]; exact ih

/-- A submission the store takes is entered. -/
theorem update_accepted {X : Codecs} {s s' : TokenStore} {a : AccountData} {c : Commitment} {b : Bool} (hc : c ≠ .finalized)
    (ht : s.isTokenAccount a = .ok true) (hp : ∀ T, ∃ x T', classify X T a = .ok (some x, T'))
    (h : s.updateAccount X a c = .ok (b, s')) :
    ∃ x, classify X s.table a = .ok (some x, s'.table) ∧ s'.processed = (s.processed.insertAccount a.pubkey x a.wv a.slot).2 := by
  unfold TokenStore.updateAccount at h
  obtain ⟨x, T', hx⟩ := hp s.table
  rw [ht] at h
  simp only [Run.ok_bind, Bool.not_true, Bool.false_eq_true, if_false, hx] at h
  rw [if_pos (by cases c <;> simp_all)] at h
  simp only [Run.pure_eq, Run.ok.injEq, Prod.mk.injEq] at h
  obtain ⟨-, rfl⟩ := h
  exact ⟨x, hx, rfl⟩

theorem taken_left {X : Codecs} {ops : List TOp} {o : TOp} {a : AccountData} {x : ProgramAccount} (h : Taken X ops a x) :
    Taken X (ops ++ [o]) a x := by
  obtain ⟨pre, c, post, s, s', e, h⟩ := h
  exact ⟨pre, c, post ++ [o], s, s', snoc_split_left e, h⟩

theorem RecordedBy.imp {R R' : AccountData → ProgramAccount → Prop} {l : List AccountData} {x : Option Processed}
    (h : RecordedBy R l x) (hi : ∀ a x, R a x → R' a x) : RecordedBy R' l x := by
  rcases h with h | ⟨a, y, h1, h2, h3, h4⟩
  · exact .inl h
  · exact .inr ⟨a, y, h1, h2, h3, hi _ _ h4⟩

/-- Above the finalized slot the table holds the best submissions. -/
theorem stream_recorded {X : Codecs} {par : Nat → Nat} {s : TokenStore} {pk : Pubkey} (ops : List TOp) (hn : ops.length < 2 ^ 31)
    (hp : TrueParents par ops) (ha : Accepted X pk ops) (hr : TokenStore.run X ops .empty = .ok s) {k : Nat}
    (hk : lastFinal ops < k) : RecordedBy (Taken X ops) (submittedAt ops pk k) (stateAt s.processed k pk) := by
  induction ops using List.reverseRecOn generalizing s with
  | nil => simp [TokenStore.run] at hr; subst hr; exact .inl ⟨rfl, by simp [stateAt, TokenStore.empty]⟩
  | append_singleton ops o ih =>
    obtain ⟨s1, h1, h2⟩ := run_snoc hr
    simp only [List.length_append, List.length_cons, List.length_nil] at hn
    have hlo := lastFinal_snoc ops o
    rw [submissions_snoc]
    rcases finalizing o with ⟨σ, info, rfl⟩ | hf
    · simp only at hlo
      obtain ⟨n, h3⟩ := step_slot h2
      obtain ⟨-, -, -, e⟩ := finalized_table (by omega) hp h1 h3
      have := (ih (by omega) (parents_left hp) (accepted_left ha) h1 (by omega)).imp (fun a x => taken_left (o := .slot σ info .finalized))
      simpa [submittedAt, stateAt, e k (by omega)] using this
    · rw [lastFinal_snoc_of hf] at hk
      have ih := (ih (by omega) (parents_left hp) (accepted_left ha) h1 hk).imp (fun a x => taken_left (o := o))
      cases o with
      | slot σ info c =>
        obtain ⟨n, h3⟩ := step_slot h2
        rw [slot_stateAt (fun e => hf σ info (by rw [e])) h3]
        simpa [submittedAt] using ih
      | init a =>
        simp only [TokenStore.step, init_eq_update, Run.bind_eq_ok] at h2
        obtain ⟨⟨b, s3⟩, h3, h2⟩ := h2
        simp at h2; subst h2
        rw [update_final_processed h3]
        simpa [submittedAt] using ih
      | update a c =>
        simp only [TokenStore.step, Run.bind_eq_ok] at h2
        obtain ⟨⟨b, s3⟩, h3, h2⟩ := h2
        simp at h2; subst h2
        by_cases hc : c = .finalized
        · subst hc; rw [update_final_processed h3]
          simpa [submittedAt] using ih
        by_cases hm : a.pubkey = pk ∧ a.slot = k
        · obtain ⟨ht, hcl⟩ := ha ops a c [] s1 rfl hc hm.1 h1
          obtain ⟨x, hx, e⟩ := update_accepted hc ht hcl h3
          have hx : Taken X (ops ++ [.update a c]) a x := ⟨ops, c, [], s1, _, rfl, hc, h1, hr, hx⟩
          have hs : submittedAt [TOp.update a c] pk k = [a] := by simp [submittedAt, hc, hm.1, hm.2]
          rw [hs, e, stateAt_insertAccount, if_pos ⟨hm.2, hm.1⟩]
          rcases ih with ⟨e0, h⟩ | ⟨a0, y, h, hb, hw, hcl⟩
          · rw [h, e0]
            exact .inr ⟨a, ⟨x, a.wv⟩, rfl, ⟨[], [], rfl, by simp, by simp⟩, rfl, hx⟩
          · rw [h]
            simp only
            by_cases hlt : y.wv < a.wv
            · rw [if_pos hlt]
              exact .inr ⟨a, ⟨x, a.wv⟩, rfl, best_snoc_high hb (by omega), rfl, hx⟩
            · rw [if_neg hlt]
              exact .inr ⟨a0, y, rfl, best_snoc_low hb (by omega), hw, hcl⟩
        · have hs : submittedAt [TOp.update a c] pk k = [] := by
            simp only [submittedAt, List.filterMap_cons, List.filterMap_nil]
            rw [if_neg (by tauto)]
          rw [hs, List.append_nil]
          rcases (update_processed h3).2 with e | ⟨x, e⟩
          · rw [e]; exact ih
          · rw [e, stateAt_insertAccount, if_neg (by tauto)]; exact ih

end LAM.Token
