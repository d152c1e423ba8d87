import Verif.Spec.History
import Verif.Lemmas.Steps
import Verif.Basic.Toy
/-!
# Reads of the in-memory store: C11 – C15, C25, C26, C29 – C31
-/
namespace LAM.Props
open Spec Store ByCommitment

/-! ## C11 -/

/-- **C11**. After any history, every further call returns. -/
theorem C11_never_panics_always_returns (h : List Op) :
    ∃ s, empty.run h = .ok s ∧
      (∀ F a c, ∃ r, s.updateAccount F a c = .ok r) ∧
      (∀ F a, ∃ r, s.initializeOrUpdate F a = .ok r) ∧
      (∀ F σ info c, ∃ r, s.processSlotData F σ info c = .ok r) ∧
      (∀ pk c, ∃ r, s.getAccount pk c = .ok r) := by
  obtain ⟨s, hs, hi⟩ := run_ok inv_empty h
  refine ⟨s, hs, ?_, ?_, ?_, ?_⟩
  · intro F a c
    obtain ⟨s', b, he, -⟩ := updateAccount_case hi F a c
    exact ⟨_, he⟩
  · intro F a
    obtain ⟨s', b, he, -⟩ := updateAccount_case hi F a .finalized
    exact ⟨s', by simp [initializeOrUpdate, he]⟩
  · intro F σ info c
    obtain ⟨s', r, he, -⟩ := processSlot_case hi F σ info c
    exact ⟨_, he⟩
  · intro pk c; exact ⟨_, getAccount_eq hi pk c⟩

/-- Filters that accept everything / only accounts of one owner, used in examples. -/
def allowAll : Filters := ⟨fun _ => true, fun _ => true⟩
def ownerOnly (o : Pubkey) : Filters := ⟨fun a => decide (a.account.owner = o), fun _ => true⟩

/-- A slot whose parent chain is a cycle does not make the walk endless. -/
example : ∃ s, empty.run [.update allowAll (Toy.acct Toy.alice Toy.prog 1 5 1) .processed,
    .slot allowAll .asIs ⟨5, 6, 0⟩ .processed, .slot allowAll .asIs ⟨6, 5, 0⟩ .processed,
    .slot allowAll .asIs ⟨6, 6, 0⟩ .confirmed] = .ok s ∧
    s.getAccount Toy.alice .confirmed = .ok none := ⟨_, rfl, by decide⟩

/-! ## C12 -/

private def Sub (l : List AccountData) (e : ByCommitment) : Prop :=
  (∀ k a, BMap.find e.processed k = some a → a ∈ l) ∧
  (∀ a, e.confirmed = some a → a ∈ l) ∧ (∀ a, e.finalized = some a → a ∈ l)

private theorem Sub.get {l : List AccountData} {e : ByCommitment} {pk : Pubkey} (h : Sub l e)
    (ho : EntryOK pk e) {c : Commitment} {a : AccountData} (hg : e.get c = some a) : a ∈ l := by
  cases c with
  | processed =>
    rw [ho.get_processed] at hg
    obtain ⟨k, hk, -⟩ := BMap.lastVal_eq_some ho.sorted hg
    exact h.1 k a hk
  | confirmed => exact h.2.1 a hg
  | finalized => exact h.2.2 a hg

private theorem Sub.mono {l m : List AccountData} {e : ByCommitment} (h : Sub l e) (hs : ∀ a ∈ l, a ∈ m) :
    Sub m e := ⟨fun k a ha => hs a (h.1 k a ha), fun a ha => hs a (h.2.1 a ha), fun a ha => hs a (h.2.2 a ha)⟩

private theorem Sub.update {l : List AccountData} {e : ByCommitment} (h : Sub l e) {a : AccountData}
    (ha : a ∈ l) (c : Commitment) : Sub l (e.update a c).1 := by
  refine ⟨?_, ?_, ?_⟩
  · intro k b hb
    rw [update_processed, find_updateProcessed] at hb
    split at hb
    · split at hb
      · rename_i p hp
        split at hb
        · simp at hb; subst hb; exact ha
        · simp at hb; subst hb; exact h.1 _ _ hp
      · simp at hb; subst hb; exact ha
    · exact h.1 _ _ hb
  · intro b hb
    rw [update_confirmed] at hb
    split at hb
    · exact h.2.1 b hb
    · split at hb
      · simp at hb; subst hb; exact ha
      · exact h.2.1 b hb
  · intro b hb
    rw [update_finalized] at hb
    split at hb
    · simp at hb; subst hb; exact ha
    · exact h.2.2 b hb

private theorem Sub.promote {l : List AccountData} {e : ByCommitment} (hs : BMap.Sorted e.processed)
    (h : Sub l e) (k : Nat) (c : Commitment) : Sub l (e.promote k c).1 := by
  refine ⟨?_, ?_, ?_⟩
  · intro j b hb
    rw [promote_processed_map] at hb
    split at hb
    · exact h.1 _ _ (find_prune_some hs hb)
    · exact h.1 _ _ hb
  · intro b hb
    rw [promote_confirmed] at hb
    cases hf : BMap.find e.processed k with
    | none => rw [hf] at hb; exact h.2.1 b hb
    | some a =>
      have ha := h.1 _ _ hf
      rw [hf] at hb
      simp only at hb
      split at hb
      · exact h.2.1 b hb
      · split at hb
        · rename_i x hx
          split at hb
          · simp at hb; subst hb; exact ha
          · exact h.2.1 b (by rw [hx]; exact hb)
        · simp at hb; subst hb; exact ha
  · intro b hb
    rw [promote_finalized] at hb
    cases hf : BMap.find e.processed k with
    | none => rw [hf] at hb; exact h.2.2 b hb
    | some a =>
      have ha := h.1 _ _ hf
      rw [hf] at hb
      simp only at hb
      split at hb
      · split at hb
        · rename_i x hx
          split at hb
          · simp at hb; subst hb; exact ha
          · exact h.2.2 b (by rw [hx]; exact hb)
        · simp at hb; subst hb; exact ha
      · exact h.2.2 b hb

private theorem sub_new {l : List AccountData} {a : AccountData} (ha : a ∈ l) (c : Commitment) :
    Sub l (ByCommitment.new a c) := by
  refine ⟨?_, ?_, ?_⟩
  · intro k b hb; simp [ByCommitment.new, BMap.find] at hb; rw [← hb.2]; exact ha
  · intro b hb; simp [ByCommitment.new] at hb; rw [← hb.2]; exact ha
  · intro b hb; simp [ByCommitment.new] at hb; rw [← hb.2]; exact ha

private theorem sub_history : ∀ h s, empty.run h = .ok s →
    ∀ pk e, s.view pk = some e → Sub (submissions pk h) e := by
  apply history_induction
  · intro pk e he; simp [Store.view, empty] at he
  · intro h s op s' _ hi ih hs pk e' he'
    have hv := viewStep hi hs pk
    have hmono : ∀ a ∈ submissions pk h, a ∈ submissions pk (h ++ [op]) := by
      intro a ha; rw [submissions_append]; exact List.mem_append_left _ ha
    rw [he'] at hv
    generalize hvv : s.view pk = v at hv
    cases hv with
    | other => exact (ih pk e' hvv).mono hmono
    | created hpk hf =>
      apply sub_new
      rw [submissions_append, submissions_update, if_pos hpk.symm]; simp
    | updated hpk ho hr =>
      refine ((ih pk _ hvv).mono hmono).update ?_ _
      rw [submissions_append, submissions_update, if_pos hpk.symm]; simp
    | idle => exact (ih pk e' hvv).mono hmono
    | @promoted F σ info c e _ k ho heq =>
      rw [after_eq heq]
      exact ((ih pk _ hvv).mono hmono).promote ho.sorted k c

theorem processed_submitted {h : List Op} {s : Store} (hs : empty.run h = .ok s) {pk : Pubkey} {e : ByCommitment}
    (he : s.view pk = some e) {k : Nat} {a : AccountData} (ha : BMap.find e.processed k = some a) : a ∈ submissions pk h :=
  (sub_history h s hs pk e he).1 k a ha

/-- **C12**. Reads only return what was submitted for that pubkey. -/
theorem C12_reads_were_submitted (h : List Op) (s : Store) (hs : empty.run h = .ok s) (pk : Pubkey)
    (c : Commitment) (a : AccountData) (hr : s.getAccount pk c = .ok (some a)) :
    a.pubkey = pk ∧ ∃ F c', Op.update F a c' ∈ h := by
  have hi := inv_run inv_empty hs
  rw [getAccount_eq hi] at hr
  cases hv : s.view pk with
  | none => simp [hv] at hr
  | some e =>
    simp [hv, Option.filter_eq_some_iff] at hr
    exact mem_submissions.1 ((sub_history h s hs pk e hv).get (hi.view hv) hr.1)

example : ∃ s, empty.run [.update allowAll (Toy.acct Toy.alice Toy.prog 1 5 1) .processed] = .ok s ∧
    s.getAccount Toy.alice .processed = .ok (some (Toy.acct Toy.alice Toy.prog 1 5 1)) := ⟨_, rfl, by decide⟩

/-! ## C13 -/

theorem last_promote {pk : Pubkey} {e : ByCommitment} (ho : EntryOK pk e) (k : Nat) (c : Commitment) :
    (e.promote k c).1.get .processed = e.get .processed := by
  rw [(entryOK_promote ho k c).get_processed, ho.get_processed, promote_processed_map]
  split
  · exact last_prune _ _
  · rfl

/-- **C13**. While a pubkey stays tracked, the processed read is the newest submission since tracking
began, whatever the order of submissions and whatever slots are confirmed or finalized in between. -/
theorem C13_processed_is_newest (h1 h2 : List Op) (s1 s2 : Store) (pk : Pubkey)
    (hr1 : empty.run h1 = .ok s1) (hun : s1.containsKey pk = false)
    (hr2 : s1.run h2 = .ok s2) (hne : h2 ≠ []) (htr : StaysTracked s1 h2 pk) :
    ∃ a, Newest (submissions pk h2) a ∧ s2.getAccount pk .processed = .ok (shown a) := by
  have hi1 := inv_run inv_empty hr1
  suffices H : ∀ l s, l ≠ [] → l <+: h2 → s1.run l = .ok s →
      ∃ a e, Newest (submissions pk l) a ∧ s.view pk = some e ∧ e.get .processed = some a by
    obtain ⟨a, e, hn, hv, hg⟩ := H h2 s2 hne (List.prefix_refl _) hr2
    refine ⟨a, hn, ?_⟩
    rw [getAccount_eq (inv_run hi1 hr2), hv]
    simp [hg, shown, Option.filter]
  intro l
  refine snoc_induction (P := fun l => ∀ s, l ≠ [] → l <+: h2 → s1.run l = .ok s →
      ∃ a e, Newest (submissions pk l) a ∧ s.view pk = some e ∧ e.get .processed = some a) ?_ ?_ l
  · intro s hn; exact absurd rfl hn
  · intro l op ih s' _ hpre hrun
    obtain ⟨s, hs, hstep⟩ := run_snoc hrun
    have hi := inv_run hi1 hs
    obtain ⟨s'', hs'', hck⟩ := htr (l ++ [op]) (by simp) hpre
    rw [hrun] at hs''; cases hs''
    have hi' := inv_step hi hstep
    have hsome : (s'.view pk).isSome = true := by rw [hi'.view_isSome]; exact hck
    obtain ⟨e', he'⟩ := Option.isSome_iff_exists.1 hsome
    have hv := viewStep hi hstep pk
    have hlast : s.view pk = none ∨ ∃ a e, Newest (submissions pk l) a ∧ s.view pk = some e ∧
        e.get .processed = some a := by
      by_cases hl : l = []
      · left
        subst hl; simp [run] at hs; subst hs
        have := hi1.view_isSome pk
        rw [hun] at this; simpa using this
      · right
        exact ih s hl (List.IsPrefix.trans (List.prefix_append _ _) hpre) hs
    have hnone : s.view pk = none → submissions pk l = [] := by
      intro hvn
      by_cases hl : l = []
      · subst hl; rfl
      · obtain ⟨a, e, -, hve, -⟩ := ih s hl (List.IsPrefix.trans (List.prefix_append _ _) hpre) hs
        rw [hvn] at hve; cases hve
    rw [he'] at hv
    generalize hvv : s.view pk = v at hv
    rw [submissions_append]
    cases hv with
    | @other F a c _ hpk =>
      rw [submissions_update, if_neg (fun h => hpk h.symm), List.append_nil]
      rcases hlast with h | ⟨b, e, h1, h2, h3⟩
      · rw [h] at hvv; cases hvv
      · rw [h2] at hvv; cases hvv; exact ⟨b, e', h1, he', h3⟩
    | @created F a c hpk hf =>
      rw [submissions_update, if_pos hpk.symm, hnone hvv]
      exact ⟨a, _, Newest.single a, he', by cases c <;> rfl⟩
    | @updated F a c e hpk ho hr =>
      rw [submissions_update, if_pos hpk.symm]
      rcases hlast with h | ⟨b, e2, h1, h2, h3⟩
      · rw [h] at hvv; cases hvv
      · rw [h2] at hvv; cases hvv
        refine ⟨_, _, h1.snoc a, he', ?_⟩
        subst hpk
        rw [(entryOK_update ho _).get_processed, update_processed]
        rw [ho.get_processed] at h3
        exact last_updateProcessed ho.sorted (fun k b hb => (ho.keys k b hb).1) h3 a
    | idle =>
      rw [submissions_slot, List.append_nil]
      rcases hlast with h | ⟨b, e, h1, h2, h3⟩
      · rw [h] at hvv; cases hvv
      · rw [h2] at hvv; cases hvv; exact ⟨b, e', h1, he', h3⟩
    | @promoted F σ info c e _ k ho heq =>
      rw [submissions_slot, List.append_nil]
      rcases hlast with h | ⟨b, e2, h1, h2, h3⟩
      · rw [h] at hvv; cases hvv
      · rw [h2] at hvv; cases hvv
        refine ⟨b, _, h1, he', ?_⟩
        rw [after_eq heq, last_promote ho, h3]

/-- A late, older update does not hide the newer one, even after finalization. -/
example : ∃ s, empty.run [.update allowAll (Toy.acct Toy.alice Toy.prog 1 9 1) .processed,
    .update allowAll (Toy.acct Toy.alice Toy.prog 2 5 7) .processed,
    .slot allowAll .asIs ⟨5, 4, 0⟩ .finalized] = .ok s ∧ s.containsKey Toy.alice = true ∧
    s.getAccount Toy.alice .processed = .ok (some (Toy.acct Toy.alice Toy.prog 1 9 1)) :=
  ⟨_, rfl, rfl, by decide⟩

/-! ## C14 -/

private theorem older_asymm {a b : AccountData} (h : Older a b) : ¬ Older b a := by
  simp only [Older] at *; omega

/-- One call does not move a confirmed or finalized state back. -/
private theorem mono_step {s : Store} {pk : Pubkey} {op : Op} {e e' : ByCommitment}
    {c : Commitment} (hc : c ≠ .processed) (hv : ViewStep s pk op (some e) (some e')) {a : AccountData}
    (ha : e.get c = some a) : ∃ a', e'.get c = some a' ∧ ¬ Older a' a := by
  have hupd : ∀ b d, ∃ a', (e.update b d).1.get c = some a' ∧ ¬ Older a' a := by
    intro b d
    cases c with
    | processed => exact absurd rfl hc
    | confirmed =>
      simp only [ByCommitment.get] at ha ⊢
      rw [update_confirmed, ha]
      split
      · exact ⟨a, rfl, Older.irrefl a⟩
      · split
        · rename_i hn; exact ⟨b, rfl, older_asymm ((isNewer_some a b).1 hn)⟩
        · exact ⟨a, rfl, Older.irrefl a⟩
    | finalized =>
      simp only [ByCommitment.get] at ha ⊢
      rw [update_finalized, ha]
      split
      · rename_i hn; exact ⟨b, rfl, older_asymm ((isNewer_some a b).1 hn.2)⟩
      · exact ⟨a, rfl, Older.irrefl a⟩
  have hprom : ∀ k d, ∃ a', (e.promote k d).1.get c = some a' ∧ ¬ Older a' a := by
    intro k d
    cases c with
    | processed => exact absurd rfl hc
    | confirmed =>
      simp only [ByCommitment.get] at ha ⊢
      rw [promote_confirmed, ha]
      split
      · exact ⟨a, rfl, Older.irrefl a⟩
      · split
        · exact ⟨a, rfl, Older.irrefl a⟩
        · simp only
          split
          · rename_i b _ _ hn
            exact ⟨b, rfl, older_asymm (Or.inl hn)⟩
          · exact ⟨a, rfl, Older.irrefl a⟩
    | finalized =>
      simp only [ByCommitment.get] at ha ⊢
      rw [promote_finalized, ha]
      split
      · exact ⟨a, rfl, Older.irrefl a⟩
      · split
        · simp only
          split
          · rename_i b _ _ hn
            exact ⟨b, rfl, older_asymm (Or.inl hn)⟩
          · exact ⟨a, rfl, Older.irrefl a⟩
        · exact ⟨a, rfl, Older.irrefl a⟩
  cases hv with
  | other => exact ⟨a, ha, Older.irrefl a⟩
  | updated => exact hupd _ _
  | idle => exact ⟨a, ha, Older.irrefl a⟩
  | promoted k ho heq =>
    rw [after_eq heq]; exact hprom _ _

/-- **C14**. While a pubkey stays tracked, confirmed and finalized reads never go back: if a state was
returned earlier, a later read shows a submitted state that is not older (nothing, if that state has no
lamports). -/
theorem C14_confirmed_and_finalized_monotone (h1 h2 : List Op) (s1 s2 : Store) (pk : Pubkey)
    (c : Commitment) (hc : c ≠ .processed) (hr1 : empty.run h1 = .ok s1) (hr2 : s1.run h2 = .ok s2)
    (htr : StaysTracked s1 h2 pk) (a : AccountData) (ha : s1.getAccount pk c = .ok (some a)) :
    ∃ a', a' ∈ submissions pk (h1 ++ h2) ∧ ¬ Older a' a ∧ s2.getAccount pk c = .ok (shown a') := by
  have hi1 := inv_run inv_empty hr1
  rw [getAccount_eq hi1] at ha
  obtain ⟨e, hve, hge⟩ : ∃ e, s1.view pk = some e ∧ e.get c = some a := by
    cases hv : s1.view pk with
    | none => simp [hv] at ha
    | some e => simp [hv, Option.filter_eq_some_iff] at ha; exact ⟨e, rfl, ha.1⟩
  have H : ∀ l s, l <+: h2 → s1.run l = .ok s →
      ∃ e a', s.view pk = some e ∧ e.get c = some a' ∧ ¬ Older a' a := by
    intro l
    refine snoc_induction (P := fun l => ∀ s, l <+: h2 → s1.run l = .ok s →
      ∃ e a', s.view pk = some e ∧ e.get c = some a' ∧ ¬ Older a' a) ?_ ?_ l
    · intro s _ hs; simp [run] at hs; subst hs; exact ⟨e, a, hve, hge, Older.irrefl a⟩
    · intro l op ih s' hpre hrun
      obtain ⟨s, hs, hstep⟩ := run_snoc hrun
      have hi := inv_run hi1 hs
      obtain ⟨e, b, hv, hg, hno⟩ := ih s (List.IsPrefix.trans (List.prefix_append _ _) hpre) hs
      obtain ⟨s'', hs'', hck⟩ := htr (l ++ [op]) (by simp) hpre
      rw [hrun] at hs''; cases hs''
      have hi' := inv_step hi hstep
      have hsome : (s'.view pk).isSome = true := by rw [hi'.view_isSome]; exact hck
      obtain ⟨e', he'⟩ := Option.isSome_iff_exists.1 hsome
      have hvs := viewStep hi hstep pk
      rw [hv, he'] at hvs
      obtain ⟨b', hb', hno'⟩ := mono_step hc hvs hg
      exact ⟨e', b', he', hb', not_older_trans hno' hno⟩
  obtain ⟨e', a', hv', hg', hno⟩ := H h2 s2 (List.prefix_refl _) hr2
  have hrun : empty.run (h1 ++ h2) = .ok s2 := by rw [run_append, hr1]; exact hr2
  have hi2 := inv_run inv_empty hrun
  refine ⟨a', (sub_history _ s2 hrun pk e' hv').get (hi2.view hv') hg', hno, ?_⟩
  rw [getAccount_eq hi2, hv']
  simp [hg', shown, Option.filter]

/-- An older confirmed update after a newer one leaves the confirmed read at the newer state. -/
example : ∃ s, empty.run [.update allowAll (Toy.acct Toy.alice Toy.prog 1 9 1) .confirmed,
    .update allowAll (Toy.acct Toy.alice Toy.prog 2 5 7) .confirmed] = .ok s ∧
    s.getAccount Toy.alice .confirmed = .ok (some (Toy.acct Toy.alice Toy.prog 1 9 1)) := ⟨_, rfl, by decide⟩

/-! ## C15 -/

/-- The state of a pubkey at a commitment, deleted ones included. -/
def stateAt (s : Store) (pk : Pubkey) (c : Commitment) : Option AccountData :=
  (s.view pk).bind (fun e => e.get c)

/-- `get_account` shows the state at the commitment, if it has lamports. -/
theorem getAccount_stateAt {s : Store} (h : Inv s) (pk : Pubkey) (c : Commitment) :
    s.getAccount pk c = .ok ((stateAt s pk c).bind shown) := by
  rw [getAccount_eq h]
  unfold stateAt
  cases s.view pk with
  | none => rfl
  | some e =>
    simp only [Option.bind_some]
    cases e.get c with
    | none => rfl
    | some a => simp [Option.filter, shown]

/-- Every stored state was submitted. -/
theorem stateAt_submitted {h : List Op} {s : Store} (hs : empty.run h = .ok s) {pk : Pubkey}
    {c : Commitment} {a : AccountData} (ha : stateAt s pk c = some a) : a ∈ submissions pk h := by
  have hi := inv_run inv_empty hs
  unfold stateAt at ha
  cases hv : s.view pk with
  | none => rw [hv] at ha; cases ha
  | some e =>
    rw [hv] at ha
    exact (sub_history h s hs pk e hv).get (hi.view hv) ha

/-- **C15**. Finalized is not ahead of confirmed (by slot), confirmed is not ahead of processed (by slot
and write version); a finalized state comes with a confirmed one and that with a processed one. -/
theorem C15_commitments_ordered (h : List Op) (s : Store) (hs : empty.run h = .ok s) (pk : Pubkey) :
    (∀ f, stateAt s pk .finalized = some f →
      ∃ c, stateAt s pk .confirmed = some c ∧ f.slot ≤ c.slot) ∧
    (∀ c, stateAt s pk .confirmed = some c →
      ∃ p, stateAt s pk .processed = some p ∧ ¬ Older p c) := by
  have hi := inv_run inv_empty hs
  unfold stateAt
  cases hv : s.view pk with
  | none => simp
  | some e =>
    have ho := hi.view hv
    simp only [Option.bind_some]
    refine ⟨fun f hf => (ho.fin f hf).2, fun c hc => ?_⟩
    obtain ⟨-, p, hp, hn⟩ := ho.conf c hc
    exact ⟨p, by rw [ho.get_processed]; exact hp, hn⟩

/-- Finalized ahead of confirmed by write version only: the confirmed state of a new account ignores
that its slot is still processed, and finalization does not replace a confirmed state of the same slot. -/
def staleConfirmed : List Op :=
  [.update allowAll (Toy.acct Toy.bob Toy.prog 1 5 1) .processed,
   .update allowAll (Toy.acct Toy.alice Toy.prog 1 5 1) .confirmed,
   .update allowAll (Toy.acct Toy.alice Toy.prog 2 5 2) .processed,
   .slot allowAll .asIs ⟨5, 4, 0⟩ .finalized]

/-- The stronger reading of **C15** with write versions. -/
def C15_by_write_version_statement : Prop :=
  ∀ (h : List Op) (s : Store), empty.run h = .ok s → ∀ (pk : Pubkey) (f c : AccountData),
    stateAt s pk .finalized = some f → stateAt s pk .confirmed = some c → ¬ Older c f

theorem C15_by_write_version_refuted : ¬ C15_by_write_version_statement := by
  intro h
  refine h staleConfirmed _ rfl Toy.alice (Toy.acct Toy.alice Toy.prog 2 5 2)
    (Toy.acct Toy.alice Toy.prog 1 5 1) ?_ ?_ ?_
  · decide
  · decide
  · decide

/-! ## C25 -/

/-- **C25**. An update of one pubkey does not change reads of another. -/
theorem C25_updates_isolated (h : List Op) (s : Store) (hs : empty.run h = .ok s) (F : Filters)
    (a : AccountData) (c : Commitment) (s' : Store) (b : Bool)
    (hu : s.updateAccount F a c = .ok (s', b)) (pk : Pubkey) (hpk : pk ≠ a.pubkey) (d : Commitment) :
    s'.getAccount pk d = s.getAccount pk d ∧ s'.containsKey pk = s.containsKey pk := by
  have hi := inv_run inv_empty hs
  obtain ⟨s2, b2, he, hc⟩ := updateAccount_case hi F a c
  rw [hu] at he; cases he
  have hi' := inv_updateCase hi hc
  have hv := (view_updateCase hi hc pk).1 hpk
  exact ⟨by rw [getAccount_eq hi', getAccount_eq hi, hv],
    by rw [← hi'.view_isSome, ← hi.view_isSome, hv]⟩

example : ∃ s s', empty.run [.update allowAll (Toy.acct Toy.alice Toy.prog 1 5 1) .processed] = .ok s ∧
    s.updateAccount allowAll (Toy.acct Toy.bob Toy.prog2 0 6 1) .finalized = .ok (s', true) ∧
    s'.getAccount Toy.alice .processed = .ok (some (Toy.acct Toy.alice Toy.prog 1 5 1)) :=
  ⟨_, _, rfl, rfl, by decide⟩

/-! ## C29 -/

/-- **C29**. A tracked pubkey got tracked by an update that the filters of that moment accepted, and
stayed tracked since; an untracked one is not returned. -/
theorem C29_only_accepted_accounts_tracked (h : List Op) (s : Store) (hs : empty.run h = .ok s)
    (pk : Pubkey) :
    (s.containsKey pk = true → ∃ h1 F a c h2 s1, h = h1 ++ Op.update F a c :: h2 ∧ a.pubkey = pk ∧
      F.satisfies a = true ∧ empty.run h1 = .ok s1 ∧ s1.containsKey pk = false ∧
      StaysTracked s1 (Op.update F a c :: h2) pk) ∧
    (s.containsKey pk = false → ∀ c, s.getAccount pk c = .ok none) := by
  constructor
  · revert s
    refine snoc_induction (P := fun h => ∀ s, empty.run h = .ok s → s.containsKey pk = true →
      ∃ h1 F a c h2 s1, h = h1 ++ Op.update F a c :: h2 ∧ a.pubkey = pk ∧
      F.satisfies a = true ∧ empty.run h1 = .ok s1 ∧ s1.containsKey pk = false ∧
      StaysTracked s1 (Op.update F a c :: h2) pk) ?_ ?_ h
    · intro s hs hck; simp [run] at hs; subst hs; simp [containsKey, empty] at hck
    · intro l op ih s' hrun hck
      obtain ⟨s, hs, hstep⟩ := run_snoc hrun
      have hi := inv_run inv_empty hs
      have hi' := inv_step hi hstep
      cases hck0 : s.containsKey pk with
      | true =>
        obtain ⟨h1, F, a, c, h2, s1, hl, hpk, hsat, hr1, hun, htr⟩ := ih s hs hck0
        refine ⟨h1, F, a, c, h2 ++ [op], s1, by rw [hl]; simp, hpk, hsat, hr1, hun, ?_⟩
        intro p hp hpre
        have hpre' : p <+: (Op.update F a c :: h2) ++ [op] := by simpa using hpre
        rcases List.prefix_concat_iff.1 hpre' with heq | hpre2
        · refine ⟨s', ?_, hck⟩
          rw [heq]
          have : empty.run (h1 ++ ((Op.update F a c :: h2) ++ [op])) = .ok s' := by
            rw [← hrun, hl]; simp
          rw [run_append, hr1] at this
          exact this
        · exact htr p hp hpre2
      | false =>
        have hv := viewStep hi hstep pk
        have hv0 : s.view pk = none := by
          have := hi.view_isSome pk; rw [hck0] at this; simpa using this
        have hv1 : (s'.view pk).isSome = true := by rw [hi'.view_isSome]; exact hck
        obtain ⟨e', he'⟩ := Option.isSome_iff_exists.1 hv1
        rw [hv0, he'] at hv
        cases hv with
        | @created F a c hpk hf =>
          refine ⟨l, F, a, c, [], s, rfl, hpk.symm, hf, hs, hck0, ?_⟩
          intro p hp hpre
          have : p = [Op.update F a c] := by
            rcases List.prefix_cons_iff.1 hpre with h | ⟨t, ht, hpt⟩
            · exact absurd h hp
            · simp at hpt; rw [ht, hpt]
          rw [this]
          exact ⟨s', by simp [run, hstep], hck⟩
  · intro hck c
    have hi := inv_run inv_empty hs
    have : s.view pk = none := by
      have := hi.view_isSome pk; rw [hck] at this; simpa using this
    rw [getAccount_eq hi, this]; rfl

example : ∃ s, empty.run [.update (ownerOnly Toy.prog) (Toy.acct Toy.alice Toy.prog 1 5 1) .processed,
    .update (ownerOnly Toy.prog) (Toy.acct Toy.bob Toy.prog2 1 5 1) .processed] = .ok s ∧
    s.containsKey Toy.alice = true ∧ s.containsKey Toy.bob = false := ⟨_, rfl, rfl, rfl⟩

end LAM.Props
