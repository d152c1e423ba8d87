import Verif.Lemmas.TokenStoreRead
/-!
# How the mint index table changes
-/
namespace LAM.Token
open Spec ProcStore
open TokenStore (TOp addFinalized)

/-- From `T` to `T'` indexes are only given out upwards, and only keys in `K` lose theirs. -/
structure Grows (K : Pubkey → Prop) (T T' : MintTable) : Prop where
  mono : T.counter ≤ T'.counter
  old : ∀ pk i, T'.index.find pk = some i → T.index.find pk = some i ∨ T.counter ≤ i
  keep : ∀ pk i, ¬ K pk → T.index.find pk = some i → T'.index.find pk = some i

/-- Only keys in `K` are deleted. -/
def Deletes (K : Pubkey → Prop) (x : ProgramAccount) : Prop := ∀ pk, x = .deleted pk → K pk

variable {K : Pubkey → Prop}

theorem Grows.refl (T : MintTable) : Grows K T T := ⟨Nat.le_refl _, fun _ _ h => .inl h, fun _ _ _ h => h⟩

theorem Grows.trans {T T' T'' : MintTable} (h : Grows K T T') (h' : Grows K T' T'') : Grows K T T'' := by
  have := h.mono
  refine ⟨Nat.le_trans h.mono h'.mono, fun pk i hi => ?_, fun pk i hk hi => h'.keep pk i hk (h.keep pk i hk hi)⟩
  rcases h'.old pk i hi with h1 | h1
  · exact h.old pk i h1
  · right; omega

theorem grows_getOrCreate {T : MintTable} (hc : T.counter + 1 < 2 ^ 32) (pk : Pubkey) : Grows K T (T.getOrCreate pk).2 := by
  unfold MintTable.getOrCreate
  cases hf : T.index.find pk with
  | some i => exact .refl _
  | none =>
    have hw : wrap32 (T.counter + 1) = T.counter + 1 := Nat.mod_eq_of_lt hc
    refine ⟨by simp [hw], fun p i h => ?_, fun p i _ h => ?_⟩
    · simp only [AMap.find_insert] at h
      split at h
      · cases h; right; exact Nat.le_refl _
      · exact .inl h
    · simp only [AMap.find_insert]
      rw [if_neg]
      · exact h
      · rintro rfl; rw [hf] at h; simp at h

theorem grows_add {s s' : TokenStore} {x : ProgramAccount} (hx : Deletes K x) (hc : s.table.counter + 1 < 2 ^ 32)
    (ha : s.addFinalized x = .ok s') : Grows K s.table s'.table := by
  cases x with
  | token t =>
    simp only [addFinalized, Run.bind_eq_ok] at ha
    obtain ⟨⟨⟨i, b⟩, tk⟩, -, ha⟩ := ha
    cases b <;> · simp at ha; subst ha; exact .refl _
  | multisig m pk => simp only [addFinalized, Run.ok.injEq] at ha; subst ha; exact .refl _
  | mint m =>
    simp only [addFinalized] at ha
    have hg := grows_getOrCreate (K := K) hc m.pubkey
    unfold MintTable.getOrCreate at hg
    cases hi : s.table.index.find m.pubkey with
    | some i =>
      rw [hi] at ha
      simp only [Run.ok.injEq] at ha; subst ha
      exact .refl _
    | none =>
      rw [hi] at ha hg
      simp only [Run.ok.injEq] at ha; subst ha
      exact hg
  | deleted pk =>
    simp only [addFinalized] at ha
    cases hi : s.table.index.find pk with
    | none =>
      rw [hi] at ha
      simp only [Run.bind_eq_ok] at ha
      obtain ⟨tk, -, ha⟩ := ha
      simp at ha; subst ha; exact .refl _
    | some i =>
      rw [hi] at ha
      simp only [Run.ok.injEq] at ha; subst ha
      refine ⟨Nat.le_refl _, fun p j hj => ?_, fun p j hp hj => ?_⟩
      · simp only [AMap.find_erase] at hj
        split at hj
        · simp at hj
        · exact .inl hj
      · simp only [AMap.find_erase]
        rw [if_neg]
        · exact hj
        · rintro rfl; exact hp (hx _ rfl)

theorem grows_addAll (l : List (Processed × Nat)) {s s' : TokenStore}
    (hl : ∀ e ∈ l, Deletes K e.1.account) (hc : s.table.counter + l.length < 2 ^ 32) {slots orig : List TokenAccount}
    (h : Fin (Deletes K) s slots orig)
    (hw : ∀ e ∈ l, ProgFits e.1.account ∧ MintBelow s.table.counter e.1.account) (hlen : slots.length + l.length < 2 ^ 32)
    (ha : TokenStore.addAll l s = .ok s') : Grows K s.table s'.table := by
  induction l generalizing s slots orig with
  | nil => simp [TokenStore.addAll] at ha; subst ha; exact .refl _
  | cons a l ih =>
    simp only [List.length_cons] at hlen hc
    obtain ⟨g1, g3⟩ := hw a (by simp)
    obtain ⟨s1, slots1, orig1, b1, b2, b3, b4, b5, -⟩ := add_fin h g1 (hl a (by simp)) g3 (by omega) (by omega)
    simp only [TokenStore.addAll, b1, Run.ok_bind] at ha
    exact (grows_add (hl a (by simp)) (by omega) b1).trans (ih (fun e he => hl e (by simp [he])) (by omega) b2
      (fun e he => ⟨(hw e (by simp [he])).1, (hw e (by simp [he])).2.mono b4⟩) (by omega) ha)

theorem grows_update {X : Codecs} {s s' : TokenStore} {a : AccountData} {c : Commitment} {b : Bool}
    (hc : s.table.counter + 2 < 2 ^ 32) (hq : ∀ T x T', classify X T a = .ok (some x, T') → Deletes K x)
    (hr : s.updateAccount X a c = .ok (b, s')) : Grows K s.table s'.table := by
  unfold TokenStore.updateAccount at hr
  simp only [Run.bind_eq_ok] at hr
  obtain ⟨isT, -, hr⟩ := hr
  split at hr
  · simp at hr; obtain ⟨-, rfl⟩ := hr; exact .refl _
  · simp only [Run.bind_eq_ok] at hr
    obtain ⟨⟨r, T⟩, h1, hr⟩ := hr
    have hT : Grows K s.table T ∧ T.counter ≤ s.table.counter + 1 := by
      cases r with
      | none => rw [classify_none h1]; exact ⟨.refl _, by omega⟩
      | some x =>
        obtain ⟨-, h2, -⟩ := classify_some h1
        rcases h2 with ⟨rfl, -⟩ | ⟨t, mint, -, rfl, -⟩
        · exact ⟨.refl _, by omega⟩
        · refine ⟨grows_getOrCreate (by omega) _, ?_⟩
          unfold MintTable.getOrCreate
          split
          · simp
          · simp [wrap32]; exact Nat.mod_le _ _
    cases r with
    | none => simp at hr; obtain ⟨-, rfl⟩ := hr; exact hT.1
    | some x =>
      simp only at hr
      split at hr
      · simp at hr; obtain ⟨-, rfl⟩ := hr; exact hT.1
      · simp only [Run.bind_eq_ok] at hr
        obtain ⟨s1, h2, hr⟩ := hr
        simp at hr; obtain ⟨-, rfl⟩ := hr
        refine hT.1.trans (grows_add (s := { s with table := T }) (hq _ _ _ h1) ?_ h2)
        have := hT.2
        simp only; omega

theorem grows_slot {n : Nat} {s s' : TokenStore} {slots orig : List TokenAccount} {σ : Orders} {info : SlotInfo} {c : Commitment}
    {notes : List AccountData} (h : Inv (Deletes K) n s slots orig) (hn : n < 2 ^ 31 - 1)
    (hr : s.processSlot σ info c = .ok (notes, s')) : Grows K s.table s'.table := by
  have hb := h.bound
  have hcb := h.cbound
  cases c with
  | processed => simp [TokenStore.processSlot] at hr; obtain ⟨-, rfl⟩ := hr; exact .refl _
  | confirmed =>
    simp only [TokenStore.processSlot, Run.bind_eq_ok] at hr
    obtain ⟨⟨l, P⟩, -, hr⟩ := hr
    simp at hr
    obtain ⟨-, rfl⟩ := hr
    simp only
    split <;> exact .refl _
  | finalized =>
    simp only [TokenStore.processSlot, Run.bind_eq_ok] at hr
    generalize hs0 : (if s.finalizedSlot < info.slot then
        { s with finalizedSlot := info.slot, processed := s.processed.updateSlotInfo info } else s) = s0 at hr
    have hf0 : Fin (Deletes K) s0 slots orig := by
      rw [← hs0]; split
      · exact h.fin.congr rfl rfl rfl rfl rfl rfl
      · exact h.fin
    have ht0 : s0.table = s.table := by rw [← hs0]; split <;> rfl
    have hp0 : ProcOk (Waiting (Deletes K) s.table.counter) s0.processed ∧ pending s0.processed = pending s.processed := by
      rw [← hs0]; split
      · exact h.proc.updateSlotInfo info
      · exact ⟨h.proc, rfl⟩
    obtain ⟨P', l, z1, -, z3, z4, -⟩ := finalize_spec hp0.1 info.slot
    have hgood : ∀ e ∈ σ.final l, Waiting (Deletes K) s.table.counter e.1.account := by
      rintro ⟨x, k⟩ he
      exact (newest_good hp0.1 ((z4 x k).1 ((σ.final_perm l).mem_iff.1 he))).2
    have hlen : (σ.final l).length = l.length := (σ.final_perm l).length_eq
    have hf1 : Fin (Deletes K) { s0 with processed := P' } slots orig := hf0.congr rfl rfl rfl rfl rfl rfl
    obtain ⟨⟨P1, l1⟩, e1, notes', -, s1, e2, hr⟩ := hr
    rw [z1] at e1; cases e1
    simp at hr; obtain ⟨-, rfl⟩ := hr
    have := grows_addAll (σ.final l) (s := { s0 with processed := P' }) (fun e he => (hgood e he).2.1)
      (by simp only [ht0]; omega) hf1 (fun e he => ⟨(hgood e he).1, by simp only [ht0]; exact (hgood e he).2.2⟩) (by omega) e2
    simp only [ht0] at this
    exact this

theorem grows_run {X : Codecs} (ops : List TOp) {n : Nat} {s s' : TokenStore} {slots orig : List TokenAccount}
    (h : Inv (Deletes K) n s slots orig) (hn : n + ops.length < 2 ^ 31)
    (hq : ∀ o ∈ ops, ∀ a, o.account = some a → ∀ T x T', classify X T a = .ok (some x, T') → Deletes K x)
    (hr : TokenStore.run X ops s = .ok s') : Grows K s.table s'.table := by
  induction ops generalizing s slots orig n with
  | nil => simp [TokenStore.run] at hr; subst hr; exact .refl _
  | cons o os ih =>
    simp only [TokenStore.run, Run.bind_eq_ok] at hr
    obtain ⟨s1, h1, hr⟩ := hr
    simp only [List.length_cons] at hn
    have hb := h.bound
    have hcb := h.cbound
    obtain ⟨slots1, orig1, i1⟩ := step_inv h (by omega) (fun a ha x T' hx => hq o (by simp) a ha _ x T' hx) h1
    refine Grows.trans ?_ (ih i1 (by omega) (fun o ho => hq o (by simp [ho])) hr)
    cases o with
    | update a c =>
      simp only [TokenStore.step, Run.bind_eq_ok] at h1
      obtain ⟨⟨b, s2⟩, h2, h1⟩ := h1
      simp at h1; subst h1
      exact grows_update (by omega) (hq (.update a c) (by simp) a rfl) h2
    | init a =>
      simp only [TokenStore.step, init_eq_update, Run.bind_eq_ok] at h1
      obtain ⟨⟨b, s2⟩, h2, h1⟩ := h1
      simp at h1; subst h1
      exact grows_update (by omega) (hq (.init a) (by simp) a rfl) h2
    | slot σ info c =>
      simp only [TokenStore.step, Run.bind_eq_ok] at h1
      obtain ⟨⟨b, s2⟩, h2, h1⟩ := h1
      simp at h1; subst h1
      exact grows_slot h (by omega) h2

end LAM.Token
