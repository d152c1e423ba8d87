import Verif.Spec.Composed
import Verif.Lemmas.TokenStoreReady
import Mathlib.Data.List.DropRight
/-!
# Public keys that the token store knows nothing about
-/
namespace LAM.Token
open Spec ProcStore Composed
open TokenStore (TOp)

/-- A state whose finalization does not make `pk` known. -/
def Apart (pk : Pubkey) (x : ProgramAccount) : Prop := (∃ p, x = .deleted p) ∨ prefix4 x.pubkey ≠ prefix4 pk

/-- `pk` is neither a known mint nor a multisig. -/
structure Free (pk : Pubkey) (s : TokenStore) : Prop where
  index : s.table.index.find pk = none
  multi : s.multisigs.find pk = none

theorem free_empty (pk : Pubkey) : Free pk .empty := ⟨rfl, rfl⟩

theorem getOrCreate_other {T : MintTable} {m pk : Pubkey} (h : m ≠ pk) : (T.getOrCreate m).2.index.find pk = T.index.find pk := by
  unfold MintTable.getOrCreate
  split
  · rfl
  · simp [AMap.find_insert, h]

theorem classify_owner {X : Codecs} {T T' : MintTable} {a : AccountData} {r : Option ProgramAccount} (h : classify X T a = .ok (r, T')) :
    (r = some (.deleted a.pubkey) ∧ T' = T) ∨ a.account.owner = Spl.tokenId ∨ a.account.owner = Spl.token2022Id := by
  by_cases hc : a.account.lamports = 0 ∨ (a.account.owner ≠ Spl.tokenId ∧ a.account.owner ≠ Spl.token2022Id)
  · rw [classify_deleted X T hc] at h
    simp only [Run.ok.injEq, Prod.mk.injEq] at h
    exact .inl ⟨h.1.symm, h.2.symm⟩
  · right
    simp only [not_or, not_and, not_not] at hc
    by_cases h1 : a.account.owner = Spl.tokenId
    · exact .inl h1
    · exact .inr (hc.2 h1)

theorem classify_apart {X : Codecs} {T T' : MintTable} {a : AccountData} {x : ProgramAccount} {pk : Pubkey} (ha : Aside X pk a)
    (h : classify X T a = .ok (some x, T')) : Apart pk x := by
  rcases classify_owner h with ⟨h1, -⟩ | h1
  · exact .inl ⟨_, by simpa using h1⟩
  · exact .inr (by rw [(classify_some h).1]; exact (ha h1).1)

theorem classify_free {X : Codecs} {T T' : MintTable} {a : AccountData} {r : Option ProgramAccount} {pk : Pubkey} (ha : Aside X pk a)
    (h : classify X T a = .ok (r, T')) : T'.index.find pk = T.index.find pk := by
  rcases classify_owner h with ⟨-, rfl⟩ | h1
  · rfl
  have hm := (ha h1).2
  unfold classify at h
  split at h
  · simp only [Run.ok.injEq, Prod.mk.injEq] at h
    rw [h.2]
  · split at h
    · simp only [Run.bind_eq_ok] at h
      obtain ⟨bs, hbs, k, -, h⟩ := h
      split at h
      · simp at h; rw [h.2]
      · split at h
        · simp at h; rw [h.2]
        · simp only [Run.bind_eq_ok] at h
          obtain ⟨e, -, h⟩ := h
          simp only [Run.pure_eq, Run.ok.injEq, Prod.mk.injEq] at h
          rw [h.2]
      · split at h
        · simp at h; rw [h.2]
        · rename_i s hs
          simp only [Run.bind_eq_ok] at h
          obtain ⟨e, he, h⟩ := h
          simp only [Run.pure_eq, Run.ok.injEq, Prod.mk.injEq] at h
          rw [← h.2]
          exact getOrCreate_other (hm bs s hbs ((Spl.unpackAccount_iff _ _).1 hs))
      · split at h
        · simp at h; rw [h.2]
        · simp only [Run.pure_eq, Run.ok.injEq, Prod.mk.injEq] at h
          rw [h.2]
    · simp only [Run.bind_eq_ok] at h
      obtain ⟨bs, hbs, h⟩ := h
      split at h
      · split at h
        · simp at h; rw [h.2]
        · simp only [Run.pure_eq, Run.ok.injEq, Prod.mk.injEq] at h
          rw [h.2]
      · split at h
        · split at h
          · simp at h; rw [h.2]
          · rename_i s hs
            simp only [Run.pure_eq, Run.ok.injEq, Prod.mk.injEq] at h
            rw [← h.2]
            exact getOrCreate_other (hm bs s hbs ((Spl.unpackAccount_iff _ _).1 hs))
        · split at h
          · simp at h; rw [h.2]
          · simp only [Run.pure_eq, Run.ok.injEq, Prod.mk.injEq] at h
            rw [h.2]

theorem add_free {pk : Pubkey} {s s' : TokenStore} {x : ProgramAccount} (hx : Apart pk x) (hf : Free pk s)
    (h : s.addFinalized x = .ok s') : Free pk s' := by
  cases x with
  | token t =>
    simp only [TokenStore.addFinalized, Run.bind_eq_ok] at h
    obtain ⟨⟨⟨i, added⟩, tokens⟩, -, h⟩ := h
    simp only at h
    split at h <;> (simp only [Run.pure_eq, Run.ok.injEq] at h; subst h; exact ⟨hf.index, hf.multi⟩)
  | mint m =>
    have hne : m.pubkey ≠ pk := by
      rcases hx with ⟨p, hp⟩ | hx
      · cases hp
      · rintro rfl; exact hx rfl
    simp only [TokenStore.addFinalized] at h
    split at h
    · simp only [Run.ok.injEq] at h; subst h; exact ⟨hf.index, hf.multi⟩
    · simp only [Run.ok.injEq] at h; subst h
      exact ⟨by simp only [AMap.find_insert, if_neg hne]; exact hf.index, hf.multi⟩
  | multisig m p =>
    have hne : p ≠ pk := by
      rcases hx with ⟨p, hp⟩ | hx
      · cases hp
      · rintro rfl; exact hx rfl
    simp only [TokenStore.addFinalized, Run.ok.injEq] at h
    subst h
    exact ⟨hf.index, by simp only [AMap.find_insert, if_neg hne]; exact hf.multi⟩
  | deleted p =>
    simp only [TokenStore.addFinalized] at h
    split at h
    · simp only [Run.ok.injEq] at h; subst h
      refine ⟨?_, hf.multi⟩
      simp only [AMap.find_erase]
      split
      · rfl
      · exact hf.index
    · simp only [Run.bind_eq_ok, Run.pure_eq, Run.ok.injEq] at h
      obtain ⟨_, -, rfl⟩ := h
      exact ⟨hf.index, hf.multi⟩

theorem addAll_free {pk : Pubkey} (l : List (Processed × Nat)) {s s' : TokenStore} (hl : ∀ e ∈ l, Apart pk e.1.account) (hf : Free pk s)
    (h : TokenStore.addAll l s = .ok s') : Free pk s' := by
  induction l generalizing s with
  | nil => simp [TokenStore.addAll] at h; subst h; exact hf
  | cons e l ih =>
    simp only [TokenStore.addAll, Run.bind_eq_ok] at h
    obtain ⟨s1, h1, h⟩ := h
    exact ih (fun e he => hl e (by simp [he])) (add_free (hl e (by simp)) hf h1) h

theorem update_free {X : Codecs} {pk : Pubkey} {s s' : TokenStore} {a : AccountData} {c : Commitment} {b : Bool} (ha : Aside X pk a)
    (hf : Free pk s) (h : s.updateAccount X a c = .ok (b, s')) : Free pk s' := by
  unfold TokenStore.updateAccount at h
  simp only [Run.bind_eq_ok] at h
  obtain ⟨isT, -, h⟩ := h
  split at h
  · simp at h; obtain ⟨-, rfl⟩ := h; exact hf
  · simp only [Run.bind_eq_ok] at h
    obtain ⟨⟨r, T⟩, h1, h⟩ := h
    have hT : Free pk { s with table := T } := ⟨by rw [← hf.index]; exact classify_free ha h1, hf.multi⟩
    cases r with
    | none => simp at h; obtain ⟨-, rfl⟩ := h; exact hT
    | some x =>
      simp only at h
      split at h
      · simp at h; obtain ⟨-, rfl⟩ := h; exact ⟨hT.index, hT.multi⟩
      · simp only [Run.bind_eq_ok] at h
        obtain ⟨s1, h2, h⟩ := h
        simp at h; obtain ⟨-, rfl⟩ := h
        exact add_free (classify_apart ha h1) hT h2

theorem slot_free {pk : Pubkey} {n : Nat} {s s' : TokenStore} {slots orig : List TokenAccount} {σ : Orders} {info : SlotInfo} {c : Commitment}
    {notes : List AccountData} (hi : Inv (Apart pk) n s slots orig) (hf : Free pk s)
    (h : s.processSlot σ info c = .ok (notes, s')) : Free pk s' := by
  cases c with
  | processed =>
    simp only [TokenStore.processSlot, Run.ok.injEq, Prod.mk.injEq] at h
    obtain ⟨-, rfl⟩ := h
    exact ⟨hf.index, hf.multi⟩
  | confirmed =>
    simp only [TokenStore.processSlot, Run.bind_eq_ok] at h
    obtain ⟨⟨l, P⟩, -, h⟩ := h
    simp at h
    obtain ⟨-, rfl⟩ := h
    split <;> exact ⟨hf.index, hf.multi⟩
  | finalized =>
    simp only [TokenStore.processSlot, Run.bind_eq_ok] at h
    generalize hs0 : (if s.finalizedSlot < info.slot then
        { s with finalizedSlot := info.slot, processed := s.processed.updateSlotInfo info } else s) = s0 at h
    have hf0 : Free pk s0 := by rw [← hs0]; split <;> exact ⟨hf.index, hf.multi⟩
    have hp0 : ProcOk (Waiting (Apart pk) s.table.counter) s0.processed := by
      rw [← hs0]; split
      · exact (hi.proc.updateSlotInfo info).1
      · exact hi.proc
    obtain ⟨P', l, z1, -, -, z4, -⟩ := finalize_spec hp0 info.slot
    obtain ⟨⟨P1, l1⟩, e1, notes', -, s1, e2, h⟩ := h
    rw [z1] at e1; cases e1
    simp at h; obtain ⟨-, rfl⟩ := h
    refine addAll_free (σ.final l) ?_ (s := { s0 with processed := P' }) ⟨hf0.index, hf0.multi⟩ e2
    rintro ⟨x, k⟩ he
    exact (newest_good hp0 ((z4 x k).1 ((σ.final_perm l).mem_iff.1 he))).2.2.1

theorem no_bucket {n : Nat} {s : TokenStore} {slots orig : List TokenAccount} {pk : Pubkey} (hi : Inv (Apart pk) n s slots orig) :
    s.tokens.buckets.find (prefix4 pk) = none := by
  cases e : s.tokens.buckets.find (prefix4 pk) with
  | none => rfl
  | some is =>
    obtain ⟨hne, hall⟩ := hi.fin.holds.bucket _ _ e
    obtain ⟨i, his⟩ := List.exists_mem_of_ne_nil _ hne
    obtain ⟨t, ht, hp⟩ := hall i his
    have hlive := hi.fin.live i t ⟨is, by rw [hp]; exact e, his, ht⟩
    rcases hi.fin.slotsQ t (List.mem_of_getElem? ht) with rfl | ⟨hq, -⟩
    · simp [TokenStorage.tombstone] at hlive
    · rcases hq with ⟨p, hp'⟩ | hq
      · cases hp'
      · exact absurd hp hq

/-- An account of another program with a key the token store knows nothing about is not taken. -/
theorem update_rejected {X : Codecs} {n : Nat} {s : TokenStore} {slots orig : List TokenAccount} {a : AccountData} {c : Commitment}
    (hi : Inv (Apart a.pubkey) n s slots orig) (hf : Free a.pubkey s) (h1 : a.account.owner ≠ Spl.tokenId)
    (h2 : a.account.owner ≠ Spl.token2022Id) : s.updateAccount X a c = .ok (false, s) := by
  have hfalse : s.isTokenAccount a = .ok false := by
    unfold TokenStore.isTokenAccount
    rw [if_neg (by simp [hf.index, hf.multi, h1, h2])]
    simp [TokenStorage.contains, no_bucket hi]
  unfold TokenStore.updateAccount
  rw [hfalse]; rfl

/-- A read of a key the token store knows nothing about shows nothing. -/
theorem read_unknown {n : Nat} {s : TokenStore} {slots orig : List TokenAccount} {pk : Pubkey} {c : Commitment} {r : Option AccountData}
    (hi : Inv (Apart pk) n s slots orig) (hf : Free pk s) (h : s.getAccount pk c = .ok r) : r = none := by
  have h0 : s.getFinalized pk = .ok none := by
    simp [TokenStore.getFinalized, hf.multi, hf.index, TokenStorage.getByPubkey, no_bucket hi]
  by_cases hc : c = .finalized
  · simp [TokenStore.getAccount, hc, h0] at h; exact h.symm
  · cases hg : s.processed.getAccounts [pk] c s.confirmedSlot with
    | panic => exact absurd hg (getAccounts_no_panic _ _ hc _)
    | diverge => simp [TokenStore.getAccount, hc, hg] at h
    | ok l =>
      obtain ⟨h1, h2⟩ := getAccount_eq hi.proc.sorted pk hc hg
      by_cases hx : ∃ x k, Newest s.processed pk c s.confirmedSlot x k
      · obtain ⟨x, k, hx⟩ := hx
        rw [h1 x k hx] at h
        obtain ⟨g1, g2⟩ := newest_waiting hi.proc hx
        rcases g2.2.1 with ⟨p, hp⟩ | hp
        · rw [hp] at h
          simp [ProgramAccount.toSolana] at h; exact h.symm
        · exact absurd (by rw [g1]) hp
      · simp only [not_exists] at hx
        rw [h2 hx, h0] at h
        simp at h; exact h.symm

/-! ## Repeated notifications -/

/-- Calls of the dispatcher keep the invariant of the token store. -/
theorem sys_inv {X : Codecs} {F : Filters} (ops : List SOp) {n : Nat} {w w' : Sys} {slots orig : List TokenAccount}
    (hi : Inv (fun _ => True) n w.token slots orig) (hn : n + 2 * ops.length < 2 ^ 31) (hr : Sys.run X F ops w = .ok w') :
    ∃ slots' orig', Inv (fun _ => True) (n + 2 * ops.length) w'.token slots' orig' := by
  induction ops generalizing w n slots orig with
  | nil => simp [Sys.run] at hr; subst hr; exact ⟨slots, orig, hi⟩
  | cons o ops ih =>
    simp only [Sys.run, Run.bind_eq_ok] at hr
    obtain ⟨w1, h1, hr⟩ := hr
    simp only [List.length_cons] at hn
    have key : ∃ slots1 orig1, Inv (fun _ => True) (n + 2) w1.token slots1 orig1 := by
      cases o with
      | update a c =>
        simp only [Sys.step, Sys.update, Run.bind_eq_ok, Run.pure_eq, Run.ok.injEq] at h1
        obtain ⟨⟨w2, b⟩, ⟨⟨b1, t1⟩, e1, h1⟩, rfl⟩ := h1
        obtain ⟨sl1, or1, i1⟩ := update_inv hi (by omega) (fun _ _ _ => trivial) e1
        cases b1 with
        | true => simp at h1; obtain ⟨rfl, rfl⟩ := h1; exact ⟨sl1, or1, i1.mono (by omega)⟩
        | false =>
          simp only [Bool.false_eq_true, if_false, Run.bind_eq_ok] at h1
          obtain ⟨⟨b2, t2⟩, e2, h1⟩ := h1
          obtain ⟨sl2, or2, i2⟩ := update_inv i1 (by omega) (fun _ _ _ => trivial) e2
          cases b2 with
          | true => simp at h1; obtain ⟨rfl, rfl⟩ := h1; exact ⟨sl2, or2, i2⟩
          | false =>
            simp only [Bool.false_eq_true, if_false, Run.bind_eq_ok, Run.ok.injEq, Prod.mk.injEq] at h1
            obtain ⟨⟨m, b3⟩, e3, rfl, rfl⟩ := h1
            exact ⟨sl2, or2, i2⟩
      | init a =>
        simp only [Sys.step, Sys.init] at h1
        split at h1
        · simp only [Run.bind_eq_ok, Run.pure_eq, Run.ok.injEq, init_eq_update] at h1
          obtain ⟨t, ⟨⟨b, t'⟩, e1, rfl⟩, rfl⟩ := h1
          obtain ⟨sl1, or1, i1⟩ := update_inv hi (by omega) (fun _ _ _ => trivial) e1
          exact ⟨sl1, or1, i1.mono (by omega)⟩
        · simp only [Run.bind_eq_ok, Run.pure_eq, Run.ok.injEq] at h1
          obtain ⟨m, -, rfl⟩ := h1
          exact ⟨slots, orig, hi.mono (by omega)⟩
      | slot o info c =>
        simp only [Sys.step, Sys.slot, Run.bind_eq_ok, Run.pure_eq, Run.ok.injEq] at h1
        obtain ⟨⟨w2, l⟩, ⟨⟨l1, t1⟩, e1, ⟨l2, t2⟩, e2, ⟨m, l3⟩, e3, h1⟩, rfl⟩ := h1
        simp only [Prod.mk.injEq] at h1
        obtain ⟨rfl, rfl⟩ := h1
        obtain ⟨sl1, or1, i1⟩ := slot_inv hi (by omega) e1
        obtain ⟨sl2, or2, i2⟩ := slot_inv i1 (by omega) e2
        exact ⟨sl2, or2, i2.mono (by omega)⟩
    obtain ⟨sl1, or1, i1⟩ := key
    obtain ⟨sl', or', i'⟩ := ih i1 (by omega) hr
    exact ⟨sl', or', i'.mono (by simp; omega)⟩

theorem finalize_again {P P' : ProcStore} {l : List (Processed × Nat)} {slot : Nat} (hs : BMap.Sorted P)
    (h : P.finalize slot = .ok (P', l)) : P'.finalize slot = .ok (P', []) := by
  simp only [ProcStore.finalize, Run.bind_eq_ok, Run.pure_eq, Run.ok.injEq, Prod.mk.injEq] at h
  obtain ⟨⟨P1, found⟩, h1, h2, -⟩ := h
  obtain ⟨g1, -⟩ := finalizeLoop_spec _ h1 hs AMap.distinct_nil
  have hnone : BMap.find P' slot = none := by
    rw [← h2]
    simp only
    rw [find_dropUpTo g1]
    simp
  have hdrop : dropUpTo P' slot = P' := by
    rw [← h2]
    simp only [dropUpTo]
    exact List.dropWhile_idempotent _ _
  simp [ProcStore.finalize, finalizeLoop, hnone, hdrop]

theorem addFinalized_slot {s s' : TokenStore} {x : ProgramAccount} (h : s.addFinalized x = .ok s') : s'.finalizedSlot = s.finalizedSlot := by
  cases x with
  | token t =>
    simp only [TokenStore.addFinalized, Run.bind_eq_ok] at h
    obtain ⟨⟨⟨i, added⟩, tokens⟩, -, h⟩ := h
    simp only at h
    split at h <;> (simp only [Run.pure_eq, Run.ok.injEq] at h; subst h; rfl)
  | mint m =>
    simp only [TokenStore.addFinalized] at h
    split at h <;> (simp only [Run.ok.injEq] at h; subst h; rfl)
  | multisig m p => simp only [TokenStore.addFinalized, Run.ok.injEq] at h; subst h; rfl
  | deleted p =>
    simp only [TokenStore.addFinalized] at h
    split at h
    · simp only [Run.ok.injEq] at h; subst h; rfl
    · simp only [Run.bind_eq_ok, Run.pure_eq, Run.ok.injEq] at h
      obtain ⟨_, -, rfl⟩ := h; rfl

theorem addAll_slot (l : List (Processed × Nat)) {s s' : TokenStore} (h : TokenStore.addAll l s = .ok s') :
    s'.finalizedSlot = s.finalizedSlot := by
  induction l generalizing s with
  | nil => simp [TokenStore.addAll] at h; subst h; rfl
  | cons e l ih =>
    simp only [TokenStore.addAll, Run.bind_eq_ok] at h
    obtain ⟨s1, h1, h⟩ := h
    rw [ih h, addFinalized_slot h1]

/-- The same finalized notification once more changes nothing and reports nothing. -/
theorem finalized_again {s s1 : TokenStore} {σ τ : Orders} {info : SlotInfo} {l : List AccountData} (hs : BMap.Sorted s.processed)
    (h : s.processSlot σ info .finalized = .ok (l, s1)) : s1.processSlot τ info .finalized = .ok ([], s1) := by
  simp only [TokenStore.processSlot, Run.bind_eq_ok] at h
  generalize hs0 : (if s.finalizedSlot < info.slot then
      { s with finalizedSlot := info.slot, processed := s.processed.updateSlotInfo info } else s) = s0 at h
  have hsort : BMap.Sorted s0.processed ∧ ¬ s0.finalizedSlot < info.slot := by
    rw [← hs0]; split
    · refine ⟨?_, by simp⟩
      simp only [ProcStore.updateSlotInfo]
      split <;> exact BMap.sorted_insert hs _ _
    · exact ⟨hs, by assumption⟩
  obtain ⟨⟨P1, l1⟩, e1, notes', -, s2, e2, h⟩ := h
  simp at h; obtain ⟨-, rfl⟩ := h
  have hp := (addAll_processed _ e2).1
  have hf := addAll_slot _ e2
  simp only at hp hf
  have h2 := finalize_again hsort.1 e1
  have hfin : τ.final [] = [] := by simpa using τ.final_perm []
  unfold TokenStore.processSlot
  simp only
  rw [if_neg (by rw [hf]; exact hsort.2)]
  simp only [hp, h2, Run.ok_bind, hfin, ProcStore.toSolanaAll, TokenStore.addAll, Run.pure_eq]
  rw [← hp]

/-- The same confirmed notification once more changes nothing and reports the same. -/
theorem confirmed_again {s s1 : TokenStore} {σ τ : Orders} {info : SlotInfo} {l : List AccountData}
    (h : s.processSlot σ info .confirmed = .ok (l, s1)) : s1.processSlot τ info .confirmed = .ok (l, s1) := by
  simp only [TokenStore.processSlot, Run.bind_eq_ok] at h
  generalize hs0 : (if s.confirmedSlot < info.slot then
      { s with confirmedSlot := info.slot, processed := s.processed.updateSlotInfo info } else s) = s0 at h
  have hc : ¬ s0.confirmedSlot < info.slot := by
    rw [← hs0]; split
    · simp
    · assumption
  obtain ⟨⟨l1, P⟩, e1, h⟩ := h
  simp at h; obtain ⟨rfl, rfl⟩ := h
  have e2 : ProcStore.getProcessedForSlot P info s0.mints = .ok (l1, P) := by
    unfold ProcStore.getProcessedForSlot at e1
    cases hf : BMap.find s0.processed info.slot with
    | some e =>
      simp only [hf, Run.bind_eq_ok, Run.pure_eq, Run.ok.injEq, Prod.mk.injEq] at e1
      obtain ⟨l2, g1, rfl, rfl⟩ := e1
      simp [ProcStore.getProcessedForSlot, hf, g1]
    | none =>
      simp only [hf, Run.ok.injEq, Prod.mk.injEq] at e1
      obtain ⟨rfl, rfl⟩ := e1
      simp [ProcStore.getProcessedForSlot, ProcStore.updateSlotInfo, hf, BMap.find_insert, ProcStore.toSolanaAll]
  unfold TokenStore.processSlot
  simp only
  rw [if_neg hc]
  simp only [e2, Run.ok_bind, Run.pure_eq]

end LAM.Token
