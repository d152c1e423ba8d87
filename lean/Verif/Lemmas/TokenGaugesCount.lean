import Verif.Lemmas.TokenGauges
import Verif.Spec.TokenGauges
/-!
# What the gauges of the token program store count
-/
namespace LAM.Token
open Spec ProcStore TokenStore

/-! ## Token accounts -/

/-- The gauges of stored and deleted token accounts. -/
def Counted (T : TokenStorage) (g : TokenGauges) : Prop :=
  g.stored = T.accounts.length ∧ g.deleted = T.accounts.countP deletedRecord

theorem deletedRecord_bytes {t : TokenAccount} (h : TokenFits t) : deletedRecord t.toBytes = t.isDeleted := by
  simp [deletedRecord, fromBytes_toBytes h]

theorem saveG_counted {T : TokenStorage} {slots : List TokenAccount} (h : Holds T slots)
    (live : ∀ i u, Stored T slots i u → u.isDeleted = false) {t : TokenAccount} (hf : TokenFits t) (hd : t.isDeleted = false)
    {g g' : TokenGauges} {r : (Nat × Bool) × TokenStorage} (hg : Counted T g) (hs : T.saveG g t = .ok (r, g')) : Counted r.2 g' := by
  have hnew : ∀ b, Counted ⟨b, T.accounts ++ [t.toBytes]⟩ { g with stored := g.stored + 1 } := by
    intro b
    refine ⟨by simp [hg.1], ?_⟩
    simp only [hg.2, List.countP_append, List.countP_singleton, deletedRecord_bytes hf, hd]
    simp
  unfold TokenStorage.saveG at hs
  cases hb : T.buckets.find (prefix4 t.pubkey) with
  | none =>
    rw [hb] at hs
    simp only [Run.ok.injEq, Prod.mk.injEq] at hs
    obtain ⟨rfl, rfl⟩ := hs
    exact hnew _
  | some is =>
    rw [hb] at hs
    simp only [Run.bind_eq_ok] at hs
    obtain ⟨m, hm, hs⟩ := hs
    rcases firstMatch_spec h t.pubkey is (fun i hi => by obtain ⟨t, ht, _⟩ := (h.bucket _ _ hb).2 i hi; exact ⟨t, ht⟩) with
      ⟨i, hi, u, hu, hk, he⟩ | ⟨-, he⟩
    · rw [he] at hm; cases hm
      simp only [Run.pure_eq, Run.ok.injEq, Prod.mk.injEq] at hs
      obtain ⟨rfl, rfl⟩ := hs
      have hlive := live i u ⟨is, by rw [hk]; exact hb, hi, hu⟩
      have hget := h.get hu
      obtain ⟨hlt, hget⟩ := List.getElem?_eq_some_iff.1 hget
      refine ⟨by simp [hg.1], ?_⟩
      simp only [hg.2]
      rw [List.countP_set hlt, hget, deletedRecord_bytes hf, deletedRecord_bytes (h.fits u (List.mem_of_getElem? hu)), hd, hlive]
      simp
    · rw [he] at hm; cases hm
      simp only [Run.pure_eq, Run.ok.injEq, Prod.mk.injEq] at hs
      obtain ⟨rfl, rfl⟩ := hs
      exact hnew _

theorem deleteG_counted {T T' : TokenStorage} {slots : List TokenAccount} (h : Holds T slots)
    (live : ∀ i u, Stored T slots i u → u.isDeleted = false) {pk : Pubkey} {g g' : TokenGauges} (hg : Counted T g)
    (hs : T.deleteG g pk = .ok (T', g')) : Counted T' g' := by
  unfold TokenStorage.deleteG at hs
  cases hb : T.buckets.find (prefix4 pk) with
  | none =>
    rw [hb] at hs
    simp only [Run.ok.injEq, Prod.mk.injEq] at hs
    obtain ⟨rfl, rfl⟩ := hs
    exact hg
  | some is =>
    rw [hb] at hs
    simp only [Run.bind_eq_ok] at hs
    obtain ⟨m, hm, hs⟩ := hs
    rcases firstMatch_spec h pk is (fun i hi => by obtain ⟨t, ht, _⟩ := (h.bucket _ _ hb).2 i hi; exact ⟨t, ht⟩) with
      ⟨i, hi, u, hu, hk, he⟩ | ⟨-, he⟩
    · rw [he] at hm; cases hm
      simp only [Run.pure_eq, Run.ok.injEq, Prod.mk.injEq] at hs
      obtain ⟨rfl, rfl⟩ := hs
      have hlive := live i u ⟨is, by rw [hk]; exact hb, hi, hu⟩
      obtain ⟨hlt, hget⟩ := List.getElem?_eq_some_iff.1 (h.get hu)
      refine ⟨by simp [hg.1], ?_⟩
      simp only [hg.2]
      rw [List.countP_set hlt, hget, deletedRecord_bytes tombstone_fits, deletedRecord_bytes (h.fits u (List.mem_of_getElem? hu)), hlive]
      simp [TokenStorage.tombstone]
    · rw [he] at hm; cases hm
      simp only [Run.pure_eq, Run.ok.injEq, Prod.mk.injEq] at hs
      obtain ⟨rfl, rfl⟩ := hs
      exact hg

/-- Saving and deleting leaves the other gauges alone. -/
theorem saveG_others {T : TokenStorage} {t : TokenAccount} {g g' : TokenGauges} {r : (Nat × Bool) × TokenStorage}
    (hs : T.saveG g t = .ok (r, g')) : g'.processed = g.processed ∧ g'.mints = g.mints := by
  unfold TokenStorage.saveG at hs
  cases hb : T.buckets.find (prefix4 t.pubkey) with
  | none =>
    rw [hb] at hs
    simp only [Run.ok.injEq, Prod.mk.injEq] at hs
    obtain ⟨-, rfl⟩ := hs
    exact ⟨rfl, rfl⟩
  | some is =>
    rw [hb] at hs
    simp only [Run.bind_eq_ok] at hs
    obtain ⟨m, -, hs⟩ := hs
    cases m <;>
    · simp only [Run.pure_eq, Run.ok.injEq, Prod.mk.injEq] at hs
      obtain ⟨-, rfl⟩ := hs
      exact ⟨rfl, rfl⟩

theorem deleteG_others {T T' : TokenStorage} {pk : Pubkey} {g g' : TokenGauges} (hs : T.deleteG g pk = .ok (T', g')) :
    g'.processed = g.processed ∧ g'.mints = g.mints := by
  unfold TokenStorage.deleteG at hs
  cases hb : T.buckets.find (prefix4 pk) with
  | none =>
    rw [hb] at hs
    simp only [Run.ok.injEq, Prod.mk.injEq] at hs
    obtain ⟨-, rfl⟩ := hs
    exact ⟨rfl, rfl⟩
  | some is =>
    rw [hb] at hs
    simp only [Run.bind_eq_ok] at hs
    obtain ⟨m, -, hs⟩ := hs
    cases m <;>
    · simp only [Run.pure_eq, Run.ok.injEq, Prod.mk.injEq] at hs
      obtain ⟨-, rfl⟩ := hs
      exact ⟨rfl, rfl⟩

theorem insertAccountG_others (P : ProcStore) (g : TokenGauges) (pk : Pubkey) (x : ProgramAccount) (wv slot : Nat) :
    (P.insertAccountG g pk x wv slot).2.stored = g.stored ∧ (P.insertAccountG g pk x wv slot).2.deleted = g.deleted ∧
      (P.insertAccountG g pk x wv slot).2.mints = g.mints := by
  unfold insertAccountG
  cases BMap.find P slot with
  | none => exact ⟨rfl, rfl, rfl⟩
  | some e =>
    simp only
    cases e.accounts.find pk with
    | none => exact ⟨rfl, rfl, rfl⟩
    | some old => simp only; split <;> exact ⟨rfl, rfl, rfl⟩

theorem finalizeLoopG_others (fuel : Nat) {P : ProcStore} {found : Found} {g g' : TokenGauges} {slot : Nat} {r : ProcStore × Found}
    (h : finalizeLoopG fuel P found g slot = .ok (r, g')) :
    g'.stored = g.stored ∧ g'.deleted = g.deleted ∧ g'.mints = g.mints := by
  induction fuel generalizing P found g slot with
  | zero => simp [finalizeLoopG] at h
  | succ n ih =>
    simp only [finalizeLoopG, collectG_eq] at h
    cases hf : BMap.find P slot with
    | none =>
      rw [hf] at h
      simp only [Run.ok.injEq, Prod.mk.injEq] at h
      obtain ⟨-, rfl⟩ := h
      exact ⟨rfl, rfl, rfl⟩
    | some e =>
      rw [hf] at h
      simp only at h
      cases hp : e.parent with
      | none =>
        rw [hp] at h
        simp only [Run.ok.injEq, Prod.mk.injEq] at h
        obtain ⟨-, rfl⟩ := h
        exact ⟨rfl, rfl, rfl⟩
      | some p =>
        rw [hp] at h
        have := ih (P := BMap.erase P slot) h
        exact this

theorem finalizeG_others {P P' : ProcStore} {l : List (Processed × Nat)} {g g' : TokenGauges} {slot : Nat}
    (h : P.finalizeG g slot = .ok ((P', l), g')) : g'.stored = g.stored ∧ g'.deleted = g.deleted ∧ g'.mints = g.mints := by
  simp only [finalizeG, Run.bind_eq_ok, Run.pure_eq, Run.ok.injEq, Prod.mk.injEq] at h
  obtain ⟨⟨⟨P1, found⟩, g1⟩, h1, -, rfl⟩ := h
  exact finalizeLoopG_others _ h1

theorem keeps_counted (X : Codecs) (Q : ProgramAccount → Prop) (s0 : TokenStore) (o : TOp) :
    Keeps X Q s0 o (fun s g => Counted s.tokens g) where
  table := fun _ _ _ _ _ _ h => h
  insert := by
    intro s g pk x wv slot _ h
    obtain ⟨h1, h2, -⟩ := insertAccountG_others s.processed g pk x wv slot
    exact ⟨by rw [h1]; exact h.1, by rw [h2]; exact h.2⟩
  add := by
    intro s g x s' g' slots orig hfin hf hlen _ h ha
    cases x with
    | token t =>
      simp only [addFinalizedG, Run.bind_eq_ok] at ha
      obtain ⟨⟨⟨⟨i, b⟩, tk⟩, g1⟩, h1, ha⟩ := ha
      have := saveG_counted hfin.holds hfin.live hf.1 hf.2 h h1
      cases b <;>
      · simp at ha
        obtain ⟨rfl, rfl⟩ := ha
        exact this
    | mint m =>
      simp only [addFinalizedG] at ha
      cases hi : s.table.index.find m.pubkey <;>
      · rw [hi] at ha
        simp only [Run.ok.injEq, Prod.mk.injEq] at ha
        obtain ⟨rfl, rfl⟩ := ha
        exact h
    | multisig m pk =>
      simp only [addFinalizedG, Run.ok.injEq, Prod.mk.injEq] at ha
      obtain ⟨rfl, rfl⟩ := ha
      exact h
    | deleted pk =>
      simp only [addFinalizedG] at ha
      cases hi : s.table.index.find pk with
      | some i =>
        rw [hi] at ha
        simp only [Run.ok.injEq, Prod.mk.injEq] at ha
        obtain ⟨rfl, rfl⟩ := ha
        exact h
      | none =>
        rw [hi] at ha
        simp only [Run.bind_eq_ok, Run.pure_eq, Run.ok.injEq, Prod.mk.injEq] at ha
        obtain ⟨⟨tk, g1⟩, h1, rfl, rfl⟩ := ha
        exact deleteG_counted hfin.holds hfin.live h h1
  note := fun _ _ _ _ _ _ _ h => h
  finalize := by
    intro σ info c f P' l g g' _ _ hfz h
    obtain ⟨h1, h2, -⟩ := finalizeG_others hfz
    exact ⟨by rw [h1]; exact h.1, by rw [h2]; exact h.2⟩

/-! ## States that are not finalized yet -/

theorem heldStates_eq (s : TokenStore) : heldStates s = pending s.processed := rfl

theorem length_amap_insert {K V : Type} [DecidableEq K] (m : AMap K V) (k : K) (v : V) :
    (m.insert k v).length = if (m.find k).isSome then m.length else m.length + 1 := by
  induction m with
  | nil => rfl
  | cons e t ih =>
    obtain ⟨k', v'⟩ := e
    simp only [AMap.insert, AMap.find]
    by_cases h : k' = k
    · simp [h]
    · simp only [h, if_false, List.length_cons, ih]
      split <;> rfl

theorem length_amap_erase {K V : Type} [DecidableEq K] {m : AMap K V} (hd : m.Distinct) (k : K) :
    (m.erase k).length = if (m.find k).isSome then m.length - 1 else m.length := by
  induction m with
  | nil => rfl
  | cons e t ih =>
    obtain ⟨k', v'⟩ := e
    simp only [AMap.Distinct, List.pairwise_cons] at hd
    have ih := ih hd.2
    unfold AMap.erase at ih ⊢
    rw [List.filter_cons]
    simp only [AMap.find]
    by_cases h : k' = k
    · subst h
      have hn : AMap.find t k' = none := by
        cases hf : AMap.find t k' with
        | none => rfl
        | some v => exact absurd rfl (hd.1 _ (AMap.mem_of_find hf))
      rw [hn] at ih
      simp at ih ⊢
      exact ih
    · simp only [ne_eq, h, not_false_eq_true, decide_true, if_true, List.length_cons, ih, if_false]
      split
      · rename_i hs
        obtain ⟨v, hv⟩ := Option.isSome_iff_exists.1 hs
        have := List.length_pos_of_mem (AMap.mem_of_find hv)
        omega
      · rfl

theorem insertAccountG_pending {P : ProcStore} (hs : BMap.Sorted P) (g : TokenGauges) (pk : Pubkey) (x : ProgramAccount) (wv slot : Nat) :
    (P.insertAccountG g pk x wv slot).2.processed - g.processed = (pending (P.insertAccountG g pk x wv slot).1.2 : Int) - pending P := by
  unfold insertAccountG
  cases hf : BMap.find P slot with
  | none =>
    have := pending_insert hs slot ⟨[(pk, ⟨x, wv⟩)], none⟩
    rw [hf] at this
    simp at this ⊢
    omega
  | some e =>
    simp only
    cases hp : e.accounts.find pk with
    | none =>
      have := pending_insert hs slot { e with accounts := e.accounts.insert pk ⟨x, wv⟩ }
      rw [hf] at this
      simp [length_amap_insert, hp] at this ⊢
      omega
    | some old =>
      simp only
      split
      · have := pending_insert hs slot { e with accounts := e.accounts.insert pk ⟨x, wv⟩ }
        rw [hf] at this
        simp [length_amap_insert, hp] at this ⊢
        omega
      · simp

theorem updateSlotInfo_pending {P : ProcStore} (hs : BMap.Sorted P) (info : SlotInfo) : pending (P.updateSlotInfo info) = pending P := by
  unfold updateSlotInfo
  cases hf : BMap.find P info.slot with
  | none =>
    have := pending_insert hs info.slot ⟨[], none⟩
    rw [hf] at this
    simpa using this
  | some e =>
    have := pending_insert hs info.slot { e with parent := some info.parent }
    rw [hf] at this
    simp at this ⊢
    omega

theorem pending_erase_eq {P : ProcStore} (hs : BMap.Sorted P) {k : Nat} {e : BySlot} (h : BMap.find P k = some e) :
    pending (BMap.erase P k) + e.accounts.length = pending P := by
  induction P with
  | nil => simp at h
  | cons a t ih =>
    obtain ⟨k', e'⟩ := a
    simp only [BMap.Sorted, List.pairwise_cons] at hs
    simp only [BMap.find] at h
    unfold BMap.erase at ih ⊢
    rw [List.filter_cons]
    split at h
    · rename_i heq
      cases h
      rw [if_neg (by simpa using heq)]
      have : t.filter (fun e => e.1 ≠ k) = t := by
        rw [List.filter_eq_self]
        intro x hx
        have := hs.1 x hx
        simp; omega
      rw [this]
      simp [pending]; omega
    · rename_i hne
      rw [if_pos (by simpa using hne)]
      have := ih hs.2 h
      simp [pending] at this ⊢; omega

theorem finalizeLoopG_pending (fuel : Nat) {P P' : ProcStore} {found found' : Found} {g g' : TokenGauges} {slot : Nat}
    (h : finalizeLoopG fuel P found g slot = .ok ((P', found'), g')) (hs : BMap.Sorted P) :
    g'.processed - g.processed = (pending P' : Int) - pending P := by
  induction fuel generalizing P found g slot with
  | zero => simp [finalizeLoopG] at h
  | succ n ih =>
    simp only [finalizeLoopG, collectG_eq] at h
    cases hf : BMap.find P slot with
    | none =>
      rw [hf] at h
      simp only [Run.ok.injEq, Prod.mk.injEq] at h
      obtain ⟨⟨rfl, -⟩, rfl⟩ := h
      omega
    | some e =>
      have he := pending_erase_eq hs hf
      rw [hf] at h
      simp only at h
      cases hp : e.parent with
      | none =>
        rw [hp] at h
        simp only [Run.ok.injEq, Prod.mk.injEq] at h
        obtain ⟨⟨rfl, -⟩, rfl⟩ := h
        simp only
        omega
      | some p =>
        rw [hp] at h
        have := ih h (BMap.sorted_erase hs slot)
        simp only at this
        omega

/-- The slots removed at the end are not counted down. -/
theorem finalizeG_pending {P P' : ProcStore} {l : List (Processed × Nat)} {g g' : TokenGauges} {slot : Nat} (hs : BMap.Sorted P)
    (h : P.finalizeG g slot = .ok ((P', l), g')) :
    ∃ P1, g'.processed - g.processed = (pending P1 : Int) - pending P ∧ P' = dropUpTo P1 slot ∧ BMap.Sorted P1 ∧
      (∀ k, (OnChain P slot k → BMap.find P1 k = none) ∧ (¬ OnChain P slot k → BMap.find P1 k = BMap.find P k)) := by
  simp only [finalizeG, Run.bind_eq_ok, Run.pure_eq, Run.ok.injEq, Prod.mk.injEq] at h
  obtain ⟨⟨⟨P1, found⟩, g1⟩, h1, ⟨rfl, -⟩, rfl⟩ := h
  have hp := Run.fst_eq_ok.2 ⟨_, h1⟩
  rw [finalizeLoopG_fst] at hp
  obtain ⟨s1, -, s3, -⟩ := finalizeLoop_spec _ hp hs AMap.distinct_nil
  exact ⟨P1, finalizeLoopG_pending _ h1 hs, rfl, s1, s3⟩

theorem addFinalizedG_pending {s s' : TokenStore} {g g' : TokenGauges} {x : ProgramAccount} (h : s.addFinalizedG g x = .ok (s', g')) :
    g'.processed = g.processed ∧ s'.processed = s.processed := by
  cases x with
  | token t =>
    simp only [addFinalizedG, Run.bind_eq_ok] at h
    obtain ⟨⟨⟨⟨i, b⟩, tk⟩, g1⟩, h1, h⟩ := h
    have := (saveG_others h1).1
    cases b <;>
    · simp at h
      obtain ⟨rfl, rfl⟩ := h
      exact ⟨this, rfl⟩
  | mint m =>
    simp only [addFinalizedG] at h
    cases hi : s.table.index.find m.pubkey <;>
    · rw [hi] at h
      simp only [Run.ok.injEq, Prod.mk.injEq] at h
      obtain ⟨rfl, rfl⟩ := h
      exact ⟨rfl, rfl⟩
  | multisig m pk =>
    simp only [addFinalizedG, Run.ok.injEq, Prod.mk.injEq] at h
    obtain ⟨rfl, rfl⟩ := h
    exact ⟨rfl, rfl⟩
  | deleted pk =>
    simp only [addFinalizedG] at h
    cases hi : s.table.index.find pk with
    | some i =>
      rw [hi] at h
      simp only [Run.ok.injEq, Prod.mk.injEq] at h
      obtain ⟨rfl, rfl⟩ := h
      exact ⟨rfl, rfl⟩
    | none =>
      rw [hi] at h
      simp only [Run.bind_eq_ok, Run.pure_eq, Run.ok.injEq, Prod.mk.injEq] at h
      obtain ⟨⟨tk, g1⟩, h1, rfl, rfl⟩ := h
      exact ⟨(deleteG_others h1).1, rfl⟩

theorem keeps_pending (X : Codecs) (Q : ProgramAccount → Prop) (s0 : TokenStore) (o : TOp) :
    Keeps X Q s0 o (fun s g => (pending s.processed : Int) ≤ g.processed) where
  table := fun _ _ _ _ _ _ h => h
  insert := by
    intro s g pk x wv slot hs h
    have := insertAccountG_pending hs g pk x wv slot
    simp only
    omega
  add := by
    intro s g x s' g' slots orig _ _ _ _ h ha
    obtain ⟨h1, h2⟩ := addFinalizedG_pending ha
    rw [h1, h2]; exact h
  note := by
    intro s g P c f hP hs h
    rcases hP with ⟨info, rfl⟩ | rfl
    · simpa [updateSlotInfo_pending hs] using h
    · exact h
  finalize := by
    intro σ info c f P' l g g' _ hs hfz h
    obtain ⟨P1, h1, rfl, -⟩ := finalizeG_pending hs hfz
    have := pending_dropWhile P1 (fun e => e.1 ≤ info.slot)
    simp only at h
    unfold dropUpTo
    simp only
    omega

theorem pending_dropWhile_eq {P : ProcStore} (hs : BMap.Sorted P) {slot : Nat} (h : ∀ k e, BMap.find P k = some e → k ≤ slot → e.accounts = []) :
    pending (dropUpTo P slot) = pending P := by
  unfold dropUpTo
  induction P with
  | nil => rfl
  | cons a t ih =>
    obtain ⟨k, e⟩ := a
    simp only [BMap.Sorted, List.pairwise_cons] at hs
    rw [List.dropWhile_cons]
    split
    · rename_i hk
      simp at hk
      have he := h k e (by simp [BMap.find]) hk
      rw [ih hs.2]
      · simp [pending, he]
      · intro j v hj hle
        refine h j v ?_ hle
        simp only [BMap.find]
        rw [if_neg]
        · exact hj
        · have := hs.1 _ (BMap.mem_of_find hj); simp at this; omega
    · rfl

theorem keeps_pending_eq (X : Codecs) (Q : ProgramAccount → Prop) (s0 : TokenStore) (o : TOp)
    (hd : ∀ σ info, o = .slot σ info .finalized → ∀ k e, BMap.find s0.processed k = some e → e.accounts ≠ [] → k ≤ info.slot →
      OnChain (noted s0 info s0.finalizedSlot) info.slot k) :
    Keeps X Q s0 o (fun s g => g.processed = pending s.processed) where
  table := fun _ _ _ _ _ _ h => h
  insert := by
    intro s g pk x wv slot hs h
    have := insertAccountG_pending hs g pk x wv slot
    simp only
    omega
  add := by
    intro s g x s' g' slots orig _ _ _ _ h ha
    obtain ⟨h1, h2⟩ := addFinalizedG_pending ha
    rw [h1, h2]; exact h
  note := by
    intro s g P c f hP hs h
    rcases hP with ⟨info, rfl⟩ | rfl
    · simpa [updateSlotInfo_pending hs] using h
    · exact h
  finalize := by
    intro σ info c f P' l g g' ho hs hfz h
    obtain ⟨P1, h1, rfl, hs1, hch⟩ := finalizeG_pending hs hfz
    have hz : pending (dropUpTo P1 info.slot) = pending P1 := by
      refine pending_dropWhile_eq hs1 fun k e hk hle => ?_
      by_cases hc : OnChain (noted s0 info s0.finalizedSlot) info.slot k
      · rw [(hch k).1 hc] at hk; cases hk
      · rw [(hch k).2 hc] at hk
        have hd := hd σ info ho k
        by_contra hne
        have : ∃ e', BMap.find s0.processed k = some e' ∧ e'.accounts = e.accounts := by
          unfold noted at hk
          split at hk
          · unfold updateSlotInfo at hk
            cases hf : BMap.find s0.processed info.slot with
            | none =>
              rw [hf] at hk
              simp only [BMap.find_insert] at hk
              split at hk
              · cases hk; exact absurd rfl hne
              · exact ⟨e, hk, rfl⟩
            | some e0 =>
              rw [hf] at hk
              simp only [BMap.find_insert] at hk
              split at hk
              · rename_i heq
                cases hk
                exact ⟨e0, by rw [← heq]; exact hf, rfl⟩
              · exact ⟨e, hk, rfl⟩
          · exact ⟨e, hk, rfl⟩
        obtain ⟨e', he', hacc⟩ := this
        exact hc (hd e' he' (by rw [hacc]; exact hne) hle)
    simp only [hz]
    simp only at h
    omega

/-! ## Mints -/

theorem keeps_mints (X : Codecs) (Q : ProgramAccount → Prop) (s0 : TokenStore) (o : TOp) :
    Keeps X Q s0 o (fun s g => g.mints ≤ s.mints.length) where
  table := fun _ _ _ _ _ _ h => h
  insert := by
    intro s g pk x wv slot _ h
    rw [(insertAccountG_others s.processed g pk x wv slot).2.2]; exact h
  add := by
    intro s g x s' g' slots orig hfin hf hlen _ h ha
    cases x with
    | token t =>
      simp only [addFinalizedG, Run.bind_eq_ok] at ha
      obtain ⟨⟨⟨⟨i, b⟩, tk⟩, g1⟩, h1, ha⟩ := ha
      have := (saveG_others h1).2
      cases b <;>
      · simp at ha
        obtain ⟨rfl, rfl⟩ := ha
        rw [this]; exact h
    | mint m =>
      simp only [addFinalizedG] at ha
      cases hi : s.table.index.find m.pubkey with
      | some i =>
        rw [hi] at ha
        simp only [Run.ok.injEq, Prod.mk.injEq] at ha
        obtain ⟨rfl, rfl⟩ := ha
        simp only [length_amap_insert]
        split <;> omega
      | none =>
        rw [hi] at ha
        simp only [Run.ok.injEq, Prod.mk.injEq] at ha
        obtain ⟨rfl, rfl⟩ := ha
        have hn : s.mints.find s.table.counter = none := by
          cases hf : s.mints.find s.table.counter with
          | none => rfl
          | some m' => have := hfin.idx_lt _ _ (hfin.mints_idx _ _ hf); omega
        simp only [length_amap_insert, hn]
        simp; exact h
    | multisig m pk =>
      simp only [addFinalizedG, Run.ok.injEq, Prod.mk.injEq] at ha
      obtain ⟨rfl, rfl⟩ := ha
      exact h
    | deleted pk =>
      simp only [addFinalizedG] at ha
      cases hi : s.table.index.find pk with
      | some i =>
        rw [hi] at ha
        simp only [Run.ok.injEq, Prod.mk.injEq] at ha
        obtain ⟨rfl, rfl⟩ := ha
        simp only [length_amap_erase hfin.mints_distinct]
        split <;> omega
      | none =>
        rw [hi] at ha
        simp only [Run.bind_eq_ok, Run.pure_eq, Run.ok.injEq, Prod.mk.injEq] at ha
        obtain ⟨⟨tk, g1⟩, h1, rfl, rfl⟩ := ha
        rw [(deleteG_others h1).2]; exact h
  note := fun _ _ _ _ _ _ _ h => h
  finalize := by
    intro σ info c f P' l g g' _ _ hfz h
    rw [(finalizeG_others hfz).2.2]; exact h

/-- Every mint that has an index is stored, and counted. -/
def MintsCounted (s : TokenStore) (g : TokenGauges) : Prop :=
  g.mints = s.mints.length ∧ ∀ pk i, s.table.index.find pk = some i → (s.mints.find i).isSome

theorem keeps_mints_eq (X : Codecs) (Q : ProgramAccount → Prop) (s0 : TokenStore) (o : TOp)
    (hd : ∀ a r T, o.account = some a → classify X s0.table a = .ok (r, T) → T = s0.table) :
    Keeps X Q s0 o MintsCounted where
  table := by
    intro a r T g ha hc h
    rw [hd a r T ha hc]; exact h
  insert := by
    intro s g pk x wv slot _ h
    refine ⟨?_, h.2⟩
    rw [(insertAccountG_others s.processed g pk x wv slot).2.2]; exact h.1
  add := by
    intro s g x s' g' slots orig hfin hf hlen _ h ha
    obtain ⟨h, hall⟩ := h
    cases x with
    | token t =>
      simp only [addFinalizedG, Run.bind_eq_ok] at ha
      obtain ⟨⟨⟨⟨i, b⟩, tk⟩, g1⟩, h1, ha⟩ := ha
      have := (saveG_others h1).2
      cases b <;>
      · simp at ha
        obtain ⟨rfl, rfl⟩ := ha
        exact ⟨by rw [this]; exact h, hall⟩
    | mint m =>
      simp only [addFinalizedG] at ha
      cases hi : s.table.index.find m.pubkey with
      | some i =>
        rw [hi] at ha
        simp only [Run.ok.injEq, Prod.mk.injEq] at ha
        obtain ⟨rfl, rfl⟩ := ha
        refine ⟨by simp only [length_amap_insert, hall _ _ hi, if_true, h], ?_⟩
        intro pk j hj
        simp only [AMap.find_insert]
        split
        · rfl
        · exact hall _ _ hj
      | none =>
        rw [hi] at ha
        simp only [Run.ok.injEq, Prod.mk.injEq] at ha
        obtain ⟨rfl, rfl⟩ := ha
        have hn : s.mints.find s.table.counter = none := by
          cases hf : s.mints.find s.table.counter with
          | none => rfl
          | some m' => have := hfin.idx_lt _ _ (hfin.mints_idx _ _ hf); omega
        refine ⟨by simp only [length_amap_insert, hn]; simp [h], ?_⟩
        intro pk j hj
        simp only [AMap.find_insert] at hj ⊢
        split at hj
        · cases hj; simp
        · split
          · rfl
          · exact hall _ _ hj
    | multisig m pk =>
      simp only [addFinalizedG, Run.ok.injEq, Prod.mk.injEq] at ha
      obtain ⟨rfl, rfl⟩ := ha
      exact ⟨h, hall⟩
    | deleted pk =>
      simp only [addFinalizedG] at ha
      cases hi : s.table.index.find pk with
      | some i =>
        rw [hi] at ha
        simp only [Run.ok.injEq, Prod.mk.injEq] at ha
        obtain ⟨rfl, rfl⟩ := ha
        refine ⟨?_, ?_⟩
        · obtain ⟨v, hv⟩ := Option.isSome_iff_exists.1 (hall _ _ hi)
          have := List.length_pos_of_mem (AMap.mem_of_find hv)
          simp only [length_amap_erase hfin.mints_distinct, hall _ _ hi, if_true, h]
          omega
        · intro q j hj
          simp only [AMap.find_erase] at hj ⊢
          split at hj
          · cases hj
          · rename_i hne
            rw [if_neg]
            · exact hall _ _ hj
            · rintro rfl; exact hne (hfin.idx_inj _ _ _ hi hj)
      | none =>
        rw [hi] at ha
        simp only [Run.bind_eq_ok, Run.pure_eq, Run.ok.injEq, Prod.mk.injEq] at ha
        obtain ⟨⟨tk, g1⟩, h1, rfl, rfl⟩ := ha
        exact ⟨by rw [(deleteG_others h1).2]; exact h, hall⟩
  note := fun _ _ _ _ _ _ _ h => h
  finalize := by
    intro σ info c f P' l g g' _ _ hfz h
    refine ⟨?_, h.2⟩
    rw [(finalizeG_others hfz).2.2]; exact h.1

end LAM.Token
