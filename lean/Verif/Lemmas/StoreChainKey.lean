import Verif.Lemmas.StoreChain
/-!
# The states of one account while the store follows a chain
-/
namespace LAM
open Spec ByCommitment

namespace Store

/-! ## The newest of some submissions -/

theorem older_trans' {a b c : AccountData} (h1 : Older a b) (h2 : Older b c) : Older a c := by
  simp only [Older] at *; omega

theorem newestWhere_snoc {P : AccountData → Prop} {L : List AccountData} {o : Option AccountData} (h : NewestWhere P L o)
    (a : AccountData) :
    (P a → NewestWhere P (L ++ [a]) (if isNewer o a then some a else o)) ∧ (¬ P a → NewestWhere P (L ++ [a]) o) := by
  constructor
  · intro hP
    cases o with
    | none =>
      have h1 : isNewer none a = true := rfl
      rw [if_pos h1]
      exact ⟨L, [], rfl, hP, fun b hb hPb => absurd hPb (h b hb), by simp⟩
    | some x =>
      obtain ⟨l1, l2, rfl, hx, h1, h2⟩ := h
      by_cases hn : isNewer (some x) a = true
      · rw [if_pos hn]
        rw [isNewer_some] at hn
        refine ⟨l1 ++ x :: l2, [], rfl, hP, ?_, by simp⟩
        intro b hb hPb
        rcases List.mem_append.1 hb with hb | hb
        · exact older_trans' (h1 b hb hPb) hn
        · rcases List.mem_cons.1 hb with rfl | hb
          · exact hn
          · have := h2 b hb hPb
            simp only [Older] at *; omega
      · rw [if_neg hn]
        rw [isNewer_some] at hn
        refine ⟨l1, l2 ++ [a], by simp, hx, h1, ?_⟩
        intro b hb hPb
        rcases List.mem_append.1 hb with hb | hb
        · exact h2 b hb hPb
        · rw [List.mem_singleton] at hb; subst hb; exact hn
  · intro hP
    cases o with
    | none =>
      intro b hb
      rcases List.mem_append.1 hb with hb | hb
      · exact h b hb
      · rw [List.mem_singleton] at hb; subst hb; exact hP
    | some x =>
      obtain ⟨l1, l2, rfl, hx, h1, h2⟩ := h
      refine ⟨l1, l2 ++ [a], by simp, hx, h1, ?_⟩
      intro b hb hPb
      rcases List.mem_append.1 hb with hb | hb
      · exact h2 b hb hPb
      · rw [List.mem_singleton] at hb; subst hb; exact absurd hPb hP

theorem newestWhere_congr {P Q : AccountData → Prop} {L : List AccountData} {o : Option AccountData}
    (h : NewestWhere P L o) (hPQ : ∀ a ∈ L, (P a ↔ Q a)) : NewestWhere Q L o := by
  cases o with
  | none => exact fun a ha hq => h a ha ((hPQ a ha).2 hq)
  | some x =>
    obtain ⟨l1, l2, rfl, hx, h1, h2⟩ := h
    exact ⟨l1, l2, rfl, (hPQ x (by simp)).1 hx, fun b hb hq => h1 b hb ((hPQ b (by simp [hb])).2 hq),
      fun b hb hq => h2 b hb ((hPQ b (by simp [hb])).2 hq)⟩

theorem newestWhere_mem {P : AccountData → Prop} {L : List AccountData} {x : AccountData} (h : NewestWhere P L (some x)) :
    x ∈ L ∧ P x ∧ ∀ b ∈ L, P b → ¬ Older x b := by
  obtain ⟨l1, l2, rfl, hx, h1, h2⟩ := h
  refine ⟨by simp, hx, ?_⟩
  intro b hb hPb
  rcases List.mem_append.1 hb with hb | hb
  · have := h1 b hb hPb; simp only [Older] at *; omega
  · rcases List.mem_cons.1 hb with rfl | hb
    · simp [Older]
    · exact h2 b hb hPb

/-- The newest state of the last slot with a visible state. -/
theorem newestWhere_slot {P : AccountData → Prop} {L : List AccountData} {x : AccountData} {k : Nat}
    (h : NewestWhere (fun a => a.slot = k) L (some x)) (hP : P x) (hle : ∀ b ∈ L, P b → b.slot ≤ k) :
    NewestWhere P L (some x) := by
  obtain ⟨l1, l2, rfl, hx, h1, h2⟩ := h
  refine ⟨l1, l2, rfl, hP, ?_, ?_⟩
  · intro b hb hPb
    by_cases hbk : b.slot = k
    · exact h1 b hb hbk
    · have := hle b (by simp [hb]) hPb
      simp only [Older]; omega
  · intro b hb hPb
    by_cases hbk : b.slot = k
    · exact h2 b hb hbk
    · have := hle b (by simp [hb]) hPb
      simp only [Older]; omega

/-! ## One account -/

section
variable {par : Nat → Nat} {base : Nat}

theorem conf_of_fin {h : List Op} (H : OneChain par base h) (hfb : FinalizedBehind par base h) {j : Nat} (hj : base ≤ j)
    (hf : OnChainOf par .finalized h j) : OnChainOf par .confirmed h j := by
  obtain ⟨t, ht, ha⟩ := hf
  have := anc_le H.down ha
  obtain ⟨T, hT, h1, -⟩ := fin_behind H hfb ht (by omega)
  exact hT.on.2 (anc_trans h1 ha)

/-- What is known of the states of a pubkey since it is tracked. -/
structure KeyOK (par : Nat → Nat) (base : Nat) (h : List Op) (L : List AccountData) (s : Store) (pk : Pubkey) (i : Nat)
    (e : ByCommitment) : Prop where
  index : s.index pk = some i
  view : s.view pk = some e
  recorded : ∀ j, i ∈ upd s.slots j → base ≤ j ∧ ∃ a ∈ L, a.slot = j
  waiting : ∀ a ∈ L, base ≤ a.slot → (∀ t, Notified .finalized h t → t ≤ a.slot) → i ∈ upd s.slots a.slot
  states : ∀ k, base ≤ k → (∀ t, Notified .finalized h t → t ≤ k) →
    NewestWhere (fun a => a.slot = k) L (BMap.find e.processed k)
  conf : NewestWhere (ChainVisible par base .confirmed h) L e.confirmed
  fin : NewestWhere (ChainVisible par base .finalized h) L e.finalized

theorem visible_update {c d : Commitment} {h : List Op} {F : Filters} {b a : AccountData} :
    ChainVisible par base c (h ++ [.update F b d]) a ↔ ChainVisible par base c h a := by
  simp only [ChainVisible, onChain_update]

/-- The commitment with which an update is treated. -/
theorem effective_chain {h : List Op} {s : Store} (hC : ChainOK par base h s.slots) (H : OneChain par base h)
    (hfb : FinalizedBehind par base h) {a : AccountData} {c : Commitment}
    (hc : (c = .processed ∧ base ≤ a.slot ∧ (OnChainOf par .confirmed h a.slot → ∀ t, Notified .finalized h t → t ≤ a.slot)) ∨
      (c = .finalized ∧ a.slot < base)) :
    (s.effective a.slot c ≠ .processed ↔ ChainVisible par base .confirmed h a) ∧
    (s.effective a.slot c = .finalized ↔ ChainVisible par base .finalized h a) := by
  rcases hc with ⟨rfl, hb, hin⟩ | ⟨rfl, hlt⟩
  · have hnb : ¬ a.slot < base := by omega
    simp only [ChainVisible, hnb, false_or]
    by_cases hcf : OnChainOf par .confirmed h a.slot
    · obtain ⟨st, h1, -, h3, h4⟩ := hC.settled a.slot hb hcf (hin hcf)
      have he : s.effective a.slot .processed = st.commitment := by simp [effective, h1]
      rw [he]
      by_cases hff : OnChainOf par .finalized h a.slot
      · rw [h3 hff]; simp [hcf, hff]
      · rw [h4 hff]; simp [hcf, hff]
    · have hff : ¬ OnChainOf par .finalized h a.slot := fun hx => hcf (conf_of_fin H hfb hb hx)
      have he : s.effective a.slot .processed = .processed := by
        simp only [effective, reduceCtorEq, if_false]
        cases hs : BMap.find s.slots a.slot with
        | none => rfl
        | some st => exact (hC.unsettled a.slot st hb hs hcf).1
      rw [he]; simp [hcf, hff]
  · simp [effective, ChainVisible, hlt]

theorem keyOK_update {h : List Op} {L : List AccountData} {s s' : Store} {pk : Pubkey} {i : Nat} {e : ByCommitment}
    (hi : Inv s) (hC : ChainOK par base h s.slots) (H : OneChain par base h) (hfb : FinalizedBehind par base h)
    (hK : KeyOK par base h L s pk i e) {F : Filters} {a : AccountData} {c : Commitment} {b : Bool}
    (hc : UpdateCase F s a c s' b) (htr : s'.containsKey pk = true)
    (hin : a.pubkey = pk →
      (c = .processed ∧ base ≤ a.slot ∧ (OnChainOf par .confirmed h a.slot → ∀ t, Notified .finalized h t → t ≤ a.slot)) ∨
      (c = .finalized ∧ a.slot < base)) :
    ∃ e', KeyOK par base (h ++ [.update F a c]) (L ++ submissions pk [.update F a c]) s' pk i e' := by
  by_cases hpk : pk = a.pubkey
  · subst hpk
    rw [submissions_update, if_pos rfl]
    have hin := hin rfl
    obtain ⟨hec, hef⟩ := effective_chain hC H hfb hin
    cases hc with
    | rejected h0 => rw [hK.index] at h0; cases h0
    | created h0 => rw [hK.index] at h0; cases h0
    | removed j e2 h0 => simp [containsKey, dropKey] at htr
    | kept j e2 h0 he2 hr =>
      have hij : j = i := by rw [hK.index] at h0; simp at h0; exact h0.symm
      subst hij
      have hee : e2 = e := by
        have := hK.view; rw [view_of_index h0, he2] at this; simpa using this
      subst hee
      have hsl : ∀ x, (ownerAfter F ((s.addIndexToSlot a.slot j c).1.setAt j (e2.update a (s.effective a.slot c)).1)
          (e2.get (s.effective a.slot c)) a j (s.effective a.slot c)
          (e2.update a (s.effective a.slot c)).2).slots = x → x = (s.addIndexToSlot a.slot j c).1.slots := by
        intro x hx; rw [← hx]; simp
      refine ⟨(e2.update a (s.effective a.slot c)).1, ?_, ?_, ?_, ?_, ?_, ?_, ?_⟩
      · simpa using h0
      · rw [view_of_index (by simpa using h0)]
        simp [hi.lt h0]
      · intro k hk
        rw [hsl _ rfl, mem_upd_addIndexToSlot] at hk
        rcases hk with hk | ⟨rfl, -, hnf⟩
        · obtain ⟨h1, x, hx, hxs⟩ := hK.recorded k hk
          exact ⟨h1, x, by simp [hx], hxs⟩
        · refine ⟨?_, a, by simp, rfl⟩
          rcases hin with ⟨-, h1, -⟩ | ⟨h1, -⟩
          · exact h1
          · exact absurd h1 hnf
      · intro x hx hb hf
        simp only [notified_update] at hf
        rw [hsl _ rfl, mem_upd_addIndexToSlot]
        rcases List.mem_append.1 hx with hx | hx
        · exact Or.inl (hK.waiting x hx hb hf)
        · rw [List.mem_singleton] at hx; subst hx
          refine Or.inr ⟨rfl, rfl, ?_⟩
          rcases hin with ⟨h1, -⟩ | ⟨-, h1⟩
          · rw [h1]; decide
          · omega
      · intro k hk hf
        simp only [notified_update] at hf
        have h1 := hK.states k hk hf
        rw [update_processed, find_updateProcessed]
        by_cases hak : a.slot = k
        · rw [if_pos hak]
          have h2 := (newestWhere_snoc h1 a).1 hak
          cases hp : BMap.find e2.processed k with
          | none => rw [hp] at h2; exact h2
          | some p =>
            rw [hp] at h1 h2
            have hpk := (newestWhere_mem h1).2.1
            have : isNewer (some p) a = decide (p.wv < a.wv) := by
              rw [Bool.eq_iff_iff, isNewer_some]
              simp only [Older, decide_eq_true_eq]
              have : p.slot = a.slot := by rw [hpk, hak]
              omega
            rw [this] at h2
            simpa using h2
        · rw [if_neg hak]
          exact (newestWhere_snoc h1 a).2 hak
      · rw [update_confirmed]
        refine newestWhere_congr (P := ChainVisible par base .confirmed h) ?_ (fun b _ => visible_update.symm)
        by_cases hp : s.effective a.slot c = .processed
        · rw [if_pos hp]
          exact (newestWhere_snoc hK.conf a).2 (fun hx => hec.2 hx hp)
        · rw [if_neg hp]
          exact (newestWhere_snoc hK.conf a).1 (hec.1 hp)
      · rw [update_finalized]
        refine newestWhere_congr (P := ChainVisible par base .finalized h) ?_ (fun b _ => visible_update.symm)
        by_cases hp : s.effective a.slot c = .finalized
        · have := (newestWhere_snoc hK.fin a).1 (hef.1 hp)
          simpa [hp] using this
        · rw [if_neg (fun hx => hp hx.1)]
          exact (newestWhere_snoc hK.fin a).2 (fun hx => hp (hef.2 hx))
  · rw [submissions_update, if_neg (fun h => hpk h.symm), List.append_nil]
    have hview := (view_updateCase hi hc pk).1 hpk
    have hidx : s'.index pk = s.index pk := by
      cases hc with
      | rejected => rfl
      | created => simp [createdStore, hpk]
      | kept => simp
      | removed => simp [dropKey, hpk]
    have hslots : s'.slots = s.slots ∨ ∃ j, j ≠ i ∧ s'.slots = (s.addIndexToSlot a.slot j c).1.slots := by
      cases hc with
      | rejected => exact Or.inl rfl
      | created h0 =>
        refine Or.inr ⟨s.accounts.length, ?_, rfl⟩
        have := hi.lt hK.index; omega
      | kept j e2 h0 =>
        refine Or.inr ⟨j, ?_, by simp⟩
        rintro rfl; exact hpk (hi.inj hK.index h0)
      | removed j e2 h0 =>
        refine Or.inr ⟨j, ?_, by simp⟩
        rintro rfl; exact hpk (hi.inj hK.index h0)
    have hupd : ∀ k, i ∈ upd s'.slots k ↔ i ∈ upd s.slots k := by
      intro k
      rcases hslots with hsl | ⟨j, hj, hsl⟩
      · rw [hsl]
      · rw [hsl, mem_upd_addIndexToSlot]
        constructor
        · rintro (hk | ⟨-, hk, -⟩)
          · exact hk
          · exact absurd hk.symm hj
        · exact Or.inl
    refine ⟨e, by rw [hidx]; exact hK.index, by rw [hview]; exact hK.view, ?_, ?_, ?_, ?_, ?_⟩
    · intro k hk; exact hK.recorded k ((hupd k).1 hk)
    · intro x hx hb hf
      simp only [notified_update] at hf
      exact (hupd _).2 (hK.waiting x hx hb hf)
    · intro k hk hf
      simp only [notified_update] at hf
      exact hK.states k hk hf
    · exact newestWhere_congr hK.conf (fun b _ => visible_update.symm)
    · exact newestWhere_congr hK.fin (fun b _ => visible_update.symm)

theorem visible_other {c d : Commitment} {h : List Op} {F : Filters} {σ : Order} {info : SlotInfo} {a : AccountData} (hcd : c ≠ d) :
    ChainVisible par base c (h ++ [.slot F σ info d]) a ↔ ChainVisible par base c h a := by
  simp [ChainVisible, onChain_slot, hcd]

/-- A notification, for one account: nothing, or the promotion of its last state that came on the chain. -/
theorem keyOK_slot {h : List Op} {L : List AccountData} {s s' : Store} {pk : Pubkey} {i : Nat} {e : ByCommitment}
    (hi : Inv s) (hK : KeyOK par base h L s pk i e) {F : Filters} {σ : Order} {info : SlotInfo} {c : Commitment} {r path m' w}
    (H : OneChain par base (h ++ [.slot F σ info c])) (hfb : FinalizedBehind par base (h ++ [.slot F σ info c]))
    (hc : SlotCase F σ s info c s' r path m' w)
    (hrise : c ≠ .processed → Rise par base c h (h ++ [.slot F σ info c]) path)
    (htr : s'.containsKey pk = true) : ∃ e', KeyOK par base (h ++ [.slot F σ info c]) L s' pk i e' := by
  have H0 := oneChain_init H
  have hfb0 := finalizedBehind_init hfb
  have hd := H.down
  have hsm := hc.walk.sorted hi.slotsSorted
  have hmono : ∀ {j : Nat}, (∀ t, Notified .finalized (h ++ [.slot F σ info c]) t → t ≤ j) →
      ∀ t, Notified .finalized h t → t ≤ j := fun hx t ht => hx t (notified_slot.2 (Or.inl ht))
  have hrec : ∀ j, i ∈ upd s'.slots j → base ≤ j ∧ ∃ a ∈ L, a.slot = j := by
    intro j hj
    apply hK.recorded j
    rw [← hc.walk.upd_eq j]
    rw [hc.slots] at hj
    obtain ⟨st, hf, hm⟩ := mem_upd.1 hj
    rw [find_dropOldSlots hsm] at hf
    split at hf
    · simp at hf
    · exact mem_upd.2 ⟨st, hf, hm⟩
  have hwait : ∀ a ∈ L, base ≤ a.slot → (∀ t, Notified .finalized (h ++ [.slot F σ info c]) t → t ≤ a.slot) →
      i ∈ upd s'.slots a.slot := by
    intro a ha hb hf
    have h1 := hK.waiting a ha hb (hmono hf)
    rw [← hc.walk.upd_eq] at h1
    obtain ⟨st, h2, h3⟩ := mem_upd.1 h1
    refine mem_upd.2 ⟨st, ?_, h3⟩
    rw [hc.slots, find_dropOldSlots hsm, if_neg]
    · exact h2
    · rintro ⟨rfl, hlt⟩
      have := hf info.slot (notified_slot.2 (Or.inr ⟨rfl, rfl⟩))
      omega
  -- slots that come on the chain have no later finalized slot
  have hfins : c ≠ .processed → ∀ j, base ≤ j → OnChainOf par c (h ++ [.slot F σ info c]) j → ¬ OnChainOf par c h j →
      ∀ t, Notified .finalized h t → t ≤ j := by
    intro hcp j hb h1 h2 t ht
    by_cases hbt : base ≤ t
    · have hon : OnChainOf par c h t := by
        cases c with
        | processed => exact absurd rfl hcp
        | confirmed => exact conf_of_fin H0 hfb0 hbt ⟨t, ht, .here⟩
        | finalized => exact ⟨t, ht, .here⟩
      exact Nat.le_of_lt ((hrise hcp).above j hb h1 h2 t hon)
    · omega
  rcases hc.view hi pk with ⟨h1, -⟩ | ⟨i2, e2, h1, h2, -, ho, hcase⟩
  · rw [hK.index] at h1; cases h1
  · rw [hK.index] at h1; cases h1
    rw [hK.view] at h2; cases h2
    rcases hcase with ⟨hno, hv, hx⟩ | ⟨k, hk, hv, hx⟩
    · -- nothing of this account came on the chain
      have hsame : ∀ d, ∀ a ∈ L, (d = c → c ≠ .processed) →
          (ChainVisible par base d h a ↔ ChainVisible par base d (h ++ [.slot F σ info c]) a) := by
        intro d a ha hdc
        by_cases hdc' : d = c
        · subst hdc'
          have hcp := hdc rfl
          constructor
          · rintro (h1 | h1)
            · exact Or.inl h1
            · exact Or.inr (onChain_slot.2 (Or.inl h1))
          · rintro (h1 | h1)
            · exact Or.inl h1
            · by_cases hb : a.slot < base
              · exact Or.inl hb
              · right
                apply Classical.byContradiction
                intro hold
                have hiu := hK.waiting a ha (by omega) (hfins hcp _ (by omega) h1 hold)
                obtain ⟨seg, junk, he, -, hmem, -⟩ := (hrise hcp).parts
                have hp : a.slot ∈ path := by
                  rw [he]
                  exact List.mem_append_left _ ((hmem _).2 ⟨by omega, h1, hold⟩)
                obtain ⟨k', hk'⟩ := gather_covers (w := []) hp hiu
                exact hno k' (by rw [hc.gathered]; exact hk')
        · exact (visible_other hdc').symm
      refine ⟨e, hx, hv, hrec, hwait, fun k hk hf => hK.states k hk (hmono hf), ?_, ?_⟩
      · exact newestWhere_congr hK.conf (fun a ha => hsame _ a ha (by rintro rfl; decide))
      · exact newestWhere_congr hK.fin (fun a ha => hsame _ a ha (by rintro rfl; decide))
    · have hx' : s'.index pk = some i := by
        rcases hx with hx | ⟨hx, -⟩
        · exact hx
        · simp [containsKey, hx] at htr
      have hsome : (s'.view pk).isSome = true := by rw [hc.inv.view_isSome]; exact htr
      obtain ⟨e', he'⟩ := Option.isSome_iff_exists.1 hsome
      have hpe : e' = (e.promote k c).1 := after_eq (by rw [← hv]; exact he')
      subst hpe
      by_cases hcp : c = .processed
      · subst hcp
        have h1 : (e.promote k .processed).1 = e := by
          unfold promote
          cases BMap.find e.processed k <;> simp
        rw [h1] at he'
        refine ⟨e, hx', he', hrec, hwait, fun k hk hf => hK.states k hk (hmono hf), ?_, ?_⟩
        · exact newestWhere_congr hK.conf (fun a ha => (visible_other (by decide)).symm)
        · exact newestWhere_congr hK.fin (fun a ha => (visible_other (by decide)).symm)
      · have hrise := hrise hcp
        have hfins := hfins hcp
        obtain ⟨seg, junk, he, hpw, hmem, hjunk⟩ := hrise.parts
        rw [hc.gathered] at hk
        obtain ⟨p1, p2, hp, hfirst⟩ := gather_first (by simp) (by simp) hk
        have hik : i ∈ upd s.slots k := by
          rcases mem_gather_sub hk with hk | ⟨-, hk⟩
          · simp at hk
          · exact hk
        obtain ⟨hkb, a0, ha0, hak⟩ := hK.recorded k hik
        have hkseg : k ∈ seg := by
          have : k ∈ seg ++ junk := by rw [← he, hp]; simp
          rcases List.mem_append.1 this with h1 | h1
          · exact h1
          · have := hjunk k h1; omega
        obtain ⟨-, hkon, hkold⟩ := (hmem k).1 hkseg
        have hst := hK.states k hkb (hfins k hkb hkon hkold)
        -- the state of slot `k`
        obtain ⟨N, hN⟩ : ∃ N, BMap.find e.processed k = some N := by
          cases hf : BMap.find e.processed k with
          | none => rw [hf] at hst; exact absurd hak (hst a0 ha0)
          | some N => exact ⟨N, rfl⟩
        rw [hN] at hst
        obtain ⟨hNL, hNk, -⟩ := newestWhere_mem hst
        -- it is the last one on the chain
        have hlast : ∀ b ∈ L, ChainVisible par base c (h ++ [.slot F σ info c]) b → b.slot ≤ k := by
          intro b hb hvb
          rcases hvb with hvb | hvb
          · omega
          · by_cases hbb : base ≤ b.slot
            · by_cases hold : OnChainOf par c h b.slot
              · exact Nat.le_of_lt (hrise.above k hkb hkon hkold _ hold)
              · have hbu := hK.waiting b hb hbb (hfins _ hbb hvb hold)
                have hbs := (hmem b.slot).2 ⟨hbb, hvb, hold⟩
                apply Classical.byContradiction
                intro hlt
                -- a later slot is before `k` in the path
                have hbp1 : b.slot ∈ p1 := by
                  have hpw' : path.Pairwise (fun x y => base ≤ y → y < x) := by
                    rw [he, List.pairwise_append]
                    refine ⟨List.Pairwise.imp (fun {x y} (h1 : x > y) (_ : base ≤ y) => h1) hpw, ?_, ?_⟩
                    · rw [List.pairwise_iff_getElem]
                      intro x y hx hy _ hby
                      have := hjunk _ (List.getElem_mem hy); omega
                    · intro x _ y hy hby
                      have := hjunk y hy; omega
                  have hbp : b.slot ∈ p1 ++ k :: p2 := by rw [← hp, he]; exact List.mem_append_left _ hbs
                  rcases List.mem_append.1 hbp with h1 | h1
                  · exact h1
                  · rcases List.mem_cons.1 h1 with h1 | h1
                    · omega
                    · rw [hp, List.pairwise_append] at hpw'
                      have := (List.pairwise_cons.1 hpw'.2.1).1 _ h1 hbb
                      omega
                exact hfirst _ hbp1 hbu
            · omega
        have hNvis : ChainVisible par base c (h ++ [.slot F σ info c]) N := Or.inr (by rw [hNk]; exact hkon)
        have hnewest := newestWhere_slot hst hNvis hlast
        -- what was visible before is older
        have holder : ∀ x, ChainVisible par base c h x → x.slot < N.slot := by
          intro x hx
          rw [hNk]
          rcases hx with hx | hx
          · omega
          · exact hrise.above k hkb hkon hkold _ hx
        refine ⟨_, hx', he', hrec, hwait, ?_, ?_, ?_⟩
        · intro j hj hf
          have h1 := hK.states j hj (hmono hf)
          rw [promote_processed_map]
          split
          · rename_i hcf
            subst hcf
            have hle : k ≤ info.slot := by
              rcases onChain_slot.1 hkon with h2 | ⟨-, h2⟩
              · exact absurd h2 hkold
              · exact anc_le hd h2
            have h2 := hf info.slot (notified_slot.2 (Or.inr ⟨rfl, rfl⟩))
            rw [find_prune_ge ho.sorted (by omega)]
            exact h1
          · exact h1
        · rw [promote_confirmed, hN]
          simp only [hcp, if_false]
          cases c with
          | processed => exact absurd rfl hcp
          | confirmed =>
            cases hcv : e.confirmed with
            | none => exact hnewest
            | some x =>
              have h1 := hK.conf
              rw [hcv] at h1
              have := holder x (newestWhere_mem h1).2.1
              simp only [this, if_true]
              exact hnewest
          | finalized =>
            have hNc : ChainVisible par base .confirmed h N := by
              right
              rw [hNk]
              have := conf_of_fin H hfb hkb hkon
              rcases onChain_slot.1 this with h1 | ⟨h1, -⟩
              · exact h1
              · cases h1
            have h1 := hK.conf
            cases hcv : e.confirmed with
            | none => rw [hcv] at h1; exact absurd hNc (h1 N hNL)
            | some x =>
              rw [hcv] at h1
              have h2 := (newestWhere_mem h1).2.2 N hNL hNc
              have : ¬ x.slot < N.slot := fun hx => h2 (Or.inl hx)
              simp only [this, if_false]
              exact newestWhere_congr h1 (fun a _ => (visible_other (by decide)).symm)
        · rw [promote_finalized, hN]
          cases c with
          | processed => exact absurd rfl hcp
          | confirmed =>
            simp only [reduceCtorEq, if_false]
            exact newestWhere_congr hK.fin (fun a _ => (visible_other (by decide)).symm)
          | finalized =>
            simp only [if_true]
            cases hcv : e.finalized with
            | none => exact hnewest
            | some x =>
              have h1 := hK.fin
              rw [hcv] at h1
              have := holder x (newestWhere_mem h1).2.1
              simp only [this, if_true]
              exact hnewest

/-! ## Runs -/

theorem chainOK_run : ∀ (h : List Op) (s : Store), empty.run h = .ok s → OneChain par base h → ParentsKnown par base h →
    FinalizedBehind par base h → ChainOK par base h s.slots := by
  intro h
  refine snoc_induction (P := fun h => ∀ s, empty.run h = .ok s → OneChain par base h → ParentsKnown par base h →
    FinalizedBehind par base h → ChainOK par base h s.slots) ?_ ?_ h
  · intro s hr _ _ _
    simp only [run, Run.ok.injEq] at hr; subst hr
    exact chainOK_empty
  · intro h op ih s' hrun H hpk hfb
    obtain ⟨s, hs, hstep⟩ := run_snoc hrun
    have hi := inv_run inv_empty hs
    have hC := ih s hs (oneChain_init H) (parentsKnown_init hpk) (finalizedBehind_init hfb)
    cases op with
    | update F a c =>
      obtain ⟨s2, b, he, hc⟩ := updateAccount_case hi F a c
      simp only [step, he, Run.ok_bind, Run.pure_eq, Run.ok.injEq] at hstep
      subst hstep
      cases hc with
      | rejected => exact chainOK_rejected hC
      | created => exact chainOK_update hC H _
      | kept i => simpa using chainOK_update hC H i
      | removed i => simpa using chainOK_update hC H i
    | slot F σ info c =>
      obtain ⟨s2, r, he, path, m', w, hc⟩ := processSlot_case hi F σ info c
      simp only [step, he, Run.ok_bind, Run.pure_eq, Run.ok.injEq] at hstep
      subst hstep
      rw [hc.slots]
      cases c with
      | processed => exact chain_processed hC H hc.walk
      | confirmed => exact (chain_confirmed hC H hpk hfb hc.walk).1
      | finalized =>
        refine (chain_finalized hC H hfb hc.walk ?_).1
        intro j
        rw [find_dropOldSlots (hc.walk.sorted hi.slotsSorted)]
        simp

theorem rise_slot {h : List Op} {s s' : Store} (hi : Inv s) (hC : ChainOK par base h s.slots) {F : Filters} {σ : Order}
    {info : SlotInfo} {c : Commitment} {r path m' w} (hc : SlotCase F σ s info c s' r path m' w)
    (H : OneChain par base (h ++ [.slot F σ info c])) (hpk : ParentsKnown par base (h ++ [.slot F σ info c]))
    (hfb : FinalizedBehind par base (h ++ [.slot F σ info c])) (hcp : c ≠ .processed) :
    Rise par base c h (h ++ [.slot F σ info c]) path := by
  cases c with
  | processed => exact absurd rfl hcp
  | confirmed => exact (chain_confirmed hC H hpk hfb hc.walk).2
  | finalized =>
    refine (chain_finalized (m'' := dropOldSlots m' info.slot .finalized) hC H hfb hc.walk ?_).2
    intro j
    rw [find_dropOldSlots (hc.walk.sorted hi.slotsSorted)]
    simp

theorem updatesInTime_init {pk : Pubkey} {h1 h2 : List Op} {op : Op} (H : UpdatesInTime par base pk h1 (h2 ++ [op])) :
    UpdatesInTime par base pk h1 h2 :=
  fun pre F a post he => H pre F a (post ++ [op]) (by simp [he])

/-- The invariant holds for the submissions since a pubkey is tracked. -/
theorem keyOK {h1 : List Op} {s1 : Store} {pk : Pubkey} (hr1 : empty.run h1 = .ok s1)
    (hun : s1.containsKey pk = false) : ∀ (l : List Op) (s : Store), l ≠ [] → s1.run l = .ok s →
    StaysTracked s1 l pk → OneChain par base (h1 ++ l) → ParentsKnown par base (h1 ++ l) → FinalizedBehind par base (h1 ++ l) →
    UpdatesInTime par base pk h1 l → ∃ i e, KeyOK par base (h1 ++ l) (submissions pk l) s pk i e := by
  intro l
  refine snoc_induction (P := fun l => ∀ s, l ≠ [] → s1.run l = .ok s → StaysTracked s1 l pk →
    OneChain par base (h1 ++ l) → ParentsKnown par base (h1 ++ l) → FinalizedBehind par base (h1 ++ l) →
    UpdatesInTime par base pk h1 l → ∃ i e, KeyOK par base (h1 ++ l) (submissions pk l) s pk i e) ?_ ?_ l
  · intro s hn; exact absurd rfl hn
  · intro l op ih s' _ hrun htr H hpk hfb hut
    have hi1 := inv_run inv_empty hr1
    obtain ⟨s, hs, hstep⟩ := run_snoc hrun
    have hi := inv_run hi1 hs
    have hrunA : empty.run (h1 ++ l) = .ok s := by rw [run_append, hr1]; exact hs
    obtain ⟨s'', hs'', hck⟩ := htr (l ++ [op]) (by simp) (List.prefix_refl _)
    rw [hrun] at hs''; cases hs''
    have htr' : StaysTracked s1 l pk := fun p hp hpre =>
      htr p hp (List.IsPrefix.trans hpre (List.prefix_append _ _))
    rw [← List.append_assoc] at H hpk hfb
    have H0 := oneChain_init H
    have hpk0 := parentsKnown_init hpk
    have hfb0 := finalizedBehind_init hfb
    have hC := chainOK_run _ _ hrunA H0 hpk0 hfb0
    rw [submissions_append, ← List.append_assoc]
    by_cases hl : l = []
    · subst hl
      simp only [run, Run.ok.injEq] at hs; subst hs
      have hidx0 : s1.index pk = none := by simpa [containsKey] using hun
      cases op with
      | slot F σ info c =>
        obtain ⟨s2, r, he, path, m', w, hc⟩ := processSlot_case hi F σ info c
        simp only [step, he, Run.ok_bind, Run.pure_eq, Run.ok.injEq] at hstep
        subst hstep
        rcases hc.view hi pk with ⟨-, h2, -⟩ | ⟨i, e, h1, -⟩
        · simp [containsKey, h2] at hck
        · rw [hidx0] at h1; cases h1
      | update F a c =>
        obtain ⟨s2, b, he, hc⟩ := updateAccount_case hi F a c
        simp only [step, he, Run.ok_bind, Run.pure_eq, Run.ok.injEq] at hstep
        subst hstep
        have hpke : pk = a.pubkey := by
          apply Classical.byContradiction
          intro hne
          have hv := (view_updateCase hi hc pk).1 hne
          have hi' := inv_updateCase hi hc
          have h3 := hi'.view_isSome pk
          rw [hv, hck, hi.view_isSome, hun] at h3
          cases h3
        subst hpke
        have hin : (c = .processed ∧ base ≤ a.slot ∧ ¬ OnChainOf par .confirmed (h1 ++ []) a.slot) ∨
            (c = .finalized ∧ a.slot < base) := by
          rcases H.updates F a c (by simp) with rfl | hx
          · obtain ⟨h2, h3⟩ := hut [] F a [] (by simp) rfl
            exact Or.inl ⟨rfl, h2, fun hx => (h3 hx).1 (by simp [submissions])⟩
          · exact Or.inr hx
        cases hc with
        | rejected => rw [hun] at hck; cases hck
        | kept i e h0 => rw [hidx0] at h0; cases h0
        | removed i e h0 => rw [hidx0] at h0; cases h0
        | created h0 hf =>
          have hL : submissions a.pubkey [] ++ submissions a.pubkey [.update F a c] = [a] := by simp [submissions]
          rw [hL]
          refine ⟨s1.accounts.length, ByCommitment.new a c, by simp [createdStore], ?_, ?_, ?_, ?_, ?_, ?_⟩
          · rw [view_created hi, if_pos rfl]
          · intro j hj
            simp only [createdStore, mem_upd_addIndexToSlot] at hj
            rcases hj with hj | ⟨rfl, -, hnf⟩
            · have := upd_lt hi hj; omega
            · refine ⟨?_, a, by simp, rfl⟩
              rcases hin with hx | hx
              · exact hx.2.1
              · exact absurd hx.1 hnf
          · intro x hx hb _
            rw [List.mem_singleton] at hx; subst hx
            simp only [createdStore, mem_upd_addIndexToSlot]
            refine Or.inr ⟨trivial, trivial, ?_⟩
            rcases hin with hx | hx
            · rw [hx.1]; decide
            · omega
          · intro k hk _
            by_cases hak : a.slot = k
            · have : BMap.find (ByCommitment.new a c).processed k = some a := by simp [ByCommitment.new, BMap.find, hak]
              rw [this]
              exact ⟨[], [], rfl, hak, by simp, by simp⟩
            · have : BMap.find (ByCommitment.new a c).processed k = none := by simp [ByCommitment.new, BMap.find, hak]
              rw [this]
              intro x hx
              rw [List.mem_singleton] at hx; subst hx; exact hak
          · have hone : ∀ (P : AccountData → Prop), P a → NewestWhere P [a] (some a) :=
              fun P hP => ⟨[], [], rfl, hP, by simp, by simp⟩
            rcases hin with ⟨rfl, hb, hnc⟩ | ⟨rfl, hlt⟩
            · intro x hx
              rw [List.mem_singleton] at hx; subst hx
              rintro (hx | hx)
              · omega
              · exact hnc (onChain_update.1 hx)
            · exact hone _ (Or.inl hlt)
          · have hone : ∀ (P : AccountData → Prop), P a → NewestWhere P [a] (some a) :=
              fun P hP => ⟨[], [], rfl, hP, by simp, by simp⟩
            rcases hin with ⟨rfl, hb, hnc⟩ | ⟨rfl, hlt⟩
            · intro x hx
              rw [List.mem_singleton] at hx; subst hx
              rintro (hx | hx)
              · omega
              · exact hnc (conf_of_fin H0 hfb0 hb (onChain_update.1 hx))
            · exact hone _ (Or.inl hlt)
    · obtain ⟨i, e, hK⟩ := ih s hl hs htr' H0 hpk0 hfb0 (updatesInTime_init hut)
      cases op with
      | update F a c =>
        obtain ⟨s2, b, he, hc⟩ := updateAccount_case hi F a c
        simp only [step, he, Run.ok_bind, Run.pure_eq, Run.ok.injEq] at hstep
        subst hstep
        obtain ⟨e', hK'⟩ := keyOK_update hi hC H0 hfb0 hK hc hck (by
          intro hap
          rcases H.updates F a c (by simp) with rfl | hx
          · obtain ⟨h2, h3⟩ := hut l F a [] rfl hap
            exact Or.inl ⟨rfl, h2, fun hx => (h3 hx).2⟩
          · exact Or.inr hx)
        exact ⟨i, e', hK'⟩
      | slot F σ info c =>
        obtain ⟨s2, r, he, path, m', w, hc⟩ := processSlot_case hi F σ info c
        simp only [step, he, Run.ok_bind, Run.pure_eq, Run.ok.injEq] at hstep
        subst hstep
        rw [submissions_slot, List.append_nil]
        obtain ⟨e', hK'⟩ := keyOK_slot hi hK H hfb hc (rise_slot hi hC hc H hpk hfb) hck
        exact ⟨i, e', hK'⟩

end
end Store
end LAM
