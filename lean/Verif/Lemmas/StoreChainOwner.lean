import Verif.Lemmas.StoreChainKey
import Verif.Lemmas.Gpa
import Verif.Lemmas.StoreLate
import Verif.Spec.StoreChainOwner
/-!
# Which owners an account is listed under while the store follows a chain
-/
namespace LAM
open Spec ByCommitment

namespace ByCommitment

/-- `z` is one of the states of the entry. -/
def Holds (e : ByCommitment) (z : AccountData) : Prop :=
  (∃ k, BMap.find e.processed k = some z) ∨ e.confirmed = some z ∨ e.finalized = some z

theorem holds_get {pk : Pubkey} {e : ByCommitment} (h : EntryOK pk e) {c : Commitment} {z : AccountData} (hz : e.get c = some z) :
    e.Holds z := by
  cases c with
  | processed =>
    rw [h.get_processed] at hz
    obtain ⟨k, hk, -⟩ := BMap.lastVal_eq_some h.sorted hz
    exact .inl ⟨k, hk⟩
  | confirmed => exact .inr (.inl hz)
  | finalized => exact .inr (.inr hz)

theorem holds_update {e : ByCommitment} {a z : AccountData} {c : Commitment} (h : (e.update a c).1.Holds z) : z = a ∨ e.Holds z := by
  rcases h with ⟨k, h⟩ | h | h
  · rw [update_processed, find_updateProcessed] at h
    split at h
    · split at h
      · rename_i p hp
        split at h
        · exact .inl (by injection h with h; exact h.symm)
        · exact .inr (.inl ⟨k, by rw [hp]; exact h⟩)
      · exact .inl (by injection h with h; exact h.symm)
    · exact .inr (.inl ⟨k, h⟩)
  · rw [update_confirmed] at h
    split at h
    · exact .inr (.inr (.inl h))
    · split at h
      · exact .inl (by injection h with h; exact h.symm)
      · exact .inr (.inr (.inl h))
  · rw [update_finalized] at h
    split at h
    · exact .inl (by injection h with h; exact h.symm)
    · exact .inr (.inr (.inr h))

/-- Nothing changes if `update` answers `false`. -/
theorem update_false {e : ByCommitment} {a : AccountData} {c : Commitment} (hfc : ∀ x, e.finalized = some x → ∃ y, e.confirmed = some y ∧
    ¬ Older y x) (h : (e.update a c).2 = false) : (e.update a c).1 = e := by
  have hm : (updateProcessed e.processed a).2 = false → (updateProcessed e.processed a).1 = e.processed := by
    unfold updateProcessed
    split
    · split <;> simp
    · simp
  rw [update_flag] at h
  simp only [Bool.or_eq_false_iff, Bool.and_eq_false_iff, decide_eq_false_iff_not] at h
  obtain ⟨⟨h1, h2⟩, h3⟩ := h
  have e1 : (e.update a c).1.processed = e.processed := by rw [update_processed]; exact hm h1
  have e3 : (e.update a c).1.finalized = e.finalized := by
    rw [update_finalized, if_neg]
    rintro ⟨hc, hn⟩
    rcases h3 with h3 | h3
    · exact h3 hc
    · rw [h3] at hn; cases hn
  have e2 : (e.update a c).1.confirmed = e.confirmed := by
    rw [update_confirmed]
    split
    · rfl
    · rw [if_neg]
      intro hn
      cases c with
      | processed => simp_all
      | confirmed => simp_all
      | finalized =>
        simp only [not_true_eq_false, false_or] at h3
        cases hf : e.finalized with
        | none => simp [hf, isNewer] at h3
        | some x =>
          obtain ⟨y, hy, hxy⟩ := hfc x hf
          rw [hf, isNewer_some'] at h3
          rw [hy, isNewer_some] at hn
          simp only [decide_eq_false_iff_not] at h3
          simp only [Older] at *; omega
  cases e; cases h' : (ByCommitment.update _ a c).1
  simp_all

theorem holds_promote {pk : Pubkey} {e : ByCommitment} (ho : EntryOK pk e) {z : AccountData} {k : Nat} {c : Commitment}
    (h : (e.promote k c).1.Holds z) : e.Holds z := by
  rcases h with ⟨j, h⟩ | h | h
  · rw [promote_processed_map] at h
    split at h
    · exact .inl ⟨j, find_prune_some ho.sorted h⟩
    · exact .inl ⟨j, h⟩
  · rw [promote_confirmed] at h
    split at h
    · exact .inr (.inl h)
    · rename_i x hx
      split at h
      · exact .inr (.inl h)
      · split at h
        · rename_i y hy
          split at h
          · injection h with h; subst h; exact .inl ⟨k, hx⟩
          · exact .inr (.inl (by rw [hy]; exact h))
        · injection h with h; subst h; exact .inl ⟨k, hx⟩
  · rw [promote_finalized] at h
    split at h
    · exact .inr (.inr h)
    · rename_i x hx
      split at h
      · split at h
        · rename_i y hy
          split at h
          · injection h with h; subst h; exact .inl ⟨k, hx⟩
          · exact .inr (.inr (by rw [hy]; exact h))
        · injection h with h; subst h; exact .inl ⟨k, hx⟩
      · exact .inr (.inr h)

end ByCommitment

namespace Store

section
variable {par : Nat → Nat} {base : Nat}

theorem visible_mono {c : Commitment} {h : List Op} {op : Op} {a : AccountData} (hv : ChainVisible par base c h a) :
    ChainVisible par base c (h ++ [op]) a := by
  rcases hv with hv | ⟨t, ⟨F, σ, info, hm, ht⟩, ha⟩
  · exact .inl hv
  · exact .inr ⟨t, ⟨F, σ, info, by simp [hm], ht⟩, ha⟩

theorem ownersSettle_init {pk : Pubkey} {h1 l : List Op} {op : Op} (H : OwnersSettle par base pk h1 (l ++ [op])) :
    OwnersSettle par base pk h1 l := by
  have hsub : ∀ x ∈ submissions pk l, x ∈ submissions pk (l ++ [op]) := by
    intro x hx; rw [submissions_append]; exact List.mem_append_left _ hx
  have hvis : ∀ x, ChainVisible par base .finalized (h1 ++ l) x → ChainVisible par base .finalized (h1 ++ (l ++ [op])) x := by
    intro x hx; rw [← List.append_assoc]; exact visible_mono hx
  exact
    { asked := fun F a c hm => H.asked F a c (by simp [hm])
      closed := fun x hx z hz => H.closed x (hsub x hx) z (hsub z hz)
      noReturn := fun x hx y hy z hz vx vy => H.noReturn x (hsub x hx) y (hsub y hy) z (hsub z hz) (hvis x vx) (hvis y vy)
      placed := fun pre F a c post he => H.placed pre F a c (post ++ [op]) (by simp [he])
      stale := fun pre F a c post x he => H.stale pre F a c (post ++ [op]) x (by simp [he]) }

/-- The newest finalized state is not newer than the newest confirmed one, which is not newer than the newest one. -/
theorem KeyOK.get_ge {h : List Op} {L : List AccountData} {s : Store} {pk : Pubkey} {i : Nat} {e : ByCommitment}
    (hK : KeyOK par base h L s pk i e) (ho : EntryOK pk e) (H : OneChain par base h) (hfb : FinalizedBehind par base h)
    {x : AccountData} (hx : e.finalized = some x) :
    (∃ y, e.confirmed = some y ∧ ¬ Older y x) ∧ ∀ c z, e.get c = some z → ¬ Older z x := by
  have h1 := hK.fin
  rw [hx] at h1
  obtain ⟨hm, hv, -⟩ := newestWhere_mem h1
  obtain ⟨y, hy, hys⟩ := (ho.fin x hx).2
  have hvc : ChainVisible par base .confirmed h x := by
    rcases hv with hv | hv
    · exact .inl hv
    · by_cases hb : base ≤ x.slot
      · exact .inr (conf_of_fin H hfb hb hv)
      · exact .inl (by omega)
  have h2 := hK.conf
  rw [hy] at h2
  have hyx := (newestWhere_mem h2).2.2 x hm hvc
  obtain ⟨p, hp, hpy⟩ := (ho.conf y hy).2
  refine ⟨⟨y, hy, hyx⟩, ?_⟩
  intro c z hz
  cases c with
  | processed =>
    rw [ho.get_processed, hp] at hz; injection hz with hz; subst hz
    simp only [Older] at *; omega
  | confirmed => rw [ByCommitment.get, hy] at hz; injection hz with hz; subst hz; exact hyx
  | finalized => rw [ByCommitment.get, hx] at hz; injection hz with hz; subst hz; simp [Older]

/-- The states of the entry are submissions, and those that count are listed under their owner. -/
structure Listed (pk : Pubkey) (L : List AccountData) (s : Store) (i : Nat) (e : ByCommitment) : Prop where
  submitted : ∀ z, e.Holds z → z ∈ L
  listed : ∀ z, e.Holds z → 0 < z.account.lamports → (∀ x, e.finalized = some x → ¬ Older z x) → owns s z.account.owner i

theorem listed_update {h1 l : List Op} {s s' : Store} {pk : Pubkey} {i : Nat} {e : ByCommitment} {F : Filters} {a : AccountData}
    {c : Commitment} {b : Bool} (hi : Inv s) (hC : ChainOK par base (h1 ++ l) s.slots) (H : OneChain par base (h1 ++ l))
    (hfb : FinalizedBehind par base (h1 ++ l)) (hK : KeyOK par base (h1 ++ l) (submissions pk l) s pk i e)
    (hL : Listed pk (submissions pk l) s i e) (hpk : a.pubkey = pk)
    (hS : OwnersSettle par base pk h1 (l ++ [.update F a c])) (hc : UpdateCase F s a c s' b) (htr : s'.containsKey pk = true)
    (hin : (c = .processed ∧ base ≤ a.slot ∧
        (OnChainOf par .confirmed (h1 ++ l) a.slot → ∀ t, Notified .finalized (h1 ++ l) t → t ≤ a.slot)) ∨
      (c = .finalized ∧ a.slot < base)) :
    ∃ e', s'.view pk = some e' ∧ Listed pk (submissions pk l ++ [a]) s' i e' := by
  subst hpk
  obtain ⟨hec, hef⟩ := effective_chain hC H hfb hin
  cases hc with
  | rejected h0 => rw [hK.index] at h0; cases h0
  | created h0 => rw [hK.index] at h0; cases h0
  | removed j e2 h0 => simp [containsKey, dropKey] at htr
  | kept j e2 h0 he2 hr =>
    have hij : j = i := by rw [hK.index] at h0; injection h0 with h0; exact h0.symm
    subst hij
    have hee : e2 = e := by
      have := hK.view; rw [view_of_index h0, he2] at this; injection this
    subst hee
    have ho := hi.view hK.view
    have hmem : ∀ z, (e2.update a (s.effective a.slot c)).1.Holds z → z ∈ submissions a.pubkey l ++ [a] := by
      intro z hz
      rcases holds_update hz with rfl | hz
      · simp
      · exact List.mem_append_left _ (hL.submitted z hz)
    have hsubs : submissions a.pubkey (l ++ [.update F a c]) = submissions a.pubkey l ++ [a] := by
      rw [submissions_append, submissions_update, if_pos rfl]
    refine ⟨(e2.update a (s.effective a.slot c)).1, ?_, hmem, ?_⟩
    · rw [view_of_index (by simpa using h0)]
      simp [hi.lt h0]
    have hwas : ∀ o, owns ((s.addIndexToSlot a.slot j c).1.setAt j (e2.update a (s.effective a.slot c)).1) o j ↔ owns s o j := by
      intro o; simp [owns]
    -- what was listed before still is one of the states that count
    have hold : ∀ z, e2.Holds z → 0 < z.account.lamports →
        (∀ x, (e2.update a (s.effective a.slot c)).1.finalized = some x → ¬ Older z x) → owns s z.account.owner j := by
      intro z hz hl hn
      refine hL.listed z hz hl ?_
      intro x hx
      rw [update_finalized] at hn
      split at hn
      · rename_i hcn
        have h1 := hn a rfl
        rw [hx, isNewer_some] at hcn
        have := hcn.2
        simp only [Older] at *; omega
      · exact hn x hx
    cases hup : (e2.update a (s.effective a.slot c)).2 with
    | false =>
      have he := update_false (fun x hx => (hK.get_ge ho H hfb hx).1) hup
      intro z hz hl hn
      rw [ownerAfter]
      rw [hwas]
      refine hold z ?_ hl hn
      rw [he] at hz; exact hz
      all_goals simp
    | true =>
      cases hprev : e2.get (s.effective a.slot c) with
      | none =>
        intro z hz hl hn
        simp only [ownerAfter]
        rw [hwas]
        rcases holds_update hz with rfl | hz
        · -- the first state of this commitment
          obtain ⟨p, hp, -⟩ := ho.last
          have hnp : s.effective z.slot c ≠ .processed := by
            intro hx; rw [hx, ho.get_processed, hp] at hprev; cases hprev
          have hvis : ChainVisible par base (s.effective z.slot c) (h1 ++ l) z := by
            cases hd : s.effective z.slot c with
            | processed => exact absurd hd hnp
            | confirmed => exact hec.1 hnp
            | finalized => exact hef.1 hd
          rcases hS.placed l F z c [] rfl rfl hl _ hnp hvis with ⟨b, hb, hbv⟩ | hall
          · exfalso
            cases hd : s.effective z.slot c with
            | processed => exact absurd hd hnp
            | confirmed =>
              rw [hd] at hprev hbv
              have h2 := hK.conf
              rw [show e2.confirmed = none from hprev] at h2
              exact h2 b hb hbv
            | finalized =>
              rw [hd] at hprev hbv
              have h2 := hK.fin
              rw [show e2.finalized = none from hprev] at h2
              exact h2 b hb hbv
          · have hg : e2.get .processed = some p := by rw [ho.get_processed, hp]
            have hhp := holds_get ho hg
            have hpl := hL.submitted p hhp
            have hpo := hall p hpl
            have hlam : 0 < p.account.lamports := by
              apply Nat.pos_of_ne_zero
              intro h0
              exact hS.closed p (by rw [hsubs]; simp [hpl]) z (by rw [hsubs]; simp) h0 hl hpo
            rw [← hpo]
            exact hL.listed p hhp hlam (fun x hx => (hK.get_ge ho H hfb hx).2 _ _ hg)
        · exact hold z hz hl hn
      | some y =>
        have hhy := holds_get ho hprev
        have hyl := hL.submitted y hhy
        intro z hz hl hn
        simp only [ownerAfter]
        rw [owns_ownerStep, if_pos rfl, hwas]
        unfold ListedAfter
        by_cases hsame : y.account.owner = a.account.owner
        · rw [if_pos hsame]
          rcases holds_update hz with rfl | hz
          · have hlam : 0 < y.account.lamports := by
              apply Nat.pos_of_ne_zero
              intro h0
              exact hS.closed y (by rw [hsubs]; simp [hyl]) z (by rw [hsubs]; simp) h0 hl hsame
            rw [← hsame]
            exact hL.listed y hhy hlam (fun x hx => (hK.get_ge ho H hfb hx).2 _ _ hprev)
          · exact hold z hz hl hn
        · rw [if_neg hsame]
          rcases holds_update hz with rfl | hz
          · exact .inr ⟨by simp [isDeleted]; omega, hS.asked F z c (by simp) rfl hl, rfl⟩
          · refine .inl ⟨hold z hz hl hn, ?_⟩
            rintro ⟨hd, hzo⟩
            have hyf : e2.finalized = some y := by rw [hd] at hprev; exact hprev
            have hav := hef.1 hd
            have hnew := hK.fin
            rw [hyf] at hnew
            have hyv := (newestWhere_mem hnew).2.1
            by_cases hya : Older y a
            · have hfin : (e2.update a (s.effective a.slot c)).1.finalized = some a := by
                rw [update_finalized, if_pos ⟨hd, by rw [hyf, isNewer_some]; exact hya⟩]
              have := hS.noReturn y (by rw [hsubs]; simp [hyl]) a (by rw [hsubs]; simp) z
                (by rw [hsubs]; simp [hL.submitted z hz]) (by rw [← List.append_assoc]; exact visible_mono hyv)
                (by rw [← List.append_assoc]; exact visible_mono hav) hya (hn a hfin) hl hzo
              exact hsame this.symm
            · exact hsame (hS.stale l F a c [] y rfl rfl hav hnew hya).symm

theorem listed_slot {h1 l : List Op} {s s' : Store} {pk : Pubkey} {i : Nat} {e : ByCommitment} {F : Filters} {σ : Order}
    {info : SlotInfo} {c : Commitment} {r path m' w} (hi : Inv s)
    (hK : KeyOK par base (h1 ++ l) (submissions pk l) s pk i e)
    (hL : Listed pk (submissions pk l) s i e) (hS : OwnersSettle par base pk h1 (l ++ [.slot F σ info c]))
    (hc : SlotCase F σ s info c s' r path m' w)
    {e' : ByCommitment} (hK' : KeyOK par base (h1 ++ l ++ [.slot F σ info c]) (submissions pk l) s' pk i e') :
    Listed pk (submissions pk l) s' i e' := by
  rcases hc.view hi pk with ⟨h1, -⟩ | ⟨i2, e2, h1', h2, hat, ho, hcase⟩
  · rw [hK.index] at h1; cases h1
  rw [hK.index] at h1'; injection h1' with h1'; subst h1'
  rw [hK.view] at h2; injection h2 with h2; subst h2
  rcases hcase with ⟨hno, hv, hx⟩ | ⟨k, hk, hv, hx⟩
  · rw [hK'.view] at hv; injection hv with hv; subst hv
    refine ⟨hL.submitted, ?_⟩
    intro z hz hl hn
    rw [hc.owns_same _ i (fun x hxw hxi => hno x.2 (by rw [← hxi]; exact hxw))]
    exact hL.listed z hz hl hn
  · have hpe : e' = (e.promote k c).1 := after_eq (by rw [← hv]; exact hK'.view)
    subst hpe
    refine ⟨fun z hz => hL.submitted z (holds_promote ho hz), ?_⟩
    intro z hz hl hn
    have hz0 := holds_promote ho hz
    have hwas : owns s z.account.owner i := by
      refine hL.listed z hz0 hl ?_
      intro x hx
      rw [promote_finalized] at hn
      cases hf : BMap.find e.processed k with
      | none => rw [hf] at hn; exact hn x hx
      | some n =>
        rw [hf] at hn
        simp only [hx] at hn
        split at hn
        · split at hn
          · have := hn n rfl
            simp only [Older] at *; omega
          · exact hn x rfl
        · exact hn x rfl
    have := hc.owns_prom z.account.owner (i, k) hk
    simp only [hat] at this
    rw [this]
    unfold ListedProm
    split
    · rename_i a y hpr
      obtain ⟨hcp, hfa, hy, hlt⟩ := (promote_result _ _ _ _ _).1 hpr
      unfold ListedAfter
      by_cases hsame : y.account.owner = a.account.owner
      · rw [if_pos hsame]; exact hwas
      · rw [if_neg hsame]
        refine .inl ⟨hwas, ?_⟩
        rintro ⟨rfl, hzo⟩
        have hyf : e.finalized = some y := hy.symm
        have hfin : (e.promote k .finalized).1.finalized = some a := by
          rw [promote_finalized, hfa]
          simp only [if_true, hyf]
          rw [if_pos (hlt y rfl)]
        have hnew := hK.fin
        rw [hyf] at hnew
        have hnew' := hK'.fin
        rw [hfin] at hnew'
        have hsubs : submissions pk (l ++ [.slot F σ info .finalized]) = submissions pk l := by
          rw [submissions_append]; simp [submissions]
        have := hS.noReturn y (by rw [hsubs]; exact (newestWhere_mem hnew).1) a (by rw [hsubs]; exact (newestWhere_mem hnew').1) z
          (by rw [hsubs]; exact hL.submitted z hz0)
          (by rw [← List.append_assoc]; exact visible_mono (newestWhere_mem hnew).2.1)
          (by rw [← List.append_assoc]; exact (newestWhere_mem hnew').2.1) (.inl (hlt y rfl)) (hn a hfin) hl hzo
        exact hsame this.symm
    · exact hwas

/-- An update of another account. -/
theorem listed_other {L : List AccountData} {s s' : Store} {pk : Pubkey} {i : Nat} {e : ByCommitment} {F : Filters} {a : AccountData}
    {c : Commitment} {b : Bool} (hi : Inv s) (hix : s.index pk = some i) (hL : Listed pk L s i e) (hpk : a.pubkey ≠ pk)
    (hc : UpdateCase F s a c s' b) : Listed pk L s' i e := by
  refine ⟨hL.submitted, fun z hz hl hn => ?_⟩
  have hold := hL.listed z hz hl hn
  cases hc with
  | rejected => exact hold
  | created => exact (owns_addAccountOwner s s.accounts.length a.account.owner _ i).2 (.inl hold)
  | kept j e2 hjx he hr =>
    have hne : i ≠ j := by rintro rfl; exact hpk (hi.inj hjx hix)
    rw [owns_ownerAfter_ne hne]
    simpa [owns] using hold
  | removed j e2 hjx he hr =>
    have hne : i ≠ j := by rintro rfl; exact hpk (hi.inj hjx hix)
    have : owns (ownerAfter F (s.addIndexToSlot a.slot j c).1 (e2.get (s.effective a.slot c)) a j (s.effective a.slot c) true)
        z.account.owner i := by
      rw [owns_ownerAfter_ne hne]; simpa [owns] using hold
    simpa [owns] using this

theorem listed_run {h1 : List Op} {s1 : Store} {pk : Pubkey} (hr1 : empty.run h1 = .ok s1)
    (hun : s1.containsKey pk = false) : ∀ (l : List Op) (s : Store), l ≠ [] → s1.run l = .ok s →
    StaysTracked s1 l pk → OneChain par base (h1 ++ l) → ParentsKnown par base (h1 ++ l) → FinalizedBehind par base (h1 ++ l) →
    UpdatesInTime par base pk h1 l → OwnersSettle par base pk h1 l →
    ∃ i e, KeyOK par base (h1 ++ l) (submissions pk l) s pk i e ∧ Listed pk (submissions pk l) s i e := by
  intro l
  refine snoc_induction (P := fun l => ∀ s, l ≠ [] → s1.run l = .ok s → StaysTracked s1 l pk →
    OneChain par base (h1 ++ l) → ParentsKnown par base (h1 ++ l) → FinalizedBehind par base (h1 ++ l) →
    UpdatesInTime par base pk h1 l → OwnersSettle par base pk h1 l →
    ∃ i e, KeyOK par base (h1 ++ l) (submissions pk l) s pk i e ∧ Listed pk (submissions pk l) s i e) ?_ ?_ l
  · intro s hn; exact absurd rfl hn
  · intro l op ih s' hne hrun htr H hpk hfb hut hS
    obtain ⟨i', e', hK'⟩ := keyOK hr1 hun _ _ hne hrun htr H hpk hfb hut
    refine ⟨i', e', hK', ?_⟩
    have hi1 := inv_run inv_empty hr1
    obtain ⟨s, hs, hstep⟩ := run_snoc hrun
    have hi := inv_run hi1 hs
    have hrunA : empty.run (h1 ++ l) = .ok s := by rw [run_append, hr1]; exact hs
    obtain ⟨s'', hs'', hck⟩ := htr (l ++ [op]) (by simp) (List.prefix_refl _)
    rw [hrun] at hs''; cases hs''
    have htr' : StaysTracked s1 l pk := fun p hp hpre =>
      htr p hp (List.IsPrefix.trans hpre (List.prefix_append _ _))
    rw [← List.append_assoc] at H hpk hfb hK'
    have H0 := oneChain_init H
    have hpk0 := parentsKnown_init hpk
    have hfb0 := finalizedBehind_init hfb
    have hC := chainOK_run _ _ hrunA H0 hpk0 hfb0
    rw [submissions_append] at hK' ⊢
    by_cases hl : l = []
    · subst hl
      simp only [run, Run.ok.injEq] at hs; subst hs
      have hidx0 : s1.index pk = none := by simpa [containsKey] using hun
      cases op with
      | slot F σ info c =>
        obtain ⟨s2, r, he, path, m', w, hc⟩ := processSlot_case hi F σ info c
        simp only [step, he, Run.ok_bind, Run.pure_eq, Run.ok.injEq] at hstep
        subst hstep
        rcases hc.view hi pk with ⟨-, h2, -⟩ | ⟨i, e, h1, -⟩
        · rw [hK'.index] at h2; cases h2
        · rw [hidx0] at h1; cases h1
      | update F a c =>
        obtain ⟨s2, b, he, hc⟩ := updateAccount_case hi F a c
        simp only [step, he, Run.ok_bind, Run.pure_eq, Run.ok.injEq] at hstep
        subst hstep
        have hpke : pk = a.pubkey := by
          apply Classical.byContradiction
          intro hne
          have hv := (view_updateCase hi hc pk).1 hne
          have hi' := inv_updateCase hi hc
          have h3 := hi'.view_isSome pk
          rw [hv, hck, hi.view_isSome, hun] at h3
          cases h3
        subst hpke
        cases hc with
        | rejected => rw [hun] at hck; cases hck
        | kept i e h0 => rw [hidx0] at h0; cases h0
        | removed i e h0 => rw [hidx0] at h0; cases h0
        | created h0 hf =>
          have hv := hK'.view
          rw [view_created hi, if_pos rfl] at hv
          injection hv with hv; subst hv
          have hx := hK'.index
          simp only [createdStore, if_true, Option.some.injEq] at hx
          subst hx
          have hz : ∀ z, (ByCommitment.new a c).Holds z → z = a := by
            rintro z (⟨k, h⟩ | h | h)
            · simp only [ByCommitment.new, BMap.find] at h
              split at h <;> simp_all
            · simp only [ByCommitment.new] at h; split at h <;> simp_all
            · simp only [ByCommitment.new] at h; split at h <;> simp_all
          refine ⟨fun z h => by rw [hz z h]; simp [submissions], fun z h _ _ => ?_⟩
          rw [hz z h]
          exact (owns_addAccountOwner s1 s1.accounts.length a.account.owner _ _).2 (.inr ⟨rfl, rfl⟩)
    · obtain ⟨i, e, hK, hL⟩ := ih s hl hs htr' H0 hpk0 hfb0 (updatesInTime_init hut) (ownersSettle_init hS)
      cases op with
      | update F a c =>
        obtain ⟨s2, b, he, hc⟩ := updateAccount_case hi F a c
        simp only [step, he, Run.ok_bind, Run.pure_eq, Run.ok.injEq] at hstep
        subst hstep
        have hidx : i' = i := by
          have h0 : s2.index pk = s.index pk := by
            have hx := hK'.index
            cases hc with
            | rejected => rfl
            | created h0 =>
              by_cases hp : pk = a.pubkey
              · rw [← hp, hK.index] at h0; cases h0
              · simp [createdStore, hp]
            | kept => simp
            | removed =>
              by_cases hp : pk = a.pubkey
              · simp [dropKey, hp] at hx
              · simp [dropKey, hp]
          have hx := hK'.index
          rw [h0, hK.index] at hx; injection hx with hx; exact hx.symm
        subst hidx
        by_cases hpka : a.pubkey = pk
        · obtain ⟨e2, hv, hL'⟩ := listed_update hi hC H0 hfb0 hK hL hpka hS hc hck (by
            rcases H.updates F a c (by simp) with rfl | hx
            · obtain ⟨h2, h3⟩ := hut l F a [] rfl hpka
              exact Or.inl ⟨rfl, h2, fun hx => (h3 hx).2⟩
            · exact Or.inr hx)
          rw [hK'.view] at hv; injection hv with hv; subst hv
          rw [submissions_update, if_pos hpka]
          exact hL'
        · have hv := (view_updateCase hi hc pk).1 (fun h => hpka h.symm)
          rw [hK'.view, hK.view] at hv; injection hv with hv; subst hv
          rw [submissions_update, if_neg hpka, List.append_nil]
          exact listed_other hi hK.index hL hpka hc
      | slot F σ info c =>
        obtain ⟨s2, r, he, path, m', w, hc⟩ := processSlot_case hi F σ info c
        simp only [step, he, Run.ok_bind, Run.pure_eq, Run.ok.injEq] at hstep
        subst hstep
        rw [submissions_slot, List.append_nil] at hK' ⊢
        have hidx : i' = i := by
          have hx := hK'.index
          rcases hc.view hi pk with ⟨h1, -⟩ | ⟨i2, e2, h1, -, -, -, hcase⟩
          · rw [hK.index] at h1; cases h1
          · rw [hK.index] at h1; injection h1 with h1; subst h1
            rcases hcase with ⟨-, -, h2⟩ | ⟨k, -, -, h2 | ⟨h2, -⟩⟩
            · rw [hx] at h2; injection h2
            · rw [hx] at h2; injection h2
            · rw [hx] at h2; cases h2
        subst hidx
        exact listed_slot hi hK hL hS hc hK'

end
end Store
end LAM
