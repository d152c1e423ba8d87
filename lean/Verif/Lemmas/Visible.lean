import Verif.Lemmas.Lineage
/-!
# Recorded accounts of slots that are not confirmed yet
-/
namespace LAM
open Spec ByCommitment

namespace Store

theorem mem_upd_addIndexToSlot (s : Store) (k i : Nat) (c : Commitment) (j x : Nat) :
    x ∈ upd (s.addIndexToSlot k i c).1.slots j ↔
      x ∈ upd s.slots j ∨ (j = k ∧ x = i ∧ c ≠ .finalized) := by
  unfold upd
  rw [find_addIndexToSlot]
  by_cases hk : k = j
  · subst hk
    simp only [if_true, Option.map_some, Option.getD_some, true_and]
    cases hf : BMap.find s.slots k with
    | none => by_cases hc : c = .finalized <;> simp [hc, mem_setInsert]
    | some st =>
      by_cases hc : c = .finalized <;> simp [hc, mem_setInsert]
      exact Or.comm
  · have : ¬ (j = k) := fun h => hk h.symm
    simp [hk, this]

/-- A recorded status keeps its commitment, and its accounts, under an update. -/
theorem find_addIndexToSlot_some {s : Store} {k i : Nat} {c : Commitment} {j : Nat} {st : SlotStatus}
    (hf : BMap.find s.slots j = some st) : ∃ st', BMap.find (s.addIndexToSlot k i c).1.slots j = some st' ∧
      st'.commitment = st.commitment ∧ (∀ x ∈ st.accountsUpdated, x ∈ st'.accountsUpdated) := by
  rw [find_addIndexToSlot]
  by_cases hk : k = j
  · subst hk
    simp only [if_true, hf, Option.getD_some]
    by_cases hc : c = .finalized
    · simp [hc]
    · simp only [hc, if_false]
      exact ⟨_, rfl, rfl, fun x hx => (mem_setInsert _ _ _).2 (Or.inr hx)⟩
  · simp only [hk, if_false]; exact ⟨st, hf, rfl, fun x hx => hx⟩

/-- What is known of the submissions for a pubkey since it is tracked. -/
structure LogOK (h : List Op) (L : List AccountData) (s : Store) (pk : Pubkey) (i : Nat)
    (e : ByCommitment) : Prop where
  index : s.index pk = some i
  view : s.view pk = some e
  recorded : ∀ j, i ∈ upd s.slots j → ∃ a ∈ L, a.slot = j
  present : ∀ a ∈ L, (BMap.find e.processed a.slot).isSome = true ∨
    ∃ f, e.finalized = some f ∧ a.slot < f.slot
  waiting : ∀ a ∈ L, (∃ F σ info, Op.slot F σ info .finalized ∈ h ∧ a.slot < info.slot) ∨
    Settled .confirmed h a.slot ∨
    ∃ st, BMap.find s.slots a.slot = some st ∧ st.commitment = .processed ∧ i ∈ st.accountsUpdated

theorem mem_upd {m : BMap SlotStatus} {k i : Nat} :
    i ∈ upd m k ↔ ∃ st, BMap.find m k = some st ∧ i ∈ st.accountsUpdated := by
  unfold upd
  cases BMap.find m k <;> simp

theorem prune_keeps {m : BMap AccountData} (hs : BMap.Sorted m) {slot k : Nat}
    (h : (BMap.find m k).isSome = true) :
    (BMap.find (prune slot m) k).isSome = true ∨ k < slot := by
  by_cases hk : k < slot
  · exact Or.inr hk
  · left
    rw [find_prune_ge (slot := slot) hs (Nat.le_of_not_lt hk)]; exact h

theorem logOK_update {h : List Op} {L : List AccountData} {s s' : Store} {pk : Pubkey} {i : Nat}
    {e : ByCommitment} (hi : Inv s) (hlin : Lineage h s) (hL : LogOK h L s pk i e) {F : Filters}
    {a : AccountData} {c : Commitment} {b : Bool} (hc : UpdateCase F s a c s' b)
    (htr : s'.containsKey pk = true) :
    ∃ e', LogOK (h ++ [.update F a c]) (L ++ submissions pk [.update F a c]) s' pk i e' := by
  have hsub : ∀ o ∈ h, o ∈ h ++ [Op.update F a c] := fun o ho => List.mem_append_left _ ho
  have hmono : ∀ (s' : Store), (∀ j st, BMap.find s.slots j = some st → ∃ st', BMap.find s'.slots j = some st' ∧
      st'.commitment = st.commitment ∧ (∀ x ∈ st.accountsUpdated, x ∈ st'.accountsUpdated)) →
      ∀ x ∈ L, (∃ G σ info, Op.slot G σ info .finalized ∈ h ++ [.update F a c] ∧ x.slot < info.slot) ∨
        Settled .confirmed (h ++ [.update F a c]) x.slot ∨
        ∃ st, BMap.find s'.slots x.slot = some st ∧ st.commitment = .processed ∧ i ∈ st.accountsUpdated := by
    intro s' hs' x hx
    rcases hL.waiting x hx with ⟨G, σ, info, hm, hlt⟩ | hse | ⟨st, hf, hcm, hmem⟩
    · exact Or.inl ⟨G, σ, info, hsub _ hm, hlt⟩
    · exact Or.inr (Or.inl (hse.mono hsub))
    · obtain ⟨st', h1, h2, h3⟩ := hs' _ _ hf
      exact Or.inr (Or.inr ⟨st', h1, by rw [h2]; exact hcm, h3 i hmem⟩)
  have hi' := inv_updateCase hi hc
  by_cases hpk : pk = a.pubkey
  · -- the pubkey itself is updated
    subst hpk
    rw [submissions_update, if_pos rfl]
    cases hc with
    | rejected h0 => rw [hL.index] at h0; cases h0
    | created h0 => rw [hL.index] at h0; cases h0
    | removed j e2 h0 => simp [containsKey, dropKey] at htr
    | kept j e2 h0 he2 hr =>
      have hij : j = i := by rw [hL.index] at h0; simp at h0; exact h0.symm
      subst hij
      have hee : e2 = e := by
        have := hL.view; rw [view_of_index h0, he2] at this; simpa using this
      subst hee
      have ho := hi.view hL.view
      have hsl : ∀ x, (ownerAfter F ((s.addIndexToSlot a.slot j c).1.setAt j (e2.update a (s.effective a.slot c)).1)
          (e2.get (s.effective a.slot c)) a j (s.effective a.slot c)
          (e2.update a (s.effective a.slot c)).2).slots = x → x = (s.addIndexToSlot a.slot j c).1.slots := by
        intro x hx; rw [← hx]; simp
      refine ⟨(e2.update a (s.effective a.slot c)).1, ?_, ?_, ?_, ?_, ?_⟩
      · simpa using h0
      · rw [view_of_index (by simpa using h0)]
        simp [hi.lt h0]
      · intro k hk
        rw [hsl _ rfl, mem_upd_addIndexToSlot] at hk
        rcases hk with hk | ⟨rfl, -, -⟩
        · obtain ⟨x, hx, hxs⟩ := hL.recorded k hk
          exact ⟨x, by simp [hx], hxs⟩
        · exact ⟨a, by simp, rfl⟩
      · intro x hx
        have hfin : ∀ f, e2.finalized = some f → ∃ f', (e2.update a (s.effective a.slot c)).1.finalized = some f' ∧
            f.slot ≤ f'.slot := by
          intro f hf
          rw [update_finalized]
          split
          · rename_i hn
            rw [hf, isNewer_some] at hn
            refine ⟨a, rfl, ?_⟩
            have := hn.2; simp only [Older] at this; omega
          · exact ⟨f, hf, Nat.le_refl _⟩
        rcases List.mem_append.1 hx with hx | hx
        · rcases hL.present x hx with hp | ⟨f, hf, hlt⟩
          · left
            rw [update_processed, find_updateProcessed]
            split
            · split
              · split <;> rfl
              · rfl
            · exact hp
          · obtain ⟨f', hf', hle⟩ := hfin f hf
            exact Or.inr ⟨f', hf', by omega⟩
        · simp at hx; subst hx
          left
          rw [update_processed, find_updateProcessed, if_pos rfl]
          split
          · split <;> rfl
          · rfl
      · intro x hx
        rcases List.mem_append.1 hx with hx | hx
        · refine hmono _ ?_ x hx
          intro k st hf
          rw [hsl _ rfl]
          exact find_addIndexToSlot_some hf
        · simp at hx; subst hx
          right
          by_cases hcp : c = .processed
          · subst hcp
            cases hf : BMap.find s.slots x.slot with
            | none =>
              right
              refine ⟨⟨.processed, [j], none⟩, ?_, rfl, by simp⟩
              rw [hsl _ rfl, find_addIndexToSlot]
              simp [hf, setInsert, sinsert]
            | some st =>
              by_cases hst : st.commitment = .processed
              · right
                refine ⟨{ st with accountsUpdated := setInsert st.accountsUpdated j }, ?_, hst, ?_⟩
                · rw [hsl _ rfl, find_addIndexToSlot]; simp [hf]
                · exact (mem_setInsert _ _ _).2 (Or.inl rfl)
              · left; exact (hlin.conf _ _ hf hst).mono hsub
          · left
            refine .reported (Or.inr ⟨F, x, c, by simp, rfl, ?_⟩)
            cases c
            · exact absurd rfl hcp
            · decide
            · decide
  · -- another pubkey is updated
    rw [submissions_update, if_neg (fun h => hpk h.symm), List.append_nil]
    have hview := (view_updateCase hi hc pk).1 hpk
    have hidx : s'.index pk = s.index pk := by
      cases hc with
      | rejected => rfl
      | created => simp [createdStore, hpk]
      | kept => simp
      | removed => simp [dropKey, hpk]
    have hslots : s'.slots = s.slots ∨ ∃ j, j ≠ i ∧ s'.slots = (s.addIndexToSlot a.slot j c).1.slots := by
      cases hc with
      | rejected => exact Or.inl rfl
      | created h0 =>
        refine Or.inr ⟨s.accounts.length, ?_, rfl⟩
        have := hi.lt hL.index; omega
      | kept j e2 h0 =>
        refine Or.inr ⟨j, ?_, by simp⟩
        rintro rfl; exact hpk (hi.inj hL.index h0)
      | removed j e2 h0 =>
        refine Or.inr ⟨j, ?_, by simp⟩
        rintro rfl; exact hpk (hi.inj hL.index h0)
    refine ⟨e, by rw [hidx]; exact hL.index, by rw [hview]; exact hL.view, ?_, hL.present, ?_⟩
    · intro k hk
      rcases hslots with hsl | ⟨j, hj, hsl⟩
      · rw [hsl] at hk; exact hL.recorded k hk
      · rw [hsl, mem_upd_addIndexToSlot] at hk
        rcases hk with hk | ⟨-, hk, -⟩
        · exact hL.recorded k hk
        · exact absurd hk.symm hj
    · apply hmono
      intro k st hf
      rcases hslots with hsl | ⟨j, hj, hsl⟩
      · rw [hsl]; exact ⟨st, hf, rfl, fun x hx => hx⟩
      · rw [hsl]; exact find_addIndexToSlot_some hf

theorem logOK_slot {h : List Op} {L : List AccountData} {s s' : Store} {pk : Pubkey} {i : Nat}
    {e : ByCommitment} (hi : Inv s) (hL : LogOK h L s pk i e) {F : Filters}
    {σ : Order} {info : SlotInfo} {c : Commitment} {r path m' w}
    (hc : SlotCase F σ s info c s' r path m' w)
    (hpath : c ≠ .processed → ∀ x ∈ path, Settled .confirmed (h ++ [.slot F σ info c]) x)
    (htr : s'.containsKey pk = true) : ∃ e', LogOK (h ++ [.slot F σ info c]) L s' pk i e' := by
  have hsub : ∀ o ∈ h, o ∈ h ++ [Op.slot F σ info c] := fun o ho => List.mem_append_left _ ho
  have hsm := hc.walk.sorted hi.slotsSorted
  have hrec : ∀ j, i ∈ upd s'.slots j → ∃ a ∈ L, a.slot = j := by
    intro j hj
    apply hL.recorded j
    rw [← hc.walk.upd_eq j]
    rw [hc.slots] at hj
    obtain ⟨st, hf, hm⟩ := mem_upd.1 hj
    rw [find_dropOldSlots hsm] at hf
    split at hf
    · simp at hf
    · exact mem_upd.2 ⟨st, hf, hm⟩
  have hwait : ∀ a ∈ L, (∃ G τ info', Op.slot G τ info' .finalized ∈ h ++ [.slot F σ info c] ∧ a.slot < info'.slot) ∨
      Settled .confirmed (h ++ [.slot F σ info c]) a.slot ∨
      ∃ st, BMap.find s'.slots a.slot = some st ∧ st.commitment = .processed ∧ i ∈ st.accountsUpdated := by
    intro a ha
    rcases hL.waiting a ha with ⟨G, τ, info', hm, hlt⟩ | hse | ⟨st, hf, hcm, hmem⟩
    · exact Or.inl ⟨G, τ, info', hsub _ hm, hlt⟩
    · exact Or.inr (Or.inl (hse.mono hsub))
    · by_cases hdrop : c = .finalized ∧ a.slot < info.slot
      · left
        exact ⟨F, σ, info, by simp [hdrop.1], hdrop.2⟩
      · have hfs : BMap.find s'.slots a.slot = BMap.find m' a.slot := by
          rw [hc.slots, find_dropOldSlots hsm, if_neg hdrop]
        by_cases hp : a.slot ∈ path
        · by_cases hcp : c = .processed
          · right; right
            obtain ⟨st', h1, h2⟩ := (hc.walk.status a.slot).2 hp
            refine ⟨st', by rw [hfs]; exact h1, by rw [h2, hcp], ?_⟩
            have : i ∈ upd m' a.slot := by
              rw [hc.walk.upd_eq]; exact mem_upd.2 ⟨st, hf, hmem⟩
            obtain ⟨st2, h3, h4⟩ := mem_upd.1 this
            rw [h1] at h3; cases h3; exact h4
          · exact Or.inr (Or.inl (hpath hcp _ hp))
        · right; right
          exact ⟨st, by rw [hfs, (hc.walk.status a.slot).1 hp]; exact hf, hcm, hmem⟩
  rcases hc.view hi pk with ⟨h1, -⟩ | ⟨i2, e2, h1, h2, -, ho, hcase⟩
  · rw [hL.index] at h1; cases h1
  · rw [hL.index] at h1; cases h1
    rw [hL.view] at h2; cases h2
    rcases hcase with ⟨-, hv, hx⟩ | ⟨k, hk, hv, hx⟩
    · exact ⟨e, hx, hv, hrec, hL.present, hwait⟩
    · have hx' : s'.index pk = some i := by
        rcases hx with hx | ⟨hx, -⟩
        · exact hx
        · simp [containsKey, hx] at htr
      have hsome : (s'.view pk).isSome = true := by rw [hc.inv.view_isSome]; exact htr
      obtain ⟨e', he'⟩ := Option.isSome_iff_exists.1 hsome
      have hpe : e' = (e.promote k c).1 := after_eq (by rw [← hv]; exact he')
      subst hpe
      refine ⟨_, hx', he', hrec, ?_, hwait⟩
      intro a ha
      have hik : i ∈ upd s.slots k := by
        rw [hc.gathered] at hk
        rcases mem_gather_sub hk with hk | ⟨-, hk⟩
        · simp at hk
        · exact hk
      have hfinmono : ∀ f, e.finalized = some f → ∃ f', (e.promote k c).1.finalized = some f' ∧ f.slot ≤ f'.slot := by
        intro f hf
        rw [promote_finalized, hf]
        cases BMap.find e.processed k with
        | none => exact ⟨f, rfl, Nat.le_refl _⟩
        | some x =>
          simp only
          split
          · split
            · exact ⟨x, rfl, by omega⟩
            · exact ⟨f, rfl, Nat.le_refl _⟩
          · exact ⟨f, rfl, Nat.le_refl _⟩
      rcases hL.present a ha with hp | ⟨f, hf, hlt⟩
      · rw [promote_processed_map]
        split
        · rename_i hcf
          rcases prune_keeps (slot := k) ho.sorted hp with hp | hlt
          · exact Or.inl hp
          · -- pruned: the state of slot `k` was promoted, or a later one is finalized already
            right
            obtain ⟨x, hx, hxk⟩ := hL.recorded k hik
            rcases hL.present x hx with hp' | ⟨f, hf, hlt'⟩
            · obtain ⟨y, hy⟩ := Option.isSome_iff_exists.1 hp'
              rw [hxk] at hy
              have hys := (ho.keys _ _ hy).1
              rw [promote_finalized, hy]
              simp only [hcf, if_true]
              cases hef : e.finalized with
              | none => exact ⟨y, rfl, by omega⟩
              | some f =>
                simp only
                split
                · exact ⟨y, rfl, by omega⟩
                · exact ⟨f, rfl, by omega⟩
            · obtain ⟨f', hf', hle⟩ := hfinmono f hf
              exact ⟨f', hf', by omega⟩
        · exact Or.inl hp
      · obtain ⟨f', hf', hle⟩ := hfinmono f hf
        exact Or.inr ⟨f', hf', by omega⟩

/-- Slots raised by a confirmed or finalized notification are settled. -/
theorem path_settled {h : List Op} {s s' : Store} (hrun : empty.run h = .ok s) {F : Filters}
    {σ : Order} {info : SlotInfo} {c : Commitment} {r path m' w}
    (hc : SlotCase F σ s info c s' r path m' w) (hcp : c ≠ .processed) :
    ∀ x ∈ path, Settled .confirmed (h ++ [.slot F σ info c]) x := by
  have hl := lineage h s hrun
  have hsub : ∀ o ∈ h, o ∈ h ++ [Op.slot F σ info c] := fun o ho => List.mem_append_left _ ho
  have hop : Op.slot F σ info c ∈ h ++ [Op.slot F σ info c] := by simp
  have hle : Commitment.confirmed ≤ c := by
    cases c
    · exact absurd rfl hcp
    · decide
    · decide
  refine (hc.walk.linked
    (A := fun k p => Settled .confirmed (h ++ [.slot F σ info c]) k → Settled .confirmed (h ++ [.slot F σ info c]) p)
    (R := fun k => Settled .confirmed (h ++ [.slot F σ info c]) k) ?_ ?_ ?_ ?_ ?_).1
  · intro k st p hf hp hk
    rcases hl.links k st p hf hp with ha | ⟨F', σ', info', hm, hpp, -⟩
    · exact .ancestor hk (ha.mono hsub)
    · rw [← hpp]
      exact .ancestor (.reported (Or.inl ⟨_, _, _, _, hsub _ hm, rfl, by decide⟩)) ⟨_, _, _, _, hsub _ hm, rfl, rfl⟩
  · intro p hp hk
    simp at hp; subst hp
    exact .ancestor hk ⟨_, _, _, _, hop, rfl, rfl⟩
  · exact .reported (Or.inl ⟨_, _, _, _, hop, rfl, hle⟩)
  · intro _ k p hk hA; exact hA hk
  · intro _ k _ _ _
    exact .ancestor (.reported (Or.inl ⟨_, _, _, _, hop, rfl, hle⟩)) ⟨_, _, _, _, hop, rfl, rfl⟩

/-- The invariant holds for the submissions since a pubkey is tracked. -/
theorem logOK {h1 : List Op} {s1 : Store} {pk : Pubkey} (hr1 : empty.run h1 = .ok s1)
    (hun : s1.containsKey pk = false) : ∀ (l : List Op) (s : Store), l ≠ [] → s1.run l = .ok s →
    StaysTracked s1 l pk → ∃ i e, LogOK (h1 ++ l) (submissions pk l) s pk i e := by
  intro l
  refine snoc_induction (P := fun l => ∀ s, l ≠ [] → s1.run l = .ok s → StaysTracked s1 l pk →
    ∃ i e, LogOK (h1 ++ l) (submissions pk l) s pk i e) ?_ ?_ l
  · intro s hn; exact absurd rfl hn
  · intro l op ih s' _ hrun htr
    have hi1 := inv_run inv_empty hr1
    obtain ⟨s, hs, hstep⟩ := run_snoc hrun
    have hi := inv_run hi1 hs
    have hrunA : empty.run (h1 ++ l) = .ok s := by rw [run_append, hr1]; exact hs
    have hlin := lineage _ _ hrunA
    obtain ⟨s'', hs'', hck⟩ := htr (l ++ [op]) (by simp) (List.prefix_refl _)
    rw [hrun] at hs''; cases hs''
    have htr' : StaysTracked s1 l pk := fun p hp hpre =>
      htr p hp (List.IsPrefix.trans hpre (List.prefix_append _ _))
    rw [submissions_append, ← List.append_assoc]
    by_cases hl : l = []
    · -- the first call must be the one that creates the account
      subst hl
      simp only [run, Run.ok.injEq] at hs; subst hs
      have hidx0 : s1.index pk = none := by simpa [containsKey] using hun
      cases op with
      | slot F σ info c =>
        obtain ⟨s2, r, he, path, m', w, hc⟩ := processSlot_case hi F σ info c
        simp only [step, he, Run.ok_bind, Run.pure_eq, Run.ok.injEq] at hstep
        subst hstep
        rcases hc.view hi pk with ⟨-, h2, -⟩ | ⟨i, e, h1, -⟩
        · simp [containsKey, h2] at hck
        · rw [hidx0] at h1; cases h1
      | update F a c =>
        obtain ⟨s2, b, he, hc⟩ := updateAccount_case hi F a c
        simp only [step, he, Run.ok_bind, Run.pure_eq, Run.ok.injEq] at hstep
        subst hstep
        have hpk : pk = a.pubkey := by
          apply Classical.byContradiction
          intro hne
          have hv := (view_updateCase hi hc pk).1 hne
          have hi' := inv_updateCase hi hc
          have h3 := hi'.view_isSome pk
          rw [hv, hck, hi.view_isSome, hun] at h3
          cases h3
        subst hpk
        cases hc with
        | rejected => rw [hun] at hck; cases hck
        | kept i e h0 => rw [hidx0] at h0; cases h0
        | removed i e h0 => rw [hidx0] at h0; cases h0
        | created h0 hf =>
          refine ⟨s1.accounts.length, ByCommitment.new a c, by simp [createdStore], ?_, ?_, ?_, ?_⟩
          · rw [view_created hi, if_pos rfl]
          · intro j hj
            simp only [createdStore, mem_upd_addIndexToSlot] at hj
            rcases hj with hj | ⟨rfl, -, -⟩
            · have := upd_lt hi hj; omega
            · exact ⟨a, by simp [submissions], rfl⟩
          · intro x hx
            simp [submissions] at hx; subst hx
            left; simp [ByCommitment.new, BMap.find]
          · intro x hx
            simp [submissions] at hx; subst hx
            right
            by_cases hcp : c = .processed
            · subst hcp
              cases hff : BMap.find s1.slots x.slot with
              | none =>
                right
                refine ⟨⟨.processed, [s1.accounts.length], none⟩, ?_, rfl, by simp⟩
                simp only [createdStore]
                rw [find_addIndexToSlot]
                simp [hff, setInsert, sinsert]
              | some st =>
                by_cases hst : st.commitment = .processed
                · right
                  refine ⟨{ st with accountsUpdated := setInsert st.accountsUpdated s1.accounts.length }, ?_, hst, ?_⟩
                  · simp only [createdStore]; rw [find_addIndexToSlot]; simp [hff]
                  · exact (mem_setInsert _ _ _).2 (Or.inl rfl)
                · left
                  refine (hlin.conf _ _ hff hst).mono ?_
                  intro o ho; simp at ho ⊢; exact Or.inl ho
            · left
              refine .reported (Or.inr ⟨F, x, c, by simp, rfl, ?_⟩)
              cases c
              · exact absurd rfl hcp
              · decide
              · decide
    · obtain ⟨i, e, hL⟩ := ih s hl hs htr'
      cases op with
      | update F a c =>
        obtain ⟨s2, b, he, hc⟩ := updateAccount_case hi F a c
        simp only [step, he, Run.ok_bind, Run.pure_eq, Run.ok.injEq] at hstep
        subst hstep
        obtain ⟨e', hL'⟩ := logOK_update hi hlin hL hc hck
        exact ⟨i, e', hL'⟩
      | slot F σ info c =>
        obtain ⟨s2, r, he, path, m', w, hc⟩ := processSlot_case hi F σ info c
        simp only [step, he, Run.ok_bind, Run.pure_eq, Run.ok.injEq] at hstep
        subst hstep
        rw [submissions_slot, List.append_nil]
        obtain ⟨e', hL'⟩ := logOK_slot hi hL hc (path_settled hrunA hc) hck
        exact ⟨i, e', hL'⟩

end Store
end LAM
