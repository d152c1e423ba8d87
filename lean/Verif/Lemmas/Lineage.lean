import Verif.Spec.History
import Verif.Lemmas.Steps
/-!
# Which slots the store considers confirmed and finalized
-/
namespace LAM
open Spec ByCommitment

namespace Store

/-- The walk follows recorded links from its starting slot. -/
theorem Walk.linked {info c m w k par path m' w'} (h : Walk info c m w k par path m' w')
    {A : Nat → Nat → Prop} {R : Nat → Prop} (hl : ∀ k st p, BMap.find m k = some st → st.parent = some p → A k p)
    (hpar : ∀ p, par = some p → A k p) (hk : R k) (hstep : c ≠ .processed → ∀ k p, R k → A k p → R p)
    (hfresh : c ≠ .finalized → ∀ k, BMap.find m k = none → R k → A k info.parent) :
    (∀ x ∈ path, R x) ∧ (∀ k st p, BMap.find m' k = some st → st.parent = some p → A k p) := by
  induction h with
  | same => exact ⟨by simp, hl⟩
  | missing => exact ⟨by simp, hl⟩
  | @stop m w k par st hf hc hp =>
    refine ⟨by simp [hk], ?_⟩
    intro x st' p hx hpp
    rw [BMap.find_insert] at hx
    split at hx
    · rename_i hkx; subst hkx
      simp at hx; subst hx
      simp only at hpp
      split at hpp
      · exact hpar p hpp
      · exact hl _ _ _ hf hpp
    · exact hl _ _ _ hx hpp
  | @fresh m w k par hf hn =>
    refine ⟨by simp [hk], ?_⟩
    intro x st' p hx hpp
    rw [BMap.find_insert] at hx
    split at hx
    · rename_i hkx; subst hkx
      simp at hx; subst hx
      simp at hpp; subst hpp
      exact hfresh hn k hf hk
    · exact hl _ _ _ hx hpp
  | @next m w k par st q path m' w' hf hc hn hp ht ih =>
    have hl' : ∀ x st' p, BMap.find (BMap.insert m k { st with commitment := c, parent := if par.isSome then par else st.parent }) x = some st' →
        st'.parent = some p → A x p := by
      intro x st' p hx hpp
      rw [BMap.find_insert] at hx
      split at hx
      · rename_i hkx; subst hkx
        simp at hx; subst hx
        simp only at hpp
        split at hpp
        · exact hpar p hpp
        · exact hl _ _ _ hf hpp
      · exact hl _ _ _ hx hpp
    have hq : A k q := hl' k _ q (by rw [BMap.find_insert, if_pos rfl]) hp
    obtain ⟨h1, h2⟩ := ih hl' (by simp) (hstep hn k q hk hq) (by
      intro hnf x hx hr
      rw [BMap.find_insert] at hx
      split at hx
      · simp at hx
      · exact hfresh hnf x hx hr)
    refine ⟨?_, h2⟩
    intro x hx
    rcases List.mem_cons.1 hx with rfl | hx
    · exact hk
    · exact h1 x hx

theorem find_updateCase {F : Filters} {s s' : Store} {a : AccountData} {c : Commitment} {b : Bool}
    (hc : UpdateCase F s a c s' b) : s'.slots = s.slots ∨ ∃ i, s'.slots = (s.addIndexToSlot a.slot i c).1.slots := by
  cases hc with
  | rejected => exact Or.inl rfl
  | created => exact Or.inr ⟨_, rfl⟩
  | kept i => exact Or.inr ⟨i, by simp⟩
  | removed i => exact Or.inr ⟨i, by simp⟩

/-- Statuses after an update: only the commitment of a new status and the recorded accounts matter. -/
theorem status_updateCase {F : Filters} {s s' : Store} {a : AccountData} {c : Commitment} {b : Bool}
    (hc : UpdateCase F s a c s' b) {k : Nat} {st' : SlotStatus} (hf : BMap.find s'.slots k = some st') :
    (∃ st, BMap.find s.slots k = some st ∧ st'.commitment = st.commitment ∧ st'.parent = st.parent) ∨
    (BMap.find s.slots k = none ∧ k = a.slot ∧ st'.commitment = c ∧ st'.parent = none) := by
  rcases find_updateCase hc with h | ⟨i, h⟩
  · rw [h] at hf; exact Or.inl ⟨st', hf, rfl, rfl⟩
  · rw [h, find_addIndexToSlot] at hf
    split at hf
    · rename_i hk; subst hk
      simp at hf
      cases hfs : BMap.find s.slots a.slot with
      | none =>
        right
        rw [hfs] at hf; subst hf
        refine ⟨rfl, rfl, ?_, ?_⟩ <;> split <;> rfl
      | some st =>
        left
        rw [hfs] at hf; subst hf
        refine ⟨st, rfl, ?_, ?_⟩ <;> split <;> rfl
    · exact Or.inl ⟨st', hf, rfl, rfl⟩

/-- What is known about links and settled slots after history `h`. -/
structure Lineage (h : List Op) (s : Store) : Prop where
  conf : ∀ k st, BMap.find s.slots k = some st → st.commitment ≠ .processed → Settled .confirmed h k
  links : ∀ k st p, BMap.find s.slots k = some st → st.parent = some p →
    Announced h k p ∨ ∃ F σ info, Op.slot F σ info .confirmed ∈ h ∧ info.parent = p ∧
      Linked h info.slot k
  fin : ∀ k st, BMap.find s.slots k = some st → st.commitment = .finalized →
    ∃ x, Reported .finalized h x ∧ Linked h x k
  confState : ∀ pk e a, s.view pk = some e → e.confirmed = some a → Settled .confirmed h a.slot
  finState : ∀ pk e a, s.view pk = some e → e.finalized = some a →
    ∃ x, Reported .finalized h x ∧ Linked h x a.slot

private theorem confirmed_le {c : Commitment} (h : c ≠ .processed) : Commitment.confirmed ≤ c := by
  cases c
  · exact absurd rfl h
  · decide
  · decide

private theorem finalized_le {c : Commitment} (h : c = .finalized) : Commitment.finalized ≤ c := by
  subst h; decide

theorem lineage : ∀ h s, empty.run h = .ok s → Lineage h s := by
  apply history_induction
  · refine ⟨?_, ?_, ?_, ?_, ?_⟩ <;> simp [empty, Store.view]
  · intro h s op s' _ hi ih hs
    have hsub : ∀ o ∈ h, o ∈ h ++ [op] := fun o ho => List.mem_append_left _ ho
    have hop : op ∈ h ++ [op] := by simp
    have linkMono : ∀ k p, (Announced h k p ∨ ∃ F σ info, Op.slot F σ info .confirmed ∈ h ∧
        info.parent = p ∧ Linked h info.slot k) → (Announced (h ++ [op]) k p ∨ ∃ F σ info,
        Op.slot F σ info .confirmed ∈ h ++ [op] ∧ info.parent = p ∧ Linked (h ++ [op]) info.slot k) := by
      rintro k p (ha | ⟨F, σ, info, hm, hp, hl⟩)
      · exact Or.inl (ha.mono hsub)
      · exact Or.inr ⟨F, σ, info, hsub _ hm, hp, hl.mono hsub⟩
    have finMono : ∀ k, (∃ x, Reported .finalized h x ∧ Linked h x k) →
        ∃ x, Reported .finalized (h ++ [op]) x ∧ Linked (h ++ [op]) x k := by
      rintro k ⟨x, hx, hl⟩; exact ⟨x, hx.mono hsub, hl.mono hsub⟩
    cases op with
    | update F a c =>
      obtain ⟨s2, b, he, hc⟩ := updateAccount_case hi F a c
      simp only [step, he, Run.ok_bind, Run.pure_eq, Run.ok.injEq] at hs
      subst hs
      have repC : c ≠ .processed → Settled .confirmed (h ++ [.update F a c]) a.slot := fun hcp =>
        .reported (Or.inr ⟨F, a, c, hop, rfl, confirmed_le hcp⟩)
      have repF : c = .finalized → ∃ x, Reported .finalized (h ++ [.update F a c]) x ∧
          Linked (h ++ [.update F a c]) x a.slot := fun hcf =>
        ⟨a.slot, Or.inr ⟨F, a, c, hop, rfl, finalized_le hcf⟩, .refl⟩
      have effC : s.effective a.slot c ≠ .processed → Settled .confirmed (h ++ [.update F a c]) a.slot := by
        intro hne
        unfold effective at hne
        split at hne
        · rename_i hcf; exact repC (by rw [hcf]; simp)
        · split at hne
          · rename_i st hf; exact (ih.conf _ _ hf hne).mono hsub
          · exact repC hne
      have effF : s.effective a.slot c = .finalized → ∃ x, Reported .finalized (h ++ [.update F a c]) x ∧
          Linked (h ++ [.update F a c]) x a.slot := by
        intro heq
        unfold effective at heq
        split at heq
        · rename_i hcf; exact repF hcf
        · split at heq
          · rename_i st hf; exact finMono _ (ih.fin _ _ hf heq)
          · exact repF heq
      refine ⟨?_, ?_, ?_, ?_, ?_⟩
      · intro k st' hf hne
        rcases status_updateCase hc hf with ⟨st, hf', h1, -⟩ | ⟨-, hk, h1, -⟩
        · exact (ih.conf k st hf' (by rw [← h1]; exact hne)).mono hsub
        · rw [hk]; exact repC (by rw [← h1]; exact hne)
      · intro k st' p hf hp
        rcases status_updateCase hc hf with ⟨st, hf', -, h1⟩ | ⟨-, -, -, h1⟩
        · exact linkMono k p (ih.links k st p hf' (by rw [← h1]; exact hp))
        · rw [h1] at hp; simp at hp
      · intro k st' hf hne
        rcases status_updateCase hc hf with ⟨st, hf', h1, -⟩ | ⟨-, hk, h1, -⟩
        · exact finMono _ (ih.fin k st hf' (by rw [← h1]; exact hne))
        · rw [hk]; exact repF (by rw [← h1]; exact hne)
      · intro pk e' b' hv' hb
        by_cases hpk : pk = a.pubkey
        · rcases (view_updateCase hi hc pk).2 hpk with ⟨-, -, h3, -⟩ | ⟨-, -, h3, -⟩ | ⟨e, h1, -, h3, -⟩ | ⟨e, -, -, h3, -⟩
          · rw [h3] at hv'; simp at hv'
          · rw [h3] at hv'; simp at hv'; subst hv'
            simp only [ByCommitment.new] at hb
            split at hb
            · rename_i hcc
              simp at hb; subst hb
              exact repC (by rcases hcc with rfl | rfl <;> simp)
            · simp at hb
          · rw [h3] at hv'; simp at hv'; subst hv'
            rw [update_confirmed] at hb
            split at hb
            · exact (ih.confState pk e b' h1 hb).mono hsub
            · rename_i hne
              split at hb
              · simp at hb; subst hb; exact effC hne
              · exact (ih.confState pk e b' h1 hb).mono hsub
          · rw [h3] at hv'; simp at hv'
        · rw [(view_updateCase hi hc pk).1 hpk] at hv'
          exact (ih.confState pk e' b' hv' hb).mono hsub
      · intro pk e' b' hv' hb
        by_cases hpk : pk = a.pubkey
        · rcases (view_updateCase hi hc pk).2 hpk with ⟨-, -, h3, -⟩ | ⟨-, -, h3, -⟩ | ⟨e, h1, -, h3, -⟩ | ⟨e, -, -, h3, -⟩
          · rw [h3] at hv'; simp at hv'
          · rw [h3] at hv'; simp at hv'; subst hv'
            simp only [ByCommitment.new] at hb
            split at hb
            · rename_i hcc
              simp at hb; subst hb
              exact repF hcc
            · simp at hb
          · rw [h3] at hv'; simp at hv'; subst hv'
            rw [update_finalized] at hb
            split at hb
            · rename_i hne; simp at hb; subst hb; exact effF hne.1
            · exact finMono _ (ih.finState pk e b' h1 hb)
          · rw [h3] at hv'; simp at hv'
        · rw [(view_updateCase hi hc pk).1 hpk] at hv'
          exact finMono _ (ih.finState pk e' b' hv' hb)
    | slot F σ info c =>
      obtain ⟨s2, r, he, path, m', w, hc⟩ := processSlot_case hi F σ info c
      simp only [step, he, Run.ok_bind, Run.pure_eq, Run.ok.injEq] at hs
      subst hs
      have hsm := hc.walk.sorted hi.slotsSorted
      -- links followed by the walk
      let A : Nat → Nat → Prop := fun k p => Announced (h ++ [.slot F σ info c]) k p ∨
        ∃ F' σ' info', Op.slot F' σ' info' .confirmed ∈ h ++ [.slot F σ info c] ∧ info'.parent = p ∧
          Linked (h ++ [.slot F σ info c]) info'.slot k
      let R : Nat → Prop := fun k => Linked (h ++ [.slot F σ info c]) info.slot k ∧
        (c = .processed → k = info.slot) ∧
        (c ≠ .processed → Settled .confirmed (h ++ [.slot F σ info c]) k)
      have hann : Announced (h ++ [.slot F σ info c]) info.slot info.parent :=
        ⟨F, σ, info, c, hop, rfl, rfl⟩
      have settleLink : ∀ k, Linked (h ++ [.slot F σ info c]) info.slot k →
          Settled .confirmed (h ++ [.slot F σ info c]) info.slot →
          Settled .confirmed (h ++ [.slot F σ info c]) k := by
        intro k hl hs0
        generalize info.slot = x at hl hs0
        induction hl with
        | refl => exact hs0
        | announced _ ha ih => exact .ancestor (ih hs0) ha
        | madeUp _ hm _ _ _ =>
          exact .ancestor (.reported (Or.inl ⟨_, _, _, _, hm, rfl, by decide⟩)) ⟨_, _, _, _, hm, rfl, rfl⟩
      have headC : c ≠ .processed → Settled .confirmed (h ++ [.slot F σ info c]) info.slot := fun hcp =>
        .reported (Or.inl ⟨F, σ, info, c, hop, rfl, confirmed_le hcp⟩)
      obtain ⟨hpath, hlinks⟩ := hc.walk.linked (A := A) (R := R)
        (fun k st p hf hp => linkMono k p (ih.links k st p hf hp))
        (by intro p hp; simp at hp; subst hp; exact Or.inl hann)
        ⟨.refl, fun _ => rfl, headC⟩
        (by
          rintro hcp k p ⟨hR, -, -⟩ hA
          have hl : Linked (h ++ [.slot F σ info c]) info.slot p := by
            rcases hA with hA | ⟨F', σ', info', hm, hp, hl⟩
            · exact .announced hR hA
            · rw [← hp]; exact .madeUp hR hm hl
          exact ⟨hl, fun h => absurd h hcp, fun _ => settleLink p hl (headC hcp)⟩)
        (by
          rintro hnf k - ⟨hR, hpr, -⟩
          cases c with
          | processed => left; rw [hpr rfl]; exact hann
          | confirmed => right; exact ⟨F, σ, info, hop, rfl, hR⟩
          | finalized => exact absurd rfl hnf)
      -- statuses after the call
      have hstat : ∀ k st', BMap.find s2.slots k = some st' →
          (k ∈ path ∧ st'.commitment = c) ∨ BMap.find s.slots k = some st' := by
        intro k st' hf
        rw [hc.slots, find_dropOldSlots hsm] at hf
        split at hf
        · simp at hf
        · by_cases hk : k ∈ path
          · obtain ⟨st2, h1, h2⟩ := (hc.walk.status k).2 hk
            rw [hf] at h1; cases h1
            exact Or.inl ⟨hk, h2⟩
          · right; rw [← (hc.walk.status k).1 hk]; exact hf
      have promK : ∀ pk e e' , s.view pk = some e → s2.view pk = some e' →
          e' = e ∨ ∃ k, k ∈ path ∧ e' = (e.promote k c).1 ∧ EntryOK pk e := by
        intro pk e e' hv hv'
        rcases hc.view hi pk with ⟨-, -, h1, -⟩ | ⟨i, e2, -, h1, -, ho, ⟨-, h2, -⟩ | ⟨k, hk, h2, -⟩⟩
        · rw [h1] at hv; simp at hv
        · rw [h1] at hv; cases hv; rw [h2] at hv'; cases hv'; exact Or.inl rfl
        · rw [h1] at hv; cases hv; rw [h2] at hv'
          right
          refine ⟨k, ?_, after_eq hv', ho⟩
          rw [hc.gathered] at hk
          rcases mem_gather_sub hk with hk | ⟨hk, -⟩
          · simp at hk
          · exact hk
      have viewSome : ∀ pk e', s2.view pk = some e' → ∃ e, s.view pk = some e := by
        intro pk e' hv'
        rcases hc.view hi pk with ⟨-, -, -, h2⟩ | ⟨i, e2, -, h1, -⟩
        · rw [h2] at hv'; simp at hv'
        · exact ⟨e2, h1⟩
      refine ⟨?_, ?_, ?_, ?_, ?_⟩
      · intro k st' hf hne
        rcases hstat k st' hf with ⟨hk, h1⟩ | hf'
        · exact (hpath k hk).2.2 (by rw [← h1]; exact hne)
        · exact (ih.conf k st' hf' hne).mono hsub
      · intro k st' p hf hp
        rw [hc.slots, find_dropOldSlots hsm] at hf
        split at hf
        · simp at hf
        · exact hlinks k st' p hf hp
      · intro k st' hf hne
        rcases hstat k st' hf with ⟨hk, h1⟩ | hf'
        · refine ⟨info.slot, Or.inl ⟨F, σ, info, c, hop, rfl, finalized_le (by rw [← h1]; exact hne)⟩, (hpath k hk).1⟩
        · exact finMono _ (ih.fin k st' hf' hne)
      · intro pk e' b' hv' hb
        obtain ⟨e, hv⟩ := viewSome pk e' hv'
        rcases promK pk e e' hv hv' with rfl | ⟨k, hk, rfl, ho⟩
        · exact (ih.confState pk _ b' hv hb).mono hsub
        · rw [promote_confirmed] at hb
          cases hf : BMap.find e.processed k with
          | none => rw [hf] at hb; exact (ih.confState pk e b' hv hb).mono hsub
          | some x =>
            have hxk := (ho.keys _ _ hf).1
            rw [hf] at hb
            simp only at hb
            split at hb
            · exact (ih.confState pk e b' hv hb).mono hsub
            · rename_i hcp
              split at hb
              · rename_i y hy
                split at hb
                · simp at hb; subst hb; rw [hxk]; exact (hpath k hk).2.2 hcp
                · exact (ih.confState pk e b' hv (by rw [hy]; exact hb)).mono hsub
              · simp at hb; subst hb; rw [hxk]; exact (hpath k hk).2.2 hcp
      · intro pk e' b' hv' hb
        obtain ⟨e, hv⟩ := viewSome pk e' hv'
        rcases promK pk e e' hv hv' with rfl | ⟨k, hk, rfl, ho⟩
        · exact finMono _ (ih.finState pk _ b' hv hb)
        · rw [promote_finalized] at hb
          cases hf : BMap.find e.processed k with
          | none => rw [hf] at hb; exact finMono _ (ih.finState pk e b' hv hb)
          | some x =>
            have hxk := (ho.keys _ _ hf).1
            rw [hf] at hb
            simp only at hb
            split at hb
            · rename_i hcf
              have hnew : ∃ x, Reported .finalized (h ++ [.slot F σ info c]) x ∧
                  Linked (h ++ [.slot F σ info c]) x k :=
                ⟨info.slot, Or.inl ⟨F, σ, info, c, hop, rfl, finalized_le hcf⟩, (hpath k hk).1⟩
              split at hb
              · rename_i y hy
                split at hb
                · simp at hb; subst hb; rw [hxk]; exact hnew
                · exact finMono _ (ih.finState pk e b' hv (by rw [hy]; exact hb))
              · simp at hb; subst hb; rw [hxk]; exact hnew
            · exact finMono _ (ih.finState pk e b' hv hb)

end Store
end LAM
