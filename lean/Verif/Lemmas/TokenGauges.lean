import Verif.Model.Gauges
import Verif.Lemmas.TokenStoreRun
/-!
# The gauges of the token program store
-/
namespace LAM

variable {α β γ δ : Type}

/-- The first part of the result. -/
def Run.fst : Run (α × β) → Run α
  | .ok r => .ok r.1
  | .panic => .panic
  | .diverge => .diverge

@[simp] theorem Run.fst_ok (r : α × β) : (Run.ok r).fst = .ok r.1 := rfl
@[simp] theorem Run.fst_panic : (Run.panic : Run (α × β)).fst = .panic := rfl
@[simp] theorem Run.fst_diverge : (Run.diverge : Run (α × β)).fst = .diverge := rfl

theorem Run.fst_bind {m : Run (α × γ)} {k : α × γ → Run (β × δ)} {k' : α → Run β} (h : ∀ a c, (k (a, c)).fst = k' a) :
    (m >>= k).fst = m.fst >>= k' := by
  cases m with
  | ok r => exact h r.1 r.2
  | panic => rfl
  | diverge => rfl

theorem Run.fst_bind' {m : Run α} {k : α → Run (β × δ)} {k' : α → Run β} (h : ∀ a, (k a).fst = k' a) :
    (m >>= k).fst = m >>= k' := by
  cases m with
  | ok r => exact h r
  | panic => rfl
  | diverge => rfl

theorem Run.fst_eq_ok {m : Run (α × β)} {a : α} : m.fst = .ok a ↔ ∃ b, m = .ok (a, b) := by
  cases m with
  | ok r => obtain ⟨x, y⟩ := r; simp [Run.fst]
  | panic => simp [Run.fst]
  | diverge => simp [Run.fst]

end LAM

namespace LAM.Token
open Spec ProcStore TokenStore

/-! ## Leaving the gauges out -/

theorem saveG_fst (s : TokenStorage) (g : TokenGauges) (t : TokenAccount) : (s.saveG g t).fst = s.save t := by
  unfold TokenStorage.saveG TokenStorage.save
  cases s.buckets.find (prefix4 t.pubkey) with
  | some is =>
    refine Run.fst_bind' fun r => ?_
    cases r <;> rfl
  | none => rfl

theorem deleteG_fst (s : TokenStorage) (g : TokenGauges) (pk : Pubkey) : (s.deleteG g pk).fst = s.delete pk := by
  unfold TokenStorage.deleteG TokenStorage.delete
  cases s.buckets.find (prefix4 pk) with
  | some is =>
    refine Run.fst_bind' fun r => ?_
    cases r <;> rfl
  | none => rfl

theorem insertAccountG_fst (P : ProcStore) (g : TokenGauges) (pk : Pubkey) (x : ProgramAccount) (wv slot : Nat) :
    (P.insertAccountG g pk x wv slot).1 = P.insertAccount pk x wv slot := by
  unfold insertAccountG insertAccount
  cases BMap.find P slot with
  | some e =>
    simp only
    cases e.accounts.find pk with
    | some old => simp only; split <;> rfl
    | none => rfl
  | none => rfl

theorem collectG_eq (slot : Nat) (l : AMap Pubkey Processed) (found : Found) (g : TokenGauges) :
    collectG slot l found g = (collect slot l found, { g with processed := g.processed - l.length }) := by
  induction l generalizing found g with
  | nil => simp [collectG, collect]
  | cons a l ih =>
    obtain ⟨pk, x⟩ := a
    simp only [collectG, collect, ih, List.length_cons]
    congr 2
    simp; omega

theorem finalizeLoopG_fst (fuel : Nat) (P : ProcStore) (found : Found) (g : TokenGauges) (slot : Nat) :
    (finalizeLoopG fuel P found g slot).fst = finalizeLoop fuel P found slot := by
  induction fuel generalizing P found g slot with
  | zero => rfl
  | succ n ih =>
    simp only [finalizeLoopG, finalizeLoop, collectG_eq]
    cases BMap.find P slot with
    | none => rfl
    | some e =>
      simp only
      cases e.parent with
      | none => rfl
      | some p => exact ih _ _ _ _

theorem finalizeG_fst (P : ProcStore) (g : TokenGauges) (slot : Nat) : (P.finalizeG g slot).fst = P.finalize slot := by
  unfold finalizeG finalize
  rw [← finalizeLoopG_fst _ _ _ g]
  exact Run.fst_bind fun _ _ => rfl

theorem addFinalizedG_fst (s : TokenStore) (g : TokenGauges) (x : ProgramAccount) : (s.addFinalizedG g x).fst = s.addFinalized x := by
  cases x with
  | token t =>
    simp only [addFinalizedG, addFinalized, ← saveG_fst _ g]
    refine Run.fst_bind fun a c => ?_
    obtain ⟨⟨i, b⟩, tk⟩ := a
    cases b <;> rfl
  | mint m => simp only [addFinalizedG, addFinalized]; cases s.table.index.find m.pubkey <;> rfl
  | multisig m pk => rfl
  | deleted pk =>
    simp only [addFinalizedG, addFinalized]
    cases s.table.index.find pk with
    | some i => rfl
    | none =>
      simp only
      rw [← deleteG_fst _ g]
      exact Run.fst_bind fun _ _ => rfl

theorem updateAccountG_fst (X : Codecs) (s : TokenStore) (g : TokenGauges) (a : AccountData) (c : Commitment) :
    (s.updateAccountG X g a c).fst = s.updateAccount X a c := by
  unfold updateAccountG updateAccount
  refine Run.fst_bind' fun b => ?_
  cases b with
  | false => rfl
  | true =>
    simp only [Bool.not_true, Bool.false_eq_true, if_false]
    refine Run.fst_bind' fun r => ?_
    obtain ⟨r, T⟩ := r
    cases r with
    | none => rfl
    | some x =>
      simp only
      by_cases hc : c = .processed ∨ c = .confirmed
      · simp [hc, insertAccountG_fst]
      · rw [if_neg hc, if_neg hc, ← addFinalizedG_fst _ g]
        exact Run.fst_bind fun _ _ => rfl

theorem initAccountG_fst (X : Codecs) (s : TokenStore) (g : TokenGauges) (a : AccountData) :
    (s.initAccountG X g a).fst = s.initAccount X a := by
  unfold initAccountG initAccount
  refine Run.fst_bind' fun b => ?_
  cases b with
  | false => rfl
  | true =>
    simp only [Bool.not_true, Bool.false_eq_true, if_false]
    refine Run.fst_bind' fun r => ?_
    obtain ⟨r, T⟩ := r
    cases r with
    | none => rfl
    | some x => exact addFinalizedG_fst _ _ _

theorem addAllG_fst (l : List (Processed × Nat)) (s : TokenStore) (g : TokenGauges) : (addAllG l s g).fst = addAll l s := by
  induction l generalizing s g with
  | nil => rfl
  | cons x l ih =>
    simp only [addAllG, addAll, ← addFinalizedG_fst _ g]
    exact Run.fst_bind fun _ _ => ih _ _

theorem processSlotG_fst (σ : Orders) (s : TokenStore) (g : TokenGauges) (info : SlotInfo) (c : Commitment) :
    (s.processSlotG σ g info c).fst = s.processSlot σ info c := by
  cases c with
  | processed => rfl
  | confirmed =>
    simp only [processSlotG, processSlot]
    exact Run.fst_bind' fun _ => rfl
  | finalized =>
    simp only [processSlotG, processSlot]
    rw [← finalizeG_fst _ g]
    refine Run.fst_bind fun r g => ?_
    refine Run.fst_bind' fun notes => ?_
    rw [← addAllG_fst _ _ g]
    exact Run.fst_bind fun _ _ => rfl

theorem stepG_fst (X : Codecs) (s : TokenStore) (g : TokenGauges) (o : TOp) : (s.stepG X g o).fst = s.step X o := by
  cases o with
  | update a c =>
    simp only [stepG, step, ← updateAccountG_fst _ _ g]
    exact Run.fst_bind fun _ _ => rfl
  | init a => exact initAccountG_fst _ _ _ _
  | slot σ info c =>
    simp only [stepG, step, ← processSlotG_fst _ _ g]
    exact Run.fst_bind fun _ _ => rfl

theorem runG_fst (X : Codecs) (ops : List TOp) (s : TokenStore) (g : TokenGauges) : (runG X ops s g).fst = TokenStore.run X ops s := by
  induction ops generalizing s g with
  | nil => rfl
  | cons o ops ih =>
    simp only [runG, TokenStore.run, ← stepG_fst _ _ g]
    exact Run.fst_bind fun _ _ => ih _ _

/-- Leaving the gauges out gives the calls of the model. -/
theorem token_erase (X : Codecs) (ops : List TOp) (s : TokenStore) (g : TokenGauges) (s' : TokenStore) :
    TokenStore.run X ops s = .ok s' ↔ ∃ g', runG X ops s g = .ok (s', g') := by
  rw [← runG_fst _ _ _ g, Run.fst_eq_ok]

theorem loadTokensG_fst (mapping : AMap Nat Nat) (l : List Bytes) (s : TokenStore) (g : TokenGauges) :
    (loadTokensG mapping l s g).fst = loadTokens mapping l s := by
  induction l generalizing s g with
  | nil => rfl
  | cons b l ih =>
    simp only [loadTokensG, loadTokens]
    refine Run.fst_bind' fun t => Run.fst_bind' fun i => ?_
    rw [← saveG_fst _ g]
    refine Run.fst_bind fun r g => ?_
    obtain ⟨⟨k, b⟩, tk⟩ := r
    cases b <;> exact ih _ _

/-- The same for loading a snapshot. -/
theorem load_erase (s : TokenStore) (g : TokenGauges) (x : TokenSnapshot) : (s.loadSnapshotG g x).fst = s.loadSnapshot x :=
  loadTokensG_fst _ _ _ _

theorem runG_snoc {X : Codecs} {l : List TOp} {o : TOp} {s : TokenStore} {g : TokenGauges} {r : TokenStore × TokenGauges}
    (h : runG X (l ++ [o]) s g = .ok r) : ∃ r1, runG X l s g = .ok r1 ∧ r1.1.stepG X r1.2 o = .ok r := by
  induction l generalizing s g with
  | nil =>
    simp only [List.nil_append, runG, Run.bind_eq_ok, Run.ok.injEq] at h
    obtain ⟨r1, h1, h2⟩ := h
    exact ⟨(s, g), rfl, by rw [h1, ← h2]⟩
  | cons o' l ih =>
    simp only [List.cons_append, runG, Run.bind_eq_ok] at h
    obtain ⟨r1, h1, h2⟩ := h
    obtain ⟨r2, h3, h4⟩ := ih h2
    exact ⟨r2, by simp [runG, h1, h3], h4⟩

/-! ## What one call does to the gauges -/

/-- What a call keeps: `R` only has to be kept by what the call is made of. -/
structure Keeps (X : Codecs) (Q : ProgramAccount → Prop) (s0 : TokenStore) (o : TOp) (R : TokenStore → TokenGauges → Prop) : Prop where
  table : ∀ a r T g, o.account = some a → classify X s0.table a = .ok (r, T) → R s0 g → R { s0 with table := T } g
  insert : ∀ s g pk x wv slot, BMap.Sorted s.processed → R s g →
    R { s with processed := (s.processed.insertAccountG g pk x wv slot).1.2 } (s.processed.insertAccountG g pk x wv slot).2
  add : ∀ s g x s' g' slots orig, Fin Q s slots orig → ProgFits x → slots.length < 2 ^ 32 → s.table.counter + 1 < 2 ^ 32 → R s g →
    s.addFinalizedG g x = .ok (s', g') → R s' g'
  note : ∀ s g P c f, (∃ info, P = s.processed.updateSlotInfo info) ∨ P = s.processed → BMap.Sorted s.processed → R s g →
    R { s with processed := P, confirmedSlot := c, finalizedSlot := f } g
  finalize : ∀ σ info c f P' l g g', o = .slot σ info .finalized → BMap.Sorted (noted s0 info s0.finalizedSlot) →
    (noted s0 info s0.finalizedSlot).finalizeG g info.slot = .ok ((P', l), g') →
    R { s0 with processed := noted s0 info s0.finalizedSlot, confirmedSlot := c, finalizedSlot := f } g →
    R { s0 with processed := P', confirmedSlot := c, finalizedSlot := f } g'

theorem addAllG_keeps {X : Codecs} {Q : ProgramAccount → Prop} {s0 : TokenStore} {o : TOp} {R : TokenStore → TokenGauges → Prop}
    (k : Keeps X Q s0 o R) (l : List (Processed × Nat)) {s s' : TokenStore} {g g' : TokenGauges} {slots orig : List TokenAccount}
    (h : Fin Q s slots orig)
    (hl : ∀ e ∈ l, ProgFits e.1.account ∧ Q e.1.account ∧ MintBelow s.table.counter e.1.account)
    (hlen : slots.length + l.length < 2 ^ 32) (hc : s.table.counter + l.length < 2 ^ 32) (hr : R s g)
    (ha : addAllG l s g = .ok (s', g')) : R s' g' := by
  induction l generalizing s g slots orig with
  | nil =>
    simp only [addAllG, Run.ok.injEq, Prod.mk.injEq] at ha
    rw [← ha.1, ← ha.2]; exact hr
  | cons a l ih =>
    simp only [List.length_cons] at hlen hc
    simp only [addAllG, Run.bind_eq_ok] at ha
    obtain ⟨⟨s1, g1⟩, h1, h2⟩ := ha
    obtain ⟨b1, b2, b3⟩ := hl a (by simp)
    obtain ⟨s2, slots1, orig1, c1, c2, c3, c4, c5, -⟩ := add_fin h b1 b2 b3 (by omega) (by omega)
    have e := Run.fst_eq_ok.2 ⟨_, h1⟩
    rw [addFinalizedG_fst, c1] at e
    cases e
    exact ih c2 (fun e he => ⟨(hl e (by simp [he])).1, (hl e (by simp [he])).2.1, (hl e (by simp [he])).2.2.mono c4⟩) (by omega) (by omega)
      (k.add _ _ _ _ _ _ _ h b1 (by omega) (by omega) hr h1) h2

theorem updateAccountG_keeps {X : Codecs} {Q : ProgramAccount → Prop} {n : Nat} {s s' : TokenStore} {o : TOp} {R : TokenStore → TokenGauges → Prop}
    (k : Keeps X Q s o R) {slots orig : List TokenAccount} {a : AccountData} {c : Commitment} {b : Bool} {g g' : TokenGauges}
    (h : Inv Q n s slots orig) (hn : n < 2 ^ 31 - 1) (ho : o.account = some a)
    (hq : ∀ x T', classify X s.table a = .ok (some x, T') → Q x) (hr : R s g) (hu : s.updateAccountG X g a c = .ok ((b, s'), g')) : R s' g' := by
  have hb := h.bound
  have hcb := h.cbound
  unfold updateAccountG at hu
  simp only [Run.bind_eq_ok] at hu
  obtain ⟨isT, -, hu⟩ := hu
  split at hu
  · simp at hu; obtain ⟨⟨-, rfl⟩, rfl⟩ := hu; exact hr
  · simp only [Run.bind_eq_ok] at hu
    obtain ⟨⟨r, T⟩, hcl, hu⟩ := hu
    obtain ⟨h1, h2, h3, -, h5, h6⟩ := classify_inv h.fin (by omega) hq hcl
    have hr1 := k.table a r T g ho hcl hr
    simp only at hu
    split at hu
    · simp at hu; obtain ⟨⟨-, rfl⟩, rfl⟩ := hu
      exact hr1
    · rename_i x
      obtain ⟨hk, hw⟩ := h5 x rfl
      split at hu
      · simp only [Run.pure_eq, Run.ok.injEq, Prod.mk.injEq] at hu
        obtain ⟨⟨-, rfl⟩, rfl⟩ := hu
        exact k.insert { s with table := T } _ _ _ _ _ h.proc.sorted hr1
      · simp only [Run.bind_eq_ok] at hu
        obtain ⟨⟨s1, g1⟩, hs1, hu⟩ := hu
        simp only [Run.pure_eq, Run.ok.injEq, Prod.mk.injEq] at hu
        obtain ⟨⟨-, rfl⟩, rfl⟩ := hu
        exact k.add _ _ _ _ _ _ _ h1 hw.1 (by omega) (by simp; omega) hr1 hs1

/-- Submitting through `initilize_or_update_account` is the same as submitting at finalized commitment. -/
theorem initG_eq_update (X : Codecs) (s : TokenStore) (g : TokenGauges) (a : AccountData) :
    s.initAccountG X g a = (do let r ← s.updateAccountG X g a .finalized; return (r.1.2, r.2)) := by
  unfold initAccountG updateAccountG
  cases s.isTokenAccount a with
  | panic => rfl
  | diverge => rfl
  | ok b =>
    cases b with
    | false => rfl
    | true =>
      simp only [Run.ok_bind, Bool.not_true, Bool.false_eq_true, if_false]
      cases classify X s.table a with
      | panic => rfl
      | diverge => rfl
      | ok r =>
        obtain ⟨x, T⟩ := r
        cases x with
        | none => rfl
        | some x =>
          simp only [Run.ok_bind]
          rw [if_neg (by simp)]
          cases addFinalizedG { s with table := T } g x <;> rfl

theorem stepG_keeps {X : Codecs} {Q : ProgramAccount → Prop} {n : Nat} {s s' : TokenStore} {o : TOp} {R : TokenStore → TokenGauges → Prop}
    (k : Keeps X Q s o R) {slots orig : List TokenAccount} {g g' : TokenGauges} (h : Inv Q n s slots orig) (hn : n < 2 ^ 31 - 1)
    (hq : ∀ a, o.account = some a → ∀ x T', classify X s.table a = .ok (some x, T') → Q x) (hr : R s g)
    (hs : s.stepG X g o = .ok (s', g')) : R s' g' := by
  have hb := h.bound
  have hcb := h.cbound
  cases o with
  | update a c =>
    simp only [stepG, Run.bind_eq_ok, Run.pure_eq, Run.ok.injEq, Prod.mk.injEq] at hs
    obtain ⟨⟨⟨b, s1⟩, g1⟩, h1, rfl, rfl⟩ := hs
    exact updateAccountG_keeps k h hn rfl (hq a rfl) hr h1
  | init a =>
    simp only [stepG, initG_eq_update, Run.bind_eq_ok, Run.pure_eq, Run.ok.injEq, Prod.mk.injEq] at hs
    obtain ⟨⟨⟨b, s1⟩, g1⟩, h1, rfl, rfl⟩ := hs
    exact updateAccountG_keeps k h hn rfl (hq a rfl) hr h1
  | slot σ info c =>
    simp only [stepG, Run.bind_eq_ok, Run.pure_eq, Run.ok.injEq, Prod.mk.injEq] at hs
    obtain ⟨⟨⟨b, s1⟩, g1⟩, h1, rfl, rfl⟩ := hs
    simp only
    cases c with
    | processed =>
      simp only [processSlotG, Run.ok.injEq, Prod.mk.injEq] at h1
      obtain ⟨⟨-, rfl⟩, rfl⟩ := h1
      exact k.note s _ _ s.confirmedSlot s.finalizedSlot (.inl ⟨info, rfl⟩) h.proc.sorted hr
    | confirmed =>
      simp only [processSlotG, Run.bind_eq_ok] at h1
      generalize hs0 : (if s.confirmedSlot < info.slot then
          { s with confirmedSlot := info.slot, processed := s.processed.updateSlotInfo info } else s) = s0 at h1
      have h0 : R s0 g ∧ BMap.Sorted s0.processed := by
        rw [← hs0]; split
        · exact ⟨k.note s g _ info.slot s.finalizedSlot (.inl ⟨info, rfl⟩) h.proc.sorted hr, (h.proc.updateSlotInfo info).1.sorted⟩
        · exact ⟨hr, h.proc.sorted⟩
      obtain ⟨⟨l, P⟩, hg, h1⟩ := h1
      simp only [Run.pure_eq, Run.ok.injEq, Prod.mk.injEq] at h1
      obtain ⟨⟨-, rfl⟩, rfl⟩ := h1
      unfold ProcStore.getProcessedForSlot at hg
      split at hg
      · simp only [Run.bind_eq_ok] at hg
        obtain ⟨_, -, hg⟩ := hg
        simp at hg
        obtain ⟨-, rfl⟩ := hg
        exact k.note s0 _ _ s0.confirmedSlot s0.finalizedSlot (.inr rfl) h0.2 h0.1
      · simp at hg
        obtain ⟨-, rfl⟩ := hg
        exact k.note s0 _ _ s0.confirmedSlot s0.finalizedSlot (.inl ⟨info, rfl⟩) h0.2 h0.1
    | finalized =>
      simp only [processSlotG, Run.bind_eq_ok] at h1
      obtain ⟨⟨⟨P', l⟩, g2⟩, hfz, notes, hno, ⟨s2, g3⟩, hadd, h1⟩ := h1
      simp only [Run.pure_eq, Run.ok.injEq, Prod.mk.injEq] at h1
      obtain ⟨⟨-, rfl⟩, rfl⟩ := h1
      generalize hs0 : (if s.finalizedSlot < info.slot then
            { s with finalizedSlot := info.slot, processed := s.processed.updateSlotInfo info } else s) = s0 at hfz hadd
      obtain ⟨f, hs1⟩ : ∃ f, s0 = { s with processed := noted s info s.finalizedSlot, confirmedSlot := s.confirmedSlot, finalizedSlot := f } := by
        rw [← hs0]; unfold noted; split
        · exact ⟨_, rfl⟩
        · exact ⟨s.finalizedSlot, rfl⟩
      have hproc : ProcOk (Waiting Q s.table.counter) (noted s info s.finalizedSlot) ∧ pending (noted s info s.finalizedSlot) = pending s.processed := by
        unfold noted; split
        · exact h.proc.updateSlotInfo info
        · exact ⟨h.proc, rfl⟩
      subst hs1
      simp only at hfz hadd
      have hr1 := k.note s g (noted s info s.finalizedSlot) s.confirmedSlot f
        (by unfold noted; split
            · exact .inl ⟨info, rfl⟩
            · exact .inr rfl) h.proc.sorted hr
      have hr2 := k.finalize σ info _ _ P' l g g2 rfl hproc.1.sorted hfz hr1
      have hpl := Run.fst_eq_ok.2 ⟨_, hfz⟩
      rw [finalizeG_fst] at hpl
      obtain ⟨P1, l1, z1, z2, z3, z4, z5, z6⟩ := finalize_spec hproc.1 info.slot
      rw [hpl] at z1; cases z1
      have hperm := σ.final_perm l
      have hlenl : (σ.final l).length = l.length := hperm.length_eq
      have hfin : Fin Q { s with processed := P', confirmedSlot := s.confirmedSlot, finalizedSlot := f } slots orig :=
        h.fin.congr rfl rfl rfl rfl rfl rfl
      exact addAllG_keeps k (σ.final l) hfin
        (by
          rintro ⟨x, j⟩ he
          exact (newest_good hproc.1 ((z4 x j).1 (hperm.mem_iff.1 he))).2)
        (by rw [hlenl]; omega) (by simp only [hlenl]; omega) hr2 hadd

/-- A property of all states that calls reach. -/
theorem runG_keeps {X : Codecs} {Q : ProgramAccount → Prop} {R : TokenStore → TokenGauges → Prop} (ops : List TOp) (s : TokenStore) (g : TokenGauges)
    (hn : ops.length < 2 ^ 31) (h0 : R .empty .zero)
    (hk : ∀ l o l' s1, ops = l ++ o :: l' → TokenStore.run X l .empty = .ok s1 → Keeps X Q s1 o R)
    (hq : ∀ o ∈ ops, ∀ a, o.account = some a → ∀ T x T', classify X T a = .ok (some x, T') → Q x)
    (hr : runG X ops .empty .zero = .ok (s, g)) : R s g := by
  suffices H : ∀ n, ∀ l l', l.length = n → ops = l ++ l' → ∀ s g, runG X l .empty .zero = .ok (s, g) → R s g from
    H _ ops [] rfl (by simp) s g hr
  intro n
  induction n with
  | zero =>
    intro l l' hl _ s g hr
    obtain rfl := List.length_eq_zero_iff.1 hl
    simp only [runG, Run.ok.injEq, Prod.mk.injEq] at hr
    rw [← hr.1, ← hr.2]; exact h0
  | succ n ih =>
    intro l l' hl he s g hr
    obtain ⟨l, o, rfl⟩ : ∃ l1 o, l = l1 ++ [o] := by
      have hne : l ≠ [] := by rintro rfl; simp at hl
      exact ⟨l.dropLast, l.getLast hne, (List.dropLast_concat_getLast hne).symm⟩
    obtain ⟨⟨s1, g1⟩, h1, h2⟩ := runG_snoc hr
    have hlen : l.length = n := by simpa using hl
    have he' : ops = l ++ o :: l' := by rw [he]; simp
    have hr1 := ih l (o :: l') hlen he' s1 g1 h1
    have hrun := (token_erase X l .empty .zero s1).2 ⟨_, h1⟩
    have hll : l.length + (l'.length + 1) = ops.length := by rw [he']; simp
    obtain ⟨slots, orig, hi⟩ := run_inv (Q := Q) l (inv_empty Q) (by omega)
      (fun o ho => hq o (by rw [he']; simp [ho])) hrun
    exact stepG_keeps (hk l o l' s1 he' hrun) hi (by omega)
      (fun a ha x T' hx => hq o (by rw [he']; simp) a ha _ x T' hx) hr1 h2

end LAM.Token
