import Verif.Model.Gauges
import Verif.Lemmas.Steps
/-!
# The gauges of the account store
-/
namespace LAM
open Spec ByCommitment
namespace Store

theorem updateVacantG_eq (F : Filters) (s : Store) (g : StoreGauges) (a : AccountData) (c : Commitment) :
    (updateVacantG F s g a c).1 = updateVacant F s a c ∧
    (updateVacantG F s g a c).2 = if F.satisfies a then { g with stored := g.stored + 1 } else g := by
  unfold updateVacantG updateVacant
  split <;> exact ⟨rfl, rfl⟩

/-- The gauges are changed as described, and the store as without them. -/
theorem updateAccountG_eq (F : Filters) (s : Store) (g : StoreGauges) (a : AccountData) (c : Commitment) :
    s.updateAccountG F g a c = (do return (← s.updateAccount F a c,
      ⟨if s.index a.pubkey = none ∧ F.satisfies a then g.stored + 1 else g.stored, (a.slot : Int)⟩)) := by
  have hm : (s.maybeUpdateSlotStatus a c).1.index = s.index := by
    unfold maybeUpdateSlotStatus; split <;> simp
  unfold updateAccountG updateAccount
  by_cases h : (!isDeleted a && !F.satisfies a && !s.containsKey a.pubkey) = true
  · have hf : F.satisfies a = false := by simp at h; exact h.1.2
    rw [if_pos h, if_pos h]; simp [hf]
  · simp only [h]
    rw [if_neg (by simp), if_neg (by simp)]
    simp only [hm]
    cases hi : s.index a.pubkey with
    | some i => simp
    | none =>
      obtain ⟨h1, h2⟩ := updateVacantG_eq F (s.maybeUpdateSlotStatus a c).1 { g with latest := a.slot } a (s.maybeUpdateSlotStatus a c).2
      simp only [Run.ok_bind, Run.pure_eq, Run.ok.injEq]
      rw [Prod.ext_iff]
      refine ⟨h1, h2.trans ?_⟩
      by_cases hf : F.satisfies a <;> simp [hf]

theorem stepG_step {s : Store} {g : StoreGauges} {op : Op} {s' : Store} {g' : StoreGauges} (h : s.stepG g op = .ok (s', g')) :
    s.step op = .ok s' := by
  cases op with
  | update F a c =>
    simp only [stepG, updateAccountG_eq, Run.bind_eq_ok, Run.pure_eq, Run.ok.injEq, Prod.mk.injEq] at h
    obtain ⟨r, ⟨r1, h1, rfl⟩, rfl, -⟩ := h
    simp [step, h1]
  | slot F σ info c =>
    simp only [stepG, Run.bind_eq_ok, Run.pure_eq, Run.ok.injEq, Prod.mk.injEq] at h
    obtain ⟨r, h1, rfl, -⟩ := h
    simp [step, h1]

theorem stepG_total {s : Store} (g : StoreGauges) {op : Op} {s' : Store} (h : s.step op = .ok s') : ∃ g', s.stepG g op = .ok (s', g') := by
  cases op with
  | update F a c =>
    simp only [step, Run.bind_eq_ok, Run.pure_eq, Run.ok.injEq] at h
    obtain ⟨r, h1, rfl⟩ := h
    exact ⟨_, by simp only [stepG, updateAccountG_eq, h1, Run.ok_bind, Run.pure_eq]; rfl⟩
  | slot F σ info c =>
    simp only [step, Run.bind_eq_ok, Run.pure_eq, Run.ok.injEq] at h
    obtain ⟨r, h1, rfl⟩ := h
    exact ⟨_, by simp only [stepG, h1, Run.ok_bind, Run.pure_eq]; rfl⟩

/-- Positions and the gauge after one call; a key that stays tracked keeps its position. -/
theorem stepG_positions {s : Store} (hi : Inv s) {g : StoreGauges} {op : Op} {s' : Store} {g' : StoreGauges}
    (h : s.stepG g op = .ok (s', g')) :
    g'.stored - g.stored = (s'.accounts.length : Int) - s.accounts.length ∧
    (∀ pk i, s.index pk = some i → s'.index pk = some i ∨ s'.index pk = none) ∧
    (s'.accounts.length = s.accounts.length ∨
      s'.accounts.length = s.accounts.length + 1 ∧ ∃ pk, s'.index pk = some s.accounts.length) := by
  cases op with
  | update F a c =>
    simp only [stepG, updateAccountG_eq, Run.bind_eq_ok, Run.pure_eq, Run.ok.injEq, Prod.mk.injEq] at h
    obtain ⟨r, ⟨r1, h1, rfl⟩, rfl, rfl⟩ := h
    obtain ⟨s2, b, he, hc⟩ := updateAccount_case hi F a c
    rw [h1] at he; cases he
    cases hc with
    | rejected hx hf => exact ⟨by simp [hf], fun pk i h => .inl h, .inl rfl⟩
    | created hx hf =>
      refine ⟨by simp [hf, hx, createdStore]; omega, ?_, .inr ⟨by simp [createdStore], a.pubkey, by simp [createdStore]⟩⟩
      intro pk i hpk
      have : pk ≠ a.pubkey := by rintro rfl; rw [hx] at hpk; cases hpk
      simp [createdStore, this, hpk]
    | kept i e hx he hr =>
      refine ⟨by simp [hx], ?_, .inl (by simp)⟩
      intro pk j hpk
      simp [hpk]
    | removed i e hx he hr =>
      refine ⟨by simp [hx], ?_, .inl (by simp)⟩
      intro pk j hpk
      by_cases e : pk = a.pubkey
      · simp [dropKey, e]
      · simp [dropKey, e, hpk]
  | slot F σ info c =>
    simp only [stepG, Run.bind_eq_ok, Run.pure_eq, Run.ok.injEq, Prod.mk.injEq] at h
    obtain ⟨r, h1, rfl, rfl⟩ := h
    obtain ⟨s2, r2, he, path, m', w, hc⟩ := processSlot_case hi F σ info c
    rw [h1] at he; cases he
    have hl : s2.accounts.length = s.accounts.length := hc.len
    refine ⟨by simp [hl], ?_, .inl hl⟩
    intro pk i hpk
    rcases hc.view hi pk with ⟨h2, -⟩ | ⟨j, e, h2, -, -, -, ⟨-, -, h3⟩ | ⟨k, -, -, h3 | h3⟩⟩
    · rw [hpk] at h2; cases h2
    · rw [hpk] at h2; cases h2; exact .inl h3
    · rw [hpk] at h2; cases h2; exact .inl h3
    · exact .inr h3.1

theorem runG_snoc {l : List Op} {op : Op} {s : Store} {g : StoreGauges} {r : Store × StoreGauges} (h : s.runG g (l ++ [op]) = .ok r) :
    ∃ r1, s.runG g l = .ok r1 ∧ r1.1.stepG r1.2 op = .ok r := by
  induction l generalizing s g with
  | nil =>
    simp only [List.nil_append, runG, Run.bind_eq_ok, Run.ok.injEq] at h
    obtain ⟨r1, h1, h2⟩ := h
    exact ⟨(s, g), rfl, by rw [h1, ← h2]⟩
  | cons o l ih =>
    simp only [List.cons_append, runG, Run.bind_eq_ok] at h
    obtain ⟨r1, h1, h2⟩ := h
    obtain ⟨r2, h3, h4⟩ := ih h2
    exact ⟨r2, by simp [runG, h1, h3], h4⟩

/-- Leaving the gauges out gives the calls of the model. -/
theorem store_erase (ops : List Op) (s : Store) (g : StoreGauges) (s' : Store) :
    s.run ops = .ok s' ↔ ∃ g', s.runG g ops = .ok (s', g') := by
  induction ops generalizing s g with
  | nil => simp [run, runG]
  | cons op ops ih =>
    simp only [run, runG, Run.bind_eq_ok]
    constructor
    · rintro ⟨s1, h1, h2⟩
      obtain ⟨g1, h3⟩ := stepG_total g h1
      obtain ⟨g2, h4⟩ := (ih s1 g1).1 h2
      exact ⟨g2, (s1, g1), h3, h4⟩
    · rintro ⟨g2, ⟨s1, g1⟩, h3, h4⟩
      exact ⟨s1, stepG_step h3, (ih s1 g1).2 ⟨g2, h4⟩⟩

end Store
end LAM
