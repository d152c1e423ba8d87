import Verif.Model.OnDemand
/-!
# Invariants of loading on demand
-/
namespace LAM.OnDemand

/-- The load a thread is carrying out: from inserting the entry until removing it. -/
def Pc.loading : Pc → Option (Query × Nat)
  | .subscribing q cv | .adding q cv | .saving q cv | .finishing q cv => some (q, cv)
  | _ => none

/-- The mutex a thread holds between steps. -/
def Pc.holds : Pc → Option Mutex
  | .subscribing q _ | .rereadLocked q => some q.mutex
  | _ => none

variable {σ φ : Type}

/-- Invariant of the loading tables. -/
structure Inv (w : World σ φ) : Prop where
  lock : ∀ m t, w.lock m = some t ↔ (w.pc t).holds = some m
  loader : ∀ t q cv, (w.pc t).loading = some (q, cv) → w.table q.key = some cv ∧ cv ∉ w.failed
  unique : ∀ t t' q q' cv cv', (w.pc t).loading = some (q, cv) → (w.pc t').loading = some (q', cv') →
    q.key = q'.key → t = t'
  table : ∀ k cv, w.table k = some cv → cv < w.fresh ∧
    (cv ∈ w.failed ∨ ∃ t q, (w.pc t).loading = some (q, cv) ∧ q.key = k)
  inj : ∀ k k' cv, w.table k = some cv → w.table k' = some cv → k = k'
  waiting : ∀ t q cv, w.pc t = .waiting q cv → w.table q.key = some cv ∨
    ∃ t' q', w.pc t' = .notifying q' (some cv) ∧ q'.key = q.key
  failed : ∀ cv ∈ w.failed, cv < w.fresh

theorem inv_init (x : σ) (f : φ) : Inv (World.init x f) := by
  constructor <;> simp [World.init, Pc.loading, Pc.holds]

theorem upd_same [DecidableEq α] (f : α → β) (a : α) (b : β) : upd f a b a = b := by simp [upd]
theorem upd_other [DecidableEq α] (f : α → β) {a x : α} (b : β) (h : x ≠ a) : upd f a b x = f x := by
  simp [upd, h]

theorem Inv.subscribing {w : World σ φ} (h : Inv w) : ∀ t q cv, w.pc t = .subscribing q cv →
    w.lock q.mutex = some t ∧ w.table q.key = some cv ∧ cv ∉ w.failed ∧ cv < w.fresh := by
  intro t q cv hp
  have hl := h.loader t q cv (by rw [hp]; rfl)
  exact ⟨(h.lock _ _).2 (by rw [hp]; rfl), hl.1, hl.2, (h.table _ _ hl.1).1⟩

theorem Inv.adding {w : World σ φ} (h : Inv w) : ∀ t q cv, w.pc t = .adding q cv →
    w.table q.key = some cv ∧ cv ∉ w.failed ∧ cv < w.fresh := by
  intro t q cv hp
  have hl := h.loader t q cv (by rw [hp]; rfl)
  exact ⟨hl.1, hl.2, (h.table _ _ hl.1).1⟩

theorem Inv.saving {w : World σ φ} (h : Inv w) : ∀ t q cv, w.pc t = .saving q cv →
    w.table q.key = some cv ∧ cv ∉ w.failed ∧ cv < w.fresh := by
  intro t q cv hp
  have hl := h.loader t q cv (by rw [hp]; rfl)
  exact ⟨hl.1, hl.2, (h.table _ _ hl.1).1⟩

theorem Inv.finishing {w : World σ φ} (h : Inv w) : ∀ t q cv, w.pc t = .finishing q cv →
    w.table q.key = some cv ∧ cv ∉ w.failed ∧ cv < w.fresh := by
  intro t q cv hp
  have hl := h.loader t q cv (by rw [hp]; rfl)
  exact ⟨hl.1, hl.2, (h.table _ _ hl.1).1⟩

theorem Inv.rereadLocked {w : World σ φ} (h : Inv w) : ∀ t q, w.pc t = .rereadLocked q →
    w.lock q.mutex = some t := by
  intro t q hp
  exact (h.lock _ _).2 (by rw [hp]; rfl)

theorem lock_step {E : Env σ φ} {w w' : World σ φ} (h : Inv w) (hs : Step E w w') :
    ∀ m t, w'.lock m = some t ↔ (w'.pc t).holds = some m := by
  have hl := h.lock
  have ha := h.subscribing
  have hb := h.rereadLocked
  cases hs <;> intro m t <;> simp only [World.move, upd, notifyAll] <;> grind [Pc.holds, Query.mutex]

theorem loader_step {E : Env σ φ} {w w' : World σ φ} (h : Inv w) (hs : Step E w w') :
    ∀ t q cv, (w'.pc t).loading = some (q, cv) → w'.table q.key = some cv ∧ cv ∉ w'.failed := by
  obtain ⟨h1, h2, h3, h4, h5, h6, h7⟩ := h
  cases hs <;> intro t q cv <;> simp only [World.move, upd, notifyAll] <;> grind [Pc.loading, Query.key]

theorem unique_step {E : Env σ φ} {w w' : World σ φ} (h : Inv w) (hs : Step E w w') :
    ∀ t t' q q' cv cv', (w'.pc t).loading = some (q, cv) → (w'.pc t').loading = some (q', cv') →
    q.key = q'.key → t = t' := by
  have h2 := h.loader
  have h3 := h.unique
  cases hs <;> intro t t' q q' cv cv' <;> simp only [World.move, upd, notifyAll] <;> grind [Pc.loading, Query.key]

theorem inj_step {E : Env σ φ} {w w' : World σ φ} (h : Inv w) (hs : Step E w w') :
    ∀ k k' cv, w'.table k = some cv → w'.table k' = some cv → k = k' := by
  obtain ⟨h1, h2, h3, h4, h5, h6, h7⟩ := h
  cases hs <;> intro k k' cv <;> simp only [World.move, upd, notifyAll] <;> grind

theorem failed_step {E : Env σ φ} {w w' : World σ φ} (h : Inv w) (hs : Step E w w') :
    ∀ cv ∈ w'.failed, cv < w'.fresh := by
  have ha := h.subscribing
  have hb := h.saving
  have hc := h.failed
  cases hs <;> intro cv <;> simp only [World.move, upd, notifyAll] <;> grind [Pc.loading]

theorem loading_next {E : Env σ φ} {w w' : World σ φ} (h : Inv w) (hs : Step E w w') :
    ∀ t q cv, (w.pc t).loading = some (q, cv) →
      (w'.pc t).loading = some (q, cv) ∨ cv ∈ w'.failed ∨ w'.table q.key = none := by
  cases hs <;> intro t q cv <;> simp only [World.move, upd, notifyAll] <;> grind [Pc.loading, Query.key]

theorem failed_mono {E : Env σ φ} {w w' : World σ φ} (hs : Step E w w') :
    ∀ cv ∈ w.failed, cv ∈ w'.failed := by
  cases hs <;> intro cv <;> simp only [World.move] <;> grind

theorem fresh_mono {E : Env σ φ} {w w' : World σ φ} (hs : Step E w w') : w.fresh ≤ w'.fresh := by
  cases hs <;> simp only [World.move] <;> grind

theorem table_prev {E : Env σ φ} {w w' : World σ φ} (hs : Step E w w') :
    ∀ k cv, w'.table k = some cv → w.table k = some cv ∨
      (cv < w'.fresh ∧ ∃ t q, (w'.pc t).loading = some (q, cv) ∧ q.key = k) := by
  intro k cv
  cases hs with
  | insertAccount t pk c hp hl ht hf =>
    simp only [World.move, upd]
    split
    · rename_i hk
      intro he
      cases he
      exact Or.inr ⟨by omega, t, .account pk c, by simp [Pc.loading], hk.symm⟩
    · exact Or.inl
  | insertProgram t p fs c hp hl ht =>
    simp only [World.move, upd]
    split
    · rename_i hk
      intro he
      cases he
      exact Or.inr ⟨by omega, t, .program p fs c, by simp [Pc.loading], hk.symm⟩
    · exact Or.inl
  | removed t q c hp hl =>
    simp only [World.move, upd]
    split
    · intro he; cases he
    · exact Or.inl
  | _ => exact Or.inl

theorem table_step {E : Env σ φ} {w w' : World σ φ} (h : Inv w) (hs : Step E w w') :
    ∀ k cv, w'.table k = some cv → cv < w'.fresh ∧
    (cv ∈ w'.failed ∨ ∃ t q, (w'.pc t).loading = some (q, cv) ∧ q.key = k) := by
  intro k cv hk
  rcases table_prev hs k cv hk with h0 | ⟨h1, h2⟩
  · obtain ⟨hlt, hor⟩ := h.table k cv h0
    refine ⟨Nat.lt_of_lt_of_le hlt (fresh_mono hs), ?_⟩
    rcases hor with hf | ⟨t, q, hl, rfl⟩
    · exact Or.inl (failed_mono hs cv hf)
    · rcases loading_next h hs t q cv hl with h1 | h1 | h1
      · exact Or.inr ⟨t, q, h1, rfl⟩
      · exact Or.inl h1
      · rw [h1] at hk; cases hk
  · exact ⟨h1, Or.inr h2⟩

theorem waiting_prev {E : Env σ φ} {w w' : World σ φ} (hs : Step E w w') :
    ∀ t q cv, w'.pc t = .waiting q cv → w.pc t = .waiting q cv ∨ w'.table q.key = some cv := by
  cases hs <;> intro t q cv <;> simp only [World.move, upd, notifyAll] <;> grind

theorem table_next {E : Env σ φ} {w w' : World σ φ} (hs : Step E w w') :
    ∀ k cv, w.table k = some cv → w'.table k = some cv ∨
      ∃ t q, w'.pc t = .notifying q (some cv) ∧ q.key = k := by
  intro k cv hk
  cases hs with
  | insertAccount t pk c hp hl ht hf =>
    left
    simp only [World.move, upd]
    split
    · rename_i he; subst he; rw [hk] at ht; cases ht
    · exact hk
  | insertProgram t p fs c hp hl ht =>
    left
    simp only [World.move, upd]
    split
    · rename_i he; subst he; rw [hk] at ht; cases ht
    · exact hk
  | removed t q c hp hl =>
    simp only [World.move, upd]
    split
    · rename_i he
      subst he
      exact Or.inr ⟨t, q, by simp [hk], rfl⟩
    · exact Or.inl hk
  | _ => exact Or.inl hk

theorem notifying_next {E : Env σ φ} {w w' : World σ φ} (hs : Step E w w') :
    ∀ t q cv, w.pc t = .notifying q (some cv) → w'.pc t = .notifying q (some cv) ∨
      ∀ t' q', w'.pc t' ≠ .waiting q' cv := by
  cases hs <;> intro t q cv <;> simp only [World.move, upd, notifyAll] <;> grind

theorem waiting_step {E : Env σ φ} {w w' : World σ φ} (h : Inv w) (hs : Step E w w') :
    ∀ t q cv, w'.pc t = .waiting q cv → w'.table q.key = some cv ∨
    ∃ t' q', w'.pc t' = .notifying q' (some cv) ∧ q'.key = q.key := by
  intro t q cv hw
  rcases waiting_prev hs t q cv hw with h0 | h0
  · rcases h.waiting t q cv h0 with h1 | ⟨t', q', h1, h2⟩
    · exact table_next hs _ _ h1
    · rcases notifying_next hs t' q' cv h1 with h3 | h3
      · exact Or.inr ⟨t', q', h3, h2⟩
      · exact absurd hw (h3 t q)
  · exact Or.inl h0

theorem inv_step {E : Env σ φ} {w w' : World σ φ} (h : Inv w) (hs : Step E w w') : Inv w' :=
  ⟨lock_step h hs, loader_step h hs, unique_step h hs, table_step h hs, inj_step h hs, waiting_step h hs,
    failed_step h hs⟩

theorem inv_steps {E : Env σ φ} {w w' : World σ φ} (h : Inv w) (hs : Steps E w w') : Inv w' := by
  induction hs with
  | refl => exact h
  | tail _ hs ih => exact inv_step ih hs

theorem inv_reachable {E : Env σ φ} {w : World σ φ} (h : Reachable E w) : Inv w := by
  obtain ⟨x, f, hs⟩ := h
  exact inv_steps (inv_init x f) hs

theorem Steps.trans {E : Env σ φ} {w w' w'' : World σ φ} (h : Steps E w w') (h' : Steps E w' w'') :
    Steps E w w'' := by
  induction h' with
  | refl => exact h
  | tail _ hs ih => exact .tail ih hs

theorem Steps.one {E : Env σ φ} {w w' : World σ φ} (h : Step E w w') : Steps E w w' := .tail (.refl _) h

/-- A key whose load failed keeps its entry. -/
theorem stuck_step {E : Env σ φ} {w w' : World σ φ} (h : Inv w) (hs : Step E w w') {k : Key} {cv : Nat}
    (hk : w.table k = some cv) (hf : cv ∈ w.failed) : w'.table k = some cv ∧ cv ∈ w'.failed := by
  refine ⟨?_, failed_mono hs cv hf⟩
  have hfin := h.finishing
  revert hk hf
  cases hs <;> simp only [World.move, upd] <;> grind

theorem stuck_steps {E : Env σ φ} {w w' : World σ φ} (h : Inv w) (hs : Steps E w w') {k : Key} {cv : Nat}
    (hk : w.table k = some cv) (hf : cv ∈ w.failed) : w'.table k = some cv ∧ cv ∈ w'.failed := by
  induction hs with
  | refl => exact ⟨hk, hf⟩
  | tail h1 hs ih => exact stuck_step (inv_steps h h1) hs ih.1 ih.2

end LAM.OnDemand
