import Verif.Lemmas.OnDemand
import Verif.Spec.OnDemand
/-!
# Events of calls, and progress
-/
namespace LAM.OnDemand
open Spec

variable {σ φ : Type}

/-- Events before the lock is taken. -/
def Query.pre : Query → List Event
  | .account pk c => [.call (.account pk c), .read (.account none)]
  | .program p fs c => [.call (.program p fs c), .filtered false]

/-- Events before subscribing. -/
def Query.pre2 : Query → List Event
  | .account pk c => [.call (.account pk c), .read (.account none), .filtered false]
  | .program p fs c => [.call (.program p fs c), .filtered false]

/-- Events before the snapshot is saved. -/
def Query.pre3 : Query → List Event
  | .account pk c => [.call (.account pk c), .read (.account none), .filtered false, .subscribe true]
  | .program p fs c => [.call (.program p fs c), .filtered false, .subscribe true, .addFilter]

/-- The events of the current call, by where the thread is. -/
def HistOK (p : Pc) (es : List Event) : Prop :=
  match p with
  | .idle => es = [] ∨ ∃ q, Completed q es
  | .start q => es = [.call q]
  | .locking q => es = q.pre
  | .waiting q _ | .woken q | .rereadLocked q => es = q.pre ++ [.waited]
  | .subscribing q _ => es = q.pre2
  | .adding q _ => es = q.pre2 ++ [.subscribe true] ∧ ∃ p fs c, q = .program p fs c
  | .saving q _ => es = q.pre3
  | .finishing q _ | .notifying q _ => es = q.pre3 ++ [.save true]
  | .reread q => es = q.pre3 ++ [.save true] ∨ ∃ p fs c, q = .program p fs c ∧ es = [.call q, .filtered true]

theorem hist_move {w : World σ φ} {t : Nat} {p : Pc} {es : List Event} (h : ∀ t, HistOK (w.pc t) (w.hist t))
    (hn : HistOK p (w.hist t ++ es)) : ∀ t', HistOK ((w.move t p es).pc t') ((w.move t p es).hist t') := by
  intro t'
  simp only [World.move, upd]
  split
  · exact hn
  · exact h t'

theorem histOK_notify {pc : Nat → Pc} {cv : Option Nat} {t : Nat} {es : List Event} (h : HistOK (pc t) es) :
    HistOK (notifyAll pc cv t) es := by
  unfold notifyAll
  split
  · rename_i q c hp
    rw [hp] at h
    split
    · exact h
    · exact h
  · exact h

theorem hist_step {E : Env σ φ} {w w' : World σ φ} (h : ∀ t, HistOK (w.pc t) (w.hist t)) (hs : Step E w w') :
    ∀ t, HistOK (w'.pc t) (w'.hist t) := by
  cases hs with
  | env x f => exact h
  | call t q hp =>
    intro t'
    simp only [upd]
    split
    · rfl
    · exact h t'
  | hit t pk c hp ha =>
    have := h t; rw [hp] at this
    refine hist_move h ?_
    rw [show w.hist t = _ from this]
    exact Or.inr ⟨_, .hit pk c _ ha⟩
  | miss t pk c hp ha =>
    have := h t; rw [hp] at this
    refine hist_move h ?_
    rw [show w.hist t = _ from this]
    rfl
  | contained t p fs c hp ha =>
    have := h t; rw [hp] at this
    refine hist_move h ?_
    rw [show w.hist t = _ from this]
    exact Or.inr ⟨p, fs, c, rfl, rfl⟩
  | notContained t p fs c hp ha =>
    have := h t; rw [hp] at this
    refine hist_move h ?_
    rw [show w.hist t = _ from this]
    rfl
  | wait t q cv hp hl ht =>
    have := h t; rw [hp] at this
    refine hist_move h ?_
    rw [show w.hist t = _ from this]
    rfl
  | known t pk c hp hl ht hf =>
    have := h t; rw [hp] at this
    refine hist_move h ?_
    rw [show w.hist t = _ from this]
    exact Or.inr ⟨_, .known pk c⟩
  | insertAccount t pk c hp hl ht hf =>
    have := h t; rw [hp] at this
    refine hist_move h ?_
    rw [show w.hist t = _ from this]
    rfl
  | insertProgram t p fs c hp hl ht =>
    have := h t; rw [hp] at this
    refine hist_move h ?_
    rw [show w.hist t = _ from this]
    rfl
  | subscribedAccount t pk c cv hp =>
    have := h t; rw [hp] at this
    refine hist_move h ?_
    rw [show w.hist t = _ from this]
    rfl
  | subscribedProgram t p fs c cv hp =>
    have := h t; rw [hp] at this
    refine hist_move h ?_
    rw [show w.hist t = _ from this]
    exact ⟨rfl, p, fs, c, rfl⟩
  | subscribeFailed t q cv hp =>
    have := h t; rw [hp] at this
    refine hist_move h ?_
    rw [show w.hist t = _ from this]
    cases q with
    | account pk c => exact Or.inr ⟨_, .accountNotSubscribed pk c⟩
    | program p fs c => exact Or.inr ⟨_, .programNotSubscribed p fs c⟩
  | added t q cv hp =>
    have := h t; rw [hp] at this
    refine hist_move h ?_
    obtain ⟨he, p, fs, c, rfl⟩ := this
    rw [he]
    rfl
  | saved t q cv hp =>
    have := h t; rw [hp] at this
    refine hist_move h ?_
    rw [show w.hist t = _ from this]
    rfl
  | saveFailed t q cv hp =>
    have := h t; rw [hp] at this
    refine hist_move h ?_
    rw [show w.hist t = _ from this]
    cases q with
    | account pk c => exact Or.inr ⟨_, .accountNotSaved pk c⟩
    | program p fs c => exact Or.inr ⟨_, .programNotSaved p fs c⟩
  | removed t q cv hp hl =>
    have := h t; rw [hp] at this
    refine hist_move h ?_
    rw [show w.hist t = _ from this]
    simp [HistOK]
  | notified t q cv hp =>
    have := h t; rw [hp] at this
    intro t'
    simp only [upd]
    split
    · rename_i he; subst he; exact Or.inl this
    · exact histOK_notify (h t')
  | reread t q hp =>
    have := h t; rw [hp] at this
    refine hist_move h ?_
    rcases this with he | ⟨p, fs, c, rfl, he⟩
    · rw [he]
      cases q with
      | account pk c => exact Or.inr ⟨_, .loadedAccount pk c _⟩
      | program p fs c => exact Or.inr ⟨_, .loadedProgram p fs c _⟩
    · rw [he]
      exact Or.inr ⟨_, .contained p fs c _⟩
  | timeout t q cv hp =>
    have := h t; rw [hp] at this
    refine hist_move h ?_
    rw [show w.hist t = _ from this]
    simp [HistOK]
  | relock t q hp hl =>
    have := h t; rw [hp] at this
    refine hist_move h ?_
    rw [show w.hist t = _ from this]
    simp [HistOK]
  | rereadLocked t q hp =>
    have := h t; rw [hp] at this
    refine hist_move h ?_
    rw [show w.hist t = _ from this]
    cases q with
    | account pk c => exact Or.inr ⟨_, .waitedAccount pk c _⟩
    | program p fs c => exact Or.inr ⟨_, .waitedProgram p fs c _⟩

theorem hist_reachable {E : Env σ φ} {w : World σ φ} (h : Reachable E w) : ∀ t, HistOK (w.pc t) (w.hist t) := by
  obtain ⟨x, f, hs⟩ := h
  induction hs with
  | refl => intro t; exact Or.inl rfl
  | tail _ hs ih => exact hist_step ih hs

/-- A mutex can always become free without disturbing threads that do not hold it. -/
theorem unlock {E : Env σ φ} {w : World σ φ} (h : Inv w) (m : Mutex) :
    ∃ w', Steps E w w' ∧ w'.lock m = none ∧ ∀ t, (w.pc t).holds = none → w'.pc t = w.pc t := by
  cases hm : w.lock m with
  | none => exact ⟨w, .refl w, hm, fun _ _ => rfl⟩
  | some o =>
    have ho := (h.lock m o).1 hm
    have hne : ∀ t, (w.pc t).holds = none → t ≠ o := by
      rintro t ht rfl; rw [ho] at ht; cases ht
    cases hp : w.pc o with
    | subscribing q cv =>
      rw [hp] at ho
      simp only [Pc.holds, Option.some.injEq] at ho
      refine ⟨_, .one (.subscribeFailed w o q cv hp), ?_, ?_⟩
      · simp [upd, ho]
      · intro t ht; simp [World.move, upd, hne t ht]
    | rereadLocked q =>
      rw [hp] at ho
      simp only [Pc.holds, Option.some.injEq] at ho
      refine ⟨_, .one (.rereadLocked w o q hp), ?_, ?_⟩
      · simp [upd, ho]
      · intro t ht; simp [World.move, upd, hne t ht]
    | _ => rw [hp] at ho; simp [Pc.holds] at ho

/-- How far a call is from returning. -/
def Pc.rank : Pc → Nat
  | .idle => 0
  | .reread _ | .rereadLocked _ => 1
  | .notifying _ _ | .woken _ => 2
  | .finishing _ _ | .waiting _ _ => 3
  | .saving _ _ => 4
  | .adding _ _ => 5
  | .subscribing _ _ => 6
  | .locking _ => 7
  | .start _ => 8

theorem rank_move (w : World σ φ) (t : Nat) (p : Pc) (es : List Event) : (w.move t p es).pc t = p := by
  simp [World.move, upd]

theorem progress {E : Env σ φ} {w : World σ φ} (h : Inv w) (t : Nat) (hp : w.pc t ≠ .idle) :
    ∃ w', Steps E w w' ∧ (w'.pc t).rank < (w.pc t).rank := by
  cases hq : w.pc t with
  | idle => exact absurd hq hp
  | start q =>
    cases q with
    | account pk c =>
      by_cases ha : E.answer w.store (.account pk c) = .account none
      · exact ⟨_, .one (.miss w t pk c hq ha), by rw [rank_move]; simp [Pc.rank]⟩
      · exact ⟨_, .one (.hit w t pk c hq ha), by rw [rank_move]; simp [Pc.rank]⟩
    | program p fs c =>
      cases hf : E.filtered w.filters (.program p fs c) with
      | true => exact ⟨_, .one (.contained w t p fs c hq hf), by rw [rank_move]; simp [Pc.rank]⟩
      | false => exact ⟨_, .one (.notContained w t p fs c hq hf), by rw [rank_move]; simp [Pc.rank]⟩
  | locking q =>
    obtain ⟨w1, h1, hl, hk⟩ := unlock (E := E) h q.mutex
    have hq1 : w1.pc t = .locking q := by rw [hk t (by rw [hq]; rfl), hq]
    cases ht : w1.table q.key with
    | some cv => exact ⟨_, h1.tail (.wait w1 t q cv hq1 hl ht), by rw [rank_move]; simp [Pc.rank]⟩
    | none =>
      cases q with
      | account pk c =>
        cases hf : E.filtered w1.filters (.account pk c) with
        | true => exact ⟨_, h1.tail (.known w1 t pk c hq1 hl ht hf), by rw [rank_move]; simp [Pc.rank]⟩
        | false =>
          exact ⟨_, h1.tail (.insertAccount w1 t pk c hq1 hl ht hf), by simp [World.move, upd, Pc.rank]⟩
      | program p fs c =>
        exact ⟨_, h1.tail (.insertProgram w1 t p fs c hq1 hl ht), by simp [World.move, upd, Pc.rank]⟩
  | waiting q cv => exact ⟨_, .one (.timeout w t q cv hq), by simp [World.move, upd, Pc.rank]⟩
  | woken q =>
    obtain ⟨w1, h1, hl, hk⟩ := unlock (E := E) h q.mutex
    have hq1 : w1.pc t = .woken q := by rw [hk t (by rw [hq]; rfl), hq]
    exact ⟨_, h1.tail (.relock w1 t q hq1 hl), by simp [World.move, upd, Pc.rank]⟩
  | rereadLocked q => exact ⟨_, .one (.rereadLocked w t q hq), by simp [World.move, upd, Pc.rank]⟩
  | subscribing q cv => exact ⟨_, .one (.subscribeFailed w t q cv hq), by simp [World.move, upd, Pc.rank]⟩
  | adding q cv => exact ⟨_, .one (.added w t q cv hq), by simp [World.move, upd, Pc.rank]⟩
  | saving q cv => exact ⟨_, .one (.saved w t q cv hq), by simp [World.move, upd, Pc.rank]⟩
  | finishing q cv =>
    obtain ⟨w1, h1, hl, hk⟩ := unlock (E := E) h q.mutex
    have hq1 : w1.pc t = .finishing q cv := by rw [hk t (by rw [hq]; rfl), hq]
    exact ⟨_, h1.tail (.removed w1 t q cv hq1 hl), by simp [World.move, upd, Pc.rank]⟩
  | notifying q cv => exact ⟨_, .one (.notified w t q cv hq), by simp [upd, Pc.rank]⟩
  | reread q => exact ⟨_, .one (.reread w t q hq), by simp [World.move, upd, Pc.rank]⟩

theorem can_return {E : Env σ φ} : ∀ (n : Nat) {w : World σ φ}, Inv w → ∀ t, (w.pc t).rank ≤ n →
    ∃ w', Steps E w w' ∧ w'.pc t = .idle := by
  intro n
  induction n with
  | zero =>
    intro w _ t hr
    refine ⟨w, .refl w, ?_⟩
    revert hr
    cases w.pc t <;> simp [Pc.rank]
  | succ n ih =>
    intro w h t hr
    by_cases hi : w.pc t = .idle
    · exact ⟨w, .refl w, hi⟩
    · obtain ⟨w1, h1, hlt⟩ := progress (E := E) h t hi
      obtain ⟨w2, h2, hi2⟩ := ih (inv_steps h h1) t (by omega)
      exact ⟨w2, h1.trans h2, hi2⟩

/-! Failed loads leave their entry behind. -/

theorem failed_append {es es' : List Event} {k : Key} (hn : es ≠ []) (h : FailedToLoad (es ++ es') k)
    (h1 : .subscribe false ∉ es') (h2 : .save false ∉ es') : FailedToLoad es k := by
  obtain ⟨q, rest, he, hk, hf⟩ := h
  cases es with
  | nil => exact absurd rfl hn
  | cons e l =>
    simp at he
    obtain ⟨rfl, rfl⟩ := he
    refine ⟨q, l, rfl, hk, ?_⟩
    rcases hf with hf | hf
    · left; simpa [h1] using hf
    · right; simpa [h2] using hf

theorem hist_ne_nil {p : Pc} {es : List Event} (h : HistOK p es) (hp : p ≠ .idle) : es ≠ [] := by
  cases p with
  | idle => exact absurd rfl hp
  | start q => simp_all [HistOK]
  | adding q cv => cases q <;> simp_all [HistOK, Query.pre2]
  | reread q => cases q <;> simp_all [HistOK, Query.pre3] <;> grind
  | _ q => cases q <;> simp_all [HistOK, Query.pre, Query.pre2, Query.pre3]

/-- Every call that failed to load its key left the entry of the key behind. -/
def FailsMarked (w : World σ φ) : Prop :=
  ∀ t k, FailedToLoad (w.hist t) k → ∃ cv, w.table k = some cv ∧ cv ∈ w.failed

theorem failed_prev {E : Env σ φ} {w w' : World σ φ} (h : Inv w) (hh : ∀ t, HistOK (w.pc t) (w.hist t))
    (hs : Step E w w') (t : Nat) (k : Key) (hf : FailedToLoad (w'.hist t) k) :
    FailedToLoad (w.hist t) k ∨ ∃ cv, w'.table k = some cv ∧ cv ∈ w'.failed := by
  have key : ∀ (t' : Nat) (es : List Event), w.pc t' ≠ .idle → .subscribe false ∉ es → .save false ∉ es →
      FailedToLoad (upd w.hist t' (w.hist t' ++ es) t) k → FailedToLoad (w.hist t) k := by
    intro t' es hp h1 h2 hf
    simp only [upd] at hf
    split at hf
    · rename_i he; subst he
      exact failed_append (hist_ne_nil (hh t) hp) hf h1 h2
    · exact hf
  cases hs with
  | env => exact Or.inl hf
  | call t' q hp =>
    simp only [upd] at hf
    split at hf
    · obtain ⟨q', rest, he, -, hf⟩ := hf
      simp at he
      obtain ⟨-, rfl⟩ := he
      simp at hf
    · exact Or.inl hf
  | notified => exact Or.inl hf
  | subscribeFailed t' q cv hp =>
    by_cases he : t = t'
    · subst he
      obtain ⟨q', rest, hc, hk, -⟩ := hf
      have := hh t; rw [hp] at this
      right
      have hq : q' = q := by
        simp only [World.move, upd, if_pos] at hc
        rw [show w.hist t = _ from this] at hc
        cases q <;> simp [Query.pre2] at hc <;> exact hc.1.symm
      subst hq
      subst hk
      exact ⟨cv, (h.subscribing t q' cv hp).2.1, by simp⟩
    · left; simpa [World.move, upd, he] using hf
  | saveFailed t' q cv hp =>
    by_cases he : t = t'
    · subst he
      obtain ⟨q', rest, hc, hk, -⟩ := hf
      have := hh t; rw [hp] at this
      right
      have hq : q' = q := by
        simp only [World.move, upd, if_pos] at hc
        rw [show w.hist t = _ from this] at hc
        cases q <;> simp [Query.pre3] at hc <;> exact hc.1.symm
      subst hq
      subst hk
      exact ⟨cv, (h.saving t q' cv hp).1, by simp⟩
    · left; simpa [World.move, upd, he] using hf
  | _ =>
    left
    refine key _ _ ?_ ?_ ?_ hf
    · simp_all
    · simp
    · simp

theorem failsMarked_steps {E : Env σ φ} {w w' : World σ φ} (h : Inv w) (hh : ∀ t, HistOK (w.pc t) (w.hist t))
    (hm : FailsMarked w) (hs : Steps E w w') : FailsMarked w' := by
  have : FailsMarked w' ∧ ∀ t, HistOK (w'.pc t) (w'.hist t) := by
    induction hs with
    | refl => exact ⟨hm, hh⟩
    | tail h1 hs ih =>
      refine ⟨?_, hist_step ih.2 hs⟩
      intro t k hf
      have hi := inv_steps h h1
      rcases failed_prev hi ih.2 hs t k hf with hf | hf
      · obtain ⟨cv, h1, h2⟩ := ih.1 t k hf
        exact ⟨cv, stuck_step hi hs h1 h2⟩
      · exact hf
  exact this.1

theorem failsMarked_reachable {E : Env σ φ} {w : World σ φ} (h : Reachable E w) : FailsMarked w := by
  obtain ⟨x, f, hs⟩ := h
  refine failsMarked_steps (inv_init x f) ?_ ?_ hs
  · intro t; exact Or.inl rfl
  · rintro t k ⟨q, rest, he, -⟩; simp [World.init] at he

/-! Notified condition variables are not used again. -/

/-- Condition variables about to be notified are in no table. -/
def Retired (w : World σ φ) : Prop :=
  ∀ t q cv, w.pc t = .notifying q (some cv) → cv < w.fresh ∧ ∀ k, w.table k ≠ some cv

theorem retired_step {E : Env σ φ} {w w' : World σ φ} (h : Inv w) (hr : Retired w) (hs : Step E w w') : Retired w' := by
  obtain ⟨h1, h2, h3, h4, h5, h6, h7⟩ := h
  unfold Retired at *
  cases hs <;> intro t q cv <;> simp only [World.move, upd, notifyAll] <;> grind

theorem retired_reachable {E : Env σ φ} {w : World σ φ} (h : Reachable E w) : Retired w := by
  obtain ⟨x, f, hs⟩ := h
  have : Inv w ∧ Retired w := by
    induction hs with
    | refl => exact ⟨inv_init x f, by intro t q cv h; simp [World.init] at h⟩
    | tail _ hs ih => exact ⟨inv_step ih.1 hs, retired_step ih.1 ih.2 hs⟩
  exact this.2

/-- A condition variable that nobody uses. -/
def Dead (w : World σ φ) (cv : Nat) : Prop :=
  cv < w.fresh ∧ (∀ k, w.table k ≠ some cv) ∧ ∀ t q, w.pc t ≠ .waiting q cv

theorem dead_step {E : Env σ φ} {w w' : World σ φ} {cv : Nat} (h : Dead w cv) (hs : Step E w w') : Dead w' cv := by
  obtain ⟨h1, h2, h3⟩ := h
  refine ⟨Nat.lt_of_lt_of_le h1 (fresh_mono hs), ?_, ?_⟩
  · cases hs <;> intro k <;> simp only [World.move, upd] <;> grind
  · cases hs <;> intro t q <;> simp only [World.move, upd, notifyAll] <;> grind

theorem dead_steps {E : Env σ φ} {w w' : World σ φ} {cv : Nat} (h : Dead w cv) (hs : Steps E w w') : Dead w' cv := by
  induction hs with
  | refl => exact h
  | tail _ hs ih => exact dead_step ih hs

theorem dead_of_notified {E : Env σ φ} {w w' : World σ φ} {t : Nat} {q : Query} {cv : Nat} (hr : Retired w)
    (hp : w.pc t = .notifying q (some cv)) (hs : Step E w w') (hn : w'.pc t ≠ w.pc t) : Dead w' cv := by
  obtain ⟨h1, h2⟩ := hr t q cv hp
  rw [hp] at hn
  refine ⟨Nat.lt_of_lt_of_le h1 (fresh_mono hs), ?_, ?_⟩
  · cases hs <;> intro k <;> simp only [World.move, upd] <;> grind
  · exact (notifying_next hs t q cv hp).resolve_left hn

end LAM.OnDemand
