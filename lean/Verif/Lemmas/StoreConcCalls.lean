import Verif.Lemmas.StoreConcRun
/-!
# Concurrent calls of the in-memory account store: calls in the log and threads in calls
-/
namespace LAM.Conc
open Store World ByCommitment Spec

theorem Steps.reachable {E : Env} {w w' : World} (hr : Reachable E w) (h : Steps E w w') : Reachable E w' := by
  obtain ⟨F, hr⟩ := hr; exact ⟨F, hr.trans h⟩

theorem serves_update {p : Pc} {k : Call} (h : p.serves k) (hp : p.updates = true) : ∃ a c, k = .update a c := by
  cases p <;> simp only [Pc.updates, reduceCtorEq] at hp <;> obtain ⟨c, rfl⟩ := h <;> exact ⟨_, _, rfl⟩

theorem serves_modifies {p : Pc} {k : Call} (h : p.serves k) : p.modifies = k.modifies := by
  cases p <;> simp only [Pc.serves] at h <;> first
    | exact h.elim
    | (obtain ⟨c, rfl⟩ := h; rfl)
    | (subst h; rfl)

/-- Only notifications of finalized slots remove accounts. -/
def Pc.late : Pc → Prop
  | .prUnown c .. | .prDrop c .. | .prClear c .. => c = .finalized
  | _ => True

theorem step_late {E : Env} {w w' : World} (h : Step E w w') (hl : ∀ t, (w.pc t).late) (t : Nat) : (w'.pc t).late := by
  have move : ∀ x p, w'.pc = upd w.pc x p → p.late → (w'.pc t).late := by
    intro x p hpc hp
    rw [hpc]
    by_cases hx : t = x
    · subst hx; rw [upd_self]; exact hp
    · rw [upd_other hx]; exact hl t
  cases h
  case env => exact hl t
  case call x k hp => exact move x _ rfl (by cases k <;> trivial)
  case upWrite x a c i hp =>
    rcases doWrite_pc w x a c i with ⟨_, _, h⟩ | ⟨_, _, _, h⟩ | ⟨_, h⟩ <;> exact move x _ (congrArg World.pc h) trivial
  case prPromote x c i slot l out hp =>
    rcases doPromote_pc w x c i slot l out with ⟨_, _, h⟩ | ⟨_, _, h⟩ | ⟨_, _, _, hc, h⟩ | ⟨_, _, h⟩
    · exact move x _ (congrArg World.pc h) trivial
    · exact move x _ (congrArg World.pc h) trivial
    · exact move x _ (congrArg World.pc h) hc
    · exact move x _ (congrArg World.pc h) trivial
  case geRead x _ c i hp _ =>
    obtain ⟨_, h⟩ := doRead_pc w x c i
    exact move x _ (congrArg World.pc h) trivial
  case gpVisit x p fs c i l retry out hp _ =>
    rcases doVisit_pc E w x p fs c i (fun r => .gpScan p fs c l retry (out ++ r)) with ⟨_, h⟩ | ⟨_, h⟩ <;>
      exact move x _ (congrArg World.pc h) trivial
  case gpRetry x p fs c i l out hp _ =>
    rcases doVisit_pc E w x p fs c i (fun r => .gpRetry p fs c l (out ++ r)) with ⟨_, h⟩ | ⟨_, h⟩ <;>
      exact move x _ (congrArg World.pc h) trivial
  case upUnown x a prev i hp => exact move x _ rfl (by split <;> trivial)
  case prUnown x c i a prev l out hp =>
    have := hl x
    rw [hp] at this
    exact move x _ rfl (by split; exact this; trivial)
  case prDrop x c i a l out hp hf =>
    have := hl x
    rw [hp] at this
    exact move x _ rfl this
  all_goals exact move _ _ rfl trivial

theorem reachable_late {E : Env} {w : World} (h : Reachable E w) : ∀ t, (w.pc t).late := by
  obtain ⟨F, h⟩ := h
  induction h with
  | refl => intro t; trivial
  | tail _ hs ih => exact step_late hs ih

theorem serves_finalizes {p : Pc} {k : Call} (h : p.serves k) (hl : p.late) (hp : p.finalizes = true) :
    ∃ info, k = .process info .finalized := by
  cases p <;> simp only [Pc.finalizes, reduceCtorEq, decide_eq_true_eq] at hp
  case prWalk info c => subst hp; exact ⟨info, h⟩
  case prUnown => obtain ⟨info, rfl⟩ := h; cases hl; exact ⟨info, rfl⟩
  case prDrop => obtain ⟨info, rfl⟩ := h; cases hl; exact ⟨info, rfl⟩
  case prClear => obtain ⟨info, rfl⟩ := h; cases hl; exact ⟨info, rfl⟩
  all_goals (subst hp; exact h)

theorem apart_of {E : Env} {w : World} (hr : Reachable E w) (h : Separate w) : Apart w := by
  intro t t' ht
  cases ht' : (w.pc t').finalizes with
  | false => rfl
  | true =>
    exfalso
    have hlog := reachable_log hr
    obtain ⟨k, hk, hc⟩ := hlog.opened t (by intro h; rw [h] at ht; cases ht)
    obtain ⟨k', hk', hc'⟩ := hlog.opened t' (by intro h; rw [h] at ht'; cases ht')
    obtain ⟨a, c, rfl⟩ := serves_update hk ht
    obtain ⟨info, rfl⟩ := serves_finalizes hk' (reachable_late hr t') ht'
    exact h t t' a c info hc hc'

theorem LastCall.of_snoc {log : List (Nat × Event)} {t x : Nat} {k : Call} {v : Event} (h : LastCall (log ++ [(x, v)]) t k) :
    (x = t ∧ v = .call k) ∨ (x ≠ t ∧ LastCall log t k) := by
  obtain ⟨pre, mid, he, hm⟩ := h
  rcases snoc_split he with ⟨-, h, -⟩ | ⟨post', rfl, h⟩
  · cases h; exact .inl ⟨rfl, rfl⟩
  · exact .inr ⟨hm (x, v) (by simp), pre, post', h, fun e he => hm e (by simp [he])⟩

/-- A thread with an open call is in that call. -/
theorem reachable_open {E : Env} {w : World} (h : Reachable E w) : ∀ t k, LastCall w.log t k → (w.pc t).serves k := by
  obtain ⟨F, h⟩ := h
  induction h with
  | refl => rintro t k ⟨pre, mid, h, -⟩; simp [World.init] at h
  | @tail w w' hs' hs ih =>
    intro t k hc
    obtain ⟨-, key, hg⟩ := reachable_good ⟨F, hs'⟩
    rcases logStep hs hg with ⟨hl, hp, -⟩ | ⟨x, k', hl, hp⟩ | ⟨x, r, hl, hp, -, -⟩
    · rw [hl] at hc; exact hp t k (ih t k hc)
    · rw [hl] at hc
      rw [hp]
      rcases hc.of_snoc with ⟨rfl, h⟩ | ⟨hx, h⟩
      · cases h; rw [upd_self]; cases k <;> simp [Call.start, Pc.serves]
      · rw [upd_other (Ne.symm hx)]; exact ih t k h
    · rw [hl] at hc
      rw [hp]
      rcases hc.of_snoc with ⟨rfl, h⟩ | ⟨hx, h⟩
      · cases h
      · rw [upd_other (Ne.symm hx)]; exact ih t k h

theorem quiet_iff {E : Env} {w : World} (hr : Reachable E w) : Quiet w ↔ ∀ t, w.pc t = .idle := by
  constructor
  · intro h t
    by_cases ht : w.pc t = .idle
    · exact ht
    · obtain ⟨k, -, hc⟩ := (reachable_log hr).opened t ht
      exact absurd hc (h t k)
  · intro h t k hc
    have := reachable_open hr t k hc
    rw [h t] at this
    exact this

theorem noWriter_of {E : Env} {w : World} (hr : Reachable E w) (h : NoWriter w) (t : Nat) : (w.pc t).modifies = false := by
  by_cases ht : w.pc t = .idle
  · rw [ht]; rfl
  · obtain ⟨k, hk, hc⟩ := (reachable_log hr).opened t ht
    rw [serves_modifies hk]; exact h t k hc

theorem noWriter_iff {E : Env} {w : World} (hr : Reachable E w) : NoWriter w ↔ ∀ t, (w.pc t).modifies = false := by
  refine ⟨noWriter_of hr, fun h t k hc => ?_⟩
  rw [← serves_modifies (reachable_open hr t k hc)]; exact h t

theorem alone_of {E : Env} {w : World} (hr : Reachable E w) (h : OneCall w) : Alone w := by
  intro t t' ht ht'
  have hlog := reachable_log hr
  obtain ⟨k, hk, hc⟩ := hlog.opened t (by intro h; rw [h] at ht; cases ht)
  obtain ⟨k', hk', hc'⟩ := hlog.opened t' (by intro h; rw [h] at ht'; cases ht')
  exact h t t' k k' hc hc' (by rw [← serves_modifies hk]; exact ht) (by rw [← serves_modifies hk']; exact ht')

theorem SingleWriter.oneWriter {E : Env} {Fs : List Filters} {w w' : World} (hr : Reachable E w) (h : SingleWriter E Fs w w') :
    OneWriter E Fs w w' := by
  induction h with
  | refl => exact .refl _
  | tail h hs hc hF ih =>
    have hr' := Steps.reachable hr (ih hr).steps
    exact .tail (ih hr) hs (alone_of (Steps.reachable hr' (.tail (.refl _) hs)) hc) (hF.imp id (noWriter_of hr'))

/-- The log only grows. -/
theorem steps_log {E : Env} {w0 w : World} (h0 : Reachable E w0) (h : Steps E w0 w) : ∃ l, w.log = w0.log ++ l := by
  induction h with
  | refl => exact ⟨[], by simp⟩
  | @tail w w' hs' hs ih =>
    obtain ⟨l, hl⟩ := ih
    obtain ⟨-, key, hg⟩ := reachable_good (Steps.reachable h0 hs')
    rcases logStep hs hg with ⟨h, -, -⟩ | ⟨x, k', h, -⟩ | ⟨x, r, h, -, -, -⟩
    · exact ⟨l, by rw [h, hl]⟩
    · exact ⟨l ++ [(x, .call k')], by rw [h, hl, List.append_assoc]⟩
    · exact ⟨l ++ [(x, .ret r)], by rw [h, hl, List.append_assoc]⟩

theorem getAccount_current {s : Store} {pk : Pubkey} {c : Commitment} (h : ∀ i, s.index pk = some i → i < s.accounts.length) :
    s.getAccount pk c = .ok (current s pk c) := by
  unfold Store.getAccount current Store.view
  cases hi : s.index pk with
  | none => rfl
  | some i =>
    have := List.getElem?_eq_getElem (h i hi)
    generalize s.accounts[i]'(h i hi) = e at this
    simp only [this, Run.unwrap, Option.bind_some, Run.ok_bind]
    cases hg : e.get c with
    | none => rfl
    | some a =>
      simp only [Option.filter]
      by_cases hl : a.account.lamports > 0 <;> simp [hl]

/-- A `get_account` call returns what such a call on its own would have returned at some moment while it was being executed. -/
theorem get_during {E : Env} {w0 w w' : World} (h0 : Reachable E w0) {t : Nat} {pk : Pubkey} {c : Commitment}
    (hp0 : w0.pc t = .geLookup pk c) {vs : List World} (h : Trace E w0 vs w) (hc : LastCall w.log t (.get pk c)) (hs : Step E w w') {r : Reply}
    (hl : w'.log = w.log ++ [(t, .ret r)]) :
    ∃ w1 ∈ vs, ∃ o, w1.st.getAccount pk c = .ok o ∧ r = .account o := by
  have hr := Steps.reachable h0 h.steps
  have hser := reachable_open hr t _ hc
  have look : ∀ {w1}, Steps E w0 w1 → w1.st.getAccount pk c = .ok (current w1.st pk c) := by
    intro w1 h1
    obtain ⟨-, key, hg⟩ := reachable_good (Steps.reachable h0 h1)
    exact getAccount_current fun i hi => hg.lt hi
  have nogo : w'.log = w.log → False := by
    intro h; rw [h] at hl; simpa using congrArg List.length hl
  have noret : ∀ {x s r'}, w' = w.ret x s r' → (x = t → False) → False := by
    intro x s r' h hx
    rw [h, ret_log] at hl
    simp only [List.append_cancel_left_eq, List.cons.injEq, Prod.mk.injEq, and_true] at hl
    exact hx hl.1
  have wrong : ∀ {x : Nat} {p : Pc}, w.pc x = p → (p.serves (.get pk c) → False) → x = t → False := by
    rintro x p hp hn rfl; rw [hp] at hser; exact hn hser
  cases hs
  case geNone x pk' c' hp hf hi =>
    rw [ret_log] at hl
    simp only [List.append_cancel_left_eq, List.cons.injEq, Prod.mk.injEq, and_true, Event.ret.injEq] at hl
    obtain ⟨rfl, rfl⟩ := hl
    rw [hp] at hser
    cases hser
    exact ⟨w, h.last, none, by simp [Store.getAccount, hi], rfl⟩
  case geRead x pk' c' i hp hf =>
    by_cases hx : x = t
    · subst hx
      rw [hp] at hser
      cases hser
      obtain ⟨w1, h1, h3⟩ := read_current h0 h hp0 hp hf
      rw [h3, ret_log] at hl
      simp only [List.append_cancel_left_eq, List.cons.injEq, Prod.mk.injEq, and_true, Event.ret.injEq, true_and] at hl
      exact ⟨w1, h1, _, look (h.mem w1 h1), hl.symm⟩
    · obtain ⟨_, h⟩ := doRead_pc w x c' i
      exact (noret h hx).elim
  case call x k hp => simp at hl
  case upWrite x a c' i hp =>
    rcases doWrite_pc w x a c' i with ⟨_, _, h⟩ | ⟨_, _, _, h⟩ | ⟨_, h⟩
    · exact (noret h (wrong hp (by simp [Pc.serves]))).elim
    · exact (nogo (by rw [h]; rfl)).elim
    · exact (nogo (by rw [h]; rfl)).elim
  case prPromote x c' i slot l out hp =>
    rcases doPromote_pc w x c' i slot l out with ⟨_, _, h⟩ | ⟨_, _, h⟩ | ⟨_, _, _, _, h⟩ | ⟨_, _, h⟩
    · exact (noret h (wrong hp (by simp [Pc.serves]))).elim
    all_goals exact (nogo (by rw [h]; rfl)).elim
  case gpVisit x p fs c' i l retry out hp _ =>
    rcases doVisit_pc E w x p fs c' i (fun r => .gpScan p fs c' l retry (out ++ r)) with ⟨_, h⟩ | ⟨_, h⟩
    · exact (noret h (wrong hp (by simp [Pc.serves]))).elim
    · exact (nogo (by rw [h]; rfl)).elim
  case gpRetry x p fs c' i l out hp _ =>
    rcases doVisit_pc E w x p fs c' i (fun r => .gpRetry p fs c' l (out ++ r)) with ⟨_, h⟩ | ⟨_, h⟩
    · exact (noret h (wrong hp (by simp [Pc.serves]))).elim
    · exact (nogo (by rw [h]; rfl)).elim
  all_goals first
    | exact (nogo rfl).elim
    | (rename_i hp; exact (noret rfl (wrong hp (by simp [Pc.serves]))).elim)
    | (rename_i hp _; exact (noret rfl (wrong hp (by simp [Pc.serves]))).elim)
    | (rename_i hp _ _; exact (noret rfl (wrong hp (by simp [Pc.serves]))).elim)
    | (rename_i hp _ _ _; exact (noret rfl (wrong hp (by simp [Pc.serves]))).elim)

theorem move_filters {E : Env} {n : Nat} {w w' : World} {m : Move} (h : move E n w m = some w') : w'.filters = w.filters := by
  cases m with
  | call t k => simp only [move] at h; split at h <;> cases h; rfl
  | go t =>
    simp only [move] at h
    split at h
    · unfold next at h
      repeat' split at h
      all_goals first
        | (cases h; done)
        | (cases h; rfl)
        | (cases h; rcases doWrite_pc w t _ _ _ with ⟨_, _, h⟩ | ⟨_, _, _, h⟩ | ⟨_, h⟩ <;> rw [h] <;> rfl)
        | (cases h; rcases doPromote_pc w t _ _ _ _ _ with ⟨_, _, h⟩ | ⟨_, _, h⟩ | ⟨_, _, _, _, h⟩ | ⟨_, _, h⟩ <;> rw [h] <;> rfl)
        | (cases h; obtain ⟨_, h⟩ := doRead_pc w t _ _; rw [h]; rfl)
        | (cases h; rcases doVisit_pc E w t _ _ _ _ _ with ⟨_, h⟩ | ⟨_, h⟩ <;> rw [h] <;> rfl)
    · cases h

theorem SingleWriter.head {E : Env} {Fs : List Filters} {w w1 w' : World} (hs : Step E w w1) (hc : OneCall w1)
    (hF : w1.filters = w.filters ∨ NoWriter w) (h : SingleWriter E Fs w1 w') : SingleWriter E (w.filters :: Fs) w w' := by
  induction h with
  | refl => exact .tail (.refl _) hs hc hF
  | tail _ hs' hc' hF' ih => exact .tail (ih hs hc hF) hs' hc' hF'

/-- Only thread 0 makes writing calls. -/
def onlyFirst (log : List (Nat × Event)) : Bool :=
  log.all fun e => match e.2 with
    | .call k => !k.modifies || e.1 == 0
    | .ret _ => true

theorem onlyFirst_oneCall {w : World} (h : onlyFirst w.log = true) : OneCall w := by
  have : ∀ t k, LastCall w.log t k → k.modifies = true → t = 0 := by
    rintro t k ⟨pre, mid, hl, -⟩ hk
    have := List.all_eq_true.1 h (t, .call k) (by rw [hl]; simp)
    simpa [hk] using this
  intro t t' k k' h1 h2 hk hk'
  rw [this t k h1 hk, this t' k' h2 hk']

theorem schedule_single {E : Env} {n : Nat} {ms : List Move} : ∀ {w w' : World}, Reachable E w → Within n w →
    schedule E n w ms = some w' → onlyFirst w'.log = true → ∃ Fs, SingleWriter E Fs w w' ∧ ∀ F ∈ Fs, F = w.filters := by
  induction ms with
  | nil => intro w w' _ _ h _; cases h; exact ⟨[], .refl _, by simp⟩
  | cons m ms ih =>
    intro w w' hr hw h hl
    simp only [schedule] at h
    split at h
    · rename_i w1 h1
      obtain ⟨hs, hw1⟩ := move_sound hw h1
      have hr1 := Steps.reachable hr (.tail (.refl _) hs)
      obtain ⟨Fs, h2, h3⟩ := ih hr1 hw1 h hl
      have hf := move_filters h1
      obtain ⟨l, hlog⟩ := steps_log hr1 (schedule_sound hw1 h).1
      have : onlyFirst w1.log = true := by
        rw [hlog] at hl; simp only [onlyFirst, List.all_append, Bool.and_eq_true] at hl; exact hl.1
      refine ⟨_, .head hs (onlyFirst_oneCall this) (.inl hf) h2, ?_⟩
      intro F hF
      rcases List.mem_cons.1 hF with rfl | hF
      · rfl
      · rw [h3 F hF, hf]
    · cases h

theorem played_single {E : Env} {n : Nat} {F : Filters} {ms : List Move}
    (h : (schedule E n (World.init F) ms).isSome = true) (hl : onlyFirst (played E n F ms).log = true) :
    ∃ Fs, SingleWriter E Fs (World.init F) (played E n F ms) := by
  revert hl
  unfold played
  cases h1 : schedule E n (World.init F) ms with
  | none => rw [h1] at h; cases h
  | some w =>
    intro hl
    obtain ⟨Fs, h2, -⟩ := schedule_single ⟨F, .refl _⟩ (within_init n F) h1 hl
    exact ⟨Fs, h2⟩

end LAM.Conc
