import Verif.Lemmas.TokenSnapConcRun
/-!
# Snapshots of the token program store among other calls: a scheduler to build concrete executions
-/
namespace LAM.TokConc
open Token

/-- One decision of the scheduler. -/
inductive SMove where
  | call (t : Nat) (k : Call)
  | go (t : Nat)
  | scall (t : Nat) (k : SCall)
  | sgo (t : Nat)

/-- Whether a lock can be given, if only the first `n` threads of each kind are in calls. -/
def scanGo (E : SnapEnv) (n : Nat) (W : SWorld) : Option (Lock × Mode) → Bool
  | none => true
  | some (l, m) =>
    ((List.range n).all fun u => ((W.w.pc u).holds E.base).all fun x => x.1 != l || (m == .read && x.2 == .read)) &&
    ((List.range n).all fun u => ((W.sp u).holds E).all fun x => x.1 != l || (m == .read && x.2 == .read)) &&
    (m != .read || !E.base.writersFirst || (List.range n).all fun u =>
      (W.w.pc u).wants E.base != some (l, .write) && (W.sp u).wants E != some (l, .write))

/-- Only the first `n` threads of each kind are in calls. -/
def SWithin (n : Nat) (W : SWorld) : Prop := ∀ t, n ≤ t → W.w.pc t = .idle ∧ W.sp t = .idle

theorem scanGo_granted {E : SnapEnv} {n : Nat} {W : SWorld} {ask : Option (Lock × Mode)} (hw : SWithin n W)
    (h : scanGo E n W ask = true) : W.Granted E ask := by
  rintro l m rfl
  simp only [scanGo, Bool.and_eq_true, List.all_eq_true, List.mem_range, Bool.or_eq_true, bne_iff_ne, beq_iff_eq] at h
  have lt : ∀ u, W.w.pc u ≠ .idle ∨ W.sp u ≠ .idle → u < n := fun u hu => by
    by_contra hge
    have := hw u (by omega)
    simp [this.1, this.2] at hu
  refine ⟨fun u m' hu => ?_, fun u m' hu => ?_, fun hr hf => ⟨fun u hu => ?_, fun u hu => ?_⟩⟩
  · have hui : W.w.pc u ≠ .idle := by intro h; rw [h] at hu; simp [Pc.holds] at hu
    simpa using h.1.1 u (lt u (.inl hui)) _ hu
  · have hui : W.sp u ≠ .idle := by intro h; rw [h] at hu; simp [SPc.holds] at hu
    simpa using h.1.2 u (lt u (.inr hui)) _ hu
  · have hui : W.w.pc u ≠ .idle := by intro h; rw [h] at hu; simp [Pc.wants] at hu
    rcases h.2 with (h2 | h2) | h2
    · exact h2 hr
    · simp [hf] at h2
    · exact (h2 u (lt u (.inl hui))).1 hu
  · have hui : W.sp u ≠ .idle := by intro h; rw [h] at hu; simp [SPc.wants] at hu
    rcases h.2 with (h2 | h2) | h2
    · exact h2 hr
    · simp [hf] at h2
    · exact (h2 u (lt u (.inr hui))).2 hu

/-- Not in a call. -/
def sisIdle : SPc → Bool
  | .idle => true
  | _ => false

theorem sisIdle_iff {p : SPc} : sisIdle p = true ↔ p = .idle := by cases p <;> simp [sisIdle]

/-- One decision carried out. -/
def smove (E : SnapEnv) (n : Nat) (σ : Orders) (τ : SnapshotOrders) (W : SWorld) : SMove → Option SWorld
  | .call t k => if t < n && isIdle (W.w.pc t) then
      some { W with w := { W.w with pc := upd W.w.pc t (Call.start k), log := W.w.log ++ [(t, .call k)] } } else none
  | .go t => if t < n && isActive (W.w.pc t) && scanGo E n W ((W.w.pc t).wants E.base) then
      some { W with w := W.w.after E.base t ((W.w.pc t).exec E.base σ W.w.st) } else none
  | .scall t k => if t < n && sisIdle (W.sp t) then
      some { W with sp := supd W.sp t (SCall.start E k), log := W.log ++ [(t, .call k)] } else none
  | .sgo t => if t < n && !sisIdle (W.sp t) && scanGo E n W ((W.sp t).wants E) then
      some (W.after t ((W.sp t).exec E τ W.w.st)) else none

/-- A schedule carried out. -/
def sschedule (E : SnapEnv) (n : Nat) (σ : Orders) (τ : SnapshotOrders) (W : SWorld) : List SMove → Option SWorld
  | [] => some W
  | m :: ms => match smove E n σ τ W m with
    | some W' => sschedule E n σ τ W' ms
    | none => none

theorem safter_sp (W : SWorld) (t : Nat) (r : Run (TokenStore × SNext)) :
    (∀ u, u ≠ t → (W.after t r).sp u = W.sp u) ∧ (W.after t r).w.pc = W.w.pc := by
  match r with
  | .ok (s, .go p) => exact ⟨fun u hu => supd_other hu, rfl⟩
  | .ok (s, .ret r) => exact ⟨fun u hu => supd_other hu, rfl⟩
  | .panic => exact ⟨fun u hu => supd_other hu, rfl⟩
  | .diverge => exact ⟨fun u hu => rfl, rfl⟩

theorem smove_sound {E : SnapEnv} {n : Nat} {σ : Orders} {τ : SnapshotOrders} {W W' : SWorld} {m : SMove} (hw : SWithin n W)
    (h : smove E n σ τ W m = some W') : SStep E W W' ∧ SWithin n W' := by
  cases m with
  | call t k =>
    simp only [smove] at h
    split at h
    · rename_i hc
      simp only [Bool.and_eq_true, decide_eq_true_eq, isIdle_iff] at hc
      cases h
      refine ⟨.call W t k hc.2, fun x hx => ⟨?_, (hw x hx).2⟩⟩
      simp only; rw [upd_other (by omega)]; exact (hw x hx).1
    · cases h
  | go t =>
    simp only [smove] at h
    split at h
    · rename_i hc
      simp only [Bool.and_eq_true, decide_eq_true_eq, isActive_iff] at hc
      cases h
      refine ⟨.work (.other W t σ hc.1.2 (scanGo_granted hw hc.2)), fun x hx => ⟨?_, (hw x hx).2⟩⟩
      obtain ⟨p, hp⟩ := after_pc E.base W.w t ((W.w.pc t).exec E.base σ W.w.st)
      simp only; rw [hp, upd_other (by omega)]; exact (hw x hx).1
    · cases h
  | scall t k =>
    simp only [smove] at h
    split at h
    · rename_i hc
      simp only [Bool.and_eq_true, decide_eq_true_eq, sisIdle_iff] at hc
      cases h
      refine ⟨.scall W t k hc.2, fun x hx => ⟨(hw x hx).1, ?_⟩⟩
      simp only; rw [supd_other (by omega)]; exact (hw x hx).2
    · cases h
  | sgo t =>
    simp only [smove] at h
    split at h
    · rename_i hc
      simp only [Bool.and_eq_true, decide_eq_true_eq, Bool.not_eq_true', Bool.eq_false_iff, ne_eq, sisIdle_iff] at hc
      cases h
      refine ⟨.work (.snap W t τ hc.1.2 (scanGo_granted hw hc.2)), fun x hx => ?_⟩
      obtain ⟨h1, h2⟩ := safter_sp W t ((W.sp t).exec E τ W.w.st)
      rw [h1 x (by omega), h2]; exact hw x hx
    · cases h

theorem sschedule_sound {E : SnapEnv} {n : Nat} {σ : Orders} {τ : SnapshotOrders} {ms : List SMove} : ∀ {W W' : SWorld}, SWithin n W →
    sschedule E n σ τ W ms = some W' → SSteps E W W' ∧ SWithin n W' := by
  induction ms with
  | nil => intro W W' hw h; cases h; exact ⟨.refl _, hw⟩
  | cons m ms ih =>
    intro W W' hw h
    simp only [sschedule] at h
    split at h
    · rename_i W1 h1
      obtain ⟨hs, hw1⟩ := smove_sound hw h1
      obtain ⟨h2, h3⟩ := ih hw1 h
      exact ⟨.head hs h2, h3⟩
    · cases h

theorem swithin_init (n : Nat) : SWithin n SWorld.init := fun _ _ => ⟨rfl, rfl⟩

/-- Where a schedule of a new store leads. -/
def splayed (E : SnapEnv) (n : Nat) (σ : Orders) (τ : SnapshotOrders) (ms : List SMove) : SWorld :=
  (sschedule E n σ τ SWorld.init ms).getD SWorld.init

theorem splayed_reachable (E : SnapEnv) (n : Nat) (σ : Orders) (τ : SnapshotOrders) (ms : List SMove) :
    SReachable E (splayed E n σ τ ms) := by
  unfold splayed
  cases h : sschedule E n σ τ SWorld.init ms with
  | none => exact .refl _
  | some w => exact (sschedule_sound (swithin_init n) h).1

theorem splayed_within (E : SnapEnv) (n : Nat) (σ : Orders) (τ : SnapshotOrders) (ms : List SMove) :
    SWithin n (splayed E n σ τ ms) := by
  unfold splayed
  cases h : sschedule E n σ τ SWorld.init ms with
  | none => exact swithin_init n
  | some w => exact (sschedule_sound (swithin_init n) h).2

theorem sschedule_append (E : SnapEnv) (n : Nat) (σ : Orders) (τ : SnapshotOrders) (ms ms' : List SMove) : ∀ W,
    sschedule E n σ τ W (ms ++ ms') = (sschedule E n σ τ W ms).bind (fun W' => sschedule E n σ τ W' ms') := by
  induction ms with
  | nil => intro W; rfl
  | cons m ms ih =>
    intro W
    simp only [List.cons_append, sschedule]
    cases smove E n σ τ W m with
    | none => rfl
    | some W' => exact ih W'

theorem splayed_steps {E : SnapEnv} {n : Nat} {σ : Orders} {τ : SnapshotOrders} {ms ms' : List SMove}
    (h : (sschedule E n σ τ SWorld.init (ms ++ ms')).isSome = true) :
    SSteps E (splayed E n σ τ ms) (splayed E n σ τ (ms ++ ms')) := by
  unfold splayed
  rw [sschedule_append] at h ⊢
  cases h1 : sschedule E n σ τ SWorld.init ms with
  | none => rw [h1] at h; cases h
  | some w =>
    rw [h1] at h
    simp only [Option.bind_some] at h ⊢
    cases h2 : sschedule E n σ τ w ms' with
    | none => rw [h2] at h; cases h
    | some w' => exact (sschedule_sound (sschedule_sound (swithin_init n) h1).2 h2).1

/-- The states passed through by a schedule that continues another one. -/
def smoments (E : SnapEnv) (n : Nat) (σ : Orders) (τ : SnapshotOrders) (ms mid : List SMove) : List SWorld :=
  (List.range (mid.length + 1)).map fun j => splayed E n σ τ (ms ++ mid.take j)

theorem sschedule_prefix {E : SnapEnv} {n : Nat} {σ : Orders} {τ : SnapshotOrders} {W : SWorld} {ms ms' : List SMove}
    (h : (sschedule E n σ τ W (ms ++ ms')).isSome = true) : (sschedule E n σ τ W ms).isSome = true := by
  rw [sschedule_append] at h
  cases h1 : sschedule E n σ τ W ms with
  | none => rw [h1] at h; cases h
  | some _ => rfl

theorem splayed_step {E : SnapEnv} {n : Nat} {σ : Orders} {τ : SnapshotOrders} {ms : List SMove} {m : SMove}
    (h : (sschedule E n σ τ SWorld.init (ms ++ [m])).isSome = true) :
    SStep E (splayed E n σ τ ms) (splayed E n σ τ (ms ++ [m])) := by
  unfold splayed
  rw [sschedule_append] at h ⊢
  cases h1 : sschedule E n σ τ SWorld.init ms with
  | none => rw [h1] at h; cases h
  | some w =>
    rw [h1] at h
    simp only [Option.bind_some] at h ⊢
    cases h2 : sschedule E n σ τ w [m] with
    | none => rw [h2] at h; cases h
    | some w' =>
      simp only [sschedule] at h2
      split at h2
      · rename_i h3; cases h2; exact (smove_sound (sschedule_sound (swithin_init n) h1).2 h3).1
      · cases h2

theorem strace_played {E : SnapEnv} {n : Nat} {σ : Orders} {τ : SnapshotOrders} {ms mid : List SMove}
    (h : (sschedule E n σ τ SWorld.init (ms ++ mid)).isSome = true) :
    STrace E (splayed E n σ τ ms) (smoments E n σ τ ms mid) (splayed E n σ τ (ms ++ mid)) := by
  have main : ∀ j, j ≤ mid.length → STrace E (splayed E n σ τ ms)
      ((List.range (j + 1)).map fun j => splayed E n σ τ (ms ++ mid.take j)) (splayed E n σ τ (ms ++ mid.take j)) := by
    intro j
    induction j with
    | zero => intro _; simp; exact .refl
    | succ j ih =>
      intro hj
      rw [List.range_succ, List.map_append, List.map_singleton]
      refine .tail (ih (by omega)) ?_
      rw [List.take_succ_eq_append_getElem (by omega), ← List.append_assoc]
      refine splayed_step ?_
      refine sschedule_prefix (ms' := mid.drop (j + 1)) ?_
      rw [List.append_assoc, List.append_assoc, ← List.append_assoc (mid.take j), ← List.take_succ_eq_append_getElem (by omega),
        List.take_append_drop]
      exact h
  have := main mid.length (Nat.le_refl _)
  rwa [List.take_length] at this

/-- A call in a schedule, from its beginning to its end. -/
theorem sperformed_played {E : SnapEnv} {n : Nat} {σ : Orders} {τ : SnapshotOrders} {pre mid : List SMove} {t : Nat} {k : SCall}
    {m : SMove} {r : SReply} (l : List (Nat × SEvent))
    (h : (sschedule E n σ τ SWorld.init (pre ++ [.scall t k] ++ mid ++ [m])).isSome = true)
    (h0 : (splayed E n σ τ (pre ++ [.scall t k])).log = (splayed E n σ τ pre).log ++ [(t, .call k)])
    (h1 : (splayed E n σ τ (pre ++ [.scall t k] ++ mid)).log = (splayed E n σ τ (pre ++ [.scall t k])).log ++ l)
    (hn : ∀ e ∈ l, e.1 ≠ t)
    (h2 : (splayed E n σ τ (pre ++ [.scall t k] ++ mid ++ [m])).log =
      (splayed E n σ τ (pre ++ [.scall t k] ++ mid)).log ++ [(t, .ret r)]) :
    SPerformed E (splayed E n σ τ pre) t k (smoments E n σ τ (pre ++ [.scall t k]) mid) r
      (splayed E n σ τ (pre ++ [.scall t k] ++ mid ++ [m])) := by
  refine ⟨_, _, splayed_reachable E n σ τ pre, splayed_step (sschedule_prefix (sschedule_prefix h)), h0,
    strace_played (sschedule_prefix h), fun l' hl' => ?_, splayed_step h, h2⟩
  rw [h1, List.append_cancel_left_eq] at hl'
  exact hl' ▸ hn

end LAM.TokConc
