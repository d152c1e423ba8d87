import Verif.Lemmas.TokenConcSeq
/-!
# Concurrent calls of the token program store: calls that no writing call disturbs
-/
namespace LAM.TokConc
open Token Run

/-! ## Reading calls do not change the store -/

/-- Whether the thread is in a writing call. -/
def Pc.modifies : Pc → Bool
  | .idle | .loops _ => false
  | .scanSlot .. | .scan .. | .rescan .. => false
  | .finMultisig .. | .finMultisigSlot .. | .finIndex .. | .finMint .. | .finMintSlot .. | .finBucket .. | .finAccounts .. | .finSlot .. => false
  | .gpaStart .. | .gpaOwner .. | .gpaIndex .. | .gpaGet .. | .gpaMint .. | .gpaByMint .. | .gpaMintGet .. | .gpaMints .. => false
  | .convert _ _ .one | .convert _ _ (.found ..) | .convert _ _ .overlay => false
  | _ => true

/-- What a reading call can do next. -/
def ReadNext : Next → Prop
  | .go p => p.modifies = false
  | .ret r => (∃ o, r = .account o) ∨ ∃ o, r = .accounts o

theorem scan_read {r : ProcStore.Answers} {j : Scan} {n : Next} (h : j.next r = .ok n) : ReadNext n := by
  cases j with
  | one pk =>
    simp only [Scan.next, Run.bind_eq_ok] at h
    obtain ⟨o, -, h⟩ := h
    split at h <;> simp only [Run.pure_eq, Run.ok.injEq] at h <;> subst h <;> rfl
  | overlay l =>
    simp only [Scan.next, Run.ok.injEq] at h
    subst h; rfl

theorem job_read {out : List AccountData} {j : Job} (hj : (Pc.convert [] out j).modifies = false) : ReadNext (j.next out) := by
  cases j with
  | one => exact .inl ⟨_, rfl⟩
  | found q mi =>
    simp only [Job.next]
    split
    · exact .inr ⟨_, rfl⟩
    · rfl
  | overlay => exact .inr ⟨_, rfl⟩
  | confirmed => cases hj
  | finalized l => cases hj

theorem convert_modifies {l l' : List Item} {out out' : List AccountData} {j : Job} :
    (Pc.convert l out j).modifies = (Pc.convert l' out' j).modifies := by
  cases j <;> rfl

theorem out_read {E : Env} {σ : Orders} {s s' : TokenStore} {p : Pc} {n : Next} (h : Out E σ s p s' n) (hp : p.modifies = false) :
    s' = s ∧ ReadNext n := by
  cases h
  case scanConfirmed h => exact ⟨rfl, scan_read h⟩
  case scanDone h => exact ⟨rfl, scan_read h⟩
  case rescan h => exact ⟨rfl, scan_read h⟩
  case convertEnd out j => exact ⟨rfl, job_read hp⟩
  case keep => exact ⟨rfl, convert_modifies.trans hp⟩
  case conv => exact ⟨rfl, convert_modifies.trans hp⟩
  all_goals first
    | (cases hp; done)
    | exact ⟨rfl, rfl⟩
    | exact ⟨rfl, .inl ⟨_, rfl⟩⟩
    | exact ⟨rfl, .inr ⟨_, rfl⟩⟩

theorem start_modifies {k : Call} (h : k.modifies = false) : k.start.modifies = false := by
  cases k with
  | submit a c => cases h
  | process info c => cases h
  | get pk c => simp only [Call.start]; split <;> rfl
  | gpa p fs c => rfl

/-- The outcomes of a step of a thread. -/
theorem work_exec {E : Env} {w w' : World} (h : Work E w w') : ∃ t σ, (w.pc t).active ∧ (
    (∃ s p, (w.pc t).exec E σ w.st = .ok (s, .go p) ∧ w' = { w with st := s, pc := upd w.pc t p }) ∨
    (∃ s r, (w.pc t).exec E σ w.st = .ok (s, .ret r) ∧ w' = { st := s, pc := upd w.pc t .idle, log := w.log ++ [(t, .ret r)] }) ∨
    ((w.pc t).exec E σ w.st = .panic ∧ w' = { w with pc := upd w.pc t .idle, log := w.log ++ [(t, .ret .panicked)] }) ∨
    ((w.pc t).exec E σ w.st = .diverge ∧ ∃ l, w' = { w with pc := upd w.pc t (.loops l) })) := by
  obtain ⟨t, σ, hi, hg⟩ := h
  refine ⟨t, σ, hi, ?_⟩
  match he : (w.pc t).exec E σ w.st with
  | .ok (s, .go p) => exact .inl ⟨s, p, rfl, rfl⟩
  | .ok (s, .ret r) => exact .inr (.inl ⟨s, r, rfl, rfl⟩)
  | .panic => exact .inr (.inr (.inl ⟨rfl, rfl⟩))
  | .diverge => exact .inr (.inr (.inr ⟨rfl, _, rfl⟩))

/-- A thread in a reading call is not at a point that changes the store. -/
theorem reading {E : Env} {w : World} (hr : Reachable E w) : ∀ t k, LastCall w.log t k → k.modifies = false → (w.pc t).modifies = false := by
  induction hr with
  | refl => rintro t k ⟨pre, mid, h, -⟩; simp [World.init] at h
  | @tail w w' _ hs ih =>
    intro t k hl hk
    cases hs with
    | work hw =>
      obtain ⟨x, σ, hi, ⟨s, p, he, rfl⟩ | ⟨s, r, he, rfl⟩ | ⟨he, rfl⟩ | ⟨he, l, rfl⟩⟩ := work_exec hw
      · by_cases e : t = x
        · subst e
          simp only [upd_self]
          exact (out_read (exec_out he) (ih t k hl hk)).2
        · simp only [upd_other e]; exact ih t k hl hk
      · by_cases e : t = x
        · subst e; simp only [upd_self]; rfl
        · simp only [upd_other e]
          rcases lastCall_snoc.1 hl with ⟨-, h⟩ | ⟨-, h⟩
          · cases h
          · exact ih t k h hk
      · by_cases e : t = x
        · subst e; simp only [upd_self]; rfl
        · simp only [upd_other e]
          rcases lastCall_snoc.1 hl with ⟨-, h⟩ | ⟨-, h⟩
          · cases h
          · exact ih t k h hk
      · by_cases e : t = x
        · subst e; simp only [upd_self]; rfl
        · simp only [upd_other e]; exact ih t k hl hk
    | call x k' hi =>
      by_cases e : t = x
      · subst e
        simp only [upd_self]
        rcases lastCall_snoc.1 hl with ⟨-, h⟩ | ⟨h, -⟩
        · cases h; exact start_modifies hk
        · exact absurd rfl h
      · simp only [upd_other e]
        rcases lastCall_snoc.1 hl with ⟨h, -⟩ | ⟨-, h⟩
        · exact absurd h.symm e
        · exact ih t k h hk

/-- An active thread is in a call; if the call reads, the step does not change the store. -/
theorem call_of {E : Env} {w : World} (hr : Reachable E w) {t : Nat} (h : (w.pc t).active) : ∃ k, LastCall w.log t k :=
  (busy_iff hr t).1 (active_ne h)

/-! ## What is left of a call -/

theorem exec_indep (E : Env) (σ σ' : Orders) (s : TokenStore) (p : Pc) :
    (p.exec E σ s = p.exec E σ' s) ∨ (∀ s' p' τ τ', p.exec E σ s = .ok (s', .go p') → rest E τ s' p' = rest E τ' s' p') := by
  cases p
  case gpaGet =>
    right
    intro s' p' τ τ' h
    simp only [Pc.exec, bind_eq_ok, pure_eq, ok.injEq, Prod.mk.injEq, Next.go.injEq] at h
    obtain ⟨ts, -, -, rfl⟩ := h
    rfl
  case gpaMintGet =>
    right
    intro s' p' τ τ' h
    simp only [Pc.exec, bind_eq_ok, pure_eq, ok.injEq, Prod.mk.injEq, Next.go.injEq] at h
    obtain ⟨ts, -, -, rfl⟩ := h
    rfl
  case psFinalize =>
    right
    intro s' p' τ τ' h
    simp only [Pc.exec, bind_eq_ok, pure_eq, ok.injEq, Prod.mk.injEq, Next.go.injEq] at h
    obtain ⟨ts, -, -, rfl⟩ := h
    rfl
  case add x k => left; cases x <;> rfl
  case scan c n j => left; cases c <;> rfl
  case gpaMints q slot shards out => left; cases shards <;> rfl
  case convert l out j => left; rcases l with _ | ⟨_ | _, _⟩ <;> rfl
  case psStart info c => left; cases c <;> rfl
  all_goals (left; rfl)

/-- After a step, the call gives what it gave before, with iteration orders to be chosen. -/
theorem rest_go {E : Env} {σ : Orders} {s s' : TokenStore} {p p' : Pc} (ha : p.active) (h : p.exec E σ s = .ok (s', .go p'))
    (σ' : Orders) : ∃ τ, rest E τ s p = rest E σ' s' p' := by
  rcases exec_indep E σ σ' s p with he | he
  · exact ⟨σ', by rw [← rest_step E σ' s p ha, ← he, h]; rfl⟩
  · exact ⟨σ, by rw [← rest_step E σ s p ha, h]; exact he s' p' σ σ' h⟩

theorem rest_ret {E : Env} {σ : Orders} {s s' : TokenStore} {p : Pc} {r : Reply} (ha : p.active) (h : p.exec E σ s = .ok (s', .ret r)) :
    rest E σ s p = .ok (s', r) := by
  rw [← rest_step E σ s p ha, h]; rfl

theorem rest_panic {E : Env} {σ : Orders} {s : TokenStore} {p : Pc} (ha : p.active) (h : p.exec E σ s = .panic) :
    rest E σ s p = .panic := by
  rw [← rest_step E σ s p ha, h]; rfl

/-- Thread `t` is in the call `k`, which will give what it would have given at once in the store `s`. -/
def Ahead (E : Env) (s : TokenStore) (k : Call) (w : World) (t : Nat) : Prop :=
  ∀ σ', ∃ σ, rest E σ s k.start = rest E σ' w.st (w.pc t)

/-- A step of another thread that only reads. -/
theorem quiet_step {E : Env} {w w' : World} (hr : Reachable E w) (hs : Step E w w') (t : Nat) (ho : OnlyWriter t w) :
    (w'.st = w.st ∧ w'.pc t = w.pc t ∧ ∃ u e, u ≠ t ∧ (w'.log = w.log ∨ w'.log = w.log ++ [(u, e)]) ∧
      ∀ r, e = .ret r → (∃ o, r = .account o) ∨ (∃ o, r = .accounts o) ∨ r = .panicked) ∨
    (∃ σ s p, (w.pc t).active ∧ (w.pc t).exec E σ w.st = .ok (s, .go p) ∧ w' = { w with st := s, pc := upd w.pc t p }) ∨
    (∃ σ s r, (w.pc t).active ∧ (w.pc t).exec E σ w.st = .ok (s, .ret r) ∧
      w' = { st := s, pc := upd w.pc t .idle, log := w.log ++ [(t, .ret r)] }) ∨
    (∃ σ, (w.pc t).active ∧ (w.pc t).exec E σ w.st = .panic ∧
      w' = { w with pc := upd w.pc t .idle, log := w.log ++ [(t, .ret .panicked)] }) ∨
    (∃ l, (w.pc t).active ∧ w' = { w with pc := upd w.pc t (.loops l) }) ∨
    (w.pc t = .idle ∧ ∃ k, w' = { w with pc := upd w.pc t (Call.start k), log := w.log ++ [(t, .call k)] }) := by
  cases hs with
  | work hw =>
    obtain ⟨x, σ, hi, hc⟩ := work_exec hw
    by_cases e : x = t
    · subst e
      right
      obtain ⟨s, p, he, rfl⟩ | ⟨s, r, he, rfl⟩ | ⟨he, rfl⟩ | ⟨he, l, rfl⟩ := hc
      · exact .inl ⟨σ, s, p, hi, he, rfl⟩
      · exact .inr (.inl ⟨σ, s, r, hi, he, rfl⟩)
      · exact .inr (.inr (.inl ⟨σ, hi, he, rfl⟩))
      · exact .inr (.inr (.inr (.inl ⟨l, hi, rfl⟩)))
    · left
      obtain ⟨k, hk⟩ := call_of hr hi
      have hm : k.modifies = false := by
        cases hm : k.modifies with
        | false => rfl
        | true => exact absurd (ho x k hk hm) e
      have hp := reading hr x k hk hm
      obtain ⟨s, p, he, rfl⟩ | ⟨s, r, he, rfl⟩ | ⟨he, rfl⟩ | ⟨he, l, rfl⟩ := hc
      · exact ⟨(out_read (exec_out he) hp).1, upd_other (Ne.symm e), x, .ret .panicked, e, .inl rfl, by rintro r ⟨⟩; exact .inr (.inr rfl)⟩
      · obtain ⟨h1, h2⟩ := out_read (exec_out he) hp
        refine ⟨h1, upd_other (Ne.symm e), x, .ret r, e, .inr rfl, ?_⟩
        rintro r ⟨⟩
        exact h2.imp id .inl
      · exact ⟨rfl, upd_other (Ne.symm e), x, .ret .panicked, e, .inr rfl, by rintro r ⟨⟩; exact .inr (.inr rfl)⟩
      · exact ⟨rfl, upd_other (Ne.symm e), x, .ret .panicked, e, .inl rfl, by rintro r ⟨⟩; exact .inr (.inr rfl)⟩
  | call x k hi =>
    by_cases e : x = t
    · subst e
      exact .inr (.inr (.inr (.inr (.inr ⟨hi, k, rfl⟩))))
    · exact .inl ⟨rfl, upd_other (Ne.symm e), x, .call k, e, .inr rfl, by rintro r ⟨⟩⟩

theorem Alone.steps {E : Env} {t : Nat} {w w' : World} (h : Alone E t w w') : Steps E w w' := by
  induction h with
  | refl => exact .refl _
  | tail _ hs _ ih => exact .tail ih hs

theorem Alone.only {E : Env} {t : Nat} {w w' : World} (h : Alone E t w w') : OnlyWriter t w' := by
  cases h with
  | refl h => exact h
  | tail _ _ h => exact h

theorem step_log {E : Env} {w w' : World} (h : Step E w w') : w'.log = w.log ∨ ∃ e, w'.log = w.log ++ [e] := by
  cases h with
  | work hw =>
    obtain ⟨x, σ, hi, ⟨s, p, he, rfl⟩ | ⟨s, r, he, rfl⟩ | ⟨he, rfl⟩ | ⟨he, l, rfl⟩⟩ := work_exec hw
    · exact .inl rfl
    · exact .inr ⟨_, rfl⟩
    · exact .inr ⟨_, rfl⟩
    · exact .inl rfl
  | call x k hi => exact .inr ⟨_, rfl⟩

theorem steps_log {E : Env} {w w' : World} (h : Steps E w w') : ∃ l, w'.log = w.log ++ l := by
  induction h with
  | refl => exact ⟨[], by simp⟩
  | tail _ hs ih =>
    obtain ⟨l, hl⟩ := ih
    rcases step_log hs with h | ⟨e, h⟩
    · exact ⟨l, h.trans hl⟩
    · exact ⟨l ++ [e], by rw [h, hl]; simp⟩

/-- The step that is a call. -/
theorem step_call {E : Env} {w w' : World} (h : Step E w w') {t : Nat} {k : Call} (hl : w'.log = w.log ++ [(t, .call k)]) :
    w.pc t = .idle ∧ w' = { w with pc := upd w.pc t (Call.start k), log := w.log ++ [(t, .call k)] } := by
  cases h with
  | work hw =>
    obtain ⟨x, σ, hi, ⟨s, p, he, rfl⟩ | ⟨s, r, he, rfl⟩ | ⟨he, rfl⟩ | ⟨he, l, rfl⟩⟩ := work_exec hw <;> simp at hl
  | call x k' hi =>
    simp at hl
    obtain ⟨rfl, rfl⟩ := hl
    exact ⟨hi, rfl⟩

/-- **A call that no other writing call disturbs.** -/
theorem alone_ahead {E : Env} {w0 w1 w : World} (hr : Reachable E w0) {t : Nat} {k : Call} (hcall : Step E w0 w1)
    (hl1 : w1.log = w0.log ++ [(t, .call k)]) (h : Alone E t w1 w) : ∀ (l : List (Nat × Event)), w.log = w1.log ++ l →
    (∀ e ∈ l, e.1 ≠ t) → Ahead E w0.st k w t ∨ ∃ l, w.pc t = .loops l := by
  obtain ⟨hi, he⟩ := step_call hcall hl1
  induction h with
  | refl _ =>
    intro l _ _
    rw [he]
    exact .inl fun σ' => ⟨σ', by simp only [upd_self]⟩
  | @tail w w' ha hs ho ih =>
    intro l hl hn
    have hr' : Reachable E w := Steps.trans (.tail hr hcall) ha.steps
    obtain ⟨l', hl'⟩ := steps_log ha.steps
    have hne : ∀ u e, w'.log = w.log ++ [(u, e)] → u ≠ t ∧ ∀ e ∈ l', e.1 ≠ t := by
      intro u e h
      rw [h, hl', List.append_assoc] at hl
      have := List.append_cancel_left hl
      subst this
      exact ⟨hn (u, e) (by simp), fun x hx => hn x (by simp [hx])⟩
    have hsame : w'.log = w.log → ∀ e ∈ l', e.1 ≠ t := by
      intro h
      rw [h, hl'] at hl
      have := List.append_cancel_left hl
      subst this
      exact hn
    rcases quiet_step hr' hs t ha.only with ⟨h1, h2, u, e, hu, h3, -⟩ | ⟨σ, s, p, h1, h2, rfl⟩ | ⟨σ, s, r, h1, h2, rfl⟩ |
      ⟨σ, h1, h2, rfl⟩ | ⟨l1, h1, rfl⟩ | ⟨h1, k', rfl⟩
    · have hn' : ∀ e ∈ l', e.1 ≠ t := by
        rcases h3 with h3 | h3
        · exact hsame h3
        · exact (hne u e h3).2
      rcases ih l' hl' hn' with h | h
      · exact .inl fun σ' => by rw [h1, h2]; exact h σ'
      · exact .inr (by rw [h2]; exact h)
    · rcases ih l' hl' (hsame rfl) with h | ⟨l, h⟩
      · refine .inl fun σ' => ?_
        obtain ⟨τ, hτ⟩ := rest_go h1 h2 σ'
        obtain ⟨τ', hτ'⟩ := h τ
        exact ⟨τ', by simp only [upd_self]; rw [hτ', hτ]⟩
      · rw [h] at h1; exact h1.elim
    · exact absurd rfl (hne t _ rfl).1
    · exact absurd rfl (hne t _ rfl).1
    · exact .inr ⟨l1, by simp only [upd_self]⟩
    · exact absurd rfl (hne t _ rfl).1

theorem call_alone {E : Env} {w0 w1 w w' : World} (hr : Reachable E w0) {t : Nat} {k : Call} (hcall : Step E w0 w1)
    (hl1 : w1.log = w0.log ++ [(t, .call k)]) (h : Alone E t w1 w) (l : List (Nat × Event)) (hl : w.log = w1.log ++ l)
    (hn : ∀ e ∈ l, e.1 ≠ t) (hret : Step E w w') (r : Reply) (hlr : w'.log = w.log ++ [(t, .ret r)]) :
    ∃ σ, rest E σ w0.st k.start = .ok (w'.st, r) ∨ (rest E σ w0.st k.start = .panic ∧ r = .panicked) := by
  have hr' : Reachable E w := Steps.trans (.tail hr hcall) h.steps
  have ha := alone_ahead hr hcall hl1 h l hl hn
  rcases quiet_step hr' hret t h.only with ⟨h1, h2, u, e, hu, h3, -⟩ | ⟨σ, s, p, h1, h2, rfl⟩ | ⟨σ, s, r, h1, h2, rfl⟩ |
      ⟨σ, h1, h2, rfl⟩ | ⟨l1, h1, rfl⟩ | ⟨h1, k', rfl⟩
  · rcases h3 with h3 | h3
    · rw [h3] at hlr; simp at hlr
    · rw [h3] at hlr; simp at hlr; exact absurd hlr.1 hu
  · simp at hlr
  · simp at hlr
    subst hlr
    rcases ha with ha | ⟨l, ha⟩
    · obtain ⟨τ, hτ⟩ := ha σ
      exact ⟨τ, .inl (by rw [hτ, rest_ret h1 h2])⟩
    · rw [ha] at h1; exact h1.elim
  · simp at hlr
    subst hlr
    rcases ha with ha | ⟨l, ha⟩
    · obtain ⟨τ, hτ⟩ := ha σ
      exact ⟨τ, .inr ⟨by rw [hτ, rest_panic h1 h2], rfl⟩⟩
    · rw [ha] at h1; exact h1.elim
  · simp at hlr
  · simp at hlr

/-! ## Writing calls one at a time -/

theorem opResult_reply {X : Codecs} {s s' : TokenStore} {op : TokenStore.TOp} {r : Reply} (h : opResult X s op = .ok (s', r)) :
    (∃ b, r = .updated b) ∨ ∃ l, r = .reported l := by
  cases op <;> simp only [opResult, bind_eq_ok, pure_eq, ok.injEq, Prod.mk.injEq] at h
  · obtain ⟨x, -, -, rfl⟩ := h; exact .inl ⟨_, rfl⟩
  · obtain ⟨x, -, y, -, -, rfl⟩ := h; exact .inl ⟨_, rfl⟩
  · obtain ⟨x, -, -, rfl⟩ := h; exact .inr ⟨_, rfl⟩

theorem readResult_reply {X : Codecs} {σ : Orders} {s : TokenStore} {k : Call} {r : Reply} (h : readResult X σ s k = .ok r) :
    r ≠ .panicked := by
  cases k <;> simp only [readResult, bind_eq_ok, pure_eq, ok.injEq, reduceCtorEq] at h
  · obtain ⟨x, -, rfl⟩ := h; simp
  · obtain ⟨x, -, rfl⟩ := h; simp

theorem seqRun_snoc {X : Codecs} {ops : List TokenStore.TOp} {op : TokenStore.TOp} : ∀ {s s' s'' : TokenStore} {rs : List Reply} {r : Reply},
    seqRun X s ops = .ok (s', rs) → opResult X s' op = .ok (s'', r) → seqRun X s (ops ++ [op]) = .ok (s'', rs ++ [r]) := by
  induction ops with
  | nil =>
    intro s s' s'' rs r h h'
    simp only [seqRun, ok.injEq, Prod.mk.injEq] at h
    obtain ⟨rfl, rfl⟩ := h
    simp [seqRun, h']
  | cons o ops ih =>
    intro s s' s'' rs r h h'
    simp only [seqRun, bind_eq_ok, pure_eq, ok.injEq] at h
    obtain ⟨⟨s1, r1⟩, h1, ⟨s2, rs2⟩, h2, h3⟩ := h
    simp only [Prod.mk.injEq] at h3
    obtain ⟨rfl, rfl⟩ := h3
    simp [seqRun, h1, ih h2 h']

theorem seqRun_run {X : Codecs} {ops : List TokenStore.TOp} : ∀ {s s' : TokenStore} {rs : List Reply},
    seqRun X s ops = .ok (s', rs) → s.run X ops = .ok s' := by
  induction ops with
  | nil =>
    intro s s' rs h
    simp only [seqRun, ok.injEq, Prod.mk.injEq] at h
    rw [TokenStore.run, h.1]
  | cons o ops ih =>
    intro s s' rs h
    simp only [seqRun, bind_eq_ok, pure_eq, ok.injEq] at h
    obtain ⟨⟨s1, r1⟩, h1, ⟨s2, rs2⟩, h2, h3⟩ := h
    simp only [Prod.mk.injEq] at h3
    obtain ⟨rfl, rfl⟩ := h3
    have : s.step X o = .ok s1 := by
      cases o <;> simp only [opResult, bind_eq_ok, pure_eq, ok.injEq, Prod.mk.injEq] at h1
      · obtain ⟨x, h1, rfl, -⟩ := h1; simp [TokenStore.step, h1]
      · obtain ⟨x, h1, y, -, rfl, -⟩ := h1; simp [TokenStore.step, h1]
      · obtain ⟨x, h1, rfl, -⟩ := h1; simp [TokenStore.step, h1]
    simp [TokenStore.run, this, ih h2]

theorem writeCalls_append (l l' : List (Nat × Event)) : writeCalls (l ++ l') = writeCalls l ++ writeCalls l' := by
  simp [writeCalls]

theorem writeReplies_append (l l' : List (Nat × Event)) : writeReplies (l ++ l') = writeReplies l ++ writeReplies l' := by
  simp [writeReplies]

/-- Where an execution with one writing call at a time has come. -/
inductive Track (E : Env) (w0 w : World) : Prop where
  | free (ops log) : NoWriter w → w.log = w0.log ++ log → writeCalls log = ops.map opCall →
      seqRun E.codecs w0.st ops = .ok (w.st, writeReplies log) → Track E w0 w
  | busy (ops log t k s) : LastCall w.log t k → k.modifies = true → w.log = w0.log ++ log → writeCalls log = ops.map opCall ++ [k] →
      seqRun E.codecs w0.st ops = .ok (s, writeReplies log) → Ahead E s k w t → Track E w0 w
  | loops (t k l) : LastCall w.log t k → k.modifies = true → w.pc t = .loops l → Track E w0 w
  | panicked (pre post t k) : w.log = pre ++ (t, .ret .panicked) :: post → LastCall pre t k → k.modifies = true → Track E w0 w

/-- Replies of reading calls do not count. -/
theorem writeReplies_read {u : Nat} {e : Event} (h : ∀ r, e = .ret r → (∃ o, r = .account o) ∨ (∃ o, r = .accounts o) ∨ r = .panicked) :
    writeReplies [(u, e)] = [] := by
  cases e with
  | call k => rfl
  | ret r => rcases h r rfl with ⟨o, rfl⟩ | ⟨o, rfl⟩ | rfl <;> rfl

theorem writeReplies_write {t : Nat} {r : Reply} (h : (∃ b, r = .updated b) ∨ ∃ l, r = .reported l) :
    writeReplies [(t, .ret r)] = [r] := by
  rcases h with ⟨o, rfl⟩ | ⟨o, rfl⟩ <;> rfl

/-- The thread stays in its call when others act. -/
theorem lastCall_other {log : List (Nat × Event)} {t u : Nat} {k : Call} {e : Event} {log' : List (Nat × Event)} (hu : u ≠ t)
    (h : log' = log ∨ log' = log ++ [(u, e)]) : LastCall log' t k ↔ LastCall log t k := by
  rcases h with rfl | rfl
  · rfl
  · rw [lastCall_snoc]
    exact ⟨fun h => h.elim (fun h => absurd h.1 hu) (·.2), fun h => .inr ⟨hu, h⟩⟩

theorem track_step {E : Env} {w0 w w' : World} (hr : Reachable E w) (h : Track E w0 w) (hs : Step E w w') {u : Nat} (ho : OnlyWriter u w)
    {u' : Nat} (ho' : OnlyWriter u' w') : Track E w0 w' := by
  cases h with
  | panicked pre post t k h1 h2 h3 =>
    rcases step_log hs with h | ⟨e, h⟩
    · exact .panicked pre post t k (h.trans h1) h2 h3
    · exact .panicked pre (post ++ [e]) t k (by rw [h, h1]; simp) h2 h3
  | loops t k l h1 h2 h3 =>
    have h4 : w'.pc t = .loops l := loops_forever (.tail (.refl _) hs) h3
    have hut : u = t := (ho t k h1 h2).symm
    subst hut
    rcases quiet_step hr hs u ho with ⟨-, -, x, e, hx, hl, -⟩ | ⟨σ, s, p, h, -⟩ | ⟨σ, s, r, h, -⟩ | ⟨σ, h, -⟩ | ⟨l1, h, -⟩ | ⟨h, -⟩
    · exact .loops u k l ((lastCall_other hx hl).2 h1) h2 h4
    all_goals (rw [h3] at h; first | exact h.elim | cases h)
  | busy ops log t k s h1 h2 h3 h4 h5 h6 =>
    have hut : u = t := (ho t k h1 h2).symm
    subst hut
    rcases quiet_step hr hs u ho with ⟨g1, g2, x, e, hx, hl, g3⟩ | ⟨σ, s', p, g1, g2, rfl⟩ | ⟨σ, s', r, g1, g2, rfl⟩ |
      ⟨σ, g1, g2, rfl⟩ | ⟨l1, g1, rfl⟩ | ⟨g1, -⟩
    · have hlc := (lastCall_other (k := k) hx hl).2 h1
      have ha : Ahead E s k w' u := fun σ' => by rw [g1, g2]; exact h6 σ'
      rcases hl with hl | hl
      · exact .busy ops log u k s hlc h2 (hl.trans h3) h4 h5 ha
      · refine .busy ops (log ++ [(x, e)]) u k s hlc h2 (by rw [hl, h3]; simp) ?_ ?_ ha
        · rw [writeCalls_append, h4]
          cases e with
          | ret r => simp [writeCalls]
          | call k' =>
            cases hk' : k'.modifies with
            | false => simp [writeCalls, hk']
            | true =>
              have hx' := ho' x k' (by rw [hl]; exact lastCall_snoc.2 (.inl ⟨rfl, rfl⟩)) hk'
              have hu' := ho' u k hlc h2
              exact absurd (hx'.trans hu'.symm) hx
        · rw [writeReplies_append, writeReplies_read g3, List.append_nil, h5]
    · refine .busy ops log u k s h1 h2 h3 h4 h5 fun σ' => ?_
      obtain ⟨τ, hτ⟩ := rest_go g1 g2 σ'
      obtain ⟨τ', hτ'⟩ := h6 τ
      exact ⟨τ', by simp only [upd_self]; rw [hτ', hτ]⟩
    · obtain ⟨τ, hτ⟩ := h6 σ
      rw [rest_ret g1 g2] at hτ
      obtain ⟨op, hop, he⟩ := rest_write E τ s k h2
      rw [he] at hτ
      refine .free (ops ++ [op]) (log ++ [(u, .ret r)]) ?_ (by rw [h3]; simp) ?_ ?_
      · intro x kx hx
        rcases lastCall_snoc.1 hx with ⟨-, h⟩ | ⟨hne, h⟩
        · cases h
        · cases hm : kx.modifies with
          | false => rfl
          | true => exact absurd (ho x kx h hm).symm hne
      · rw [writeCalls_append, h4, List.map_append, List.map_cons, hop]
        simp [writeCalls]
      · rw [writeReplies_append, writeReplies_write (opResult_reply hτ)]
        exact seqRun_snoc h5 hτ
    · exact .panicked w.log [] u k rfl h1 h2
    · exact .loops u k l1 h1 h2 (by simp only [upd_self])
    · exact absurd g1 ((busy_iff hr u).2 ⟨k, h1⟩)
  | free ops log h1 h2 h3 h4 =>
    have read : ∀ x, (w.pc x).active → (w.pc x).modifies = false := fun x hx =>
      let ⟨k, hk⟩ := call_of hr hx
      reading hr x k hk (h1 x k hk)
    have still : ∀ (x : Nat) (e : Event), (∀ k, e = .call k → k.modifies = false) → w'.log = w.log ++ [(x, e)] → NoWriter w' := by
      intro x e he hl v k hk
      rw [hl] at hk
      rcases lastCall_snoc.1 hk with ⟨-, h⟩ | ⟨-, h⟩
      · exact he k h
      · exact h1 v k h
    cases hs with
    | work hw =>
      obtain ⟨x, σ, hi, ⟨s, p, he, rfl⟩ | ⟨s, r, he, rfl⟩ | ⟨he, rfl⟩ | ⟨he, l, rfl⟩⟩ := work_exec hw
      · obtain ⟨rfl, -⟩ := out_read (exec_out he) (read x hi)
        exact .free ops log h1 h2 h3 h4
      · obtain ⟨rfl, hn⟩ := out_read (exec_out he) (read x hi)
        refine .free ops (log ++ [(x, .ret r)]) (still x (.ret r) (by rintro k ⟨⟩) rfl) (by rw [h2]; simp) ?_ ?_
        · rw [writeCalls_append, h3]; simp [writeCalls]
        · rw [writeReplies_append, writeReplies_read (by rintro r ⟨⟩; exact hn.imp id .inl), List.append_nil]; exact h4
      · refine .free ops (log ++ [(x, .ret .panicked)]) (still x (.ret .panicked) (by rintro k ⟨⟩) rfl) (by rw [h2]; simp) ?_ ?_
        · rw [writeCalls_append, h3]; simp [writeCalls]
        · rw [writeReplies_append, writeReplies_read (by rintro r ⟨⟩; exact .inr (.inr rfl)), List.append_nil]; exact h4
      · exact .free ops log h1 h2 h3 h4
    | call x k hi =>
      cases hk : k.modifies with
      | false =>
        refine .free ops (log ++ [(x, .call k)]) (still x (.call k) (by rintro k ⟨⟩; exact hk) rfl) (by rw [h2]; simp) ?_ ?_
        · rw [writeCalls_append, h3]; simp [writeCalls, hk]
        · rw [writeReplies_append, writeReplies_read (by rintro r ⟨⟩), List.append_nil]; exact h4
      | true =>
        refine .busy ops (log ++ [(x, .call k)]) x k w.st (lastCall_snoc.2 (.inl ⟨rfl, rfl⟩)) hk (by rw [h2]; simp) ?_ ?_ ?_
        · rw [writeCalls_append, h3]; simp [writeCalls, hk]
        · rw [writeReplies_append, writeReplies_read (by rintro r ⟨⟩), List.append_nil]; exact h4
        · exact fun σ' => ⟨σ', by simp only [upd_self]⟩

theorem SingleWriter.steps {E : Env} {w w' : World} (h : SingleWriter E w w') : Steps E w w' := by
  induction h with
  | refl => exact .refl _
  | tail _ hs _ ih => exact .tail ih hs

theorem SingleWriter.only {E : Env} {w w' : World} (h : SingleWriter E w w') : ∃ t, OnlyWriter t w' := by
  cases h with
  | refl h => exact ⟨_, h⟩
  | tail _ _ h => exact ⟨_, h⟩

theorem track {E : Env} {w0 w : World} (hr : Reachable E w0) (h0 : NoWriter w0) (h : SingleWriter E w0 w) : Track E w0 w := by
  induction h with
  | refl _ => exact .free [] [] h0 (by simp) rfl rfl
  | tail ha hs ho ih =>
    obtain ⟨u, hu⟩ := ha.only
    exact track_step (Steps.trans hr ha.steps) ih hs hu ho

end LAM.TokConc
