import Verif.Lemmas.StoreConcLog
import Verif.Spec.StoreConcCount
/-!
# Concurrent calls of the in-memory account store: no update is reported at a commitment more often than it was submitted
-/
namespace LAM.Conc
open Store World ByCommitment Spec

theorem reportsAt_snoc (c : Commitment) (e : Nat × Event) : ∀ (log pre : List (Nat × Event)),
    reportsAt c pre (log ++ [e]) = reportsAt c pre log ++ reportAt c (pre ++ log) e
  | [], pre => by simp [reportsAt]
  | d :: log, pre => by
    rw [List.cons_append, reportsAt, reportsAt_snoc c e log, reportsAt]
    simp

theorem reportsAt_append (c : Commitment) : ∀ (log log' pre : List (Nat × Event)),
    reportsAt c pre (log ++ log') = reportsAt c pre log ++ reportsAt c (pre ++ log) log'
  | [], log', pre => by simp [reportsAt]
  | d :: log, log', pre => by
    rw [List.cons_append, reportsAt, reportsAt_append c log log', reportsAt]
    simp

theorem lastOf_lastCall {log : List (Nat × Event)} {t : Nat} {k : Call} (h : LastCall log t k) : lastOf log t = some (.call k) := by
  obtain ⟨pre, mid, rfl, h2⟩ := h
  have h3 : mid.filter (fun e => decide (e.1 = t)) = [] := by
    rw [List.filter_eq_nil_iff]
    intro e he
    simpa using h2 e he
  simp [lastOf, h3]

/-! ## Where the states are -/

/-- What was last reported of the account at this commitment. -/
def mark (c : Commitment) (e : ByCommitment) : Option AccountData :=
  match c with
  | .processed => none
  | .confirmed => e.confirmed
  | .finalized => e.finalized

variable (P : AccountData → Bool) (slot : Nat) (c : Commitment)

/-- A state that meets `P` is stored and can still be reported at commitment `c`. -/
def Pending (e : ByCommitment) : Prop := (∃ x ∈ e.processed, P x.2 = true) ∧ ∀ y, mark c e = some y → y.slot < slot

open Classical in
/-- The same as a number. -/
noncomputable def pending (e : ByCommitment) : Nat := if Pending P slot c e then 1 else 0

/-- How many of these there are. -/
noncomputable def pendings (l : List ByCommitment) : Nat := (l.map (pending P slot c)).sum

/-- As a number. -/
def one (a : AccountData) : Nat := if P a then 1 else 0

/-- How many states of this kind a thread has that are still to be stored or to be reported at commitment `c`. -/
def Pc.states : Pc → Nat
  | .upCheck a _ | .upLookup a _ | .upSlot a _ _ | .upEntry a _ | .upStore a _ _ | .upAccount a _ _ | .upWrite a _ _
  | .upPush a _ => one P a
  | .prNext c' _ out | .prPromote c' _ _ _ out => if c' = c then out.countP P else 0
  | .prUnown c' _ a _ _ out | .prOwn c' _ a _ out | .prDrop c' _ a _ out | .prClear c' _ a _ out =>
    if c' = c then (out ++ [a]).countP P else 0
  | _ => 0

/-- How many states of this kind the first threads have. -/
def statesOf (pc : Nat → Pc) : Nat → Nat
  | 0 => 0
  | n + 1 => statesOf pc n + (pc n).states P c

variable {P slot c}

theorem statesOf_out {pc : Nat → Pc} {t : Nat} {p : Pc} : ∀ n, n ≤ t → statesOf P c (upd pc t p) n = statesOf P c pc n
  | 0, _ => rfl
  | n + 1, h => by
    simp only [statesOf]
    rw [statesOf_out n (by omega), upd_other (show n ≠ t by omega)]

theorem statesOf_in {pc : Nat → Pc} {t : Nat} {p : Pc} : ∀ n, t < n →
    statesOf P c (upd pc t p) n + (pc t).states P c = statesOf P c pc n + p.states P c
  | 0, h => absurd h (by omega)
  | n + 1, h => by
    rw [statesOf, statesOf]
    by_cases e : t = n
    · subst e
      rw [statesOf_out t (Nat.le_refl _), upd_self]
      omega
    · have := statesOf_in (pc := pc) (t := t) (p := p) n (by omega)
      rw [upd_other (show n ≠ t by omega)]
      omega

theorem statesOf_idle {pc : Nat → Pc} {N : Nat} (h : ∀ t, N ≤ t → pc t = .idle) : ∀ n, N ≤ n → statesOf P c pc n = statesOf P c pc N
  | 0, hn => by have : N = 0 := by omega
                rw [this]
  | n + 1, hn => by
    by_cases e : N = n + 1
    · rw [e]
    · rw [statesOf, statesOf_idle h n (by omega), h n (by omega)]
      rfl

/-! ## Entries -/

theorem pendings_append (l : List ByCommitment) (e : ByCommitment) :
    pendings P slot c (l ++ [e]) = pendings P slot c l + pending P slot c e := by simp [pendings]

theorem pendings_set {e e' : ByCommitment} : ∀ {l : List ByCommitment} {i : Nat}, l[i]? = some e →
    pendings P slot c (l.set i e') + pending P slot c e = pendings P slot c l + pending P slot c e'
  | [], i, h => by simp at h
  | d :: l, 0, h => by
    simp at h; subst h
    simp [pendings]; omega
  | d :: l, i + 1, h => by
    have := pendings_set (l := l) (i := i) (e' := e') (by simpa using h)
    simp [pendings] at this ⊢; omega

theorem pending_dead : pending P slot c ⟨[], none, none⟩ = 0 := by simp [pending, Pending]

theorem pendings_clear (l : List ByCommitment) (i : Nat) : pendings P slot c (l.set i ⟨[], none, none⟩) ≤ pendings P slot c l := by
  cases h : l[i]? with
  | none => rw [List.set_eq_of_length_le (by simpa using h)]; exact Nat.le_refl _
  | some e =>
    have := pendings_set (P := P) (slot := slot) (c := c) (e' := ⟨[], none, none⟩) h
    rw [pending_dead] at this; omega

theorem pending_le_one (e : ByCommitment) : pending P slot c e ≤ 1 := by unfold pending; split <;> omega

theorem pending_le {e e' : ByCommitment} {n : Nat} (h : n = 0 → Pending P slot c e' → Pending P slot c e) :
    pending P slot c e' ≤ pending P slot c e + n := by
  by_cases hn : n = 0
  · subst hn
    unfold pending
    split
    · rename_i h'; rw [if_pos (h rfl h')]; omega
    · omega
  · have := pending_le_one (P := P) (slot := slot) (c := c) e'
    omega

theorem one_zero {a : AccountData} (h : one P a = 0) : P a = false := by
  unfold one at h; split at h <;> simp_all

theorem pending_new (a : AccountData) (c' : Commitment) : pending P slot c (.new a c') ≤ one P a := by
  have := pending_le (P := P) (slot := slot) (c := c) (e := ⟨[], none, none⟩) (e' := .new a c') (n := one P a) (fun h h' => by
    obtain ⟨⟨x, hx, hp⟩, -⟩ := h'
    simp [ByCommitment.new] at hx; subst hx
    rw [one_zero h] at hp; cases hp)
  rw [pending_dead] at this; omega

theorem updateProcessed_mem {m : BMap AccountData} {a : AccountData} {x : Nat × AccountData} (h : x ∈ (updateProcessed m a).1) :
    x ∈ m ∨ x.2 = a := by
  unfold updateProcessed at h
  split at h
  · split at h
    · rcases BMap.mem_insert h with rfl | h
      · exact .inr rfl
      · exact .inl h
    · exact .inl h
  · rcases BMap.mem_insert h with rfl | h
    · exact .inr rfl
    · exact .inl h

theorem update_mem {e : ByCommitment} {a : AccountData} {c' : Commitment} {x : Nat × AccountData}
    (h : x ∈ (e.update a c').1.processed) : x ∈ e.processed ∨ x.2 = a := by
  refine updateProcessed_mem ?_
  unfold ByCommitment.update at h
  cases c' <;> simp only at h
  · exact h
  all_goals split at h <;> exact h

theorem newer_slot {x : Option AccountData} {a y : AccountData} (h : isNewer x a = true) (hx : x = some y) : y.slot ≤ a.slot := by
  subst hx
  simp [isNewer] at h
  omega

/-- An update does not bring back what was reported. -/
theorem update_mark {e : ByCommitment} {a : AccountData} {c' : Commitment} (h : ∀ y, mark c (e.update a c').1 = some y → y.slot < slot) :
    ∀ y, mark c e = some y → y.slot < slot := by
  intro y hy
  by_cases hn : isNewer (mark c e) a = true
  · have hle := newer_slot hn hy
    by_cases hk : mark c (e.update a c').1 = some a
    · have := h a hk; omega
    · refine h y ?_
      rw [← hy]
      cases c <;> cases c' <;> simp_all [mark, ByCommitment.update] <;> (repeat' split) <;> simp_all
  · refine h y ?_
    rw [← hy]
    cases c <;> cases c' <;> simp_all [mark, ByCommitment.update] <;> (repeat' split) <;> simp_all

theorem pending_update (e : ByCommitment) (a : AccountData) (c' : Commitment) :
    pending P slot c (e.update a c').1 ≤ pending P slot c e + one P a := by
  refine pending_le fun h1 ⟨⟨x, hx, hp⟩, h2⟩ => ⟨?_, update_mark h2⟩
  rcases update_mem hx with hx | rfl
  · exact ⟨x, hx, hp⟩
  · rw [one_zero h1] at hp; cases hp

theorem prune_mem {k : Nat} {m : BMap AccountData} {x : Nat × AccountData} (h : x ∈ prune k m) : x ∈ m := by
  obtain ⟨l, hl, -⟩ := prune_suffix k m
  rw [hl]; exact List.mem_append_right _ h

/-- How many states of this kind a promotion reports. -/
def reported (P : AccountData → Bool) : Option (AccountData × Option AccountData) → Nat
  | none => 0
  | some (a, _) => one P a

theorem promote_mem {e : ByCommitment} {k : Nat} {c' : Commitment} {x : Nat × AccountData} (h : x ∈ (e.promote k c').1.processed) :
    x ∈ e.processed := by
  unfold promote at h
  (repeat' split at h) <;> first | exact h | exact prune_mem h

/-- A promotion does not bring back what was reported. -/
theorem promote_mark {e : ByCommitment} {k : Nat} {c' : Commitment} (h : ∀ y, mark c (e.promote k c').1 = some y → y.slot < slot) :
    ∀ y, mark c e = some y → y.slot < slot := by
  intro y hy
  unfold promote at h
  cases c <;> simp only [mark] at hy h
  · cases hy
  all_goals
    (repeat' split at h) <;> simp_all <;> omega

/-- What is promoted is of a later slot than what was reported before. -/
theorem promote_some {e : ByCommitment} {k : Nat} {a : AccountData} {o : Option AccountData} (h : (e.promote k c).2 = some (a, o)) :
    (k, a) ∈ e.processed ∧ mark c (e.promote k c).1 = some a ∧ ∀ y, mark c e = some y → y.slot < a.slot := by
  unfold promote at h ⊢
  cases hf : BMap.find e.processed k with
  | none => simp only [hf] at h; split at h <;> cases h
  | some b =>
    have hm := BMap.mem_of_find hf
    simp only [hf] at h ⊢
    cases c <;> simp only at h ⊢
    · cases h
    all_goals
      split at h
      · rename_i hp
        split at h
        · simp at h
          obtain ⟨rfl, -⟩ := h
          rename_i hlt
          simp_all [mark]
        · cases h
      · simp at h
        obtain ⟨rfl, -⟩ := h
        simp_all [mark]

theorem pending_promote (hP : ∀ a, P a = true → a.slot = slot) (e : ByCommitment) (k : Nat) (c' : Commitment) :
    pending P slot c (e.promote k c').1 + (if c' = c then reported P (e.promote k c').2 else 0) ≤ pending P slot c e := by
  have h0 : pending P slot c (e.promote k c').1 ≤ pending P slot c e := by
    have := pending_le (P := P) (slot := slot) (c := c) (e := e) (e' := (e.promote k c').1) (n := 0)
      (fun _ ⟨⟨x, hx, hp⟩, h2⟩ => ⟨⟨x, promote_mem hx, hp⟩, promote_mark h2⟩)
    omega
  split
  · rename_i hc
    subst hc
    rcases hr : (e.promote k c').2 with _ | ⟨a, o⟩
    · exact h0
    · simp only [reported, one]
      split
      · rename_i hp
        obtain ⟨h1, h2, h3⟩ := promote_some hr
        have hs := hP a hp
        have e1 : pending P slot c' (e.promote k c').1 = 0 := by
          unfold pending
          rw [if_neg]
          rintro ⟨-, h⟩
          have := h a h2
          omega
        have e2 : pending P slot c' e = 1 := by
          unfold pending
          rw [if_pos]
          exact ⟨⟨_, h1, hp⟩, by rw [← hs]; exact h3⟩
        omega
      · exact h0
  · exact h0

/-! ## Executions -/

/-- The states that were submitted are still to be stored, stored, to be reported, or were reported, or are gone. -/
def Counted (P : AccountData → Bool) (slot : Nat) (c : Commitment) (w : World) : Prop :=
  ∃ N, (∀ t, N ≤ t → w.pc t = .idle) ∧
    (reportsAt c [] w.log).countP P + pendings P slot c w.st.accounts + statesOf P c w.pc N ≤ submissions P w.log

theorem submissions_snoc (log : List (Nat × Event)) (e : Nat × Event) : submissions P log ≤ submissions P (log ++ [e]) := by
  simp [submissions]

theorem counted_go {w : World} {t : Nat} {s : Store} {p : Pc} (h : Counted P slot c w) (hn : w.pc t ≠ .idle)
    (hc : pendings P slot c s.accounts + p.states P c ≤ pendings P slot c w.st.accounts + (w.pc t).states P c) :
    Counted P slot c (w.go t s p) := by
  obtain ⟨N, hN, h⟩ := h
  have ht : t < N := Nat.lt_of_not_le fun hle => hn (hN t hle)
  have h2 := statesOf_in (P := P) (c := c) (pc := w.pc) (t := t) (p := p) N ht
  refine ⟨N, fun u hu => by rw [go_pc, upd_other (show u ≠ t by omega)]; exact hN u hu, ?_⟩
  show (reportsAt c [] w.log).countP P + pendings P slot c s.accounts + statesOf P c (upd w.pc t p) N ≤ submissions P w.log
  omega

theorem counted_ret {w : World} {t : Nat} {s : Store} {r : Reply} (h : Counted P slot c w) (hn : w.pc t ≠ .idle)
    (hc : pendings P slot c s.accounts + (reportAt c w.log (t, .ret r)).countP P ≤
      pendings P slot c w.st.accounts + (w.pc t).states P c) : Counted P slot c (w.ret t s r) := by
  obtain ⟨N, hN, h⟩ := h
  have ht : t < N := Nat.lt_of_not_le fun hle => hn (hN t hle)
  have h2 := statesOf_in (P := P) (c := c) (pc := w.pc) (t := t) (p := .idle) N ht
  have h3 : Pc.states P c .idle = 0 := rfl
  have h4 := submissions_snoc (P := P) w.log (t, .ret r)
  refine ⟨N, fun u hu => by rw [ret_pc, upd_other (show u ≠ t by omega)]; exact hN u hu, ?_⟩
  show (reportsAt c [] (w.log ++ [(t, .ret r)])).countP P + pendings P slot c s.accounts + statesOf P c (upd w.pc t .idle) N ≤
    submissions P (w.log ++ [(t, .ret r)])
  rw [reportsAt_snoc, List.countP_append, List.nil_append]
  omega

theorem counted_step {E : Env} {w w' : World} (hP : ∀ a, P a = true → a.slot = slot) (hl : LogOK E w) (hs : Step E w w')
    (h : Counted P slot c w) : Counted P slot c w' := by
  -- steps that change no account
  have go : ∀ {t : Nat} {q : Pc} {s : Store} {p : Pc}, w.pc t = q → q ≠ .idle → s.accounts = w.st.accounts →
      p.states P c ≤ q.states P c → Counted P slot c (w.go t s p) := fun {t q s p} hq hn hs hp =>
    counted_go h (by rw [hq]; exact hn) (by rw [hs, hq]; omega)
  have ret : ∀ {t : Nat} {q : Pc} {s : Store} {r : Reply}, w.pc t = q → q ≠ .idle → s.accounts = w.st.accounts →
      (∀ l, r ≠ .reported l) → Counted P slot c (w.ret t s r) := fun {t q s r} hq hn hs hp =>
    counted_ret h (by rw [hq]; exact hn) (by
      have : reportAt c w.log (t, .ret r) = [] := by
        cases r <;> first | rfl | exact (hp _ rfl).elim
      rw [hs, this]; simp)
  cases hs
  case env => exact h
  case call t k hp =>
    obtain ⟨N, hN, h⟩ := h
    refine ⟨max N (t + 1), fun u hu => ?_, ?_⟩
    · show upd w.pc t _ u = .idle
      rw [upd_other (show u ≠ t by omega)]; exact hN u (by omega)
    · have h1 := statesOf_in (P := P) (c := c) (pc := w.pc) (t := t) (p := k.start) (max N (t + 1)) (by omega)
      have h2 := statesOf_idle (P := P) (c := c) hN (max N (t + 1)) (by omega)
      have h3 : (w.pc t).states P c = 0 := by rw [hp]; rfl
      have h4 : submissions P w.log + k.start.states P c ≤ submissions P (w.log ++ [(t, .call k)]) := by
        cases k <;> simp [submissions, Call.start, Pc.states, one, List.countP_cons]
      show (reportsAt c [] (w.log ++ [(t, .call k)])).countP P + pendings P slot c w.st.accounts +
        statesOf P c (upd w.pc t k.start) (max N (t + 1)) ≤ submissions P (w.log ++ [(t, .call k)])
      rw [reportsAt_snoc, List.countP_append]
      have h5 : (reportAt c ([] ++ w.log) (t, .call k)).countP P = 0 := by simp [reportAt]
      omega
  case upWrite t a c' i hp =>
    have hn : w.pc t ≠ .idle := by rw [hp]; simp
    unfold doWrite
    split
    · exact ret hp (by simp) rfl (by simp)
    · rename_i e he
      have h1 := pendings_set (P := P) (slot := slot) (c := c) (e' := (e.update a c').1) he
      have h2 := pending_update (P := P) (slot := slot) (c := c) e a c'
      have hq : (w.pc t).states P c = one P a := by rw [hp]; rfl
      have hle : pendings P slot c (w.st.setAt i (e.update a c').1).accounts + 0 ≤
          pendings P slot c w.st.accounts + (w.pc t).states P c := by
        show pendings P slot c (w.st.accounts.set i _) + 0 ≤ _
        omega
      simp only
      (repeat' split) <;> first | exact counted_ret h hn hle | exact counted_go h hn hle
  case prPromote t c' i k l out hp =>
    have hn : w.pc t ≠ .idle := by rw [hp]; simp
    unfold doPromote
    split
    · exact ret hp (by simp) rfl (by simp)
    · rename_i e he
      have h1 := pendings_set (P := P) (slot := slot) (c := c) (e' := (e.promote k c').1) he
      have h2 := pending_promote (c := c) hP e k c'
      have hq : (w.pc t).states P c = if c' = c then out.countP P else 0 := by rw [hp]; rfl
      have hle : ∀ n, n ≤ (if c' = c then out.countP P + reported P (e.promote k c').2 else 0) →
          pendings P slot c (w.st.setAt i (e.promote k c').1).accounts + n ≤
          pendings P slot c w.st.accounts + (w.pc t).states P c := by
        intro n hn
        show pendings P slot c (w.st.accounts.set i _) + n ≤ _
        split at hn <;> simp_all <;> omega
      have hadd : ∀ a, (out ++ [a]).countP P = out.countP P + one P a := by
        intro a; simp [List.countP_append, List.countP_cons, one]
      simp only
      split
      · exact counted_go h hn (hle _ (by simp only [Pc.states]; split <;> omega))
      · rename_i a hr
        rw [hr] at hle
        exact counted_go h hn (hle _ (by simp only [Pc.states, hadd, reported]; split <;> omega))
      · rename_i a prev hr
        rw [hr] at hle
        have hle' : ∀ p : Pc, p.states P c = (if c' = c then (out ++ [a]).countP P else 0) →
            Counted P slot c (w.go t (w.st.setAt i (e.promote k c').1) p) := fun p hp =>
          counted_go h hn (hle _ (by rw [hp, hadd]; simp only [reported]; split <;> omega))
        (repeat' split) <;> first | exact hle' _ rfl | exact counted_ret h hn (hle _ (Nat.zero_le _))
  case prReturn t c' out hp =>
    obtain ⟨k, hk, hc⟩ := hl.opened t (by rw [hp]; simp)
    rw [hp] at hk
    obtain ⟨info, rfl⟩ := hk
    refine counted_ret h (by rw [hp]; simp) ?_
    rw [hp]
    simp only [reportAt, lastOf_lastCall hc, Pc.states]
    split <;> simp
  case upUnown t a prev i hp => exact go hp (by simp) rfl (by split <;> simp [Pc.states])
  case upOwn t a i hp => exact ret hp (by simp) (own_accounts _ _ _) (by simp)
  case upDrop t a i hp =>
    refine counted_ret h (by rw [hp]; simp) ?_
    have := pendings_clear (P := P) (slot := slot) (c := c) w.st.accounts i
    show pendings P slot c (w.st.accounts.set i _) + 0 ≤ _
    omega
  case upPush t a c' hp _ =>
    refine counted_go h (by rw [hp]; simp) ?_
    have := pending_new (P := P) (slot := slot) (c := c) a c'
    rw [hp]
    show pendings P slot c (w.st.accounts ++ [_]) + 0 ≤ _ + one P a
    rw [pendings_append]
    omega
  case prUnown t c' i a prev l out hp => exact go hp (by simp) rfl (by split <;> simp [Pc.states])
  case prOwn t c' i a l out hp => exact go hp (by simp) (own_accounts _ _ _) (Nat.le_refl _)
  case prClear t c' i a l out hp =>
    refine counted_go h (by rw [hp]; simp) ?_
    have := pendings_clear (P := P) (slot := slot) (c := c) w.st.accounts i
    rw [hp]
    show pendings P slot c (w.st.accounts.set i _) + (if c' = c then (out ++ [a]).countP P else 0) ≤
      _ + (if c' = c then (out ++ [a]).countP P else 0)
    omega
  case prStore t c' l hp _ => exact go hp (by simp) rfl (by simp [Pc.states])
  case upSlot t a c' i hp => exact go hp (by simp) (addIndexToSlot_accounts ..) (Nat.le_refl _)
  case upNewSlot t a c' i hp => exact go hp (by simp) (addIndexToSlot_accounts ..) (Nat.le_refl _)
  case geRead t pk c' i hp _ =>
    unfold doRead
    split <;> exact ret hp (by simp) rfl (by simp)
  case gpVisit t p fs c' i l retry out hp _ =>
    unfold doVisit
    (repeat' split) <;> first | exact ret hp (by simp) rfl (by simp) | exact go hp (by simp) rfl (by simp [Pc.states])
  case gpRetry t p fs c' i l out hp _ =>
    unfold doVisit
    (repeat' split) <;> first | exact ret hp (by simp) rfl (by simp) | exact go hp (by simp) rfl (by simp [Pc.states])
  all_goals
    rename w.pc _ = _ => hp
    first
    | exact go hp (by simp) rfl (Nat.le_refl _)
    | exact ret hp (by simp) rfl (by simp)

theorem counted {E : Env} {w : World} (hP : ∀ a, P a = true → a.slot = slot) (h : Reachable E w) : Counted P slot c w := by
  obtain ⟨G, h⟩ := h
  have hr : ∀ {w}, Steps E (World.init G) w → Reachable E w := fun h => ⟨G, h⟩
  generalize hw0 : World.init G = w0 at h hr
  induction h with
  | refl => subst hw0; exact ⟨0, fun _ _ => rfl, by simp [World.init, reportsAt, pendings, Store.empty, statesOf]⟩
  | tail hst hs ih => exact counted_step hP (reachable_log (hr hst)) hs ih

end LAM.Conc
