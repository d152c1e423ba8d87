import Verif.Lemmas.StoreConcLinRun
/-!
# Concurrent calls of the in-memory account store: what can be read after updates of different accounts
-/
namespace LAM.Conc
open Store World ByCommitment Spec

theorem KeyedWriters.steps {E : Env} {Fs : List Filters} {w w' : World} (h : KeyedWriters E Fs w w') : Steps E w w' := by
  induction h with
  | refl => exact .refl _
  | tail _ hs _ _ ih => exact .tail ih hs

theorem keyed_lin {E : Env} {Fs : List Filters} {w0 w : World} (hr : Reachable E w0) (h0 : NoWriter w0) (h : KeyedWriters E Fs w0 w) :
    Different w ∧ Lin Fs w0 w := by
  induction h with
  | refl w0 =>
    have hq := noWriter_of hr h0
    obtain ⟨-, key, hg⟩ := reachable_good hr
    refine ⟨fun t t' _ ht => absurd ht (by rw [hq t]; simp), ?_⟩
    have hs : Sim _ w0.st w0.st := sim_refl (fun pk i hi => hg.lt hi)
      (fun k st hk i hi => hg.ranges.slots k st (BMap.find_of_mem hg.ranges.sorted hk) i hi)
    refine .up _ w0.st [] [] ⟨by simp, rfl, by simp, fun l hl => ?_, fun o j hj => ?_⟩ (hs.up hq fun t => rfl)
    · rw [List.prefix_nil] at hl; subst hl
      exact ⟨[], List.prefix_refl _, fun t => .inl rfl⟩
    · unfold owns at hj
      cases hb : w0.st.byOwner o with
      | none => rw [hb] at hj; simp at hj
      | some l => rw [hb] at hj; exact hg.ranges.owners o l hb j hj
  | @tail Fs w0 w w' h hs hk hF ih =>
    obtain ⟨hd, hl⟩ := ih hr h0
    have hr1 := Steps.reachable hr h.steps
    have hd' := different_of (Steps.reachable hr1 (.tail (.refl _) hs)) hk
    obtain ⟨-, key, hg⟩ := reachable_good hr1
    exact ⟨hd', lin_step hs hr1 hg hd hd' (hF.imp id (noWriter_of hr1)) hl⟩

/-! ## Queries -/

theorem pass_mem {X : Codecs} {s : Store} {c : Commitment} {p : Pubkey} {fs : Option (List AccountFilterType)} : ∀ {is : List Nat}
    {l : List AccountData}, gpaPass X s c p fs is = .ok l →
    (∀ i ∈ is, ∃ e r, s.accounts[i]? = some e ∧ gpaOne X e c p fs = .ok r) ∧
    ∀ a, a ∈ l ↔ ∃ i ∈ is, ∃ e r, s.accounts[i]? = some e ∧ gpaOne X e c p fs = .ok r ∧ a ∈ r
  | [], l, h => by simp only [gpaPass, Run.ok.injEq] at h; subst h; simp
  | i :: is, l, h => by
    simp only [gpaPass, Run.bind_eq_ok, Run.pure_eq, Run.ok.injEq] at h
    obtain ⟨e, he, r, hr, rs, hrs, rfl⟩ := h
    have he : s.accounts[i]? = some e := by
      cases hq : s.accounts[i]? with
      | none => rw [hq] at he; cases he
      | some q => rw [hq] at he; cases he; rfl
    obtain ⟨h1, h2⟩ := pass_mem hrs
    refine ⟨fun j hj => ?_, fun a => ?_⟩
    · rcases List.mem_cons.1 hj with rfl | hj
      · exact ⟨e, r, he, hr⟩
      · exact h1 j hj
    · rw [List.mem_append, h2]
      constructor
      · rintro (h | ⟨j, hj, h⟩)
        · exact ⟨i, by simp, e, r, he, hr, h⟩
        · exact ⟨j, by simp [hj], h⟩
      · rintro ⟨j, hj, e', r', he', hr', h⟩
        rcases List.mem_cons.1 hj with rfl | hj
        · rw [he] at he'; cases he'; rw [hr] at hr'; cases hr'
          exact .inl h
        · exact .inr ⟨j, hj, e', r', he', hr', h⟩

theorem pass_total {X : Codecs} {s : Store} {c : Commitment} {p : Pubkey} {fs : Option (List AccountFilterType)} : ∀ {is : List Nat},
    (∀ i ∈ is, ∃ e r, s.accounts[i]? = some e ∧ gpaOne X e c p fs = .ok r) → ∃ l, gpaPass X s c p fs is = .ok l
  | [], _ => ⟨[], rfl⟩
  | i :: is, h => by
    obtain ⟨e, r, he, hr⟩ := h i (by simp)
    obtain ⟨l, hl⟩ := pass_total (is := is) fun j hj => h j (by simp [hj])
    exact ⟨r ++ l, by simp [gpaPass, he, hr, hl]⟩

/-- What a query that is not refused returns. -/
theorem gpa_mem {X : Codecs} {F : Filters} {busy : Nat → Bool} {s : Store} {p : Pubkey} {fs : Option (List AccountFilterType)}
    {c : Commitment} {l : List AccountData} (h : getProgramAccounts X F busy s p fs c = .ok (.ok l)) :
    F.contains ⟨[], some p, fs⟩ = true ∧ (∀ i, owns s p i → ∃ e r, s.accounts[i]? = some e ∧ gpaOne X e c p fs = .ok r) ∧
    ∀ a, a ∈ l ↔ ∃ i, owns s p i ∧ ∃ e r, s.accounts[i]? = some e ∧ gpaOne X e c p fs = .ok r ∧ a ∈ r := by
  unfold getProgramAccounts at h
  split at h
  · cases h
  · rename_i hc
    refine ⟨by simpa using hc, ?_⟩
    cases hb : s.byOwner p with
    | none =>
      rw [hb] at h
      simp only [Run.ok.injEq, Except.ok.injEq] at h
      subst h
      simp [owns, hb]
    | some is =>
      rw [hb] at h
      simp only [Run.bind_eq_ok, Run.pure_eq, Run.ok.injEq, Except.ok.injEq] at h
      obtain ⟨r1, h1, r2, h2, rfl⟩ := h
      obtain ⟨a1, b1⟩ := pass_mem h1
      obtain ⟨a2, b2⟩ := pass_mem h2
      simp only [owns, hb, Option.getD_some]
      refine ⟨fun i hi => ?_, fun a => ?_⟩
      · cases hbi : busy i
        · exact a1 i (by simp [hi, hbi])
        · exact a2 i (by simp [hi, hbi])
      · rw [List.mem_append, b1, b2]
        constructor
        · rintro (⟨i, hi, h⟩ | ⟨i, hi, h⟩)
          · exact ⟨i, (List.mem_filter.1 hi).1, h⟩
          · exact ⟨i, (List.mem_filter.1 hi).1, h⟩
        · rintro ⟨i, hi, h⟩
          cases hbi : busy i
          · exact .inl ⟨i, by simp [hi, hbi], h⟩
          · exact .inr ⟨i, by simp [hi, hbi], h⟩

theorem gpa_total {X : Codecs} {F : Filters} {busy : Nat → Bool} {s : Store} {p : Pubkey} {fs : Option (List AccountFilterType)}
    {c : Commitment} (hc : F.contains ⟨[], some p, fs⟩ = true)
    (h : ∀ i, owns s p i → ∃ e r, s.accounts[i]? = some e ∧ gpaOne X e c p fs = .ok r) :
    ∃ l, getProgramAccounts X F busy s p fs c = .ok (.ok l) := by
  unfold getProgramAccounts
  rw [if_neg (by simp [hc])]
  cases hb : s.byOwner p with
  | none => exact ⟨[], rfl⟩
  | some is =>
    have h' : ∀ i ∈ is, ∃ e r, s.accounts[i]? = some e ∧ gpaOne X e c p fs = .ok r := fun i hi => h i (by simp [owns, hb, hi])
    obtain ⟨l1, h1⟩ := pass_total (is := is.filter fun i => !busy i) fun i hi => h' i (List.mem_filter.1 hi).1
    obtain ⟨l2, h2⟩ := pass_total (is := is.filter fun i => busy i) fun i hi => h' i (List.mem_filter.1 hi).1
    exact ⟨l1 ++ l2, by simp [h1, h2]⟩

theorem Sim.gpa {m : Pairing} {s s' : Store} (h : Sim m s s') (ho : OwnIn s) (ho' : OwnIn s') {X : Codecs} {F : Filters}
    {busy busy' : Nat → Bool} {p : Pubkey} {fs : Option (List AccountFilterType)} {c : Commitment} {l : List AccountData}
    (hl : getProgramAccounts X F busy s p fs c = .ok (.ok l)) :
    ∃ l', getProgramAccounts X F busy' s' p fs c = .ok (.ok l') ∧ ∀ a, a ∈ l' ↔ a ∈ l := by
  obtain ⟨h1, h2, h3⟩ := gpa_mem hl
  have back : ∀ j, owns s' p j → ∃ i, owns s p i ∧ s.accounts[i]? = s'.accounts[j]? := by
    intro j hj
    obtain ⟨i, hij⟩ := h.all' j (ho' p j hj)
    obtain ⟨p1, p2⟩ := h.pair hij
    exact ⟨i, (p2 p).2 hj, p1⟩
  have forth : ∀ i, owns s p i → ∃ j, owns s' p j ∧ s'.accounts[j]? = s.accounts[i]? := by
    intro i hi
    obtain ⟨j, hij⟩ := h.all i (ho p i hi)
    obtain ⟨p1, p2⟩ := h.pair hij
    exact ⟨j, (p2 p).1 hi, p1.symm⟩
  obtain ⟨l', hl'⟩ := gpa_total (X := X) (F := F) (busy := busy') (s := s') (p := p) (fs := fs) (c := c) h1 (fun j hj => by
    obtain ⟨i, hi, he⟩ := back j hj
    obtain ⟨e, r, h4, h5⟩ := h2 i hi
    exact ⟨e, r, by rw [← he]; exact h4, h5⟩)
  refine ⟨l', hl', fun a => ?_⟩
  rw [h3, (gpa_mem hl').2.2]
  constructor
  · rintro ⟨j, hj, e, r, h4, h5⟩
    obtain ⟨i, hi, he⟩ := back j hj
    exact ⟨i, hi, e, r, by rw [he]; exact h4, h5⟩
  · rintro ⟨i, hi, e, r, h4, h5⟩
    obtain ⟨j, hj, he⟩ := forth i hi
    exact ⟨j, hj, e, r, by rw [he]; exact h4, h5⟩

/-! ## Schedules -/

/-- Among the first `n` threads, those in writing calls update different accounts. -/
def keyedNow (n : Nat) (w : World) : Bool :=
  (List.range n).all fun t => (List.range n).all fun t' => t == t' || !(w.pc t).modifies || !(w.pc t').modifies ||
    match (w.pc t).subject, (w.pc t').subject with
    | some pk, some pk' => pk != pk'
    | _, _ => false

theorem keyedNow_spec {E : Env} {n : Nat} {w : World} (hr : Reachable E w) (hw : Within n w) (h : keyedNow n w = true) : Keyed w := by
  intro t t' k k' hne hc hc' hk hk'
  have hs := reachable_open hr t k hc
  have hs' := reachable_open hr t' k' hc'
  have hn : t < n := by
    apply Classical.byContradiction; intro hn
    rw [hw t (by omega)] at hs; exact hs
  have hn' : t' < n := by
    apply Classical.byContradiction; intro hn
    rw [hw t' (by omega)] at hs'; exact hs'
  simp only [keyedNow, List.all_eq_true, List.mem_range] at h
  have h := h t hn t' hn'
  rw [serves_modifies hs, hk, serves_modifies hs', hk'] at h
  simp only [beq_iff_eq, hne, Bool.not_true, Bool.or_false, Bool.or_eq_true, false_or] at h
  cases k with
  | update a c =>
    cases k' with
    | update a' c' =>
      rw [serves_subject hs, serves_subject hs'] at h
      exact ⟨a, c, a', c', rfl, rfl, by simpa using h⟩
    | process info c' => rw [serves_subject hs, serves_slot hs'] at h; simp at h
    | get => cases hk'
    | gpa => cases hk'
  | process info c => rw [serves_slot hs] at h; simp at h
  | get => cases hk
  | gpa => cases hk

/-- A schedule in which this is so all the time. -/
def keyedSchedule (E : Env) (n : Nat) (w : World) : List Move → Bool
  | [] => true
  | m :: ms => match move E n w m with
    | some w' => keyedNow n w' && keyedSchedule E n w' ms
    | none => false

theorem KeyedWriters.head {E : Env} {Fs : List Filters} {w w1 w' : World} (hs : Step E w w1) (hc : Keyed w1)
    (hF : w1.filters = w.filters ∨ NoWriter w) (h : KeyedWriters E Fs w1 w') : KeyedWriters E (w.filters :: Fs) w w' := by
  induction h with
  | refl => exact .tail (.refl _) hs hc hF
  | tail _ hs' hc' hF' ih => exact .tail (ih hs hc hF) hs' hc' hF'

theorem schedule_keyed {E : Env} {n : Nat} {ms : List Move} : ∀ {w w' : World}, Reachable E w → Within n w →
    schedule E n w ms = some w' → keyedSchedule E n w ms = true → ∃ Fs, KeyedWriters E Fs w w' := by
  induction ms with
  | nil => intro w w' _ _ h _; cases h; exact ⟨[], .refl _⟩
  | cons m ms ih =>
    intro w w' hr hw h hl
    simp only [schedule] at h
    simp only [keyedSchedule] at hl
    split at h
    · rename_i w1 h1
      rw [h1] at hl
      simp only [Bool.and_eq_true] at hl
      obtain ⟨hs, hw1⟩ := move_sound hw h1
      have hr1 := Steps.reachable hr (.tail (.refl _) hs)
      obtain ⟨Fs, h2⟩ := ih hr1 hw1 h hl.2
      exact ⟨_, .head hs (keyedNow_spec hr1 hw1 hl.1) (.inl (move_filters h1)) h2⟩
    · cases h

theorem played_keyed {E : Env} {n : Nat} {F : Filters} {ms : List Move} (h : (schedule E n (World.init F) ms).isSome = true)
    (hl : keyedSchedule E n (World.init F) ms = true) : ∃ Fs, KeyedWriters E Fs (World.init F) (played E n F ms) := by
  unfold played
  cases h1 : schedule E n (World.init F) ms with
  | none => rw [h1] at h; cases h
  | some w => exact schedule_keyed ⟨F, .refl _⟩ (within_init n F) h1 hl

end LAM.Conc
