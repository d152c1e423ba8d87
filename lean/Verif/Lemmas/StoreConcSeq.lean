import Verif.Lemmas.StoreConcLog
/-!
# Concurrent calls of the in-memory account store: one writing call at a time
-/
namespace LAM.Conc
open Store World ByCommitment Spec

/-- In a call that writes. -/
def Pc.modifies : Pc → Bool
  | .upCheck .. | .upLookup .. | .upSlot .. | .upEntry .. | .upStore .. | .upAccount .. | .upWrite .. | .upUnown ..
  | .upOwn .. | .upDrop .. | .upPush .. | .upNewOwn .. | .upNewSlot .. | .upInsert .. | .prWalk .. | .prStore .. | .prNext ..
  | .prPromote .. | .prUnown .. | .prOwn .. | .prDrop .. | .prClear .. => true
  | _ => false

theorem opResult_step (s : Store) (op : Op) : s.step op = (do let r ← opResult s op; return r.1) := by
  cases op with
  | update F a c => simp only [Store.step, opResult]; cases s.updateAccount F a c <;> rfl
  | slot F σ info c => simp only [Store.step, opResult]; cases s.processSlotData F σ info c <;> rfl

theorem seqRun_run {ops : List Op} : ∀ {s s' : Store} {rs : List Reply}, seqRun s ops = .ok (s', rs) → s.run ops = .ok s' := by
  induction ops with
  | nil => intro s s' rs h; simp [seqRun] at h; simp [Store.run, h.1]
  | cons op ops ih =>
    intro s s' rs h
    simp only [seqRun, Run.bind_eq_ok] at h
    obtain ⟨r, hr, q, hq, h⟩ := h
    cases h
    simp only [Store.run, opResult_step, hr, Run.ok_bind]
    exact ih hq

theorem seqRun_snoc {ops : List Op} {op : Op} : ∀ {s s' s'' : Store} {rs : List Reply} {r : Reply}, seqRun s ops = .ok (s', rs) →
    opResult s' op = .ok (s'', r) → seqRun s (ops ++ [op]) = .ok (s'', rs ++ [r]) := by
  induction ops with
  | nil =>
    intro s s' s'' rs r h h'
    simp [seqRun] at h
    obtain ⟨rfl, rfl⟩ := h
    simp [seqRun, h']
  | cons o ops ih =>
    intro s s' s'' rs r h h'
    simp only [seqRun, Run.bind_eq_ok] at h
    obtain ⟨r1, hr, q, hq, h⟩ := h
    cases h
    simp only [List.cons_append, seqRun, hr, Run.ok_bind, ih hq h']
    rfl

/-- Where the owner sets are updated and the account may have to go (84-104, 234-237). -/
def finishOwner (F : Filters) (a : AccountData) (i : Nat) (s : Store) : Store :=
  if isDeleted a || !F.satisfies a then (s.setAt i ⟨[], none, none⟩).dropKey a.pubkey
  else if !isDeleted a && F.satisfies a then s.addAccountOwner i a.account.owner else s

/-- The rest of `update_account` from the entry on. -/
def finishEntry (F : Filters) (a : AccountData) (c : Commitment) (s : Store) : Run (Store × Bool) :=
  match s.index a.pubkey with
  | some i => updateOccupied F s a c i
  | none => .ok (updateVacant F s a c)

/-- The rest of `process_slot_data` from the loop on. -/
def finishLoop (F : Filters) (c : Commitment) (l : Writable) (out : List AccountData) (s : Store) : Run (Store × Reply) := do
  let r ← promoteAll F c s l
  return (r.1, .reported (out ++ r.2))

/-- The rest of a writing call when it runs on its own. -/
def finish (F : Filters) (s : Store) : Pc → Run (Store × Reply)
  | .upCheck a c => do let r ← s.updateAccount F a c; return (r.1, .updated r.2)
  | .upLookup a c => do
    let r ← finishEntry F a (s.maybeUpdateSlotStatus a c).2 (s.maybeUpdateSlotStatus a c).1
    return (r.1, .updated r.2)
  | .upSlot a c i => do
    let r ← finishEntry F a (s.addIndexToSlot a.slot i c).2 (s.addIndexToSlot a.slot i c).1
    return (r.1, .updated r.2)
  | .upEntry a c => do let r ← finishEntry F a c s; return (r.1, .updated r.2)
  | .upStore a c i | .upAccount a c i | .upWrite a c i => do let r ← updateOccupied F s a c i; return (r.1, .updated r.2)
  | .upUnown a prev i => .ok (finishOwner F a i (s.removeAccountOwner i prev.account.owner), .updated true)
  | .upOwn a i => .ok (if !isDeleted a && F.satisfies a then s.addAccountOwner i a.account.owner else s, .updated true)
  | .upDrop a i => .ok ((s.setAt i ⟨[], none, none⟩).dropKey a.pubkey, .updated true)
  | .upPush a c =>
    let i := s.accounts.length
    let s := { s with accounts := s.accounts ++ [ByCommitment.new a c] }
    let s := ((s.addAccountOwner i a.account.owner).addIndexToSlot a.slot i c).1
    .ok ({ s with index := fun k => if k = a.pubkey then some i else s.index k }, .updated true)
  | .upNewOwn a c i =>
    let s := ((s.addAccountOwner i a.account.owner).addIndexToSlot a.slot i c).1
    .ok ({ s with index := fun k => if k = a.pubkey then some i else s.index k }, .updated true)
  | .upNewSlot a c i =>
    let s := (s.addIndexToSlot a.slot i c).1
    .ok ({ s with index := fun k => if k = a.pubkey then some i else s.index k }, .updated true)
  | .upInsert a i => .ok ({ s with index := fun k => if k = a.pubkey then some i else s.index k }, .updated true)
  | .prStore c l => finishLoop F c l [] s
  | .prNext c l out => finishLoop F c l out s
  | .prPromote c i slot l out => finishLoop F c ((i, slot) :: l) out s
  | .prUnown c i a prev l out => finishLoop F c l (out ++ [a]) (finishOwner F a i (s.removeAccountOwner i prev.account.owner))
  | .prOwn c i a l out =>
    finishLoop F c l (out ++ [a]) (if !isDeleted a && F.satisfies a then s.addAccountOwner i a.account.owner else s)
  | .prDrop c i a l out => finishLoop F c l (out ++ [a]) ((s.dropKey a.pubkey).setAt i ⟨[], none, none⟩)
  | .prClear c i a l out => finishLoop F c l (out ++ [a]) (s.setAt i ⟨[], none, none⟩)
  | _ => .diverge

/-- What a step of one thread is, seen from outside of it. -/
inductive Effect (w w' : World) (t : Nat) : Prop where
  /-- the thread goes on, and the result of the call stays the same -/
  | go (p : Pc) (hst : w' = w.go t w'.st p) (hm : p.modifies = true) (hn : ∀ info c, p ≠ .prWalk info c)
      (hf : (∃ info c, w.pc t = .prWalk info c ∧ ∃ σ : Order,
          finish w.filters w'.st p = opResult w.st (.slot w.filters σ info c)) ∨
        (∀ info c, w.pc t ≠ .prWalk info c) ∧ finish w.filters w'.st p = finish w.filters w.st (w.pc t))
  /-- the thread returns -/
  | ret (r : Reply) (hst : w' = w.ret t w'.st r) (hn : ∀ info c, w.pc t ≠ .prWalk info c)
      (hf : finish w.filters w.st (w.pc t) = .ok (w'.st, r))

theorem finishLoop_cons {F : Filters} {c : Commitment} {i slot : Nat} {l : Writable} {out : List AccountData} {s s' : Store}
    {r : List AccountData} (h : promoteOne F c s i slot = .ok (s', r)) :
    finishLoop F c ((i, slot) :: l) out s = finishLoop F c l (out ++ r) s' := by
  simp only [finishLoop, promoteAll, h, Run.ok_bind]
  cases promoteAll F c s' l <;> simp

theorem isDeleted_cases (F : Filters) (a : AccountData) :
    (isDeleted a || !F.satisfies a) = !(!isDeleted a && F.satisfies a) := by
  cases isDeleted a <;> cases F.satisfies a <;> rfl

/-- Steps of a thread in a writing call. -/
theorem effect {E : Env} {key : Nat → Pubkey} {w w' : World} (h : Step E w w') (hg : Good E key w) :
    (∃ F, w' = { w with filters := F }) ∨
    (∃ t k, w.pc t = .idle ∧ w' = { w with pc := upd w.pc t (Call.start k), log := w.log ++ [(t, .call k)] }) ∨
    (∃ t, (w.pc t).modifies = true ∧ Effect w w' t) ∨
    (∃ t p, (w.pc t).modifies = false ∧ w.pc t ≠ .idle ∧ w' = w.go t w.st p ∧ p.modifies = false) ∨
    (∃ t r, (w.pc t).modifies = false ∧ w.pc t ≠ .idle ∧ w' = w.ret t w.st r ∧ (∀ b, r ≠ .updated b) ∧ ∀ l, r ≠ .reported l) := by
  have wgo : ∀ {t p s q}, w.pc t = q → w' = w.go t s p → q.modifies = true → p.modifies = true → (∀ info c, p ≠ .prWalk info c) →
      (∀ info c, q ≠ .prWalk info c) → finish w.filters s p = finish w.filters w.st q → ∃ t, (w.pc t).modifies = true ∧ Effect w w' t := by
    intro t p s q hq h1 h2 h3 h4 h5 h6
    refine ⟨t, by rw [hq]; exact h2, .go p (by rw [h1]; rfl) h3 h4 (.inr ⟨by rw [hq]; exact h5, ?_⟩)⟩
    rw [h1, hq]; exact h6
  have wret : ∀ {t r s q}, w.pc t = q → w' = w.ret t s r → q.modifies = true →
      (∀ info c, q ≠ .prWalk info c) → finish w.filters w.st q = .ok (s, r) → ∃ t, (w.pc t).modifies = true ∧ Effect w w' t := by
    intro t r s q hq h1 h2 h5 h6
    refine ⟨t, by rw [hq]; exact h2, .ret r (by rw [h1]; rfl) (by rw [hq]; exact h5) ?_⟩
    rw [h1, hq]; exact h6
  have rgo : ∀ {t p q}, w.pc t = q → w' = w.go t w.st p → q.modifies = false → q ≠ .idle → p.modifies = false →
      ∃ t p, (w.pc t).modifies = false ∧ w.pc t ≠ .idle ∧ w' = w.go t w.st p ∧ p.modifies = false := by
    intro t p q hq h1 h2 h3 h4
    subst hq; exact ⟨t, p, h2, h3, h1, h4⟩
  have rret : ∀ {t r q}, w.pc t = q → w' = w.ret t w.st r → q.modifies = false → q ≠ .idle →
      (∀ b, r ≠ .updated b) → (∀ l, r ≠ .reported l) →
      ∃ t r, (w.pc t).modifies = false ∧ w.pc t ≠ .idle ∧ w' = w.ret t w.st r ∧ (∀ b, r ≠ .updated b) ∧ ∀ l, r ≠ .reported l := by
    intro t r q hq h1 h2 h3 h4 h5
    subst hq; exact ⟨t, r, h2, h3, h1, h4, h5⟩
  cases h
  case env F => exact .inl ⟨F, rfl⟩
  case call t k hp => exact .inr (.inl ⟨t, k, hp, rfl⟩)
  case upSkip t a c hp hf hb =>
    exact .inr (.inr (.inl (wret hp rfl rfl (by simp) (by simp only [finish, updateAccount]; rw [if_pos hb]; rfl))))
  case upTake t a c hp hf hb =>
    refine .inr (.inr (.inl (wgo hp rfl rfl rfl (by simp) (by simp) ?_)))
    simp only [finish, updateAccount, hb, Bool.false_eq_true, if_false]
    simp only [finishEntry]
    congr 1
  case upKnown t a c i hp hf hi =>
    refine .inr (.inr (.inl (wgo hp rfl rfl rfl (by simp) (by simp) ?_)))
    simp only [finish, maybeUpdateSlotStatus, hi]
  case upUnknown t a c hp hf hi =>
    refine .inr (.inr (.inl (wgo hp rfl rfl rfl (by simp) (by simp) ?_)))
    simp only [finish, maybeUpdateSlotStatus, hi]
  case upSlot t a c i hp => exact .inr (.inr (.inl (wgo hp rfl rfl rfl (by simp) (by simp) rfl)))
  case upOccupied t a c i hp hf hi =>
    refine .inr (.inr (.inl (wgo hp rfl rfl rfl (by simp) (by simp) ?_)))
    simp only [finish, finishEntry, hi]
  case upVacant t a c hp hf hi hs =>
    refine .inr (.inr (.inl (wgo hp rfl rfl rfl (by simp) (by simp) ?_)))
    simp only [finish, finishEntry, hi, updateVacant, hs, if_true, List.length_append, List.length_singleton, Nat.add_sub_cancel,
      Run.ok_bind]
    rfl
  case upIgnore t a c hp hf hi hs =>
    refine .inr (.inr (.inl (wret hp rfl rfl (by simp) ?_)))
    simp only [finish, finishEntry, hi, updateVacant, hs, Bool.false_eq_true, if_false, Run.ok_bind]
    rfl
  case upStore t a c i hp hf => exact .inr (.inr (.inl (wgo hp rfl rfl rfl (by simp) (by simp) rfl)))
  case upAccount t a c i hp hf => exact .inr (.inr (.inl (wgo hp rfl rfl rfl (by simp) (by simp) rfl)))
  case upWrite t a c i hp =>
    refine .inr (.inr (.inl ?_))
    have hpt := hg.pcs t
    rw [hp] at hpt
    obtain ⟨hk, e, he, ho⟩ := hg.idx _ _ hpt.2
    revert wgo wret
    unfold doWrite
    simp only [he]
    intro wgo wret
    have hfin : finish w.filters w.st (.upWrite a c i) =
        (do let r ← updateOccupied w.filters w.st a c i; return (r.1, .updated r.2)) := rfl
    simp only [updateOccupied, he, Run.unwrap_some, Run.ok_bind] at hfin
    split
    · rename_i hup
      rw [if_pos hup] at hfin wgo wret
      split
      · rename_i hget
        simp only [hget] at hfin wgo wret
        exact wret hp rfl rfl (by simp) hfin
      · rename_i prev hget
        have hpk := ho.get_pubkey hget
        simp only [hget] at hfin wgo wret
        rw [if_neg (by simp [hpk])] at wgo wret ⊢
        simp only [updateOwnerDeleteIfNecessary, hpk, ne_eq, not_true_eq_false, if_false] at hfin
        split
        · rename_i hown
          rw [if_pos hown] at wgo wret
          rw [if_pos hown] at hfin
          split
          · rename_i hc
            rw [if_pos hc] at wgo wret
            rw [if_pos hc] at hfin
            refine wgo hp rfl rfl rfl (by simp) (by simp) ?_
            rw [hfin]
            simp only [finish, finishOwner, isDeleted_cases]
            cases (!isDeleted a && w.filters.satisfies a) <;> simp [ByCommitment.delete] <;> rfl
          · rename_i hc
            rw [if_neg hc] at wgo wret
            rw [if_neg hc] at hfin
            refine wgo hp rfl rfl rfl (by simp) (by simp) ?_
            rw [hfin]
            simp only [finish]
            cases (!isDeleted a && w.filters.satisfies a) <;> simp
        · rename_i hown
          rw [if_neg hown] at wgo wret
          rw [if_neg hown] at hfin
          exact wret hp rfl rfl (by simp) hfin
    · rename_i hup
      rw [if_neg hup] at hfin wgo wret
      exact wret hp rfl rfl (by simp) hfin
  case upUnown t a prev i hp =>
    refine .inr (.inr (.inl ?_))
    by_cases hb : (isDeleted a || !w.filters.satisfies a) = true
    · refine wgo (p := .upDrop a i) hp (by rw [if_pos hb]) rfl rfl (by simp) (by simp) ?_
      simp only [finish, finishOwner]
      rw [if_pos hb]
    · refine wgo (p := .upOwn a i) hp (by rw [if_neg hb]) rfl rfl (by simp) (by simp) ?_
      simp only [finish, finishOwner]
      rw [if_neg hb]
  case upOwn t a i hp => exact .inr (.inr (.inl (wret hp rfl rfl (by simp) rfl)))
  case upDrop t a i hp => exact .inr (.inr (.inl (wret hp rfl rfl (by simp) rfl)))
  case upPush t a c hp hf => exact .inr (.inr (.inl (wgo hp rfl rfl rfl (by simp) (by simp) rfl)))
  case upNewOwn t a c i hp => exact .inr (.inr (.inl (wgo hp rfl rfl rfl (by simp) (by simp) rfl)))
  case upNewSlot t a c i hp => exact .inr (.inr (.inl (wgo hp rfl rfl rfl (by simp) (by simp) rfl)))
  case upInsert t a i hp => exact .inr (.inr (.inl (wret hp rfl rfl (by simp) rfl)))
  case prWalk t info c slots wl l hp hw hl =>
    refine .inr (.inr (.inl ⟨t, by rw [hp]; rfl, .go (.prStore c l) rfl rfl (by simp) (.inl ⟨info, c, hp, ?_⟩)⟩))
    refine ⟨⟨fun x => if x = wl then l else x, fun x => ?_⟩, ?_⟩
    · split
      · rename_i hx; subst hx; exact hl
      · exact .refl _
    · simp only [finish, finishLoop, go_st, opResult, processSlotData, hw, Run.ok_bind, if_true, List.nil_append]
  case prEndless t info c hp hne =>
    obtain ⟨r, hr⟩ := walk_ends hg.ranges info c
    exact absurd hr (hne r)
  case prStore t c l hp hf => exact .inr (.inr (.inl (wgo hp rfl rfl rfl (by simp) (by simp) rfl)))
  case prReturn t c out hp =>
    refine .inr (.inr (.inl (wret hp rfl rfl (by simp) ?_)))
    simp [finish, finishLoop, promoteAll]
  case prNext t c i slot l out hp hf => exact .inr (.inr (.inl (wgo hp rfl rfl rfl (by simp) (by simp) rfl)))
  case prPromote t c i slot l out hp =>
    refine .inr (.inr (.inl ?_))
    have hpt := hg.pcs t
    rw [hp] at hpt
    obtain ⟨hlt, -⟩ := hpt
    have he := List.getElem?_eq_getElem hlt
    generalize w.st.accounts[i] = e at he
    have hone : promoteOne w.filters c w.st i slot = promoteOne w.filters c w.st i slot := rfl
    conv at hone => rhs; unfold promoteOne
    simp only [he, Run.unwrap_some, Run.ok_bind] at hone
    revert wgo wret
    unfold doPromote
    simp only [he]
    intro wgo wret
    split
    · rename_i hr
      simp only [hr] at hone wgo
      refine wgo hp rfl rfl rfl (by simp) (by simp) ?_
      simp only [finish]
      rw [finishLoop_cons hone, List.append_nil]
    · rename_i a hr
      simp only [hr] at hone wgo
      refine wgo hp rfl rfl rfl (by simp) (by simp) ?_
      simp only [finish]
      rw [finishLoop_cons hone]
    · rename_i a prev hr
      simp only [hr] at hone wgo wret
      have hpk : prev.pubkey = a.pubkey := by
        rcases hg.entry i e he with rfl | ⟨h1, h2⟩
        · rw [promote_dead] at hr; cases hr
        · obtain ⟨-, hf, hpr, -⟩ := (promote_result _ _ _ _ _).1 hr
          rw [(h1.keys _ _ hf).2, h1.get_pubkey hpr.symm]
      simp only [updateOwnerDeleteIfNecessary, hpk, ne_eq, not_true_eq_false, if_false] at hone
      split
      · rename_i hcond
        rw [if_pos hcond] at wgo wret
        rw [if_pos hcond] at hone
        rw [if_neg (by simp [hpk])] at wgo wret ⊢
        split
        · rename_i hown
          rw [if_pos hown] at wgo wret
          rw [if_pos hown] at hone
          split
          · rename_i hc
            rw [if_pos hc] at wgo wret
            rw [if_pos hc] at hone
            refine wgo hp rfl rfl rfl (by simp) (by simp) ?_
            simp only [finish, finishOwner]
            cases hb : (isDeleted a || !w.filters.satisfies a)
            · have hb' : (!isDeleted a && w.filters.satisfies a) = true := by
                rw [isDeleted_cases] at hb; simpa using hb
              simp only [hb, hb', Bool.false_eq_true, if_false, if_true, Run.ok_bind] at hone ⊢
              rw [finishLoop_cons hone]
            · simp only [hb, if_true, Run.ok_bind, ByCommitment.delete] at hone ⊢
              rw [finishLoop_cons hone]
              rfl
          · rename_i hc
            rw [if_neg hc] at wgo wret
            rw [if_neg hc] at hone
            refine wgo hp rfl rfl rfl (by simp) (by simp) ?_
            simp only [finish]
            cases hb : (!isDeleted a && w.filters.satisfies a) <;>
              simp only [hb, Bool.false_eq_true, if_false, if_true, Run.ok_bind] at hone ⊢ <;>
              rw [finishLoop_cons hone]
        · rename_i hown
          rw [if_neg hown] at wgo wret
          rw [if_neg hown] at hone
          refine wgo hp rfl rfl rfl (by simp) (by simp) ?_
          simp only [Run.ok_bind, Bool.false_eq_true, if_false] at hone
          simp only [finish]
          rw [finishLoop_cons hone]
      · rename_i hcond
        rw [if_neg hcond] at wgo wret
        rw [if_neg hcond] at hone
        refine wgo hp rfl rfl rfl (by simp) (by simp) ?_
        simp only [finish]
        rw [finishLoop_cons hone]
  case prUnown t c i a prev l out hp =>
    refine .inr (.inr (.inl ?_))
    by_cases hb : (isDeleted a || !w.filters.satisfies a) = true
    · refine wgo (p := .prDrop c i a l out) hp (by rw [if_pos hb]) rfl rfl (by simp) (by simp) ?_
      simp only [finish, finishOwner]
      rw [if_pos hb]
      rfl
    · refine wgo (p := .prOwn c i a l out) hp (by rw [if_neg hb]) rfl rfl (by simp) (by simp) ?_
      simp only [finish, finishOwner]
      rw [if_neg hb]
  case prOwn t c i a l out hp => exact .inr (.inr (.inl (wgo hp rfl rfl rfl (by simp) (by simp) rfl)))
  case prDrop t c i a l out hp hf => exact .inr (.inr (.inl (wgo hp rfl rfl rfl (by simp) (by simp) rfl)))
  case prClear t c i a l out hp => exact .inr (.inr (.inl (wgo hp rfl rfl rfl (by simp) (by simp) rfl)))
  case geRead t pk c i hp hf =>
    refine .inr (.inr (.inr (.inr ?_)))
    revert rret
    unfold doRead
    split
    · intro rret; exact rret hp rfl rfl (by simp) (by simp) (by simp)
    · intro rret; exact rret hp rfl rfl (by simp) (by simp) (by simp)
  case gpVisit t p fs c i l retry out hp hf =>
    revert rgo rret
    unfold doVisit
    split
    · intro rgo rret; exact .inr (.inr (.inr (.inr (rret hp rfl rfl (by simp) (by simp) (by simp)))))
    · split
      · intro rgo rret; exact .inr (.inr (.inr (.inl (rgo hp rfl rfl (by simp) rfl))))
      · intro rgo rret; exact .inr (.inr (.inr (.inr (rret hp rfl rfl (by simp) (by simp) (by simp)))))
  case gpRetry t p fs c i l out hp hf =>
    revert rgo rret
    unfold doVisit
    split
    · intro rgo rret; exact .inr (.inr (.inr (.inr (rret hp rfl rfl (by simp) (by simp) (by simp)))))
    · split
      · intro rgo rret; exact .inr (.inr (.inr (.inl (rgo hp rfl rfl (by simp) rfl))))
      · intro rgo rret; exact .inr (.inr (.inr (.inr (rret hp rfl rfl (by simp) (by simp) (by simp)))))
  all_goals
    rename w.pc _ = _ => hp
    first
    | exact .inr (.inr (.inr (.inl (rgo hp rfl rfl (by simp) rfl))))
    | exact .inr (.inr (.inr (.inr (rret hp rfl rfl (by simp) (by simp) (by simp)))))

/-- At most one thread is in a writing call. -/
def Alone (w : World) : Prop := ∀ t t', (w.pc t).modifies = true → (w.pc t').modifies = true → t = t'

/-- Steps in which at most one thread at a time is in a writing call, and the filters only change while none is. -/
inductive OneWriter (E : Env) : List Filters → World → World → Prop where
  | refl (w) : OneWriter E [] w w
  | tail {Fs w w' w''} : OneWriter E Fs w w' → Step E w' w'' → Alone w'' →
      (w''.filters = w'.filters ∨ ∀ t, (w'.pc t).modifies = false) → OneWriter E (Fs ++ [w'.filters]) w w''

theorem OneWriter.steps {E : Env} {Fs : List Filters} {w w' : World} (h : OneWriter E Fs w w') : Steps E w w' := by
  induction h with
  | refl => exact .refl _
  | tail _ hs _ _ ih => exact .tail ih hs

theorem writeCalls_append (l l' : List (Nat × Event)) : writeCalls (l ++ l') = writeCalls l ++ writeCalls l' := by
  simp [writeCalls]

theorem writeReplies_append (l l' : List (Nat × Event)) : writeReplies (l ++ l') = writeReplies l ++ writeReplies l' := by
  simp [writeReplies]

/-- How far the sequential execution has come when the writing calls since `w0` were made one at a time. -/
inductive Track (Fs : List Filters) (w0 : World) (w : World) : Prop where
  /-- no writing call is being executed -/
  | quiet (ops : List Op) (log : List (Nat × Event)) (hq : ∀ t, (w.pc t).modifies = false)
      (hl : w.log = w0.log ++ log) (hc : writeCalls log = ops.map opCall) (hr : seqRun w0.st ops = .ok (w.st, writeReplies log))
      (hS : (ops.map opFilters).Sublist Fs)
  /-- a notification has just begun -/
  | begun (ops : List Op) (log : List (Nat × Event)) (t : Nat) (info : SlotInfo) (c : Commitment) (hp : w.pc t = .prWalk info c)
      (hl : w.log = w0.log ++ log) (hc : writeCalls log = ops.map opCall ++ [.process info c])
      (hr : seqRun w0.st ops = .ok (w.st, writeReplies log)) (hS : (ops.map opFilters).Sublist Fs)
  /-- a writing call is being executed -/
  | busy (ops : List Op) (log : List (Nat × Event)) (t : Nat) (op : Op) (s : Store) (hm : (w.pc t).modifies = true)
      (hn : ∀ info c, w.pc t ≠ .prWalk info c)
      (hl : w.log = w0.log ++ log) (hc : writeCalls log = (ops ++ [op]).map opCall)
      (hr : seqRun w0.st ops = .ok (s, writeReplies log)) (hf : finish w.filters w.st (w.pc t) = opResult s op)
      (hS : ((ops ++ [op]).map opFilters).Sublist Fs)

theorem opResult_reply {s s' : Store} {op : Op} {r : Reply} (h : opResult s op = .ok (s', r)) (t : Nat) :
    writeReplies [(t, .ret r)] = [r] := by
  cases op with
  | update F a c =>
    simp only [opResult, Run.bind_eq_ok] at h
    obtain ⟨x, -, h⟩ := h
    cases h; rfl
  | slot F σ info c =>
    simp only [opResult, Run.bind_eq_ok] at h
    obtain ⟨x, -, h⟩ := h
    cases h; rfl

theorem track_step {E : Env} {key : Nat → Pubkey} {Fs : List Filters} {w0 w w' : World} (h : Step E w w') (hg : Good E key w) (ha' : Alone w')
    (ha : Alone w) (hF : w'.filters = w.filters ∨ ∀ t, (w.pc t).modifies = false) (ht : Track Fs w0 w) :
    Track (Fs ++ [w.filters]) w0 w' := by
  have more : ∀ {l : List Filters}, l.Sublist Fs → l.Sublist (Fs ++ [w.filters]) := fun h => h.trans (List.sublist_append_left _ _)
  have one : ∀ {l : List Filters}, l.Sublist Fs → (l ++ [w.filters]).Sublist (Fs ++ [w.filters]) := fun h => h.append (List.Sublist.refl _)
  rcases effect h hg with ⟨F, rfl⟩ | ⟨t, k, hp, rfl⟩ | ⟨t, hm, he⟩ | ⟨t, p, hm, hi, rfl, hpm⟩ | ⟨t, r, hm, hi, rfl, hr1, hr2⟩
  · -- the filters change
    rcases ht with ⟨ops, log, hq, hl, hc, hr, hS⟩ | ⟨ops, log, t, info, c, hp, hl, hc, hr, hS⟩ | ⟨ops, log, t, op, s, hm, hn, hl, hc, hr, hf, hS⟩
    · exact .quiet ops log hq hl hc hr (more hS)
    · exact .begun ops log t info c hp hl hc hr (more hS)
    · rcases hF with hF | hF
      · exact .busy ops log t op s hm hn hl hc hr (by simp only at hF ⊢; rw [hF]; exact hf) (more hS)
      · rw [hF t] at hm; cases hm
  · -- a call
    by_cases hk : k.modifies = true
    · have hpk : (Call.start k).modifies = true := by cases k <;> simp [Call.modifies] at hk <;> rfl
      have hq : ∀ x, (w.pc x).modifies = false := by
        intro x
        cases hx : (w.pc x).modifies
        · rfl
        · have hxt : x ≠ t := by rintro rfl; rw [hp] at hx; cases hx
          refine absurd (ha' x t ?_ ?_) hxt
          · simp only; rw [upd_other hxt]; exact hx
          · simp only; rw [upd_self]; exact hpk
      rcases ht with ⟨ops, log, -, hl, hc, hr, hS⟩ | ⟨ops, log, t', info, c, hp', -⟩ | ⟨ops, log, t', op, s, hm, -⟩
      · have hl' : w.log ++ [(t, Event.call k)] = w0.log ++ (log ++ [(t, Event.call k)]) := by rw [hl, List.append_assoc]
        have hwc : writeCalls (log ++ [(t, Event.call k)]) = ops.map opCall ++ [k] := by
          rw [writeCalls_append, hc]; simp [writeCalls, hk]
        have hwr : writeReplies (log ++ [(t, Event.call k)]) = writeReplies log := by
          rw [writeReplies_append]; simp [writeReplies]
        cases k with
        | update a c =>
          refine .busy ops _ t (.update w.filters a c) w.st (by simp only; rw [upd_self]; rfl) (by simp only; rw [upd_self]; simp [Call.start])
            hl' (by rw [hwc]; simp [opCall]) (by rw [hwr]; exact hr) ?_ (by rw [List.map_append]; exact one hS)
          simp only; rw [upd_self]; rfl
        | process info c =>
          exact .begun ops _ t info c (by simp only; rw [upd_self]; rfl) hl' hwc (by rw [hwr]; exact hr) (more hS)
        | get => cases hk
        | gpa => cases hk
      · have := hq t'; rw [hp'] at this; cases this
      · have := hq t'; rw [hm] at this; cases this
    · have hpk : (Call.start k).modifies = false := by cases k <;> simp [Call.modifies] at hk <;> rfl
      have wr : ∀ log : List (Nat × Event), writeCalls (log ++ [(t, Event.call k)]) = writeCalls log := by
        intro log; rw [writeCalls_append]; simp [writeCalls, hk]
      have wr' : ∀ log : List (Nat × Event), writeReplies (log ++ [(t, Event.call k)]) = writeReplies log := by
        intro log; rw [writeReplies_append]; simp [writeReplies]
      have other : ∀ x, w.pc x ≠ .idle → upd w.pc t (Call.start k) x = w.pc x := by
        intro x hx; rw [upd_other]; rintro rfl; exact hx hp
      rcases ht with ⟨ops, log, hq, hl, hc, hr, hS⟩ | ⟨ops, log, t', info, c, hp', hl, hc, hr, hS⟩ | ⟨ops, log, t', op, s, hm, hn, hl, hc, hr, hf, hS⟩
      · refine .quiet ops (log ++ [(t, .call k)]) ?_ (by simp [hl]) (by rw [wr]; exact hc) (by rw [wr']; exact hr) (more hS)
        intro x; simp only
        by_cases hx : x = t
        · subst hx; rw [upd_self]; exact hpk
        · rw [upd_other hx]; exact hq x
      · refine .begun ops (log ++ [(t, .call k)]) t' info c ?_ (by simp [hl]) (by rw [wr]; exact hc) (by rw [wr']; exact hr) (more hS)
        simp only; rw [other t' (by rw [hp']; simp)]; exact hp'
      · have hid : w.pc t' ≠ .idle := by rintro e; rw [e] at hm; cases hm
        refine .busy ops (log ++ [(t, .call k)]) t' op s ?_ ?_ (by simp [hl]) (by rw [wr]; exact hc) (by rw [wr']; exact hr) ?_ (more hS)
        · simp only; rw [other t' hid]; exact hm
        · simp only; rw [other t' hid]; exact hn
        · simp only; rw [other t' hid]; exact hf
  · -- a step of the writing thread
    rcases ht with ⟨ops, log, hq, -⟩ | ⟨ops, log, t', info, c, hp', hl, hc, hr, hS⟩ | ⟨ops, log, t', op, s, hm', hn, hl, hc, hr, hf, hS⟩
    · rw [hq t] at hm; cases hm
    · have : t' = t := ha t' t (by rw [hp']; rfl) hm
      subst this
      cases he with
      | go p hst hpm hpn hfin =>
        rcases hfin with ⟨info', c', hp'', σ, hfin⟩ | ⟨hno, -⟩
        · rw [hp'] at hp''; cases hp''
          refine .busy ops log t' (.slot w.filters σ info c) w.st ?_ ?_ (by rw [hst]; exact hl) (by rw [hc]; simp [opCall]) hr ?_ (by rw [List.map_append]; exact one hS)
          · rw [hst, go_pc, upd_self]; exact hpm
          · rw [hst, go_pc, upd_self]; exact hpn
          · rw [hst, go_pc, upd_self, go_filters, go_st]; exact hfin
        · exact absurd hp' (hno info c)
      | ret r hst hno hfin => exact absurd hp' (hno info c)
    · have : t' = t := ha t' t hm' hm
      subst this
      cases he with
      | go p hst hpm hpn hfin =>
        rcases hfin with ⟨info', c', hp'', -⟩ | ⟨-, hfin⟩
        · exact absurd hp'' (hn info' c')
        · refine .busy ops log t' op s ?_ ?_ (by rw [hst]; exact hl) hc hr ?_ (more hS)
          · rw [hst, go_pc, upd_self]; exact hpm
          · rw [hst, go_pc, upd_self]; exact hpn
          · rw [hst, go_pc, upd_self, go_filters, go_st, hfin]; exact hf
      | ret r hst hno hfin =>
        rw [hf] at hfin
        refine .quiet (ops ++ [op]) (log ++ [(t', .ret r)]) ?_ (by rw [hst, ret_log, hl, List.append_assoc]) ?_ ?_ (more hS)
        · intro x
          rw [hst, ret_pc]
          by_cases hx : x = t'
          · subst hx; rw [upd_self]; rfl
          · rw [upd_other hx]
            cases hxm : (w.pc x).modifies
            · rfl
            · exact absurd (ha x t' hxm hm') hx
        · rw [writeCalls_append, hc]; simp [writeCalls]
        · rw [writeReplies_append, opResult_reply hfin]
          exact seqRun_snoc hr hfin
  · -- a step of a reading thread
    have other : ∀ x, (w.pc x).modifies = true → upd w.pc t p x = w.pc x := by
      intro x hx; rw [upd_other]; rintro rfl; rw [hm] at hx; cases hx
    rcases ht with ⟨ops, log, hq, hl, hc, hr, hS⟩ | ⟨ops, log, t', info, c, hp', hl, hc, hr, hS⟩ | ⟨ops, log, t', op, s, hm', hn, hl, hc, hr, hf, hS⟩
    · refine .quiet ops log ?_ hl hc hr (more hS)
      intro x; rw [go_pc]
      by_cases hx : x = t
      · subst hx; rw [upd_self]; exact hpm
      · rw [upd_other hx]; exact hq x
    · exact .begun ops log t' info c (by rw [go_pc, other t' (by rw [hp']; rfl)]; exact hp') hl hc hr (more hS)
    · refine .busy ops log t' op s ?_ ?_ hl hc hr ?_ (more hS)
      · rw [go_pc, other t' hm']; exact hm'
      · rw [go_pc, other t' hm']; exact hn
      · rw [go_pc, other t' hm']; exact hf
  · -- a reading thread returns
    have other : ∀ x, (w.pc x).modifies = true → upd w.pc t .idle x = w.pc x := by
      intro x hx; rw [upd_other]; rintro rfl; rw [hm] at hx; cases hx
    have wr : ∀ log : List (Nat × Event), writeCalls (log ++ [(t, Event.ret r)]) = writeCalls log := by
      intro log; rw [writeCalls_append]; simp [writeCalls]
    have wr' : ∀ log : List (Nat × Event), writeReplies (log ++ [(t, Event.ret r)]) = writeReplies log := by
      intro log; rw [writeReplies_append]
      cases r with
      | updated b => exact absurd rfl (hr1 b)
      | reported l => exact absurd rfl (hr2 l)
      | _ => simp [writeReplies]
    rcases ht with ⟨ops, log, hq, hl, hc, hr, hS⟩ | ⟨ops, log, t', info, c, hp', hl, hc, hr, hS⟩ | ⟨ops, log, t', op, s, hm', hn, hl, hc, hr, hf, hS⟩
    · refine .quiet ops (log ++ [(t, .ret r)]) ?_ (by rw [ret_log, hl, List.append_assoc]) (by rw [wr]; exact hc) (by rw [wr']; exact hr) (more hS)
      intro x; rw [ret_pc]
      by_cases hx : x = t
      · subst hx; rw [upd_self]; rfl
      · rw [upd_other hx]; exact hq x
    · exact .begun ops (log ++ [(t, .ret r)]) t' info c (by rw [ret_pc, other t' (by rw [hp']; rfl)]; exact hp')
        (by rw [ret_log, hl, List.append_assoc]) (by rw [wr]; exact hc) (by rw [wr']; exact hr) (more hS)
    · refine .busy ops (log ++ [(t, .ret r)]) t' op s ?_ ?_ (by rw [ret_log, hl, List.append_assoc]) (by rw [wr]; exact hc)
        (by rw [wr']; exact hr) ?_ (more hS)
      · rw [ret_pc, other t' hm']; exact hm'
      · rw [ret_pc, other t' hm']; exact hn
      · rw [ret_pc, other t' hm']; exact hf

/-- With one writing call at a time, the store is what the calls make of it one after the other. -/
theorem one_writer {E : Env} {Fs : List Filters} {w0 w : World} (hr : Reachable E w0) (hq0 : ∀ t, (w0.pc t).modifies = false)
    (h : OneWriter E Fs w0 w) : Alone w ∧ Track Fs w0 w := by
  induction h with
  | refl =>
    refine ⟨fun t t' ht => ?_, .quiet [] [] hq0 (by simp) rfl rfl (by simp)⟩
    rw [hq0 t] at ht; cases ht
  | tail h hs ha hF ih =>
    obtain ⟨F, hr⟩ := hr
    obtain ⟨-, key, hg⟩ := reachable_good ⟨F, hr.trans h.steps⟩
    exact ⟨ha, track_step hs hg ha (ih ⟨F, hr⟩ hq0).1 hF (ih ⟨F, hr⟩ hq0).2⟩

end LAM.Conc
