import Verif.Lemmas.StoreConcLinStep
/-!
# Concurrent calls of the in-memory account store: executions with updates of different accounts
-/
namespace LAM.Conc
open Store World ByCommitment Spec

theorem serves_subject {p : Pc} {a : AccountData} {c : Commitment} (h : p.serves (.update a c)) : p.subject = some a.pubkey := by
  cases p <;> simp only [Pc.serves, reduceCtorEq, Call.update.injEq, exists_false] at h <;>
    (obtain ⟨_, rfl, -⟩ := h; rfl)

theorem serves_slot {p : Pc} {info : SlotInfo} {c : Commitment} (h : p.serves (.process info c)) : p.subject = none := by
  cases p <;> simp only [Pc.serves, reduceCtorEq, exists_false] at h <;> rfl

theorem different_of {E : Env} {w : World} (hr : Reachable E w) (h : Keyed w) : Different w := by
  intro t t' hne ht ht'
  have hlog := reachable_log hr
  obtain ⟨k, hk, hc⟩ := hlog.opened t (by intro h; rw [h] at ht; cases ht)
  obtain ⟨k', hk', hc'⟩ := hlog.opened t' (by intro h; rw [h] at ht'; cases ht')
  obtain ⟨a, c, a', c', rfl, rfl, hne'⟩ := h t t' k k' hne hc hc' (by rw [← serves_modifies hk]; exact ht)
    (by rw [← serves_modifies hk']; exact ht')
  exact ⟨_, _, serves_subject hk, serves_subject hk', hne'⟩

theorem Up.took {m : Pairing} {w : World} {s' : Store} {ds : List Done} {log : List (Nat × Event)} (hu : Up m w s' ds log) :
    TookEffect log ds := by
  intro t
  have h := hu.threads t
  have ahead : ∀ {p pk i}, Ahead w.filters m w.st s' (writeEvents t log) (doneEvents t ds) p pk i →
      ∃ r, writeEvents t log ++ [.ret r] = doneEvents t ds := fun ⟨_, _, r, _, _, _, _, h⟩ => ⟨r, h⟩
  cases hp : w.pc t <;> rw [hp] at h <;> simp only [ThreadOK] at h
  case upCheck | upLookup => exact .inr (.inl ⟨_, h⟩)
  case upSlot | upPush | upNewOwn | upNewSlot => exact .inr (.inl ⟨_, h.1⟩)
  case upEntry =>
    rcases h with h | ⟨_, _, h⟩
    · exact .inr (.inl ⟨_, h.2⟩)
    · exact .inr (.inr (ahead h))
  case upStore | upAccount | upWrite | upUnown | upOwn | upDrop | upInsert => exact .inr (.inr (ahead h))
  all_goals exact .inl h

/-- How far the calls that took effect have come. -/
structure Line (Fs : List Filters) (w0 w : World) (s' : Store) (ds : List Done) (log : List (Nat × Event)) : Prop where
  grown : w.log = w0.log ++ log
  run : seqRun w0.st (ds.map (·.op)) = .ok (s', ds.map (·.reply))
  filters : (ds.map (fun d => opFilters d.op)).Sublist Fs
  order : ∀ l, l <+: log → ∃ es, es <+: ds ∧ TookEffect l es
  owners : OwnIn s'

theorem Line.step {Fs : List Filters} {w0 w w' : World} {s' s1' : Store} {ds ex : List Done} {log lg : List (Nat × Event)}
    (h : Line Fs w0 w s' ds log) (hl : w'.log = w.log ++ lg) (h1 : lg.length ≤ 1) (ha : Adds w.filters s' ex s1')
    (ht : TookEffect (log ++ lg) (ds ++ ex)) : Line (Fs ++ [w.filters]) w0 w' s1' (ds ++ ex) (log ++ lg) := by
  refine ⟨by rw [hl, h.grown, List.append_assoc], ?_, ?_, fun l hp => ?_, ?_⟩
  · rcases ha with ⟨rfl, rfl⟩ | ⟨d, rfl, hd, -⟩
    · simpa using h.run
    · rw [List.map_append, List.map_append]; exact seqRun_snoc h.run hd
  · rcases ha with ⟨rfl, rfl⟩ | ⟨d, rfl, -, hd⟩
    · rw [List.append_nil]; exact h.filters.trans (List.sublist_append_left _ _)
    · rw [List.map_append]
      refine h.filters.append ?_
      simp [hd]
  · have old : l <+: log → ∃ es, es <+: ds ++ ex ∧ TookEffect l es := fun hp => by
      obtain ⟨es, h1, h2⟩ := h.order l hp
      exact ⟨es, h1.trans (List.prefix_append _ _), h2⟩
    match lg, h1 with
    | [], _ => rw [List.append_nil] at hp; exact old hp
    | [e], _ =>
      rcases List.prefix_concat_iff.1 hp with rfl | hp
      · exact ⟨_, List.prefix_refl _, ht⟩
      · exact old hp
  · rcases ha with ⟨-, rfl⟩ | ⟨d, -, hd, -⟩
    · exact h.owners
    · exact ownIn_op h.owners hd

/-- Updates at the same time, or one notification. -/
inductive Lin (Fs : List Filters) (w0 w : World) : Prop where
  | up (m : Pairing) (s' : Store) (ds : List Done) (log : List (Nat × Event)) (hl : Line Fs w0 w s' ds log) (hu : Up m w s' ds log)
  | pr (m : Pairing) (s s' : Store) (ds : List Done) (log : List (Nat × Event)) (t : Nat) (info : SlotInfo) (c : Commitment)
      (hl : Line Fs w0 w s' ds log) (hs : Sim m s s') (he : ∀ x, x ≠ t → writeEvents x log = doneEvents x ds)
      (het : writeEvents t log = doneEvents t ds ++ [.call (.process info c)]) (hq : ∀ x, x ≠ t → (w.pc x).modifies = false)
      (hm : (w.pc t).modifies = true) (hc : LastCall w.log t (.process info c))
      (hf : (w.pc t = .prWalk info c ∧ w.st = s) ∨ ((∀ info c, w.pc t ≠ .prWalk info c) ∧
        ∃ σ : Order, finish w.filters w.st (w.pc t) = opResult s (.slot w.filters σ info c)))

theorem took_pr {ds : List Done} {log : List (Nat × Event)} {t : Nat} {k : Call}
    (he : ∀ x, x ≠ t → writeEvents x log = doneEvents x ds) (het : writeEvents t log = doneEvents t ds ++ [.call k]) : TookEffect log ds := by
  intro x
  by_cases hx : x = t
  · subst hx; exact .inr (.inl ⟨_, het⟩)
  · exact .inl (he x hx)

theorem lin_step {E : Env} {key : Nat → Pubkey} {Fs : List Filters} {w0 w w' : World} (h : Step E w w') (hr : Reachable E w) (hg : Good E key w)
    (hd : Different w) (hd' : Different w') (hF : w'.filters = w.filters ∨ ∀ t, (w.pc t).modifies = false) (ht : Lin Fs w0 w) :
    Lin (Fs ++ [w.filters]) w0 w' := by
  rcases ht with ⟨m, s', ds, log, hl, hu⟩ | ⟨m, s, s', ds, log, t, info, c, hl, hs, he, het, hq, hm, hc, hf⟩
  · rcases update_goes hu hd hg hl.owners h with ⟨F, rfl⟩ | ⟨t, k, hp, rfl⟩ | ⟨m1, s1', ex, lg, h1, h2, h3, h4⟩
    · -- the filters change
      have hu' : Up m { w with filters := F } s' ds log := by
        rcases hF with hF | hF
        · simp only at hF; subst hF; exact hu
        · obtain ⟨hsim, hev⟩ := hu.sim hF
          exact Sim.up (w := { w with filters := F }) hsim hF hev
      have := hl.step (w' := { w with filters := F }) (ex := []) (lg := []) (by simp) (by simp) (.inl ⟨rfl, rfl⟩)
        (by rw [List.append_nil, List.append_nil]; exact hu.took)
      rw [List.append_nil, List.append_nil] at this
      exact .up m s' ds log this hu'
    · -- a call
      have hev : writeEvents t log = doneEvents t ds := by have := hu.threads t; rw [hp] at this; exact this
      have hev1 : writeEvents t (log ++ [(t, .call k)]) = doneEvents t ds ++ (if k.modifies then [.call k] else []) := by
        rw [writeEvents_append, hev, writeEvents_call]
      have hev2 : ∀ x, x ≠ t → writeEvents x (log ++ [(t, .call k)]) = writeEvents x log := fun x hx => by
        rw [writeEvents_append, writeEvents_other (Ne.symm hx), List.append_nil]
      have hl0 : ∀ x, ¬ Late w.st (w.pc t) x := by rw [hp]; exact fun _ h => h
      have hf0 : (w.pc t).fresh = none := by rw [hp]; rfl
      have fin : ∀ {w1 : World}, w1.log = w.log ++ [(t, .call k)] → TookEffect (log ++ [(t, .call k)]) ds →
          Line (Fs ++ [w.filters]) w0 w1 s' ds (log ++ [(t, .call k)]) := fun h1 h2 => by
        have := hl.step (w' := _) (ex := []) h1 (by simp) (.inl ⟨rfl, rfl⟩) (by rw [List.append_nil]; exact h2)
        rwa [List.append_nil] at this
      cases k with
      | process info c =>
        simp only [Call.modifies, if_true] at hev1
        have hq : ∀ x, x ≠ t → (w.pc x).modifies = false := by
          intro x hx
          cases hm : (w.pc x).modifies
          · rfl
          · obtain ⟨_, _, -, h2, -⟩ := hd' x t hx (by simp only; rw [upd_other hx]; exact hm) (by simp only; rw [upd_self]; rfl)
            simp only at h2; rw [upd_self] at h2; cases h2
        have hq' : ∀ x, (w.pc x).modifies = false := fun x => by
          by_cases hx : x = t
          · rw [hx, hp]; rfl
          · exact hq x hx
        obtain ⟨hsim, hevs⟩ := hu.sim hq'
        have he : ∀ x, x ≠ t → writeEvents x (log ++ [(t, .call (.process info c))]) = doneEvents x ds := fun x hx => by
          rw [hev2 x hx]; exact hevs x
        refine .pr m w.st s' ds (log ++ [(t, .call (.process info c))]) t info c (fin rfl (took_pr he hev1)) hsim he hev1 ?_ ?_ ⟨_, [], rfl, by simp⟩ (.inl ⟨?_, rfl⟩)
        · intro x hx; simp only; rw [upd_other hx]; exact hq x hx
        · simp only; rw [upd_self]; rfl
        · simp only; rw [upd_self]; rfl
      | update a c =>
        have hu' : Up m { w with pc := upd w.pc t (Call.start (.update a c)), log := w.log ++ [(t, .call (.update a c))] } s' ds
            (log ++ [(t, .call (.update a c))]) :=
          up_same hu rfl rfl rfl hl0 hf0 (by simp only [Call.start, ThreadOK]; exact hev1) hev2
        exact .up m s' ds _ (fin rfl hu'.took) hu'
      | get pk c =>
        simp only [Call.modifies, Bool.false_eq_true, if_false, List.append_nil] at hev1
        have hu' : Up m { w with pc := upd w.pc t (Call.start (.get pk c)), log := w.log ++ [(t, .call (.get pk c))] } s' ds
            (log ++ [(t, .call (.get pk c))]) :=
          up_same hu rfl rfl rfl hl0 hf0 (by simp only [Call.start, ThreadOK]; exact hev1) hev2
        exact .up m s' ds _ (fin rfl hu'.took) hu'
      | gpa p fs c =>
        simp only [Call.modifies, Bool.false_eq_true, if_false, List.append_nil] at hev1
        have hu' : Up m { w with pc := upd w.pc t (Call.start (.gpa p fs c)), log := w.log ++ [(t, .call (.gpa p fs c))] } s' ds
            (log ++ [(t, .call (.gpa p fs c))]) :=
          up_same hu rfl rfl rfl hl0 hf0 (by simp only [Call.start, ThreadOK]; exact hev1) hev2
        exact .up m s' ds _ (fin rfl hu'.took) hu'
    · exact .up m1 s1' _ _ (hl.step h1 h2 h3 h4.took) h4
  · -- a notification
    have hF' : w'.filters = w.filters := by
      rcases hF with h | h
      · exact h
      · rw [h t] at hm; cases hm
    have fin : ∀ {w1 : World} {lg}, w1.log = w.log ++ lg → lg.length ≤ 1 → TookEffect (log ++ lg) ds →
        Line (Fs ++ [w.filters]) w0 w1 s' ds (log ++ lg) := fun h1 h2 h3 => by
      have := hl.step (ex := []) h1 h2 (.inl ⟨rfl, rfl⟩) (by rw [List.append_nil]; exact h3)
      rwa [List.append_nil] at this
    have fin' : ∀ {w1 : World}, w1.log = w.log → Line (Fs ++ [w.filters]) w0 w1 s' ds log := fun h1 => by
      have := fin (lg := []) (by rw [h1, List.append_nil]) (by simp) (by rw [List.append_nil]; exact took_pr he het)
      rwa [List.append_nil] at this
    have quiet : ∀ {v e}, (∀ x, writeEvents x [(v, e)] = []) →
        (∀ x, x ≠ t → writeEvents x (log ++ [(v, e)]) = doneEvents x ds) ∧
        writeEvents t (log ++ [(v, e)]) = doneEvents t ds ++ [.call (.process info c)] := fun {v e} h => by
      refine ⟨fun x hx => ?_, ?_⟩
      · rw [writeEvents_append, h x, List.append_nil]; exact he x hx
      · rw [writeEvents_append, h t, List.append_nil]; exact het
    rcases effect h hg with ⟨F, rfl⟩ | ⟨v, k, hp, rfl⟩ | ⟨v, hmv, hv⟩ | ⟨v, p, hmv, hi, rfl, hpm⟩ | ⟨v, r, hmv, hi, rfl, hr1, hr2⟩
    · simp only at hF'; subst hF'
      exact .pr m s s' ds log t info c (fin' rfl) hs he het hq hm hc hf
    · have hvt : t ≠ v := by rintro rfl; rw [hp] at hm; cases hm
      have hk : k.modifies = false := by
        cases hk : k.modifies
        · rfl
        · have hpk : (Call.start k).modifies = true := by cases k <;> simp [Call.modifies] at hk <;> rfl
          obtain ⟨_, _, h1, h2, -⟩ := hd' t v hvt (by simp only; rw [upd_other hvt]; exact hm) (by simp only; rw [upd_self]; exact hpk)
          simp only at h1; rw [upd_other hvt] at h1
          rw [serves_slot (reachable_open hr t _ hc)] at h1; cases h1
      have hz : ∀ x, writeEvents x [(v, .call k)] = [] := fun x => by
        by_cases hx : v = x
        · subst hx; rw [writeEvents_call, hk]; rfl
        · exact writeEvents_other hx _
      obtain ⟨h1, h2⟩ := quiet hz
      have hpk : (Call.start k).modifies = false := by cases k <;> simp [Call.modifies] at hk <;> rfl
      refine .pr m s s' ds _ t info c (fin rfl (by simp) (took_pr h1 h2)) hs h1 h2 (fun x hx => ?_) ?_ (hc.other (Ne.symm hvt)) ?_
      · simp only
        by_cases hxv : x = v
        · subst hxv; rw [upd_self]; exact hpk
        · rw [upd_other hxv]; exact hq x hx
      · simp only; rw [upd_other hvt]; exact hm
      · simp only; rw [upd_other hvt]; exact hf
    · have : v = t := by
        by_cases hx : v = t
        · exact hx
        · rw [hq v hx] at hmv; cases hmv
      subst this
      cases hv with
      | go p hst hpm hpn hfin =>
        refine .pr m s s' ds log v info c (fin' (by rw [hst, go_log])) hs he het (fun x hx => ?_) ?_ (by rw [hst, go_log]; exact hc) (.inr ⟨?_, ?_⟩)
        · rw [hst, go_pc, upd_other hx]; exact hq x hx
        · rw [hst, go_pc, upd_self]; exact hpm
        · rw [hst, go_pc, upd_self]; exact hpn
        · rw [hst, go_pc, upd_self, go_filters, go_st]
          rcases hfin with ⟨info', c', hp', σ, hfin⟩ | ⟨hno, hfin⟩
          · rcases hf with ⟨hf, hws⟩ | ⟨hn, -⟩
            · rw [hf] at hp'; cases hp'
              exact ⟨σ, by rw [← hws]; exact hfin⟩
            · exact absurd hp' (hn _ _)
          · rcases hf with ⟨hf, -⟩ | ⟨hn, σ, hf⟩
            · exact absurd hf (hno _ _)
            · exact ⟨σ, by rw [hfin]; exact hf⟩
      | ret r hst hno hfin =>
        rcases hf with ⟨hf, -⟩ | ⟨hn, σ, hf⟩
        · exact absurd hf (hno _ _)
        · rw [hf] at hfin
          have hr : ∃ out, s.processSlotData w.filters σ info c = .ok (w'.st, out) ∧ r = .reported out := by
            simp only [opResult, Run.bind_eq_ok, Run.pure_eq, Run.ok.injEq] at hfin
            obtain ⟨⟨x, out⟩, h1, h2⟩ := hfin
            cases h2
            exact ⟨out, h1, rfl⟩
          obtain ⟨out, hpr, rfl⟩ := hr
          obtain ⟨σ', s2', hpr', hsim⟩ := process_sim hs hpr
          have hev : ∀ x, writeEvents x (log ++ [(v, .ret (.reported out))]) =
              doneEvents x (ds ++ [⟨v, .slot w.filters σ' info c, .reported out⟩]) := by
            intro x
            by_cases hx : x = v
            · subst hx
              rw [writeEvents_append, writeEvents_reported, doneEvents_append, doneEvents_self, het]
              simp [opCall]
            · rw [writeEvents_append, writeEvents_other (Ne.symm hx), doneEvents_append, doneEvents_other (Ne.symm hx), he x hx]
          have hq' : ∀ x, (w'.pc x).modifies = false := by
            intro x
            rw [hst, ret_pc]
            by_cases hx : x = v
            · subst hx; rw [upd_self]; rfl
            · rw [upd_other hx]; exact hq x hx
          refine .up m s2' _ _ (hl.step (w' := w') (lg := [(v, .ret (.reported out))]) (by rw [hst, ret_log]) (by simp)
            (.inr ⟨⟨v, .slot w.filters σ' info c, .reported out⟩, rfl, by simp [opResult, hpr'], rfl⟩) (fun x => .inl (hev x))) ?_
          exact Sim.up hsim hq' hev
    · have hvt : t ≠ v := by rintro rfl; rw [hmv] at hm; cases hm
      refine .pr m s s' ds log t info c (fin' rfl) hs he het (fun x hx => ?_) ?_ hc ?_
      · rw [go_pc]
        by_cases hxv : x = v
        · subst hxv; rw [upd_self]; exact hpm
        · rw [upd_other hxv]; exact hq x hx
      · rw [go_pc, upd_other hvt]; exact hm
      · rw [go_pc, upd_other hvt]; exact hf
    · have hvt : t ≠ v := by rintro rfl; rw [hmv] at hm; cases hm
      have hz : ∀ x, writeEvents x [(v, .ret r)] = [] := fun x => writeEvents_read v x hr1 hr2
      obtain ⟨h1, h2⟩ := quiet hz
      refine .pr m s s' ds _ t info c (fin rfl (by simp) (took_pr h1 h2)) hs h1 h2 (fun x hx => ?_) ?_ (hc.other (Ne.symm hvt)) ?_
      · rw [ret_pc]
        by_cases hxv : x = v
        · subst hxv; rw [upd_self]; rfl
        · rw [upd_other hxv]; exact hq x hx
      · rw [ret_pc, upd_other hvt]; exact hm
      · rw [ret_pc, upd_other hvt]; exact hf

end LAM.Conc
