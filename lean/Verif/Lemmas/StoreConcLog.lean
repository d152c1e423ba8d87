import Verif.Lemmas.StoreConcInv
/-!
# Concurrent calls of the in-memory account store: what the calls return
-/
namespace LAM.Conc
open Store World ByCommitment Spec

/-- The thread works on this call. -/
def Pc.serves : Pc → Call → Prop
  | .idle, _ => False
  | .upCheck a _, k | .upLookup a _, k | .upSlot a _ _, k | .upEntry a _, k | .upStore a _ _, k | .upAccount a _ _, k
  | .upWrite a _ _, k | .upUnown a _ _, k | .upOwn a _, k | .upDrop a _, k | .upPush a _, k | .upNewOwn a _ _, k
  | .upNewSlot a _ _, k | .upInsert a _, k => ∃ c, k = .update a c
  | .prWalk info c, k => k = .process info c
  | .prStore c .., k | .prNext c .., k | .prPromote c .., k | .prUnown c .., k | .prOwn c .., k | .prDrop c .., k
  | .prClear c .., k => ∃ info, k = .process info c
  | .geLookup pk c, k | .geStore pk c _, k | .geRead pk c _, k => k = .get pk c
  | .gpContains p fs c, k | .gpOwner p fs c, k | .gpStore p fs c, k | .gpSet p fs c, k | .gpScan p fs c _ _ _, k
  | .gpRetry p fs c _ _, k => k = .gpa p fs c

/-- What a step adds to the log. -/
inductive LogStep (E : Env) (w w' : World) : Prop where
  | none (hl : w'.log = w.log) (hp : ∀ t k, (w.pc t).serves k → (w'.pc t).serves k) (hi : ∀ t, w.pc t = .idle → w'.pc t = .idle)
  | call (t : Nat) (k : Call) (hl : w'.log = w.log ++ [(t, .call k)]) (hp : w'.pc = upd w.pc t (Call.start k))
  | ret (t : Nat) (r : Reply) (hl : w'.log = w.log ++ [(t, .ret r)]) (hp : w'.pc = upd w.pc t .idle) (hn : w.pc t ≠ .idle)
      (hr : ∀ k, (w.pc t).serves k → ReplyOK E w.log k r)

theorem logStep_go {E : Env} {w w' : World} {t : Nat} {s : Store} {p : Pc} (h : w' = w.go t s p) (hn : w.pc t ≠ .idle)
    (hs : ∀ k, (w.pc t).serves k → p.serves k) : LogStep E w w' := by
  subst h
  refine .none rfl (fun x k hk => ?_) (fun x hx => ?_)
  · rw [go_pc]
    by_cases hx : x = t
    · subst hx; rw [upd_self]; exact hs k hk
    · rw [upd_other hx]; exact hk
  · rw [go_pc, upd_other (by rintro rfl; exact hn hx)]; exact hx

theorem logStep_ret {E : Env} {w w' : World} {t : Nat} {s : Store} {r : Reply} (h : w' = w.ret t s r) (hn : w.pc t ≠ .idle)
    (hr : ∀ k, (w.pc t).serves k → ReplyOK E w.log k r) : LogStep E w w' := by
  subst h; exact .ret t r rfl rfl hn hr

theorem logStep_visit {E : Env} {key : Nat → Pubkey} {w : World} {t : Nat} {p : Pubkey} {fs : Option (List AccountFilterType)}
    {c : Commitment} {i : Nat} {next : List AccountData → Pc} (hg : Good E key w) (hi : i < w.st.accounts.length)
    (hn : w.pc t ≠ .idle) (hk : ∀ k, (w.pc t).serves k → k = .gpa p fs c)
    (hs : ∀ k r, (w.pc t).serves k → (next r).serves k) : LogStep E w (doVisit E w t p fs c i next) := by
  unfold doVisit
  have he := List.getElem?_eq_getElem hi
  rw [he]
  simp only
  generalize w.st.accounts[i] = e at he
  split
  · exact logStep_go rfl hn (fun k => hs k _)
  · rename_i hne
    refine logStep_ret rfl hn fun k hk' => ?_
    have := hk k hk'
    subst this
    cases fs with
    | none =>
      have : ∃ r, gpaOne E.codecs e c p none = .ok r := by
        simp only [gpaOne]; split
        · split <;> exact ⟨_, rfl⟩
        · exact ⟨_, rfl⟩
      obtain ⟨r, hr⟩ := this
      exact (hne r hr).elim
    | some l =>
      simp only [ReplyOK]
      cases hget : e.get c with
      | none => exact (hne [] (by simp [gpaOne, getFiltered, hget])).elim
      | some a =>
        by_cases hw : QueryWellFormed E.codecs (some l)
        · refine .inr ⟨a, ?_, fun ha => ?_⟩
          · rcases hg.entry i e he with rfl | ⟨h4, h5⟩
            · cases c <;> simp [dead, ByCommitment.get, BMap.lastVal] at hget
            · exact h5.get h4 hget
          · obtain ⟨r, hr, -⟩ := filterState_complete ha (hw l rfl)
            have : ∃ x, gpaOne E.codecs e c p (some l) = .ok x := by
              simp only [gpaOne, getFiltered, hget, hr, Run.ok_bind]
              split
              · split <;> exact ⟨_, rfl⟩
              · exact ⟨_, rfl⟩
            obtain ⟨x, hx⟩ := this
            exact hne x hx
        · exact .inl hw

theorem logStep {E : Env} {key : Nat → Pubkey} {w w' : World} (h : Step E w w') (hg : Good E key w) : LogStep E w w' := by
  cases h
  case env => exact .none rfl (fun _ _ h => h) (fun _ h => h)
  case call t k hp => exact .call t k rfl rfl
  case upWrite t a c i hp =>
    have hpt := hg.pcs t
    rw [hp] at hpt
    obtain ⟨hs, hi⟩ := hpt
    obtain ⟨hk, e, he, ho⟩ := hg.idx _ _ hi
    have hn : w.pc t ≠ .idle := by rw [hp]; simp
    have upd : ∀ b k, (w.pc t).serves k → ReplyOK E w.log k (.updated b) := by
      rw [hp]; rintro b k ⟨c, rfl⟩; trivial
    unfold doWrite
    rw [he]
    simp only
    split
    · split
      · exact logStep_ret rfl hn (upd _)
      · rename_i prev hprev
        rw [if_neg (by simp [ho.get_pubkey hprev])]
        split
        · split
          · exact logStep_go rfl hn (by rw [hp]; exact fun k h => h)
          · exact logStep_go rfl hn (by rw [hp]; exact fun k h => h)
        · exact logStep_ret rfl hn (upd _)
    · exact logStep_ret rfl hn (upd _)
  case prPromote t c i slot l out hp =>
    have hpt := hg.pcs t
    rw [hp] at hpt
    obtain ⟨hlt, hr, hout⟩ := hpt
    have he := List.getElem?_eq_getElem hlt
    have hn : w.pc t ≠ .idle := by rw [hp]; simp
    unfold doPromote
    rw [he]
    simp only
    generalize w.st.accounts[i] = e at he
    split
    · exact logStep_go rfl hn (by rw [hp]; exact fun k h => h)
    · exact logStep_go rfl hn (by rw [hp]; exact fun k h => h)
    · rename_i a prev ha
      split
      · rw [if_neg]
        · split
          · split
            · exact logStep_go rfl hn (by rw [hp]; exact fun k h => h)
            · exact logStep_go rfl hn (by rw [hp]; exact fun k h => h)
          · exact logStep_go rfl hn (by rw [hp]; exact fun k h => h)
        · rcases hg.entry i e he with rfl | ⟨h1, h2⟩
          · rw [promote_dead] at ha; cases ha
          · obtain ⟨-, hf, hpr, -⟩ := (promote_result _ _ _ _ _).1 ha
            simp [(h1.keys _ _ hf).2, h1.get_pubkey hpr.symm]
      · exact logStep_go rfl hn (by rw [hp]; exact fun k h => h)
  case geRead t pk c i hp hf =>
    have hpt := hg.pcs t
    rw [hp] at hpt
    obtain ⟨hlt, hk⟩ := hpt
    have he := List.getElem?_eq_getElem hlt
    unfold doRead
    rw [he]
    simp only
    generalize w.st.accounts[i] = e at he
    refine logStep_ret rfl (by rw [hp]; simp) ?_
    rw [hp]
    rintro k rfl
    simp only [ReplyOK, Option.filter_eq_some_iff, decide_eq_true_eq]
    rintro a ⟨ha, hpos⟩
    rcases hg.entry i e he with rfl | ⟨h1, h2⟩
    · cases c <;> simp [dead, ByCommitment.get, BMap.lastVal] at ha
    · exact ⟨by rw [h1.get_pubkey ha, hk], hpos, h2.get h1 ha⟩
  case gpVisit t p fs c i l retry out hp hf =>
    have hpt := hg.pcs t
    rw [hp] at hpt
    exact logStep_visit hg (hpt.1 i List.mem_cons_self) (by rw [hp]; simp) (by rw [hp]; exact fun k h => h)
      (by rw [hp]; exact fun k r h => h)
  case gpRetry t p fs c i l out hp hf =>
    have hpt := hg.pcs t
    rw [hp] at hpt
    exact logStep_visit hg (hpt.1 i List.mem_cons_self) (by rw [hp]; simp) (by rw [hp]; exact fun k h => h)
      (by rw [hp]; exact fun k r h => h)
  case gpReturn t p fs c out hp =>
    have hpt := hg.pcs t
    rw [hp] at hpt
    refine logStep_ret rfl (by rw [hp]; simp) ?_
    rw [hp]; rintro k rfl
    exact hpt.2
  case prReturn t c out hp =>
    have hpt := hg.pcs t
    rw [hp] at hpt
    refine logStep_ret rfl (by rw [hp]; simp) ?_
    rw [hp]; rintro k ⟨info, rfl⟩
    exact hpt.2
  case prEndless t info c hp hne =>
    obtain ⟨r, hr⟩ := walk_ends hg.ranges info c
    exact absurd hr (hne r)
  case prWalk t info c slots wl l hp hw hl =>
    exact logStep_go rfl (by rw [hp]; simp) (by rw [hp]; exact fun k h => ⟨info, h⟩)
  case upUnown t a prev i hp =>
    refine logStep_go rfl (by rw [hp]; simp) ?_
    rw [hp]; split <;> exact fun k h => h
  case prUnown t c i a prev l out hp =>
    refine logStep_go rfl (by rw [hp]; simp) ?_
    rw [hp]; split <;> exact fun k h => h
  case geNone t pk c hp hf hi =>
    refine logStep_ret rfl (by rw [hp]; simp) ?_
    rw [hp]; rintro k rfl; simp [ReplyOK]
  case gpRefused t p fs c hp hf =>
    refine logStep_ret rfl (by rw [hp]; simp) ?_
    rw [hp]; rintro k rfl; trivial
  case gpNone t p fs c hp hf =>
    refine logStep_ret rfl (by rw [hp]; simp) ?_
    rw [hp]; rintro k rfl; simp [ReplyOK]
  all_goals
    rename w.pc _ = _ => hp
    first
    | exact logStep_go rfl (by rw [hp]; simp) (by rw [hp]; exact fun k h => h)
    | (refine logStep_ret rfl (by rw [hp]; simp) ?_; rw [hp]; rintro k ⟨c, rfl⟩; trivial)

/-- Threads in a call have made it, and all answers so far are in order. -/
structure LogOK (E : Env) (w : World) : Prop where
  opened : ∀ t, w.pc t ≠ .idle → ∃ k, (w.pc t).serves k ∧ LastCall w.log t k
  answers : ∀ pre t r post, w.log = pre ++ (t, Event.ret r) :: post → ∃ k, LastCall pre t k ∧ ReplyOK E pre k r

theorem LastCall.other {log : List (Nat × Event)} {t x : Nat} {k : Call} {v : Event} (h : LastCall log t k) (hx : x ≠ t) :
    LastCall (log ++ [(x, v)]) t k := by
  obtain ⟨pre, mid, rfl, hm⟩ := h
  refine ⟨pre, mid ++ [(x, v)], by simp, ?_⟩
  intro e he
  rcases List.mem_append.1 he with he | he
  · exact hm e he
  · simp at he; subst he; exact hx

theorem snoc_split {α : Type} {l pre post : List α} {x y : α} (h : l ++ [x] = pre ++ y :: post) :
    (post = [] ∧ x = y ∧ pre = l) ∨ ∃ post', post = post' ++ [x] ∧ l = pre ++ y :: post' := by
  rcases List.eq_nil_or_concat post with rfl | ⟨post', z, rfl⟩
  · have := List.append_inj' h rfl
    simp at this
    exact .inl ⟨rfl, this.2, this.1.symm⟩
  · rw [List.concat_eq_append, ← List.cons_append, ← List.append_assoc] at h
    have := List.append_inj' h rfl
    simp at this
    obtain ⟨h1, rfl⟩ := this
    exact .inr ⟨post', by simp, h1⟩

theorem logOK_step {E : Env} {w w' : World} (h : LogStep E w w') (ho : LogOK E w) : LogOK E w' := by
  cases h with
  | none hl hp hi =>
    refine ⟨fun t ht => ?_, by rw [hl]; exact ho.answers⟩
    rw [hl]
    have hn : w.pc t ≠ .idle := fun h => ht (hi t h)
    obtain ⟨k, h1, h2⟩ := ho.opened t hn
    exact ⟨k, hp t k h1, h2⟩
  | call t k hl hp =>
    refine ⟨fun x hx => ?_, fun pre x r post hlog => ?_⟩
    · rw [hp] at hx ⊢
      rw [hl]
      by_cases hxt : x = t
      · subst hxt
        rw [upd_self]
        refine ⟨k, ?_, w.log, [], rfl, by simp⟩
        cases k <;> simp [Call.start, Pc.serves]
      · rw [upd_other hxt] at hx ⊢
        obtain ⟨k', h1, h2⟩ := ho.opened x hx
        exact ⟨k', h1, h2.other (fun h => hxt h.symm)⟩
    · rw [hl] at hlog
      rcases snoc_split hlog with ⟨-, h1, -⟩ | ⟨post', -, h1⟩
      · cases h1
      · exact ho.answers pre x r post' h1
  | ret t r hl hp hn hr =>
    refine ⟨fun x hx => ?_, fun pre x r' post hlog => ?_⟩
    · rw [hp] at hx ⊢
      rw [hl]
      by_cases hxt : x = t
      · subst hxt; rw [upd_self] at hx; exact absurd rfl hx
      · rw [upd_other hxt] at hx ⊢
        obtain ⟨k', h1, h2⟩ := ho.opened x hx
        exact ⟨k', h1, h2.other (fun h => hxt h.symm)⟩
    · rw [hl] at hlog
      rcases snoc_split hlog with ⟨-, h1, rfl⟩ | ⟨post', -, h1⟩
      · cases h1
        obtain ⟨k, h1, h2⟩ := ho.opened t hn
        exact ⟨k, h2, hr k h1⟩
      · exact ho.answers pre x r' post' h1

theorem reachable_log {E : Env} {w : World} (h : Reachable E w) : LogOK E w := by
  obtain ⟨F, h⟩ := h
  induction h with
  | refl => exact ⟨by simp [World.init], by simp [World.init]⟩
  | tail hs' hs ih =>
    obtain ⟨-, key, hg⟩ := reachable_good ⟨F, hs'⟩
    exact logOK_step (logStep hs hg) ih

/-! ## `get_account` returns what the account was during the call -/

/-- The state of an account at a commitment as a call of `get_account` without company would return it. -/
def current (s : Store) (pk : Pubkey) (c : Commitment) : Option AccountData :=
  ((s.view pk).bind (fun e => e.get c)).filter (fun a => a.account.lamports > 0)

/-- How the index can change in a step. -/
theorem step_index {E : Env} {key : Nat → Pubkey} {w w' : World} (h : Step E w w') (hg : Good E key w) (pk : Pubkey) (i : Nat)
    (hi : w.st.index pk = some i) : w'.st.index pk = some i ∨ w'.st.index pk = none := by
  have same : w'.st.index = w.st.index → w'.st.index pk = some i ∨ w'.st.index pk = none := fun h => .inl (by rw [h]; exact hi)
  cases h
  case upDrop t a j hp =>
    simp only [ret_st, dropKey, setAt_index]
    split
    · exact .inr rfl
    · exact .inl hi
  case prDrop t c j a l out hp hf =>
    simp only [go_st, dropKey]
    split
    · exact .inr rfl
    · exact .inl hi
  case upInsert t a j hp =>
    have hpt := hg.pcs t
    rw [hp] at hpt
    simp only [ret_st]
    rw [if_neg]
    · exact .inl hi
    · rintro rfl; rw [hpt.2.1] at hi; cases hi
  case upWrite => unfold doWrite; (repeat' split) <;> exact .inl hi
  case prPromote => unfold doPromote; (repeat' split) <;> exact .inl hi
  case geRead => unfold doRead; split <;> exact .inl hi
  case gpVisit => unfold doVisit; (repeat' split) <;> exact .inl hi
  case gpRetry => unfold doVisit; (repeat' split) <;> exact .inl hi
  all_goals exact same (by simp)

/-- Nobody is making an account that is in the index. -/
theorem no_maker {E : Env} {key : Nat → Pubkey} {w : World} (hg : Good E key w) {pk : Pubkey} {i : Nat}
    (hi : w.st.index pk = some i) (y : Nat) : (w.pc y).making ≠ some i := by
  intro hy
  have hk := (hg.idx _ _ hi).1
  have hpy := hg.pcs y
  cases hq : w.pc y <;> rw [hq] at hy hpy <;> simp only [Pc.making, Option.some.injEq, reduceCtorEq] at hy <;>
    simp only [PcOK] at hpy <;> subst hy <;> rw [← hpy.2.2.1, hk, hi] at hpy <;> simp at hpy

/-- Only new accounts are being made. -/
theorem step_making {E : Env} {w w' : World} (h : Step E w w') {i : Nat} (hi : i < w.st.accounts.length)
    (hn : ∀ y, (w.pc y).making ≠ some i) (y : Nat) : (w'.pc y).making ≠ some i := by
  have move : ∀ t p, w'.pc = upd w.pc t p → p.making ≠ some i → (w'.pc y).making ≠ some i := by
    intro t p hpc hp
    rw [hpc]
    by_cases hy : y = t
    · subst hy; rw [upd_self]; exact hp
    · rw [upd_other hy]; exact hn y
  cases h
  case env => exact hn y
  case call t k hp => exact move t _ rfl (by cases k <;> simp [Call.start, Pc.making])
  case upPush t a c hp _ => exact move t _ rfl (by simp only [Pc.making, ne_eq, Option.some.injEq]; omega)
  case upNewOwn t a c j hp => have := hn t; rw [hp] at this; exact move t _ rfl this
  case upNewSlot t a c j hp => have := hn t; rw [hp] at this; exact move t _ rfl this
  case upWrite x a c i hq =>
    rcases doWrite_pc w x a c i with ⟨_, _, h⟩ | ⟨_, _, _, h⟩ | ⟨_, h⟩ <;> exact move x _ (congrArg World.pc h) (by simp [Pc.making])
  case prPromote x c i slot l out hq =>
    rcases doPromote_pc w x c i slot l out with ⟨_, _, h⟩ | ⟨_, _, h⟩ | ⟨_, _, _, _, h⟩ | ⟨_, _, h⟩ <;>
      exact move x _ (congrArg World.pc h) (by simp [Pc.making])
  case geRead x _ c i hq _ =>
    obtain ⟨_, h⟩ := doRead_pc w x c i
    exact move x _ (congrArg World.pc h) (by simp [Pc.making])
  case gpVisit x p fs c i l retry out hq _ =>
    rcases doVisit_pc E w x p fs c i (fun r => .gpScan p fs c l retry (out ++ r)) with ⟨_, h⟩ | ⟨_, h⟩ <;>
      exact move x _ (congrArg World.pc h) (by simp [Pc.making])
  case gpRetry x p fs c i l out hq _ =>
    rcases doVisit_pc E w x p fs c i (fun r => .gpRetry p fs c l (out ++ r)) with ⟨_, h⟩ | ⟨_, h⟩ <;>
      exact move x _ (congrArg World.pc h) (by simp [Pc.making])
  case upUnown x a prev i hq => exact move x _ rfl (by split <;> simp [Pc.making])
  case prUnown x c i a prev l out hq => exact move x _ rfl (by split <;> simp [Pc.making])
  all_goals exact move _ _ rfl (by simp [Pc.making])

theorem Trace.steps {E : Env} {w1 w : World} {vs : List World} (h : Trace E w1 vs w) : Steps E w1 w := by
  induction h with
  | refl => exact .refl _
  | tail _ hs ih => exact .tail ih hs

/-- The states passed through are reached. -/
theorem Trace.mem {E : Env} {w1 w : World} {vs : List World} (h : Trace E w1 vs w) : ∀ v ∈ vs, Steps E w1 v := by
  induction h with
  | refl => intro v hv; simp at hv; subst hv; exact .refl _
  | @tail vs w w' h hs ih =>
    intro v hv
    rcases List.mem_append.1 hv with hv | hv
    · exact ih v hv
    · simp at hv; subst hv; exact .tail h.steps hs

theorem Trace.last {E : Env} {w1 w : World} {vs : List World} (h : Trace E w1 vs w) : w ∈ vs := by cases h <;> simp

/-- A thread that has found the index of an account: it is still there, or the account was gone since. -/
theorem read_window {E : Env} {w0 w : World} (h0 : Reachable E w0) {vs : List World} (h : Trace E w0 vs w) {t : Nat} {pk : Pubkey} {c : Commitment}
    (hp0 : w0.pc t = .geLookup pk c) : ∀ pk' c' i, w.pc t = .geStore pk' c' i ∨ w.pc t = .geRead pk' c' i →
      (∀ y, (w.pc y).making ≠ some i) ∧
      (w.st.index pk' = some i ∨ ∃ w1 ∈ vs, w1.st.index pk' = none) := by
  have reach : ∀ {w}, Steps E w0 w → Reachable E w := by
    obtain ⟨F, h0⟩ := h0; exact fun h => ⟨F, h0.trans h⟩
  induction h with
  | refl => intro pk' c' i hp; rw [hp0] at hp; simp at hp
  | @tail vs w w' hs' hs ih =>
    intro pk' c' i hp
    obtain ⟨-, key, hg⟩ := reachable_good (reach hs'.steps)
    have keep : (w.pc t = .geStore pk' c' i ∨ w.pc t = .geRead pk' c' i) →
        (∀ y, (w'.pc y).making ≠ some i) ∧
        (w'.st.index pk' = some i ∨ ∃ w1 ∈ vs ++ [w'], w1.st.index pk' = none) := by
      intro hq
      have hlt : i < w.st.accounts.length := by
        have hpt := hg.pcs t
        rcases hq with hq | hq <;> rw [hq] at hpt <;> exact hpt.1
      obtain ⟨hn, ih⟩ := ih pk' c' i hq
      refine ⟨step_making hs hlt hn, ?_⟩
      rcases ih with h | ⟨w1, h1, h3⟩
      · rcases step_index hs hg _ _ h with h | h
        · exact .inl h
        · exact .inr ⟨w', by simp, h⟩
      · exact .inr ⟨w1, by simp [h1], h3⟩
    by_cases hsame : w'.pc t = w.pc t
    · rw [hsame] at hp; exact keep hp
    · -- thread `t` moved
      have moved : ∀ x q, w'.pc = upd w.pc x q → x = t ∧ q = w'.pc t := by
        intro x q hq
        by_cases hx : t = x
        · subst hx; exact ⟨rfl, by rw [hq, upd_self]⟩
        · exact absurd (by rw [hq, upd_other hx]) hsame
      cases hs
      case env => exact absurd rfl hsame
      case geFound x pk1 c1 j hq hf hi =>
        have hs := Step.geFound w x pk1 c1 j hq hf hi
        obtain ⟨rfl, hq'⟩ := moved _ _ rfl
        rw [← hq'] at hp
        rcases hp with hp | hp <;> cases hp
        exact ⟨step_making hs (hg.lt hi) (no_maker hg hi), .inl hi⟩
      case geStore x pk1 c1 j hq hf =>
        obtain ⟨rfl, hq'⟩ := moved _ _ rfl
        rw [← hq'] at hp
        rcases hp with hp | hp <;> cases hp
        exact keep (.inl hq)
      case call x k hq =>
        obtain ⟨rfl, hq'⟩ := moved _ _ rfl
        rw [← hq'] at hp
        cases k <;> simp [Call.start] at hp
      case upWrite x a c i hq =>
        rcases doWrite_pc w x a c i with ⟨_, _, h⟩ | ⟨_, _, _, h⟩ | ⟨_, h⟩ <;>
          (obtain ⟨rfl, hq'⟩ := moved _ _ (congrArg World.pc h); rw [← hq'] at hp; simp at hp)
      case prPromote x c i slot l out hq =>
        rcases doPromote_pc w x c i slot l out with ⟨_, _, h⟩ | ⟨_, _, h⟩ | ⟨_, _, _, _, h⟩ | ⟨_, _, h⟩ <;>
          (obtain ⟨rfl, hq'⟩ := moved _ _ (congrArg World.pc h); rw [← hq'] at hp; simp at hp)
      case geRead x _ c i hq _ =>
        obtain ⟨_, h⟩ := doRead_pc w x c i
        obtain ⟨rfl, hq'⟩ := moved _ _ (congrArg World.pc h); rw [← hq'] at hp; simp at hp
      case gpVisit x p fs c i l retry out hq _ =>
        rcases doVisit_pc E w x p fs c i (fun r => .gpScan p fs c l retry (out ++ r)) with ⟨_, h⟩ | ⟨_, h⟩ <;>
          (obtain ⟨rfl, hq'⟩ := moved _ _ (congrArg World.pc h); rw [← hq'] at hp; simp at hp)
      case gpRetry x p fs c i l out hq _ =>
        rcases doVisit_pc E w x p fs c i (fun r => .gpRetry p fs c l (out ++ r)) with ⟨_, h⟩ | ⟨_, h⟩ <;>
          (obtain ⟨rfl, hq'⟩ := moved _ _ (congrArg World.pc h); rw [← hq'] at hp; simp at hp)
      case upUnown x a prev i hq =>
        obtain ⟨rfl, hq'⟩ := moved _ _ rfl
        rw [← hq'] at hp; split at hp <;> simp at hp
      case prUnown x c i a prev l out hq =>
        obtain ⟨rfl, hq'⟩ := moved _ _ rfl
        rw [← hq'] at hp; split at hp <;> simp at hp
      all_goals
        obtain ⟨rfl, hq'⟩ := moved _ _ rfl
        rw [← hq'] at hp
        simp at hp

/-- A call of `get_account` returns what the account was at some moment of the call. -/
theorem read_current {E : Env} {w0 w : World} (h0 : Reachable E w0) {vs : List World} (h : Trace E w0 vs w) {t : Nat} {pk : Pubkey} {c : Commitment}
    (hp0 : w0.pc t = .geLookup pk c) {pk' : Pubkey} {c' : Commitment} {i : Nat} (hp : w.pc t = .geRead pk' c' i)
    (hf : w.AccountFree i) : ∃ w1 ∈ vs,
      doRead w t c' i = w.ret t w.st (.account (current w1.st pk' c')) := by
  obtain ⟨hm, hi⟩ := read_window h0 h hp0 pk' c' i (.inr hp)
  have hr : Reachable E w := by obtain ⟨F, h0⟩ := h0; exact ⟨F, h0.trans h.steps⟩
  obtain ⟨-, key, hg⟩ := reachable_good hr
  have hpt := hg.pcs t
  rw [hp] at hpt
  obtain ⟨hlt, hk⟩ := hpt
  have he := List.getElem?_eq_getElem hlt
  by_cases hi' : w.st.index pk' = some i
  · refine ⟨w, h.last, ?_⟩
    unfold doRead
    rw [he]
    simp only [current, view_of_index hi', he, Option.bind_some]
  · rcases hi with hi | ⟨w1, h1, h3⟩
    · exact absurd hi hi'
    · refine ⟨w1, h1, ?_⟩
      have hd : w.st.accounts[i] = dead := by
        rcases hg.own i _ he with hd | hd | ⟨y, hd⟩ | ⟨y, hd⟩
        · exact hd
        · rw [hk] at hd; exact absurd hd hi'
        · exact absurd hd (hm y)
        · exfalso
          refine hf y ?_
          cases hq : w.pc y <;> rw [hq] at hd <;> simp only [Pc.clearing, Option.some.injEq, reduceCtorEq] at hd
          subst hd; rfl
      unfold doRead
      rw [he, hd]
      simp only [current, Store.view, h3, Option.bind_none]
      cases c' <;> rfl

end LAM.Conc
