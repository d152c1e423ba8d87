import Verif.Lemmas.TokenConcDue
/-!
# Concurrent calls of the token program store: accepted updates are reported when their slot is finalized
-/
namespace LAM.TokConc
open Token Run Spec ProcStore

/-- Thread `t` is executing a finalized notification, `a` was accepted before, and every other slot notified as finalized is earlier
than that of `a` and does not descend from it. -/
def FinalAlone (log : List (Nat × Event)) (t : Nat) (info : SlotInfo) (a : AccountData) : Prop :=
  ∃ pre mid, log = pre ++ (t, .call (.process info .finalized)) :: mid ∧ (∀ e ∈ mid, e.1 ≠ t) ∧ Accepted pre a ∧
    ∀ u info', (u, .call (.process info' .finalized)) ∈ pre ++ mid → info'.slot < a.slot ∧ ¬ Up log info'.slot a.slot

theorem FinalAlone.lastCall {log : List (Nat × Event)} {t : Nat} {info : SlotInfo} {a : AccountData} (h : FinalAlone log t info a) :
    LastCall log t (.process info .finalized) := by
  obtain ⟨pre, mid, h1, h2, -⟩ := h
  exact ⟨pre, mid, h1, h2⟩

theorem finalAlone_snoc {log : List (Nat × Event)} {t x : Nat} {info : SlotInfo} {v : Event} {a : AccountData}
    (h : FinalAlone (log ++ [(x, v)]) t info a) :
    (x = t ∧ v = .call (.process info .finalized) ∧ Accepted log a ∧ Kept log a.slot) ∨ (x ≠ t ∧ FinalAlone log t info a) := by
  obtain ⟨pre, mid, h1, h2, h3, h4⟩ := h
  have hl : log <+: log ++ [(x, v)] := List.prefix_append _ _
  rcases List.eq_nil_or_concat mid with rfl | ⟨mid', e, rfl⟩
  · have h6 := List.append_inj' h1 rfl
    simp only [List.cons.injEq, Prod.mk.injEq, and_true] at h6
    obtain ⟨rfl, rfl, rfl⟩ := h6
    refine .inl ⟨rfl, rfl, h3, ?_⟩
    rintro n ⟨u, info', hm, rfl⟩
    obtain ⟨h5, h6⟩ := h4 u info' (by simpa using hm)
    exact ⟨h5, fun hu => h6 (hu.mono hl)⟩
  · have h6 : log ++ [(x, v)] = (pre ++ (t, .call (.process info .finalized)) :: mid') ++ [e] := by simpa using h1
    obtain ⟨h7, h8⟩ := List.append_inj' h6 rfl
    simp only [List.cons.injEq, and_true] at h8
    subst h8
    refine .inr ⟨h2 (x, v) (by simp), pre, mid', h7, fun e he => h2 e (by simp [he]), h3, fun u info' hm => ?_⟩
    obtain ⟨h5, h6⟩ := h4 u info' (by
      rcases List.mem_append.1 hm with h | h
      · exact List.mem_append_left _ h
      · exact List.mem_append_right _ (by simp [h]))
    exact ⟨h5, fun hu => h6 (hu.mono hl)⟩

/-- The notifications of the other threads. -/
theorem FinalAlone.other {log : List (Nat × Event)} {t : Nat} {info : SlotInfo} {a : AccountData} (h : FinalAlone log t info a)
    {u : Nat} {info' : SlotInfo} (hu : LastCall log u (.process info' .finalized)) (hne : u ≠ t) :
    info'.slot < a.slot ∧ ¬ Up log info'.slot a.slot := by
  obtain ⟨pre, mid, h1, h2, h3, h4⟩ := h
  obtain ⟨pre', mid', h5, -⟩ := hu
  refine h4 u info' ?_
  have hm : (u, Event.call (.process info' .finalized)) ∈ log := by rw [h5]; simp
  rw [h1] at hm
  rcases List.mem_append.1 hm with h | h
  · exact List.mem_append_left _ h
  · rcases List.mem_cons.1 h with h | h
    · exact absurd (congrArg Prod.fst h) hne
    · exact List.mem_append_right _ h

/-- There is a state as new as `a`. -/
def Stored (s : TokenStore) (a : AccountData) : Prop := ∃ x, stateAt s.processed a.slot a.pubkey = some x ∧ a.wv ≤ x.wv

/-- A state stays as new as it is, unless its slot is finalized or overtaken by this step. -/
theorem out_stored {E : Env} {log : List (Nat × Event)} {g : List Pubkey} {σ : Orders} {s s' : TokenStore} {p : Pc} {n : Next}
    (hs : StoreOK E.codecs log g s) (h : Out E σ s p s' n) {a : AccountData}
    (hk : ∀ info, p = .psFinalize info → info.slot < a.slot ∧ ¬ Up log info.slot a.slot) (hx : Stored s a) : Stored s' a := by
  obtain ⟨x, hx, hw⟩ := hx
  unfold Stored
  rcases out_states h with h1 | ⟨info, h1⟩ | ⟨b, y, -, h1, -⟩ | ⟨info, l, rfl, h1⟩
  · rw [h1]; exact ⟨x, hx, hw⟩
  · rw [h1, stateAt_updateSlotInfo]; exact ⟨x, hx, hw⟩
  · rw [h1]; exact insertAccount_keeps hx hw
  · obtain ⟨P, l', h2, -, -, -, -, h3⟩ := finalize_spec hs.proc info.slot
    rw [h1] at h2
    simp only [Run.ok.injEq, Prod.mk.injEq] at h2
    obtain ⟨e1, -⟩ := h2
    obtain ⟨h4, h5⟩ := hk info rfl
    refine ⟨x, ?_, hw⟩
    unfold stateAt
    rw [e1, (h3 a.slot).2]
    · exact hx
    · rintro (h6 | h6)
      · omega
      · exact h5 (hs.slots.onChain .self h6)

/-- A thread at this program counter will report a state as new as `a`, and finalizes the slot of `a`. -/
def FinPc (X : Codecs) (log : List (Nat × Event)) (g : List Pubkey) (s : TokenStore) (a : AccountData) : Pc → Prop
  | .psStart info c | .psUpdate info c => c = .finalized ∧ info.slot = a.slot ∧ Stored s a
  | .psFinal info | .psFinalize info => info.slot = a.slot ∧ Stored s a
  | .convert items out (.finalized _) =>
      (∃ x wv, Item.conv x a.slot wv ∈ items ∧ x.pubkey = a.pubkey ∧
        From X g (fun a' => AsNew log a a' ∧ a'.slot = a.slot ∧ a'.wv = wv) x) ∨ DueOut X log a out
  | .add _ k | .save _ k | .pushMint _ _ k | .pushOwner _ _ k | .putMint _ _ _ k | .eraseMint _ k | .eraseByMint _ k | .again _ k
  | .dropBucket _ k | .entomb _ _ k => ∃ out, k.reply = .reported out ∧ DueOut X log a out
  | .loops _ => True
  | _ => False

theorem FinPc.mono {X : Codecs} {log log' : List (Nat × Event)} (hl : log <+: log') {g g' : List Pubkey} (hg : g <+: g')
    {s s' : TokenStore} {a : AccountData} (hs : Stored s a → Stored s' a) {p : Pc} (h : FinPc X log g s a p) :
    FinPc X log' g' s' a p := by
  cases p with
  | convert items out j =>
    cases j with
    | finalized =>
      rcases h with ⟨x, wv, h1, h2, h3⟩ | h
      · exact .inl ⟨x, wv, h1, h2, h3.mono hg fun a' h => ⟨h.1.mono hl, h.2⟩⟩
      · exact .inr (h.mono hl)
    | _ => exact h
  | psStart | psUpdate => exact ⟨h.1, h.2.1, hs h.2.2⟩
  | psFinal | psFinalize => exact ⟨h.1, hs h.2⟩
  | add | save | pushMint | pushOwner | putMint | eraseMint | eraseByMint | again | dropBucket | entomb =>
    obtain ⟨out, h1, h2⟩ := h
    exact ⟨out, h1, h2.mono hl⟩
  | _ => exact h

theorem after_fin {X : Codecs} {log : List (Nat × Event)} {g : List Pubkey} {s : TokenStore} {a : AccountData} {k : After}
    (h : ∃ out, k.reply = .reported out ∧ DueOut X log a out) :
    (∃ q, k.next = .go q ∧ FinPc X log g s a q) ∨ ∃ l, k.next = .ret (.reported l) ∧ DueOut X log a l := by
  obtain ⟨out, h1, h2⟩ := h
  unfold After.next
  split
  · exact .inr ⟨out, by rw [h1], h2⟩
  · exact .inl ⟨_, rfl, out, h1, h2⟩

theorem fin_out {E : Env} {log : List (Nat × Event)} {g : List Pubkey} (hg : g.length ≤ 2 ^ 32) {σ : Orders} {s s' : TokenStore}
    (hs : StoreOK E.codecs log g s) {p : Pc} {n : Next} {a : AccountData} (hp : FinPc E.codecs log g s a p) (h : Out E σ s p s' n) :
    (∃ q, n = .go q ∧ FinPc E.codecs log g s' a q) ∨ ∃ l, n = .ret (.reported l) ∧ DueOut E.codecs log a l := by
  cases h <;> try exact hp.elim
  case convertEnd out j =>
    cases j <;> try exact hp.elim
    rcases hp with ⟨x, wv, h1, -⟩ | hp
    · simp at h1
    · exact after_fin ⟨out, rfl, hp⟩
  case keep b l out j =>
    cases j <;> try exact hp.elim
    refine .inl ⟨_, rfl, ?_⟩
    rcases hp with ⟨x, wv, h1, h2⟩ | ⟨b', h1, h2⟩ | hp
    · exact .inl ⟨x, wv, by simpa using h1, h2⟩
    · exact .inr (.inl ⟨b', by simp [h1], h2⟩)
    · exact .inr (.inr hp)
  case conv x slot wv l out j r hr =>
    cases j <;> try exact hp.elim
    refine .inl ⟨_, rfl, ?_⟩
    rcases hp with ⟨x', wv', h1, h2, h3⟩ | ⟨b', h1, h2⟩ | hp
    · rcases List.mem_cons.1 h1 with h1 | h1
      · simp only [Item.conv.injEq] at h1
        obtain ⟨rfl, rfl, rfl⟩ := h1
        rcases conv_due hg hs h3 hr with ⟨b, rfl, h4, h5, h6, h7⟩ | ⟨-, a', h4, h5⟩
        · exact .inr (.inl ⟨b, by simp, h5.trans h2, h6.symm ▸ h7.symm ▸ h4⟩)
        · exact .inr (.inr ⟨a', h4.1, h4.2.1, h5⟩)
      · exact .inl ⟨x', wv', h1, h2, h3⟩
    · exact .inr (.inl ⟨b', by simp [h1], h2⟩)
    · exact .inr (.inr hp)
  case psProcessed info => exact absurd hp.1 (by simp)
  case psConfirm info h => exact absurd hp.1 (by simp)
  case psNoConfirm info h => exact absurd hp.1 (by simp)
  case psFinal info h => exact .inl ⟨_, rfl, hp⟩
  case psNoFinal info h => exact .inl ⟨_, rfl, hp.2⟩
  case updateFinal info =>
    refine .inl ⟨_, rfl, hp.2.1, ?_⟩
    obtain ⟨x, h1, h2⟩ := hp.2.2
    exact ⟨x, by simpa only [stateAt_updateSlotInfo] using h1, h2⟩
  case update info c hc => exact absurd hp.1 hc
  case final info => exact .inl ⟨_, rfl, hp⟩
  case finalize info P l hf =>
    obtain ⟨hp, y, hy, hw⟩ := hp
    obtain ⟨e, he, hx⟩ : ∃ e, BMap.find s.processed a.slot = some e ∧ e.accounts.find a.pubkey = some y := by
      simpa [stateAt, Option.bind_eq_some_iff] using hy
    have hk := hs.proc.key _ _ _ _ he hx
    obtain ⟨P', l', h1, -, -, h2, -⟩ := finalize_spec hs.proc info.slot
    rw [hf] at h1
    simp only [Run.ok.injEq, Prod.mk.injEq] at h1
    obtain ⟨rfl, rfl⟩ := h1
    have hm : (y, a.slot) ∈ l := (h2 y a.slot).2 (by rw [hp]; exact .here he (hk.symm ▸ hx))
    refine .inl ⟨_, rfl, .inl ⟨y.account, y.wv, ?_, hk, ?_⟩⟩
    · exact List.mem_map.2 ⟨(y, a.slot), (σ.final_perm l).mem_iff.2 hm, rfl⟩
    · exact (hs.procFrom _ _ _ _ he hx).key.mono (List.prefix_refl _) fun a' h =>
        ⟨⟨h.1.1, h.2.trans hk, .inr ⟨h.1.2.1, by rw [h.1.2.2]; exact hw⟩⟩, h.1.2⟩
  all_goals first
    | exact after_fin hp
    | exact .inl ⟨_, rfl, hp⟩

/-- What a finalized notification still has to report. -/
structure Final (E : Env) (w : World) (g : List Pubkey) : Prop where
  report : ∀ t info a, FinalAlone w.log t info a → a.slot = info.slot → FinPc E.codecs w.log g w.st a (w.pc t)
  reports : ∀ pre post t info a l, w.log = pre ++ (t, .ret (.reported l)) :: post → FinalAlone pre t info a → a.slot = info.slot →
    DueOut E.codecs pre a l

theorem final_step {E : Env} {w w' : World} (reach : Reachable E w) (hs : Step E w w') (hb : submits w'.log ≤ 2 ^ 31)
    {g g' : List Pubkey} (hg' : g <+: g') (hinv : InvAt E w g) (hdue : Due E w g) (hd : Final E w g) : Final E w' g' := by
  obtain ⟨N, -, hc, hst, hsv, -⟩ := hinv
  have hb' : submits w.log ≤ 2 ^ 31 := Nat.le_trans (step_submits hs) hb
  have hg : g.length ≤ 2 ^ 32 := by omega
  cases hs with
  | work hwk =>
    obtain ⟨t, hi, -, h⟩ := work_cases hwk
    obtain ⟨k, hk⟩ := (busy_iff reach t).1 (active_ne hi)
    have hv : Serves E.codecs w.log g w.st.tokens.accounts.length k (w.pc t) := by
      rcases hsv t k hk with h | ⟨l, h⟩
      · exact h
      · rw [h] at hi; exact hi.elim
    -- other threads
    have keep : ∀ {σ s n} u info a, Out E σ w.st (w.pc t) s n → FinalAlone w.log u info a → u ≠ t → Stored w.st a → Stored s a := by
      intro σ s n u info a ho hu hne hx
      refine out_stored hst ho (fun info' h1 => ?_) hx
      rw [h1] at hv
      cases hv
      exact hu.other hk hne.symm
    have ret : ∀ s r, (∀ u info a, FinalAlone w.log u info a → u ≠ t → Stored w.st a → Stored s a) →
        (∀ info a l, r = .reported l → FinalAlone w.log t info a → a.slot = info.slot → DueOut E.codecs w.log a l) →
        Final E { st := s, pc := upd w.pc t .idle, log := w.log ++ [(t, .ret r)] } g' := by
      intro s r h1 h2
      have hl : w.log <+: w.log ++ [(t, Event.ret r)] := List.prefix_append _ _
      refine ⟨fun u info a hu he => ?_, fun pre post u info a l he hu ha => ?_⟩
      · rcases finalAlone_snoc hu with ⟨-, h, -⟩ | ⟨hne, hu⟩
        · cases h
        · show FinPc _ _ _ _ _ (upd w.pc t .idle u)
          rw [upd_other (Ne.symm hne)]
          exact (hd.report u info a hu he).mono hl hg' (h1 u info a hu (Ne.symm hne))
      · rcases snoc_ret he with ⟨e1, e2, hr⟩ | ⟨post', h⟩
        · rw [e1, e2] at hu; rw [e1]
          exact h2 info a l (Event.ret.inj hr) hu ha
        · exact hd.reports pre post' u info a l h hu ha
    have go : ∀ s p, (∀ u info a, FinalAlone w.log u info a → u ≠ t → Stored w.st a → Stored s a) →
        (∀ info a, FinalAlone w.log t info a → a.slot = info.slot → FinPc E.codecs w.log g s a p) →
        Final E { w with st := s, pc := upd w.pc t p } g' := by
      intro s p h1 h2
      refine ⟨fun u info a hu he => ?_, hd.reports⟩
      show FinPc _ _ _ _ _ (upd w.pc t p u)
      by_cases e : u = t
      · subst e; rw [upd_self]; exact (h2 info a hu he).mono (List.prefix_refl _) hg' id
      · rw [upd_other e]; exact (hd.report u info a hu he).mono (List.prefix_refl _) hg' (h1 u info a hu e)
    rcases h with ⟨σ, s, p, ho, rfl, -⟩ | ⟨σ, s, r, ho, rfl⟩ | ⟨σ, hp, rfl⟩ | ⟨σ, hp, rfl⟩
    · refine go s p (fun u info a h1 h2 => keep u info a ho h1 h2) fun info a h1 h2 => ?_
      rcases fin_out hg hst (hd.report t info a h1 h2) ho with ⟨q, h6, h7⟩ | ⟨l, h6, -⟩
      · cases h6; exact h7
      · cases h6
    · refine ret s r (fun u info a h1 h2 => keep u info a ho h1 h2) fun info a l he h1 h2 => ?_
      subst he
      rcases fin_out hg hst (hd.report t info a h1 h2) ho with ⟨q, h6, h7⟩ | ⟨l, h6, h7⟩
      · cases h6
      · cases h6; exact h7
    · exact ret w.st .panicked (fun _ _ _ _ _ => id) fun info a l he => by cases he
    · exact go w.st _ (fun _ _ _ _ _ => id) fun info a h1 h2 => trivial
  | call t k hi =>
    have hl : w.log <+: w.log ++ [(t, Event.call k)] := List.prefix_append _ _
    refine ⟨fun u info a hu he => ?_, fun pre post u info a l he hu ha => ?_⟩
    · show FinPc _ _ _ _ _ (upd w.pc t k.start u)
      rcases finalAlone_snoc hu with ⟨rfl, h, h1, h2⟩ | ⟨hne, hu⟩
      · cases h
        rw [upd_self]
        exact ⟨rfl, he.symm, hdue.stored a h1 h2⟩
      · rw [upd_other (Ne.symm hne)]
        exact (hd.report u info a hu he).mono hl hg' id
    · rcases snoc_ret he with ⟨rfl, rfl, h⟩ | ⟨post', h⟩
      · cases h
      · exact hd.reports pre post' u info a l h hu ha

theorem final {E : Env} {w : World} (hr : Reachable E w) (hb : submits w.log ≤ 2 ^ 31) : ∃ g, InvAt E w g ∧ Due E w g ∧ Final E w g := by
  induction hr with
  | refl =>
    refine ⟨[], inv_init E, due_init E, fun t i a h => ?_, fun pre post t info a l h => ?_⟩
    · obtain ⟨pre, mid, h, -⟩ := h.lastCall
      simp [World.init] at h
    · simp [World.init] at h
  | @tail w w' hw hs ih =>
    obtain ⟨g, h1, h2, h3⟩ := ih (Nat.le_trans (step_submits hs) hb)
    obtain ⟨g', h4, h5⟩ := inv_step hw hs hb h1
    exact ⟨g', h5, due_step hw hs hb h4 h1 h2, final_step hw hs hb h4 h1 h2 h3⟩

end LAM.TokConc
