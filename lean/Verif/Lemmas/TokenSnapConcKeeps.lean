import Verif.Lemmas.TokenConcMultisigs
import Verif.Lemmas.TokenConcMints
import Verif.Lemmas.TokenSnapConcRun
import Verif.Spec.TokenSnapConcKeeps
/-!
# Snapshots of the token program store made while other calls are executed: what is finalized is there
-/
namespace LAM.TokConc
open Token Run Spec ProcStore

/-! ## Without loads the store is only changed by the other calls -/

theorem NoLoads.anti {E : SnapEnv} {W W' : SWorld} (hr : SReachable E W) (hs : SSteps E W W') (hn : NoLoads W'.log) : NoLoads W.log := by
  obtain ⟨l, hl⟩ := ssteps_log hr hs
  intro t x h
  exact hn t x (by rw [hl]; simp [h])

theorem base_step {E : SnapEnv} {W W' : SWorld} (hr : SReachable E W) (hs : SStep E W W') (hn : NoLoads W.log) :
    W'.w = W.w ∨ Step E.base W.w W'.w := by
  cases hs with
  | call t k hi => exact .inr (.call _ t k hi)
  | scall t k hi => exact .inl rfl
  | work hw =>
    cases hw with
    | other t σ hi hg => exact .inr (.work (.mk _ t σ hi (other_work hg)))
    | snap t σ hi hg =>
      left
      obtain ⟨k, hk⟩ := (sbusy_iff hr t).2.1 hi
      have hl : (W.sp t).loads = false := by
        cases k with
        | create p => exact (sreading hr).2 t p hk
        | load x =>
          obtain ⟨pre, mid, h, -⟩ := hk
          exact absurd (by rw [h]; simp) (hn t x)
      match he : (W.sp t).exec E σ W.w.st with
      | .ok (s, .go p) => have := (sout_loads (sexec_out he) hl).1; subst this; rfl
      | .ok (s, .ret r) => have := (sout_loads (sexec_out he) hl).1; subst this; rfl
      | .panic => rfl
      | .diverge => rfl

theorem base_steps {E : SnapEnv} {W W' : SWorld} (hr : SReachable E W) (hs : SSteps E W W') (hn : NoLoads W'.log) :
    Steps E.base W.w W'.w := by
  induction hs with
  | refl => exact .refl _
  | @tail V V' h1 h2 ih =>
    have hV := hn.anti (hr.trans h1) (.tail (.refl _) h2)
    rcases base_step (hr.trans h1) h2 hV with h | h
    · rw [h]; exact ih hV
    · exact .tail (ih hV) h

theorem base_reachable {E : SnapEnv} {W : SWorld} (hr : SReachable E W) (hn : NoLoads W.log) : Reachable E.base W.w :=
  base_steps (.refl _) hr hn

theorem Steps.append {E : Env} {w w' w'' : World} (h : Steps E w w') (h' : Steps E w' w'') : Steps E w w'' := by
  induction h' with
  | refl => exact h
  | tail _ h2 ih => exact .tail ih h2

theorem steps_grow {E : Env} {w w' : World} (h : Steps E w w') : w.log <+: w'.log ∧ submits w.log ≤ submits w'.log := by
  induction h with
  | refl => exact ⟨List.prefix_refl _, le_refl _⟩
  | tail _ h2 ih => exact ⟨ih.1.trans (step_prefix h2), Nat.le_trans ih.2 (step_submits h2)⟩

/-! ## The index of a mint stays in use -/

theorem step_mints {E : Env} {w w' : World} (hs : Step E w w') {g : List Pubkey} (hg : g.length ≤ 2 ^ 32) {a : AccountData}
    (hk : KeepsMint a w g) {i : Nat} (hi : Issued g i a.pubkey) {m : MintAccount} (h : w.st.mints.find i = some m) :
    ∃ m', w'.st.mints.find i = some m' := by
  cases hs with
  | call => exact ⟨m, h⟩
  | work hw =>
    obtain ⟨t, σ, -, h'⟩ := work_exec hw
    rcases h' with ⟨s, p, he, rfl⟩ | ⟨s, r, he, rfl⟩ | ⟨he, rfl⟩ | ⟨-, l, rfl⟩
    · exact out_mints hg (hk.apart t) (exec_out he) hi h
    · exact out_mints hg (hk.apart t) (exec_out he) hi h
    · exact ⟨m, h⟩
    · exact ⟨m, h⟩

theorem AlwaysOwned.anti {p : Program} {pk : Pubkey} {log log' : List (Nat × Event)} (h : log <+: log') (hn : AlwaysOwned p pk log') :
    AlwaysOwned p pk log := fun b hb => hn b (hb.mono h)

theorem AlwaysOwned.open {p : Program} {pk : Pubkey} {log : List (Nat × Event)} (hn : AlwaysOwned p pk log) : NeverGone pk log :=
  fun b hb hp hg => hg _ (hn b hb hp)

theorem owned_unique {a : AccountData} {p q : Program} (h : TokenProgramOwned a p) (h' : TokenProgramOwned a q) : p = q := by
  have := h.2.symm.trans h'.2
  cases p <;> cases q <;> first | rfl | exact absurd this (by decide)

/-- The mint `a` is stored at the index `i`. -/
def MintStays (E : Env) (a : AccountData) (i : Nat) (w : World) : Prop :=
  ∃ g, InvAt E w g ∧ KeepsMint a w g ∧ Issued g i a.pubkey ∧ ∃ m, w.st.mints.find i = some m

theorem mintStays_first {E : Env} {a : AccountData} (ht : IsMint E.codecs a) {w : World} (hr : Reachable E w)
    (hb : submits w.log ≤ 2 ^ 31) (hn : NeverGone a.pubkey w.log) (ha : Installed w.log a) : ∃ i, MintStays E a i w := by
  obtain ⟨g, h1, h2⟩ := keepsMint ht hr hb hn
  obtain ⟨i, m, h3, h4⟩ := h2.kept ha
  have ⟨N, _, _, hst, _⟩ := h1
  exact ⟨i, g, h1, h2, hst.table.index _ _ h3, m, h4⟩

theorem mintStays_steps {E : Env} {a : AccountData} (ht : IsMint E.codecs a) {w w' : World} (hr : Reachable E w) (hs : Steps E w w')
    (hb : submits w'.log ≤ 2 ^ 31) (hn : NeverGone a.pubkey w'.log) {i : Nat} (h : MintStays E a i w) : MintStays E a i w' := by
  induction hs with
  | refl => exact h
  | @tail v v' h1 hs ih =>
    have hb' := Nat.le_trans (step_submits hs) hb
    obtain ⟨g, h2, h3, h4, m, h5⟩ := ih hb' (hn.anti (step_prefix hs))
    obtain ⟨g', h6, h7⟩ := inv_step (hr.append h1) hs hb h2
    have hg : g.length ≤ 2 ^ 32 := by
      obtain ⟨N, -, hc, -⟩ := h2
      omega
    exact ⟨g', h7, keepsMint_step (hr.append h1) hs hb h6 h2 h7 ht hn h3, h4.mono h6, step_mints hs hg h3 h4 h5⟩

theorem MintStays.state {E : Env} {a : AccountData} {i : Nat} {w : World} (h : MintStays E a i w) (hb : submits w.log ≤ 2 ^ 31)
    {p : Program} (hn : AlwaysOwned p a.pubkey w.log) :
    ∃ m, w.st.mints.find i = some m ∧ m.pubkey = a.pubkey ∧ m.program = p := by
  obtain ⟨g, ⟨N, -, hc, hst, -⟩, -, h1, m, h2⟩ := h
  obtain ⟨h3, h4⟩ := hst.mints i m (AMap.mem_of_find h2)
  have e : m.pubkey = a.pubkey := h3.unique (by omega) h1
  refine ⟨m, h2, e, ?_⟩
  cases h4 with
  | mint h5 h6 h7 h8 h9 h10 h11 => exact h11.trans (owned_unique h6 (hn _ h5.submitted (h10.symm.trans e)))

theorem From.named {X : Codecs} {g : List Pubkey} {S : AccountData → Prop} {m : MultiSig} {pk : Pubkey}
    (h : From X g S (.multisig m pk)) : m.pubkey = pk := by
  cases h with
  | multisig h1 h2 h3 h4 h5 h6 h7 => exact h7

/-! ## The moments of a call -/

theorem STrace.between {E : SnapEnv} {W1 W : SWorld} {vs : List SWorld} (h : STrace E W1 vs W) :
    ∀ v ∈ vs, SSteps E W1 v ∧ SSteps E v W := by
  induction h with
  | refl =>
    intro v hv
    simp at hv; subst hv
    exact ⟨.refl _, .refl _⟩
  | @tail vs V V' h1 h2 ih =>
    intro v hv
    rcases List.mem_append.1 hv with hv | hv
    · exact ⟨(ih v hv).1, .tail (ih v hv).2 h2⟩
    · simp at hv; subst hv
      exact ⟨.tail h1.steps h2, .refl _⟩

theorem SPerformed.between {E : SnapEnv} {W0 : SWorld} {t : Nat} {k : SCall} {vs : List SWorld} {r : SReply} {W' : SWorld}
    (h : SPerformed E W0 t k vs r W') : SReachable E W0 ∧ SSteps E W0 W' ∧ ∀ v ∈ vs, SSteps E W0 v ∧ SSteps E v W' := by
  obtain ⟨W1, W, hr, hcall, -, htr, -, hret, -⟩ := h
  have h1 : SSteps E W0 W1 := .tail (.refl _) hcall
  refine ⟨hr, .tail (h1.trans htr.steps) hret, fun v hv => ?_⟩
  obtain ⟨h2, h3⟩ := htr.between v hv
  exact ⟨h1.trans h2, .tail h3 hret⟩

end LAM.TokConc
