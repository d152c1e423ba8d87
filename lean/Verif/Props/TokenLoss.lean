import Verif.Model.TokenPanic
import Verif.Props.TokenPanics
/-!
# The token program store: what a notification that panics leaves behind, C99
-/
namespace LAM.Props
open Spec Token ProcStore
open TokenStore (TOp)

/-- **C99** as claimed: after the notification of a finalized slot, panicking or not, every account that was found is found. -/
def C99_statement : Prop :=
  ∀ (X : Codecs) (ops : List TOp) (s s' : TokenStore) (σ : Orders) (info : SlotInfo), ops.length < 2 ^ 31 - 1 →
    TokenStore.attempts X ops .empty = .ok s → s.attemptSlot σ info .finalized = .ok (s', none) →
    ∀ pk a, s.getAccount pk .processed = .ok (some a) → ∃ a', s'.getAccount pk .processed = .ok (some a')

/-! ## The model of a panicking call agrees with the model of the call -/

theorem attempt_ok (s : TokenStore) (σ : Orders) (info : SlotInfo) (c : Commitment) (l : List AccountData) (s' : TokenStore) :
    s.attemptSlot σ info c = .ok (s', some l) ↔ s.processSlot σ info c = .ok (l, s') := by
  cases c with
  | processed => simp [TokenStore.attemptSlot, TokenStore.processSlot, and_comm]
  | confirmed =>
    simp only [TokenStore.attemptSlot, TokenStore.processSlot]
    generalize getProcessedForSlot _ _ _ = r
    cases r <;> simp [bind, Run.bind, and_comm]
  | finalized =>
    simp only [TokenStore.attemptSlot, TokenStore.processSlot]
    generalize finalize _ _ = r
    cases r with
    | ok r =>
      obtain ⟨P, l⟩ := r
      simp only [Run.ok_bind]
      generalize toSolanaAll _ _ = r
      cases r with
      | ok n =>
        generalize TokenStore.addAll _ _ = r
        cases r <;> simp [bind, Run.bind, and_comm]
      | panic => simp [bind, Run.bind]
      | diverge => simp [bind, Run.bind]
    | panic => simp [bind, Run.bind]
    | diverge => simp [bind, Run.bind]

/-- What a finalized notification does before anything is converted. -/
theorem finalized_start {Q : ProgramAccount → Prop} {n : Nat} {s : TokenStore} {slots orig : List TokenAccount}
    (h : Inv Q n s slots orig) (hlt : n < 2 ^ 31 - 1) (info : SlotInfo) : ∃ P l,
      (noted s info s.finalizedSlot).finalize info.slot = .ok (P, l) ∧
      (let s0 : TokenStore := { s with finalizedSlot := max s.finalizedSlot info.slot, processed := P }
       Inv Q n s0 slots orig ∧ (∀ σ, s.processSlot σ info .finalized = (do
          let notes ← toSolanaAll s.mints (σ.final l)
          let s ← TokenStore.addAll (σ.final l) s0
          return (notes, s))) ∧
        (∀ σ, s.attemptSlot σ info .finalized = (match toSolanaAll s.mints (σ.final l) with
          | .ok notes => do return (← TokenStore.addAll (σ.final l) s0, some notes)
          | .panic => .ok (s0, none)
          | .diverge => .diverge)) ∧ ∀ σ : Orders, ∃ s', TokenStore.addAll (σ.final l) s0 = .ok s') ∧
      (∀ k, k ≤ info.slot → BMap.find P k = none) ∧
      (∀ k pk x, stateAt P k pk = some x → stateAt s.processed k pk = some x) := by
  have hb := h.bound
  have hcb := h.cbound
  have hn : ProcOk (Waiting Q s.table.counter) (noted s info s.finalizedSlot) ∧
      pending (noted s info s.finalizedSlot) = pending s.processed ∧
      ∀ k pk, stateAt (noted s info s.finalizedSlot) k pk = stateAt s.processed k pk := by
    unfold noted; split
    · exact ⟨(h.proc.updateSlotInfo info).1, (h.proc.updateSlotInfo info).2, stateAt_updateSlotInfo _ _⟩
    · exact ⟨h.proc, rfl, fun _ _ => rfl⟩
  have hs0 : (if s.finalizedSlot < info.slot then
        { s with finalizedSlot := info.slot, processed := s.processed.updateSlotInfo info } else s) =
      { s with finalizedSlot := max s.finalizedSlot info.slot, processed := noted s info s.finalizedSlot } := by
    unfold noted; split
    · rw [Nat.max_eq_right (by omega)]
    · rw [Nat.max_eq_left (by omega)]
  obtain ⟨P, l, z1, z2, z3, z4, z5, z6⟩ := finalize_spec hn.1 info.slot
  refine ⟨P, l, z1, ⟨⟨h.fin.congr rfl rfl rfl rfl rfl rfl, z2, ?_, ?_⟩, fun σ => ?_, fun σ => ?_, fun σ => ?_⟩, fun k hk => (z6 k).1 (.inl hk), ?_⟩
  · simp only; omega
  · simp only; omega
  · simp only [TokenStore.processSlot, hs0, z1, Run.ok_bind]
  · simp only [TokenStore.attemptSlot, hs0, z1, Run.ok_bind]
    rfl
  · have hperm := σ.final_perm l
    have hlen : (σ.final l).length = l.length := hperm.length_eq
    obtain ⟨s2, _, _, e1, -⟩ := addAll_fin (Q := Q) (σ.final l) (h.fin.congr (s' := { s with
        finalizedSlot := max s.finalizedSlot info.slot, processed := P }) rfl rfl rfl rfl rfl rfl)
      (by
        rintro ⟨x, k⟩ he
        exact (newest_good hn.1 ((z4 x k).1 (hperm.mem_iff.1 he))).2)
      (by rw [hlen]; omega) (by simp only [hlen]; omega)
    exact ⟨s2, e1⟩
  · intro k pk x hx
    rw [← hn.2.2]
    by_cases hk : k ≤ info.slot ∨ OnChain (noted s info s.finalizedSlot) info.slot k
    · simp [stateAt, (z6 k).1 hk] at hx
    · simpa [stateAt, (z6 k).2 hk] using hx

/-- A notification that panics leaves a store as reached by calls that return. -/
theorem attempt_inv {Q : ProgramAccount → Prop} {n : Nat} {s s' : TokenStore} {slots orig : List TokenAccount} {σ : Orders}
    {info : SlotInfo} {c : Commitment} {r : Option (List AccountData)} (h : Inv Q n s slots orig) (hn : n < 2 ^ 31 - 1)
    (hr : s.attemptSlot σ info c = .ok (s', r)) : ∃ slots' orig', Inv Q n s' slots' orig' := by
  cases r with
  | some l => exact slot_inv h hn ((attempt_ok _ _ _ _ _ _).1 hr)
  | none =>
    cases c with
    | processed => simp [TokenStore.attemptSlot] at hr
    | confirmed =>
      simp only [TokenStore.attemptSlot] at hr
      split at hr
      · simp at hr
      · simp only [Run.ok.injEq, Prod.mk.injEq, and_true] at hr
        subst hr
        split
        · obtain ⟨p1, p2⟩ := h.proc.updateSlotInfo info
          have := h.bound
          have := h.cbound
          exact ⟨slots, orig, h.fin.congr rfl rfl rfl rfl rfl rfl, p1, by simp only [p2]; omega, by simp only [p2]; omega⟩
        · exact ⟨slots, orig, h⟩
      · simp at hr
    | finalized =>
      obtain ⟨P, l, -, ⟨hi, -, ha, -⟩, -⟩ := finalized_start h hn info
      rw [ha] at hr
      split at hr
      · simp only [Run.bind_eq_ok, Run.pure_eq, Run.ok.injEq, Prod.mk.injEq, reduceCtorEq, and_false, exists_false] at hr
      · simp only [Run.ok.injEq, Prod.mk.injEq, and_true] at hr
        subst hr; exact ⟨_, _, hi⟩
      · simp at hr

theorem attempts_inv {X : Codecs} (ops : List TOp) {n : Nat} {s s' : TokenStore} {slots orig : List TokenAccount}
    (h : Inv (fun _ => True) n s slots orig) (hn : n + ops.length < 2 ^ 31)
    (hr : TokenStore.attempts X ops s = .ok s') : ∃ slots' orig', Inv (fun _ => True) (n + ops.length) s' slots' orig' := by
  induction ops generalizing s slots orig n with
  | nil => simp [TokenStore.attempts] at hr; subst hr; exact ⟨slots, orig, h⟩
  | cons o os ih =>
    simp only [TokenStore.attempts, Run.bind_eq_ok] at hr
    obtain ⟨s1, h1, hr⟩ := hr
    simp only [List.length_cons] at hn
    have : ∃ slots' orig', Inv (fun _ => True) (n + 1) s1 slots' orig' := by
      cases o with
      | slot σ info c =>
        simp only [TokenStore.attempt, Run.bind_eq_ok, Run.pure_eq, Run.ok.injEq] at h1
        obtain ⟨⟨s2, r⟩, h1, rfl⟩ := h1
        obtain ⟨a, b, i⟩ := attempt_inv h (by omega) h1
        exact ⟨a, b, i.mono (by omega)⟩
      | update a c => exact step_inv h (by omega) (fun _ _ _ _ _ => trivial) (X := X) (by simpa only [TokenStore.attempt] using h1)
      | init a => exact step_inv h (by omega) (fun _ _ _ _ _ => trivial) (X := X) (by simpa only [TokenStore.attempt] using h1)
    obtain ⟨slots1, orig1, i1⟩ := this
    obtain ⟨slots', orig', i2⟩ := ih i1 (by omega) hr
    exact ⟨slots', orig', i2.mono (by simp; omega)⟩

theorem attempts_snoc {X : Codecs} (ops : List TOp) (o : TOp) (s : TokenStore) :
    TokenStore.attempts X (ops ++ [o]) s = (do (← TokenStore.attempts X ops s).attempt X o) := by
  induction ops generalizing s with
  | nil => simp only [List.nil_append, TokenStore.attempts, Run.ok_bind]; cases s.attempt X o <;> rfl
  | cons x ops ih =>
    simp only [List.cons_append, TokenStore.attempts]
    cases s.attempt X x with
    | ok s1 => simp only [Run.ok_bind]; exact ih s1
    | panic => rfl
    | diverge => rfl

/-- Unfinalized states come from updates. -/
theorem attempts_came {X : Codecs} {ops : List TOp} {s : TokenStore} (hn : ops.length < 2 ^ 31)
    (hr : TokenStore.attempts X ops .empty = .ok s) {k : Nat} {pk : Pubkey} {x : Processed}
    (hx : stateAt s.processed k pk = some x) : ∃ a c, TOp.update a c ∈ ops ∧ a.pubkey = pk ∧ a.slot = k := by
  induction ops using List.reverseRecOn generalizing s x with
  | nil => simp [TokenStore.attempts] at hr; subst hr; simp [TokenStore.empty, stateAt] at hx
  | append_singleton ops o ih =>
    rw [attempts_snoc] at hr
    simp only [Run.bind_eq_ok] at hr
    obtain ⟨s1, h1, hr⟩ := hr
    simp only [List.length_append, List.length_singleton] at hn
    have key : ∀ y, stateAt s1.processed k pk = some y → ∃ a c, TOp.update a c ∈ ops ++ [o] ∧ a.pubkey = pk ∧ a.slot = k := by
      intro y hy
      obtain ⟨a, c, ha, h⟩ := ih (by omega) h1 hy
      exact ⟨a, c, by simp [ha], h⟩
    obtain ⟨_, _, hi⟩ := attempts_inv ops (inv_empty _) (by omega) h1
    cases o with
    | init a =>
      simp only [TokenStore.attempt, TokenStore.step, init_eq_update, Run.bind_eq_ok] at hr
      obtain ⟨⟨b, s2⟩, h2, hr⟩ := hr
      simp at hr; subst hr
      rw [update_final_processed h2] at hx
      exact key _ hx
    | update a c =>
      simp only [TokenStore.attempt, TokenStore.step, Run.bind_eq_ok] at hr
      obtain ⟨⟨b, s2⟩, h2, hr⟩ := hr
      simp at hr; subst hr
      rcases (update_processed h2).2 with e | ⟨y, e⟩
      · rw [e] at hx; exact key _ hx
      · rw [e, stateAt_insertAccount] at hx
        split at hx
        · rename_i hh
          exact ⟨a, c, by simp, hh.2, hh.1⟩
        · exact key _ hx
    | slot σ info c =>
      simp only [TokenStore.attempt, Run.bind_eq_ok, Run.pure_eq, Run.ok.injEq] at hr
      obtain ⟨⟨s2, r⟩, h2, rfl⟩ := hr
      simp only at hx
      cases c with
      | processed =>
        simp only [TokenStore.attemptSlot, Run.ok.injEq, Prod.mk.injEq] at h2
        obtain ⟨rfl, -⟩ := h2
        rw [stateAt_updateSlotInfo] at hx
        exact key _ hx
      | confirmed =>
        cases r with
        | some l => rw [slot_stateAt (by simp) ((attempt_ok _ _ _ _ _ _).1 h2)] at hx; exact key _ hx
        | none =>
          simp only [TokenStore.attemptSlot] at h2
          split at h2
          · simp at h2
          · simp only [Run.ok.injEq, Prod.mk.injEq, and_true] at h2
            subst h2
            split at hx
            · rw [stateAt_updateSlotInfo] at hx; exact key _ hx
            · exact key _ hx
          · simp at h2
      | finalized =>
        obtain ⟨P, l, -, ⟨-, -, ha, -⟩, -, hsub⟩ := finalized_start hi (by omega) info
        rw [ha] at h2
        split at h2
        · simp only [Run.bind_eq_ok, Run.pure_eq, Run.ok.injEq, Prod.mk.injEq] at h2
          obtain ⟨s3, h3, rfl, -⟩ := h2
          rw [(addAll_processed _ h3).1] at hx
          exact key _ (hsub _ _ _ hx)
        · simp only [Run.ok.injEq, Prod.mk.injEq] at h2
          obtain ⟨rfl, -⟩ := h2
          exact key _ (hsub _ _ _ hx)
        · simp at h2

/-- The model with panics agrees with the model of C51-C59: a call returns in one if it does in the other, with the same result,
and else panics in both. -/
theorem C99_agrees (X : Codecs) (ops : List TOp) (s : TokenStore) (hn : ops.length < 2 ^ 31 - 1)
    (hs : TokenStore.attempts X ops .empty = .ok s) (σ : Orders) (info : SlotInfo) (c : Commitment) :
    (∀ l s', s.attemptSlot σ info c = .ok (s', some l) ↔ s.processSlot σ info c = .ok (l, s')) ∧
    ((∃ s', s.attemptSlot σ info c = .ok (s', none)) ↔ s.processSlot σ info c = .panic) := by
  refine ⟨fun l s' => attempt_ok _ _ _ _ _ _, ?_⟩
  obtain ⟨_, _, hi⟩ := attempts_inv ops (inv_empty _) (by omega) hs
  cases c with
  | processed => simp [TokenStore.attemptSlot, TokenStore.processSlot]
  | confirmed =>
    simp only [TokenStore.attemptSlot, TokenStore.processSlot]
    generalize getProcessedForSlot _ _ _ = r
    cases r <;> simp [bind, Run.bind]
  | finalized =>
    obtain ⟨P, l, -, ⟨hi', hp, ha, hadd⟩, -⟩ := finalized_start hi (by omega) info
    obtain ⟨s2, h2⟩ := hadd σ
    rw [hp, ha, h2]
    cases toSolanaAll s.mints (σ.final l) <;> simp [bind, Run.bind]

/-! ## What is lost -/

/-- The answer, with another slot number (`get_account` gives finalized accounts the number of the finalized slot). -/
def atSlot (k : Nat) (r : Run (Option AccountData)) : Run (Option AccountData) := do
  return (← r).map fun a => { a with slot := k }

theorem getFinalized_atSlot (s : TokenStore) (P : ProcStore) (k : Nat) (pk : Pubkey) :
    TokenStore.getFinalized { s with finalizedSlot := k, processed := P } pk = atSlot k (s.getFinalized pk) := by
  simp only [TokenStore.getFinalized, atSlot]
  cases s.multisigs.find pk with
  | some m =>
    simp only [multisigToSolana]
    cases multisigBytes m <;> simp [bind, Run.bind]
  | none =>
    cases s.table.index.find pk with
    | some i => cases h : s.mints.find i <;> simp [bind, Run.bind, Run.unwrap, mintToSolana, h]
    | none =>
      cases s.tokens.getByPubkey pk with
      | ok r =>
        cases r with
        | none => rfl
        | some t =>
          simp only [Run.ok_bind]
          cases ht : t.isDeleted with
          | true => rfl
          | false =>
            simp only [tokenToSolana, ht]
            cases s.mints.find t.mint <;> simp [bind, Run.bind, Run.unwrap]
      | panic => rfl
      | diverge => rfl

theorem newest_stateAt {P : ProcStore} {pk : Pubkey} {c : Commitment} {n : Nat} {x : Processed} {k : Nat} (hx : Newest P pk c n x k) :
    stateAt P k pk = some x := by
  have key : NewestOn P pk n x k → stateAt P k pk = some x := by
    intro h
    obtain ⟨e, h1, h2⟩ := newest_mem h
    simp [stateAt, h1, h2]
  cases c with
  | processed =>
    rcases hx with ⟨-, ⟨e, h1, h2⟩, -⟩ | ⟨-, hx⟩
    · simp [stateAt, h1, h2]
    · exact key hx
  | confirmed => exact key hx
  | finalized => exact hx.elim

/-- Why **C99** fails: the states up to the finalized slot are removed before the accounts are converted.  After the panic every account
with no state of a later slot is read as it was last finalized, if at all, at every commitment. -/
theorem C99_lost (X : Codecs) (ops : List TOp) (s s' : TokenStore) (σ : Orders) (info : SlotInfo) (hn : ops.length < 2 ^ 31 - 1)
    (hs : TokenStore.attempts X ops .empty = .ok s) (hp : s.attemptSlot σ info .finalized = .ok (s', none)) (pk : Pubkey)
    (hpk : ∀ a c, TOp.update a c ∈ ops → a.pubkey = pk → a.slot ≤ info.slot) (c : Commitment) (hd : s'.getAccount pk c ≠ .diverge) :
    s'.getAccount pk c = atSlot (max s.finalizedSlot info.slot) (s.getAccount pk .finalized) := by
  obtain ⟨_, _, hi⟩ := attempts_inv ops (inv_empty _) (by omega) hs
  obtain ⟨P, l, -, ⟨hi', -, ha, -⟩, hlow, hsub⟩ := finalized_start hi (by omega) info
  rw [ha] at hp
  split at hp
  · simp only [Run.bind_eq_ok, Run.pure_eq, Run.ok.injEq, Prod.mk.injEq, reduceCtorEq, and_false, exists_false] at hp
  · simp only [Run.ok.injEq, Prod.mk.injEq, and_true] at hp
    subst hp
    have hno : ∀ k x, stateAt P k pk ≠ some x := by
      intro k x hx
      obtain ⟨a, c, h1, h2, h3⟩ := attempts_came (by omega) hs (hsub _ _ _ hx)
      have := hpk a c h1 h2
      simp [stateAt, hlow k (by omega)] at hx
    by_cases hc : c = .finalized
    · subst hc; simp only [TokenStore.getAccount, if_true]; exact getFinalized_atSlot _ _ _ _
    · have hg : ∃ r, P.getAccounts [pk] c s.confirmedSlot = .ok r := by
        cases e : P.getAccounts [pk] c s.confirmedSlot with
        | ok r => exact ⟨r, rfl⟩
        | panic => exact absurd e (getAccounts_no_panic _ _ hc _)
        | diverge =>
          refine absurd ?_ hd
          simp only [TokenStore.getAccount, if_neg hc, e]
          rfl
      obtain ⟨r, hr⟩ := hg
      rw [(getAccount_eq hi'.proc.sorted pk hc hr).2 ?_]
      · simp only [TokenStore.getAccount, if_true]; exact getFinalized_atSlot _ _ _ _
      · exact fun x k hx => hno _ _ (newest_stateAt hx)
  · simp at hp

/-- Notifying the slot again does not help: nothing is returned and nothing changes. -/
theorem C99_repeat (X : Codecs) (ops : List TOp) (s s' : TokenStore) (σ σ' : Orders) (info : SlotInfo) (hn : ops.length < 2 ^ 31 - 1)
    (hs : TokenStore.attempts X ops .empty = .ok s) (hp : s.attemptSlot σ info .finalized = .ok (s', none)) :
    s'.attemptSlot σ' info .finalized = .ok (s', some []) := by
  obtain ⟨_, _, hi⟩ := attempts_inv ops (inv_empty _) (by omega) hs
  obtain ⟨P, l, -, ⟨hi', -, ha, -⟩, hlow, -⟩ := finalized_start hi (by omega) info
  rw [ha] at hp
  split at hp
  · simp only [Run.bind_eq_ok, Run.pure_eq, Run.ok.injEq, Prod.mk.injEq, reduceCtorEq, and_false, exists_false] at hp
  · simp only [Run.ok.injEq, Prod.mk.injEq, and_true] at hp
    subst hp
    have hnil : σ'.final [] = [] := List.Perm.eq_nil (σ'.final_perm [])
    have hdrop : dropUpTo P info.slot = P := by
      cases P with
      | nil => rfl
      | cons e P =>
        have : ¬ e.1 ≤ info.slot := by
          intro h
          have := hlow e.1 h
          simp [BMap.find] at this
        simp [dropUpTo, this]
    have hf : P.finalize info.slot = .ok (P, []) := by
      simp [finalize, finalizeLoop, hlow info.slot (Nat.le_refl _), hdrop]
    have hlt : ¬ max s.finalizedSlot info.slot < info.slot := by omega
    simp only [TokenStore.attemptSlot, if_neg hlt, hf, Run.ok_bind, hnil, toSolanaAll, TokenStore.addAll]
    rfl
  · simp at hp

/-! ## What is not lost -/

/-- **C99**. Finalized reads are not changed by a notification that panics, but for the slot number. -/
theorem C99_finalized_kept_partial (X : Codecs) (ops : List TOp) (s s' : TokenStore) (σ : Orders) (info : SlotInfo) (c : Commitment)
    (hn : ops.length < 2 ^ 31 - 1) (hs : TokenStore.attempts X ops .empty = .ok s) (hp : s.attemptSlot σ info c = .ok (s', none))
    (pk : Pubkey) : s'.getAccount pk .finalized = atSlot s'.finalizedSlot (s.getAccount pk .finalized) := by
  obtain ⟨_, _, hi⟩ := attempts_inv ops (inv_empty _) (by omega) hs
  have hself : ∀ P n, TokenStore.getFinalized { s with confirmedSlot := n, processed := P } pk = atSlot s.finalizedSlot (s.getFinalized pk) := by
    intro P n
    rw [← getFinalized_atSlot s P]
    rfl
  simp only [TokenStore.getAccount, if_true]
  cases c with
  | processed => simp [TokenStore.attemptSlot] at hp
  | confirmed =>
    simp only [TokenStore.attemptSlot] at hp
    split at hp
    · simp at hp
    · simp only [Run.ok.injEq, Prod.mk.injEq, and_true] at hp
      subst hp
      split
      · exact hself _ _
      · exact hself s.processed s.confirmedSlot
    · simp at hp
  | finalized =>
    obtain ⟨P, l, -, ⟨-, -, ha, -⟩, -⟩ := finalized_start hi (by omega) info
    rw [ha] at hp
    split at hp
    · simp only [Run.bind_eq_ok, Run.pure_eq, Run.ok.injEq, Prod.mk.injEq, reduceCtorEq, and_false, exists_false] at hp
    · simp only [Run.ok.injEq, Prod.mk.injEq, and_true] at hp
      subst hp
      exact getFinalized_atSlot _ _ _ _
    · simp at hp

/-- **C99**. A notification of a confirmed slot that panics loses nothing: the states of all slots are held as before, and finalized
reads are the same. -/
theorem C99_confirmed_kept_partial (s s' : TokenStore) (σ : Orders) (info : SlotInfo) (hp : s.attemptSlot σ info .confirmed = .ok (s', none)) :
    (∀ pk, s'.getAccount pk .finalized = s.getAccount pk .finalized) ∧
    (∀ k pk, stateAt s'.processed k pk = stateAt s.processed k pk) ∧ s'.confirmedSlot = max s.confirmedSlot info.slot := by
  simp only [TokenStore.attemptSlot] at hp
  split at hp
  · simp at hp
  · simp only [Run.ok.injEq, Prod.mk.injEq, and_true] at hp
    subst hp
    split
    · refine ⟨fun pk => ?_, fun k pk => stateAt_updateSlotInfo _ _ _ _, by simp only; omega⟩
      simp only [TokenStore.getAccount, if_true]; rfl
    · exact ⟨fun _ => rfl, fun _ _ => rfl, by omega⟩
  · simp at hp

/-! ## A token account of an unknown mint and one of a known mint, in one slot -/

/-- A token account of a mint that is not stored. -/
def strangeAcct (pk : Pubkey) (slot wv : Nat) : AccountData :=
  Toy.acct pk Spl.tokenId 7 slot wv ({ splAccount with mint := Toy.prog2 }).pack

def mixedOps : List TOp := [.init mintAcct, .update (tokenAcct Toy.bob 5 1) .processed, .update (strangeAcct Toy.alice 5 2) .processed]

def mixed : TokenStore := okStore (TokenStore.attempts Toy.codecs mixedOps .empty)

theorem mixed_run : TokenStore.attempts Toy.codecs mixedOps .empty = .ok mixed := by decide +kernel

theorem of_found {r : Run (Option AccountData)} (h : (match r with | .ok (some _) => true | _ => false) = true) : ∃ a, r = .ok (some a) := by
  match r, h with
  | .ok (some a), _ => exact ⟨a, rfl⟩

theorem of_panicked {r : Run (TokenStore × Option (List AccountData))} {f : TokenStore → Bool}
    (h : (match r with | .ok (s, none) => f s | _ => false) = true) : ∃ s, r = .ok (s, none) ∧ f s = true := by
  match r, h with
  | .ok (s, none), h => exact ⟨s, rfl, h⟩

theorem mixed_found : ∃ a, mixed.getAccount Toy.bob .processed = .ok (some a) := of_found (by decide +kernel)

theorem mixed_lost : ∃ s, mixed.attemptSlot plainOrders ⟨5, 4, 0⟩ .finalized = .ok (s, none) ∧
    decide (s.getAccount Toy.bob .processed = .ok none) = true := of_panicked (by decide +kernel)

/-- **C99** is false. -/
theorem C99_refuted : ¬ C99_statement := by
  intro h
  obtain ⟨s, h1, h2⟩ := mixed_lost
  obtain ⟨a, h3⟩ := mixed_found
  obtain ⟨a', h4⟩ := h Toy.codecs mixedOps mixed s plainOrders ⟨5, 4, 0⟩ (by simp [mixedOps]) mixed_run h1 Toy.bob a h3
  simp [h4] at h2

/-- The lost account: nothing of a later slot was submitted. -/
example : (∃ s', mixed.attemptSlot plainOrders ⟨5, 4, 0⟩ .finalized = .ok (s', none) ∧ s'.getAccount Toy.bob .processed ≠ .diverge) ∧
    ∀ a c, TOp.update a c ∈ mixedOps → a.pubkey = Toy.bob → a.slot ≤ 5 := by
  obtain ⟨s, h1, h2⟩ := mixed_lost
  refine ⟨⟨s, h1, by simp [of_decide_eq_true h2]⟩, ?_⟩
  intro a c h _
  simp only [mixedOps, List.mem_cons, TOp.update.injEq, List.not_mem_nil, or_false, reduceCtorEq, false_or] at h
  rcases h with ⟨rfl, -⟩ | ⟨rfl, -⟩ <;> exact Nat.le_refl 5

/-- A confirmed notification that panics. -/
example : (match mixed.attemptSlot plainOrders ⟨5, 4, 0⟩ .confirmed with | .ok (_, none) => true | _ => false) = true := by decide +kernel

end LAM.Props
