import Verif.Lemmas.TokenStoreInv
/-!
# The token program store: every reachable state satisfies the invariant
-/
namespace LAM.Token
open Spec ProcStore
open TokenStore (push addFinalized TOp)

/-- What a waiting state satisfies. -/
abbrev Waiting (Q : ProgramAccount → Prop) (c : Nat) (x : ProgramAccount) : Prop := ProgFits x ∧ Q x ∧ MintBelow c x

theorem ProcOk.mono {Q Q' : ProgramAccount → Prop} {P : ProcStore} (h : ProcOk Q P) (hq : ∀ x, Q x → Q' x) : ProcOk Q' P :=
  ⟨h.sorted, h.distinct, h.key, fun k e pk x he hx => hq _ (h.good k e pk x he hx)⟩

/-- Invariant of the store after at most `n` calls. -/
structure Inv (Q : ProgramAccount → Prop) (n : Nat) (s : TokenStore) (slots orig : List TokenAccount) : Prop where
  fin : Fin Q s slots orig
  proc : ProcOk (Waiting Q s.table.counter) s.processed
  bound : slots.length + pending s.processed ≤ n
  cbound : s.table.counter + pending s.processed ≤ 2 * n

theorem inv_empty (Q : ProgramAccount → Prop) : Inv Q 0 .empty [] [] :=
  ⟨fin_empty Q, procOk_nil _, by simp [TokenStore.empty, pending], by simp [TokenStore.empty, pending]⟩

theorem Inv.mono {Q : ProgramAccount → Prop} {n m : Nat} {s : TokenStore} {slots orig : List TokenAccount}
    (h : Inv Q n s slots orig) (hm : n ≤ m) : Inv Q m s slots orig :=
  ⟨h.fin, h.proc, by have := h.bound; omega, by have := h.cbound; omega⟩

/-- Looking up a mint, possibly giving it an index. -/
theorem fin_getOrCreate {Q : ProgramAccount → Prop} {s : TokenStore} {slots orig : List TokenAccount} (h : Fin Q s slots orig)
    (mint : Pubkey) (hc : s.table.counter + 1 < 2 ^ 32) :
    Fin Q { s with table := (s.table.getOrCreate mint).2 } slots orig ∧
      s.table.counter ≤ (s.table.getOrCreate mint).2.counter ∧ (s.table.getOrCreate mint).2.counter ≤ s.table.counter + 1 ∧
      (s.table.getOrCreate mint).1 < (s.table.getOrCreate mint).2.counter ∧
      (s.table.getOrCreate mint).2.index.find mint = some (s.table.getOrCreate mint).1 ∧
      (∀ pk, pk ≠ mint → (s.table.getOrCreate mint).2.index.find pk = s.table.index.find pk) ∧
      (∀ pk i, s.table.index.find pk = some i → (s.table.getOrCreate mint).2.index.find pk = some i) := by
  unfold MintTable.getOrCreate
  cases hf : s.table.index.find mint with
  | some i => exact ⟨h, by simp, by simp, h.idx_lt _ _ hf, hf, fun _ _ => rfl, fun _ _ hi => hi⟩
  | none =>
    have hw : wrap32 (s.table.counter + 1) = s.table.counter + 1 := Nat.mod_eq_of_lt hc
    simp only [hw]
    refine ⟨?_, by omega, by omega, by omega, by simp [AMap.find_insert],
      fun pk hpk => by rw [AMap.find_insert, if_neg (fun e => hpk e.symm)],
      fun pk i hi => by rw [AMap.find_insert, if_neg (fun e => by rw [← e, hf] at hi; simp at hi)]; exact hi⟩
    refine { h with idx_lt := ?_, idx_inj := ?_, mints_idx := ?_, slotsQ := ?_, origQ := ?_, mint := ?_ }
    · intro pk i hi
      simp only [AMap.find_insert] at hi
      split at hi
      · simp at hi; simp; omega
      · have := h.idx_lt pk i hi; simp; omega
    · intro pk pk' i h1 h2
      simp only [AMap.find_insert] at h1 h2
      have a1 := h.idx_lt pk i
      have a2 := h.idx_lt pk' i
      have a3 := h.idx_inj pk pk' i
      grind
    · intro j m' hm'
      have := h.mints_idx j m' hm'
      simp only [AMap.find_insert]
      rw [if_neg]
      · exact this
      · intro e; rw [← e, hf] at this; simp at this
    · intro t ht
      rcases h.slotsQ t ht with h1 | ⟨h1, h2, h3⟩
      · exact .inl h1
      · exact .inr ⟨h1, h2, by simp; omega⟩
    · intro t ht
      obtain ⟨h1, h2⟩ := h.origQ t ht
      exact ⟨h1, by simp; omega⟩
    · intro j o pk ho hpk
      simp only [AMap.find_insert] at hpk
      split at hpk
      · have := (h.origQ o (List.mem_of_getElem? ho)).2
        simp at hpk; omega
      · exact h.mint j o pk ho hpk

theorem getOrCreate_lt {Q : ProgramAccount → Prop} {s : TokenStore} {slots orig : List TokenAccount} (h : Fin Q s slots orig)
    (hc : s.table.counter + 1 < 2 ^ 32) (m : Pubkey) : (s.table.getOrCreate m).1 < 2 ^ 32 := by
  obtain ⟨-, -, h1, h2, -⟩ := fin_getOrCreate h m hc
  omega

/-- Classification keeps the invariant and its result satisfies what a waiting state must. -/
theorem classify_inv {X : Codecs} {Q : ProgramAccount → Prop} {s : TokenStore} {slots orig : List TokenAccount} {a : AccountData}
    {r : Option ProgramAccount} {T : MintTable} (h : Fin Q s slots orig) (hc : s.table.counter + 1 < 2 ^ 32)
    (hq : ∀ x T', classify X s.table a = .ok (some x, T') → Q x) (hr : classify X s.table a = .ok (r, T)) :
    Fin Q { s with table := T } slots orig ∧ s.table.counter ≤ T.counter ∧ T.counter ≤ s.table.counter + 1 ∧
      (∀ pk i, s.table.index.find pk = some i → T.index.find pk = some i) ∧
      (∀ x, r = some x → x.pubkey = a.pubkey ∧ Waiting Q T.counter x) ∧ (r = none → T = s.table) := by
  cases r with
  | none =>
    obtain rfl := classify_none hr
    exact ⟨h, by simp, by simp, fun _ _ hi => hi, by simp, fun _ => rfl⟩
  | some x =>
    obtain ⟨h1, h2, h3⟩ := classify_some hr
    have hfit := h3 (getOrCreate_lt h hc)
    rcases h2 with ⟨rfl, hn⟩ | ⟨t, mint, rfl, rfl, ht⟩
    · refine ⟨h, by simp, by simp, fun _ _ hi => hi, ?_, by simp⟩
      intro y hy; cases hy
      refine ⟨h1, hfit, hq _ _ hr, ?_⟩
      cases x <;> simp [MintBelow]
      exact absurd rfl (hn _)
    · obtain ⟨g1, g2, g3, g4, g5, -, g6⟩ := fin_getOrCreate h mint hc
      refine ⟨g1, g2, g3, g6, ?_, by simp⟩
      intro y hy; cases hy
      exact ⟨h1, hfit, hq _ _ hr, by simp only [MintBelow]; rw [ht]; exact g4⟩

theorem update_inv {X : Codecs} {Q : ProgramAccount → Prop} {n : Nat} {s s' : TokenStore} {slots orig : List TokenAccount}
    {a : AccountData} {c : Commitment} {b : Bool} (h : Inv Q n s slots orig) (hn : n < 2 ^ 31 - 1)
    (hq : ∀ x T', classify X s.table a = .ok (some x, T') → Q x) (hr : s.updateAccount X a c = .ok (b, s')) :
    ∃ slots' orig', Inv Q (n + 1) s' slots' orig' := by
  have hb := h.bound
  have hcb := h.cbound
  unfold TokenStore.updateAccount at hr
  simp only [Run.bind_eq_ok] at hr
  obtain ⟨isT, -, hr⟩ := hr
  split at hr
  · simp at hr; obtain ⟨-, rfl⟩ := hr; exact ⟨slots, orig, h.mono (by omega)⟩
  · simp only [Run.bind_eq_ok] at hr
    obtain ⟨⟨r, T⟩, hcl, hr⟩ := hr
    obtain ⟨h1, h2, h3, -, h5, h6⟩ := classify_inv h.fin (by omega) hq hcl
    simp only at hr
    have hproc : ProcOk (Waiting Q T.counter) s.processed := h.proc.mono (fun x hx => ⟨hx.1, hx.2.1, hx.2.2.mono h2⟩)
    split at hr
    · simp at hr; obtain ⟨-, rfl⟩ := hr
      exact ⟨slots, orig, h1, hproc, by simp; omega, by simp; omega⟩
    · rename_i x
      obtain ⟨hk, hw⟩ := h5 x rfl
      split at hr
      · simp only [Run.pure_eq, Run.ok.injEq, Prod.mk.injEq] at hr
        obtain ⟨-, rfl⟩ := hr
        obtain ⟨p1, p2⟩ := hproc.insertAccount hw a.wv a.slot
        rw [hk] at p1 p2
        exact ⟨slots, orig, h1.congr rfl rfl rfl rfl rfl rfl, p1, by simp; omega, by simp; omega⟩
      · simp only [Run.bind_eq_ok] at hr
        obtain ⟨s1, hs1, hr⟩ := hr
        simp only [Run.pure_eq, Run.ok.injEq, Prod.mk.injEq] at hr
        obtain ⟨-, rfl⟩ := hr
        obtain ⟨s2, slots', orig', e1, e2, e3, e4, e5, e6, -⟩ := add_fin h1 hw.1 hw.2.1 hw.2.2 (by omega) (by simp; omega)
        rw [hs1] at e1; cases e1
        simp only at e4 e5 e6
        refine ⟨slots', orig', e2, ?_, ?_, ?_⟩
        · rw [e6]; exact hproc.mono (fun x hx => ⟨hx.1, hx.2.1, hx.2.2.mono e4⟩)
        · rw [e6]; omega
        · rw [e6]; omega

/-- Submitting through `initilize_or_update_account` is the same as submitting at finalized commitment. -/
theorem init_eq_update (X : Codecs) (s : TokenStore) (a : AccountData) :
    s.initAccount X a = (do return (← s.updateAccount X a .finalized).2) := by
  unfold TokenStore.initAccount TokenStore.updateAccount
  cases s.isTokenAccount a with
  | panic => rfl
  | diverge => rfl
  | ok b =>
    cases b with
    | false => rfl
    | true =>
      simp only [Run.ok_bind, Bool.not_true, Bool.false_eq_true, if_false]
      cases classify X s.table a with
      | panic => rfl
      | diverge => rfl
      | ok r =>
        obtain ⟨x, T⟩ := r
        cases x with
        | none => rfl
        | some x =>
          simp only [Run.ok_bind]
          rw [if_neg (by simp)]
          cases addFinalized { s with table := T } x <;> rfl

/-- The table of unfinalized accounts after the parent of a slot is noted. -/
def noted (s : TokenStore) (info : SlotInfo) (newest : Nat) : ProcStore :=
  if newest < info.slot then s.processed.updateSlotInfo info else s.processed

/-- Finalization of a slot, whenever it returns. -/
theorem finalized_spec {Q : ProgramAccount → Prop} {n : Nat} {s s' : TokenStore} {slots orig : List TokenAccount} {σ : Orders}
    {info : SlotInfo} {notes : List AccountData} (h : Inv Q n s slots orig) (hn : n < 2 ^ 31 - 1)
    (hr : s.processSlot σ info .finalized = .ok (notes, s')) :
    ∃ slots' orig', Inv Q n s' slots' orig' ∧ s'.confirmedSlot = s.confirmedSlot ∧
      s'.finalizedSlot = max s.finalizedSlot info.slot ∧
      (∀ k, (k ≤ info.slot ∨ OnChain (noted s info s.finalizedSlot) info.slot k → BMap.find s'.processed k = none) ∧
        (¬ (k ≤ info.slot ∨ OnChain (noted s info s.finalizedSlot) info.slot k) → BMap.find s'.processed k = BMap.find s.processed k)) ∧
      (∀ pk, (∀ p x k, p ≠ pk → prefix4 p = prefix4 pk → NewestOn (noted s info s.finalizedSlot) p info.slot x k →
          x.account ≠ .deleted p) →
        (∀ x k, NewestOn (noted s info s.finalizedSlot) pk info.slot x k →
          recOf s' slots' pk = (recOf s slots pk).apply x.account) ∧
        ((∀ x k, ¬ NewestOn (noted s info s.finalizedSlot) pk info.slot x k) → recOf s' slots' pk = recOf s slots pk)) ∧
      (∀ pk, (∀ x k, NewestOn (noted s info s.finalizedSlot) pk info.slot x k →
          (recOf s' slots' pk).solid = ((recOf s slots pk).apply x.account).solid) ∧
        ((∀ x k, ¬ NewestOn (noted s info s.finalizedSlot) pk info.slot x k) →
          (recOf s' slots' pk).solid = (recOf s slots pk).solid)) := by
  have hb := h.bound
  have hcb := h.cbound
  unfold TokenStore.processSlot at hr
  simp only [Run.bind_eq_ok] at hr
  generalize hs0 : (if s.finalizedSlot < info.slot then
        { s with finalizedSlot := info.slot, processed := s.processed.updateSlotInfo info } else s) = s0 at hr
  have hp0 : s0.processed = noted s info s.finalizedSlot := by
    rw [← hs0]; unfold noted; split <;> rfl
  have hf0 : s0.finalizedSlot = max s.finalizedSlot info.slot := by
    rw [← hs0]; split <;> (try simp only) <;> omega
  have hc0 : s0.confirmedSlot = s.confirmedSlot := by
    rw [← hs0]; split <;> simp
  have hfin0 : Fin Q s0 slots orig := by
    rw [← hs0]; split
    · exact h.fin.congr rfl rfl rfl rfl rfl rfl
    · exact h.fin
  have hrec0 : ∀ pk, recOf s0 slots pk = recOf s slots pk := by
    intro pk; rw [← hs0]; split <;> rfl
  have htab0 : s0.table = s.table := by rw [← hs0]; split <;> rfl
  have hproc0 : ProcOk (Waiting Q s0.table.counter) s0.processed ∧ pending s0.processed = pending s.processed := by
    rw [htab0, hp0]; unfold noted; split
    · exact h.proc.updateSlotInfo info
    · exact ⟨h.proc, rfl⟩
  have hfindn : ∀ k, k ≠ info.slot → BMap.find (noted s info s.finalizedSlot) k = BMap.find s.processed k := by
    intro k hk
    unfold noted; split
    · unfold ProcStore.updateSlotInfo
      split <;> rw [BMap.find_insert, if_neg (fun e => hk e.symm)]
    · rfl
  obtain ⟨⟨P', l⟩, hfz, notes', -, s1, hadd, hr⟩ := hr
  simp only [Run.pure_eq, Run.ok.injEq, Prod.mk.injEq] at hr
  obtain ⟨-, rfl⟩ := hr
  obtain ⟨P1, l1, z1, z2, z3, z4, z5, z6⟩ := finalize_spec hproc0.1 info.slot
  rw [z1] at hfz; cases hfz
  have hperm := σ.final_perm l
  have hmem : ∀ x k, (x, k) ∈ σ.final l ↔ NewestOn (noted s info s.finalizedSlot) x.account.pubkey info.slot x k := by
    intro x k; rw [hperm.mem_iff, z4, hp0]
  have hlenl : (σ.final l).length = l.length := hperm.length_eq
  have hfin1 : Fin Q { s0 with processed := P' } slots orig := hfin0.congr rfl rfl rfl rfl rfl rfl
  obtain ⟨s2, slots', orig', e1, e2, e3, e4, e5, e6, e7, e8, e9, e10⟩ := addAll_fin (σ.final l) hfin1
    (by
      rintro ⟨x, k⟩ he
      have := (newest_good hproc0.1 ((z4 x k).1 (hperm.mem_iff.1 he))).2
      exact this)
    (by rw [hlenl]; omega) (by simp only [hlenl, htab0]; omega)
  rw [e1] at hadd; cases hadd
  simp only [htab0] at e4 e5
  have hnd : ((σ.final l).map (fun e => e.1.account.pubkey)).Nodup := (hperm.map _).nodup_iff.2 z5
  have hrec1 : ∀ pk, recOf { s0 with processed := P' } slots pk = recOf s slots pk := hrec0
  refine ⟨slots', orig', ⟨e2, ?_, ?_, ?_⟩, by rw [e7]; exact hc0, by rw [e8]; exact hf0, ?_, ?_, ?_⟩
  · rw [e6]; rw [htab0] at z2; exact z2.mono (fun x hx => ⟨hx.1, hx.2.1, hx.2.2.mono e4⟩)
  · rw [e6]; simp only; omega
  · rw [e6]; simp only; omega
  · rw [e6]
    intro k
    have := z6 k
    rw [hp0] at this
    refine ⟨this.1, fun hk => ?_⟩
    rw [this.2 hk, hfindn]
    rw [not_or] at hk; omega
  · intro pk hno
    obtain ⟨d1, d2⟩ := e9 hnd pk (by
      rintro p hp hpp ⟨x, k⟩ he hx
      have := (hmem x k).1 he
      simp only at hx
      rw [hx] at this
      exact hno p x k hp hpp this hx)
    rw [hrec1] at d1 d2
    constructor
    · intro x k hx
      have hk := (newest_good (hp0 ▸ hproc0.1) hx).1
      exact d1 (x, k) ((hmem x k).2 (by rw [hk]; exact hx)) hk
    · intro hx
      refine d2 ?_
      rintro ⟨x, k⟩ he hk
      have := (hmem x k).1 he
      rw [hk] at this
      exact hx x k this
  · intro pk
    obtain ⟨d1, d2⟩ := e10 hnd pk
    rw [hrec1] at d1 d2
    constructor
    · intro x k hx
      have hk := (newest_good (hp0 ▸ hproc0.1) hx).1
      exact d1 (x, k) ((hmem x k).2 (by rw [hk]; exact hx)) hk
    · intro hx
      refine d2 ?_
      rintro ⟨x, k⟩ he hk
      have := (hmem x k).1 he
      rw [hk] at this
      exact hx x k this

theorem slot_inv {Q : ProgramAccount → Prop} {n : Nat} {s s' : TokenStore} {slots orig : List TokenAccount} {σ : Orders}
    {info : SlotInfo} {c : Commitment} {notes : List AccountData} (h : Inv Q n s slots orig) (hn : n < 2 ^ 31 - 1)
    (hr : s.processSlot σ info c = .ok (notes, s')) : ∃ slots' orig', Inv Q n s' slots' orig' := by
  have hb := h.bound
  have hcb := h.cbound
  cases c with
  | processed =>
    simp only [TokenStore.processSlot, Run.ok.injEq, Prod.mk.injEq] at hr
    obtain ⟨-, rfl⟩ := hr
    obtain ⟨p1, p2⟩ := h.proc.updateSlotInfo info
    exact ⟨slots, orig, h.fin.congr rfl rfl rfl rfl rfl rfl, p1, by simp only [p2]; omega, by simp only [p2]; omega⟩
  | confirmed =>
    simp only [TokenStore.processSlot, Run.bind_eq_ok] at hr
    generalize hs0 : (if s.confirmedSlot < info.slot then
        { s with confirmedSlot := info.slot, processed := s.processed.updateSlotInfo info } else s) = s0 at hr
    have h0 : Inv Q n s0 slots orig := by
      rw [← hs0]; split
      · obtain ⟨p1, p2⟩ := h.proc.updateSlotInfo info
        exact ⟨h.fin.congr rfl rfl rfl rfl rfl rfl, p1, by simp only [p2]; omega, by simp only [p2]; omega⟩
      · exact h
    obtain ⟨⟨l, P⟩, hg, hr⟩ := hr
    simp only [Run.pure_eq, Run.ok.injEq, Prod.mk.injEq] at hr
    obtain ⟨-, rfl⟩ := hr
    unfold ProcStore.getProcessedForSlot at hg
    split at hg
    · simp only [Run.bind_eq_ok] at hg
      obtain ⟨_, -, hg⟩ := hg
      simp at hg
      obtain ⟨-, rfl⟩ := hg
      exact ⟨slots, orig, h0.fin.congr rfl rfl rfl rfl rfl rfl, h0.proc, h0.bound, h0.cbound⟩
    · simp at hg
      obtain ⟨-, rfl⟩ := hg
      obtain ⟨p1, p2⟩ := h0.proc.updateSlotInfo info
      have := h0.bound
      have := h0.cbound
      exact ⟨slots, orig, h0.fin.congr rfl rfl rfl rfl rfl rfl, p1, by simp only [p2]; omega, by simp only [p2]; omega⟩
  | finalized =>
    obtain ⟨slots', orig', h', -⟩ := finalized_spec h hn hr
    exact ⟨slots', orig', h'⟩

/-- The account a call submits. -/
def _root_.LAM.Token.TokenStore.TOp.account : TOp → Option AccountData
  | .update a _ => some a
  | .init a => some a
  | .slot .. => none

theorem step_inv {X : Codecs} {Q : ProgramAccount → Prop} {n : Nat} {s s' : TokenStore} {slots orig : List TokenAccount}
    {o : TOp} (h : Inv Q n s slots orig) (hn : n < 2 ^ 31 - 1)
    (hq : ∀ a, o.account = some a → ∀ x T', classify X s.table a = .ok (some x, T') → Q x) (hr : s.step X o = .ok s') :
    ∃ slots' orig', Inv Q (n + 1) s' slots' orig' := by
  cases o with
  | update a c =>
    simp only [TokenStore.step, Run.bind_eq_ok] at hr
    obtain ⟨⟨b, s1⟩, h1, hr⟩ := hr
    simp at hr; subst hr
    exact update_inv h hn (hq a rfl) h1
  | init a =>
    simp only [TokenStore.step, init_eq_update, Run.bind_eq_ok] at hr
    obtain ⟨⟨b, s1⟩, h1, hr⟩ := hr
    simp at hr; subst hr
    exact update_inv h hn (hq a rfl) h1
  | slot σ info c =>
    simp only [TokenStore.step, Run.bind_eq_ok] at hr
    obtain ⟨⟨b, s1⟩, h1, hr⟩ := hr
    simp at hr; subst hr
    obtain ⟨slots', orig', h'⟩ := slot_inv h hn h1
    exact ⟨slots', orig', h'.mono (by omega)⟩

/-- Every state reached in fewer than `2^31` calls satisfies the invariant. -/
theorem run_inv {X : Codecs} {Q : ProgramAccount → Prop} (ops : List TOp) {n : Nat} {s s' : TokenStore} {slots orig : List TokenAccount}
    (h : Inv Q n s slots orig) (hn : n + ops.length < 2 ^ 31)
    (hq : ∀ o ∈ ops, ∀ a, o.account = some a → ∀ T x T', classify X T a = .ok (some x, T') → Q x)
    (hr : TokenStore.run X ops s = .ok s') : ∃ slots' orig', Inv Q (n + ops.length) s' slots' orig' := by
  induction ops generalizing s slots orig n with
  | nil => simp [TokenStore.run] at hr; subst hr; exact ⟨slots, orig, h⟩
  | cons o os ih =>
    simp only [TokenStore.run, Run.bind_eq_ok] at hr
    obtain ⟨s1, h1, hr⟩ := hr
    simp only [List.length_cons] at hn
    obtain ⟨slots1, orig1, i1⟩ := step_inv h (by omega) (fun a ha x T' hx => hq o (by simp) a ha _ x T' hx) h1
    obtain ⟨slots', orig', i2⟩ := ih i1 (by omega) (fun o ho => hq o (by simp [ho])) hr
    exact ⟨slots', orig', i2.mono (by simp; omega)⟩

end LAM.Token
