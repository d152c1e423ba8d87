import Verif.Lemmas.TokenListen
/-!
# Lemmas: a listener to the token store, one call
-/
namespace LAM.Token
open Spec ProcStore Run
open TokenStore (TOp)
namespace Listen
open Store (anc_le anc_ne anc_trans anc_linear)

/-! ## The answers -/

theorem noted_ok {Q : ProgramAccount → Prop} {s : TokenStore} (h : ProcOk Q s.processed) (info : SlotInfo) (n : Nat) :
    ProcOk Q (noted s info n) := by
  unfold noted; split
  · exact (h.updateSlotInfo info).1
  · exact h

theorem final_notes {Q : ProgramAccount → Prop} {s s' : TokenStore} {σ : Orders} {info : SlotInfo} {notes : List AccountData}
    (h : ProcOk Q s.processed) (hs : s.processSlot σ info .finalized = .ok (notes, s')) :
    (∀ r, r ∈ notes ↔ ∃ x k, NewestOn (noted s info s.finalizedSlot) x.account.pubkey info.slot x k ∧
      x.account.toSolana s.mints k x.wv = .ok (some r)) ∧ (notes.map (·.pubkey)).Nodup := by
  obtain ⟨P', l, hf, -, -, hm, hnd, -⟩ := finalize_spec (noted_ok h info s.finalizedSlot) info.slot
  unfold TokenStore.processSlot at hs
  simp only [Run.bind_eq_ok] at hs
  generalize hs0 : (if s.finalizedSlot < info.slot then
        { s with finalizedSlot := info.slot, processed := s.processed.updateSlotInfo info } else s) = s0 at hs
  have hp0 : s0.processed = noted s info s.finalizedSlot := by
    rw [← hs0]; unfold noted; split <;> rfl
  have hm0 : s0.mints = s.mints := by
    rw [← hs0]; split <;> rfl
  rw [hp0, hf] at hs
  obtain ⟨⟨P1, l1⟩, e, ns, hns, s1, -, hs⟩ := hs
  simp only [Run.ok.injEq, Prod.mk.injEq] at e
  obtain ⟨rfl, rfl⟩ := e
  simp only [Run.pure_eq, Run.ok.injEq, Prod.mk.injEq] at hs
  obtain ⟨rfl, -⟩ := hs
  simp only [hm0] at hns
  refine ⟨fun r => ?_, toSolanaAll_nodup hns ?_⟩
  · rw [toSolanaAll_mem hns]
    simp only [(σ.final_perm l).mem_iff, hm]
  · exact ((σ.final_perm l).map _).nodup_iff.2 hnd

theorem slot_notes {Q : ProgramAccount → Prop} {P P' : ProcStore} {info : SlotInfo} {mints : AMap Nat MintAccount} {notes : List AccountData}
    (h : ProcOk Q P) (hk : BMap.find P info.slot ≠ none) (hs : P.getProcessedForSlot info mints = .ok (notes, P')) :
    P' = P ∧ (∀ r, r ∈ notes ↔ ∃ pk x, stateAt P info.slot pk = some x ∧ x.account.toSolana mints info.slot x.wv = .ok (some r)) ∧
      (notes.map (·.pubkey)).Nodup := by
  unfold ProcStore.getProcessedForSlot at hs
  cases hf : BMap.find P info.slot with
  | none => exact absurd hf hk
  | some e =>
    rw [hf] at hs
    simp only [Run.bind_eq_ok, Run.pure_eq, Run.ok.injEq, Prod.mk.injEq] at hs
    obtain ⟨l, hl, rfl, rfl⟩ := hs
    have hd := h.distinct _ _ hf
    refine ⟨rfl, fun r => ?_, toSolanaAll_nodup hl ?_⟩
    · rw [toSolanaAll_mem hl]
      simp only [List.mem_map, Prod.mk.injEq, Prod.exists, stateAt, hf, Option.bind_some]
      constructor
      · rintro ⟨x, k, ⟨pk, y, hy, rfl, rfl⟩, hr⟩
        exact ⟨pk, _, (AMap.mem_iff_find hd _ _).1 hy, hr⟩
      · rintro ⟨pk, x, hx, hr⟩
        exact ⟨x, info.slot, ⟨pk, x, (AMap.mem_iff_find hd _ _).2 hx, rfl, rfl⟩, hr⟩
    · have : ((e.accounts.map (fun x => (x.2, info.slot))).map (fun y => y.1.account.pubkey)) = e.accounts.map (·.1) := by
        simp only [List.map_map]
        refine List.map_congr_left fun y hy => ?_
        exact h.key _ _ _ _ hf ((AMap.mem_iff_find hd y.1 y.2).1 hy)
      rw [this]
      exact List.pairwise_map.2 hd

/-! ## The contents told -/

/-- The contents of a token account of the mint `mk`. -/
def content (t : TokenAccount) (mk : Pubkey) : Account :=
  solanaAccount (Spl.rentMinimum (tokenData t mk).length) (tokenData t mk) t.program

/-- The listener knows the token account `o` of `pk`. -/
def Knows (s : TokenStore) (v : TokenHeard) (pk : Pubkey) : Option TokenAccount → Prop
  | none => v pk = none
  | some t => ∃ m, s.mints.find t.mint = some m ∧ v pk = some (content t m.pubkey)

theorem converted {mints : AMap Nat MintAccount} {t : TokenAccount} (hd : t.isDeleted = false) {k wv : Nat} {o : Option AccountData}
    (h : tokenToSolana mints t k wv = .ok o) :
    ∃ m, mints.find t.mint = some m ∧ o = some ⟨t.pubkey, content t m.pubkey, k, wv⟩ := by
  cases hm : mints.find t.mint with
  | none => simp [tokenToSolana, hd, hm] at h
  | some m =>
    rw [tokenToSolana_ok hd hm] at h
    simp only [Run.ok.injEq] at h
    exact ⟨m, rfl, h.symm⟩

theorem knows_of_read {par : Nat → Nat} {pk : Pubkey} {s : TokenStore} (h : Good par pk s) {c : Commitment} (hc : c ≠ .processed)
    {v : TokenHeard} {r : Option AccountData} (hr : s.getAccount pk c = .ok r) (hv : v pk = r.map (·.account)) :
    ∃ o, Cur c s pk o ∧ Knows s v pk o := by
  obtain ⟨o, ho⟩ := cur_exists h c
  obtain ⟨h1, h2⟩ := cur_read h hc
  refine ⟨o, ho, ?_⟩
  cases o with
  | none =>
    rw [h1 ho] at hr; simp at hr; subst hr
    exact hv
  | some t =>
    obtain ⟨hd, k, hk⟩ := h2 t ho
    rw [hk] at hr
    obtain ⟨m, hm, rfl⟩ := converted hd hr
    exact ⟨m, hm, hv⟩

theorem read_of_knows {par : Nat → Nat} {pk : Pubkey} {s : TokenStore} (h : Good par pk s) {c : Commitment} (hc : c ≠ .processed)
    {v : TokenHeard} {o : Option TokenAccount} (ho : Cur c s pk o) (hk : Knows s v pk o) :
    ∃ r, s.getAccount pk c = .ok r ∧ v pk = r.map (·.account) := by
  obtain ⟨h1, h2⟩ := cur_read h hc
  cases o with
  | none => exact ⟨none, h1 ho, hk⟩
  | some t =>
    obtain ⟨hd, k, e⟩ := h2 t ho
    obtain ⟨m, hm, hv⟩ := hk
    exact ⟨_, e.trans (tokenToSolana_ok hd hm k 0), hv⟩

/-! ## The mints stay -/

theorem mint_stays {X : Codecs} {ops : List TOp} {o : TOp} {s s' : TokenStore} {i : Nat} {m : MintAccount} (hn : ops.length < 2 ^ 31 - 1)
    (hr : TokenStore.run X ops .empty = .ok s) (hs : s.step X o = .ok s') (hm : s.mints.find i = some m)
    (hst : ∀ o' ∈ ops ++ [o], ∀ a, submittedBy o' = some a → a.pubkey = m.pubkey →
      ∀ T T', classify X T a ≠ .ok (some (.deleted a.pubkey), T')) :
    ∃ m', s'.mints.find i = some m' ∧ m'.pubkey = m.pubkey := by
  have key : ∀ o' ∈ ops ++ [o], ∀ a, o'.account = some a → ∀ T x T', classify X T a = .ok (some x, T') →
      Deletes (fun p => p ≠ m.pubkey) x := by
    rintro o' ho' a ha T x T' hx p rfl
    rw [account_eq] at ha
    have h1 := (classify_some hx).1
    simp only [ProgramAccount.pubkey] at h1
    subst h1
    intro e
    exact hst o' ho' a ha e T T' hx
  obtain ⟨slots, orig, inv⟩ := run_inv (Q := Deletes (fun p => p ≠ m.pubkey)) ops (inv_empty _) (by omega)
    (fun o' ho' => key o' (by simp [ho'])) hr
  have hrun : TokenStore.run X [o] s = .ok s' := by simp [TokenStore.run, hs]
  have hidx := inv.fin.mints_idx i m hm
  obtain ⟨i', m', h1, h2⟩ := known_run [o] inv (by simp; omega) (fun o' ho' => key o' (by simp at ho'; simp [ho'])) ⟨i, m, hidx, hm⟩ hrun
  have h3 := (grows_run [o] inv (by simp; omega) (fun o' ho' => key o' (by simp at ho'; simp [ho'])) hrun).keep m.pubkey i (by simp) hidx
  rw [h3] at h1; simp at h1; subst h1
  obtain ⟨slots', orig', inv'⟩ := reach_inv (X := X) (ops := ops ++ [o]) (s := s') (by simp; omega)
    ((storeRun_append _ _).2 ⟨s, hr, hrun⟩)
  exact ⟨m', h2, inv'.fin.idx_inj _ _ _ (inv'.fin.mints_idx _ _ h2) h3⟩

theorem knows_step {X : Codecs} {ops : List TOp} {o : TOp} {s s' : TokenStore} {v : TokenHeard} {pk : Pubkey} {q : Option TokenAccount}
    (hn : ops.length < 2 ^ 31 - 1) (hr : TokenStore.run X ops .empty = .ok s) (hs : s.step X o = .ok s')
    (hst : MintsStay X (ops ++ [o])) (h : Knows s v pk q) : Knows s' v pk q := by
  cases q with
  | none => exact h
  | some t =>
    obtain ⟨m, hm, hv⟩ := h
    obtain ⟨m', h1, h2⟩ := mint_stays hn hr hs hm (hst ops s ⟨[o], rfl⟩ hr t.mint m hm)
    exact ⟨m', h1, by rw [h2]; exact hv⟩

end Listen
end LAM.Token
