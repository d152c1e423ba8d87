import Verif.Lemmas.TokenListenStep
/-!
# Lemmas: a listener to the token store, all calls
-/
namespace LAM.Token
open Spec ProcStore Run
open TokenStore (TOp)
namespace Listen
open Store (anc_le anc_ne anc_trans anc_linear)

/-! ## The finalized tables -/

theorem stored_same {X : Codecs} {ops : List TOp} {o : TOp} {s s' : TokenStore} {pk : Pubkey} (hn : ops.length < 2 ^ 31 - 1)
    (hw : NoTwinClosed X pk (ops ++ [o])) (hr : TokenStore.run X ops .empty = .ok s) (hs : s.step X o = .ok s')
    (hf : ∀ σ info, o ≠ .slot σ info .finalized) (ho : AtOnce o → ∀ a, submittedBy o = some a → a.pubkey ≠ pk) :
    s'.tokens.getByPubkey pk = s.tokens.getByPubkey pk := by
  obtain ⟨slots, orig, inv⟩ := free_inv (w := true) (pk := pk) (by omega) (fun _ o' ho' => hw o' (by simp [ho'])) hr
  exact (step_frame inv hn (fun _ => hw o (by simp)) hf (fun a h1 h2 => ho h1 a h2) hs).1.token rfl

theorem stored_final {X : Codecs} {par : Nat → Nat} {ops : List TOp} {s s' : TokenStore} {pk : Pubkey} {σ : Orders} {info : SlotInfo}
    {notes : List AccountData} (hn : ops.length < 2 ^ 31 - 1) (hg : Good par pk s)
    (hw : NoTwinClosed X pk ops) (hr : TokenStore.run X ops .empty = .ok s)
    (hs : s.processSlot σ info .finalized = .ok (notes, s')) :
    (∀ x k, NewestOn (noted s info s.finalizedSlot) pk info.slot x k →
      ∃ t, x.account = .token t ∧ t.isDeleted = false ∧ t.pubkey = pk ∧ s'.tokens.getByPubkey pk = .ok (some t)) ∧
    ((∀ x k, ¬ NewestOn (noted s info s.finalizedSlot) pk info.slot x k) → s'.tokens.getByPubkey pk = s.tokens.getByPubkey pk) := by
  obtain ⟨slots, orig, inv⟩ := free_inv (w := true) (pk := pk) (by omega) (fun _ => hw) hr
  obtain ⟨slots', orig', hfin, h1, h2⟩ := finalized_own inv hn hs
  refine ⟨fun x k hx => ?_, fun hx => (h2 hx).1.token rfl⟩
  obtain ⟨t, ht, hd, hk⟩ := hg.token k x (by rw [← stateAt_noted]; exact newestOn_state hx)
  refine ⟨t, ht, hd, hk, ?_⟩
  have e := (h1 x k hx).2
  rw [ht] at e
  simp only [Rec.look, if_true, Rec.apply] at e
  rw [getByPubkey_recOf hfin, e]

theorem toSolanaAll_each {mints : AMap Nat MintAccount} {l : List (Processed × Nat)} {ns : List AccountData}
    (h : toSolanaAll mints l = .ok ns) {x : Processed} {k : Nat} (hx : (x, k) ∈ l) : ∃ o, x.account.toSolana mints k x.wv = .ok o := by
  induction l generalizing ns with
  | nil => simp at hx
  | cons y l ih =>
    obtain ⟨y, j⟩ := y
    simp only [toSolanaAll, Run.bind_eq_ok, Run.pure_eq, Run.ok.injEq] at h
    obtain ⟨o, ho, rs, hrs, rfl⟩ := h
    simp only [List.mem_cons, Prod.mk.injEq] at hx
    rcases hx with ⟨rfl, rfl⟩ | hx
    · exact ⟨o, ho⟩
    · exact ih hrs hx

theorem told_conv {s s' : TokenStore} {σ : Orders} {info : SlotInfo} {notes : List AccountData} {P' : ProcStore} {l : List (Processed × Nat)}
    (hf : (noted s info s.finalizedSlot).finalize info.slot = .ok (P', l)) {x : Processed} {k : Nat} (hx : (x, k) ∈ l)
    (hs : s.processSlot σ info .finalized = .ok (notes, s')) : ∃ o, x.account.toSolana s.mints k x.wv = .ok o := by
  unfold TokenStore.processSlot at hs
  simp only [Run.bind_eq_ok] at hs
  generalize hs0 : (if s.finalizedSlot < info.slot then
        { s with finalizedSlot := info.slot, processed := s.processed.updateSlotInfo info } else s) = s0 at hs
  have hp0 : s0.processed = noted s info s.finalizedSlot := by
    rw [← hs0]; unfold noted; split <;> rfl
  have hm0 : s0.mints = s.mints := by
    rw [← hs0]; split <;> rfl
  rw [hp0, hf] at hs
  obtain ⟨⟨P1, l1⟩, e, ns, hns, -⟩ := hs
  simp only [Run.ok.injEq, Prod.mk.injEq] at e
  obtain ⟨rfl, rfl⟩ := e
  simp only [hm0] at hns
  exact toSolanaAll_each hns ((σ.final_perm l).mem_iff.2 hx)

/-- A finalization tells the listener to finalized slots what is stored. -/
theorem told_final {X : Codecs} {par : Nat → Nat} {ops : List TOp} {s s' : TokenStore} {pk : Pubkey} {σ : Orders} {info : SlotInfo}
    {notes : List AccountData} {v : TokenHeard} {q : Option TokenAccount} (hn : ops.length < 2 ^ 31 - 1) (hg : Good par pk s)
    (hw : NoTwinClosed X pk ops) (hr : TokenStore.run X ops .empty = .ok s)
    (hs : s.processSlot σ info .finalized = .ok (notes, s')) (hq : Cur .finalized s pk q) (hk : Knows s v pk q) :
    ∃ q, Cur .finalized s' pk q ∧ Knows s (tokenLearn v notes) pk q := by
  obtain ⟨slots, orig, n, inv⟩ := hg.live
  obtain ⟨n1, n2⟩ := final_notes inv.proc hs
  obtain ⟨f1, f2⟩ := stored_final hn hg hw hr hs
  have hown : ∀ r ∈ notes, r.pubkey = pk → ∃ x k, NewestOn (noted s info s.finalizedSlot) pk info.slot x k ∧
      x.account.toSolana s.mints k x.wv = .ok (some r) := by
    intro r hr' e
    obtain ⟨x, k, h1, h2⟩ := (n1 r).1 hr'
    rw [← toSolana_key h2, e] at h1
    exact ⟨x, k, h1, h2⟩
  by_cases hx : ∃ x k, NewestOn (noted s info s.finalizedSlot) pk info.slot x k
  · obtain ⟨x, k, hx⟩ := hx
    obtain ⟨t, ht, hd, hpk, hst⟩ := f1 x k hx
    have hall : ∃ o, x.account.toSolana s.mints k x.wv = .ok o := by
      obtain ⟨P', l, hf, -, -, hm, -, -⟩ := finalize_spec (noted_ok inv.proc info s.finalizedSlot) info.slot
      have hl : (x, k) ∈ l := (hm x k).2 (by rw [ht]; simp only [ProgramAccount.pubkey]; rw [hpk]; exact hx)
      exact told_conv hf hl hs
    obtain ⟨o, ho⟩ := hall
    rw [ht] at ho
    obtain ⟨m, hm, rfl⟩ := converted hd ho
    have hmem : (⟨t.pubkey, content t m.pubkey, k, x.wv⟩ : AccountData) ∈ notes :=
      (n1 _).2 ⟨x, k, by rw [ht]; simp only [ProgramAccount.pubkey]; rw [hpk]; exact hx, by rw [ht]; exact ho⟩
    have hl := learn_mem (v := v) n2 hmem
    simp only at hl
    rw [hpk] at hl
    exact ⟨some t, hst, m, hm, hl⟩
  · have hx : ∀ x k, ¬ NewestOn (noted s info s.finalizedSlot) pk info.slot x k := fun x k h => hx ⟨x, k, h⟩
    refine ⟨q, (f2 hx).trans hq, ?_⟩
    have hl : tokenLearn v notes pk = v pk := learn_other (fun r hr' e => by
      obtain ⟨x, k, h, -⟩ := hown r hr' e
      exact hx x k h)
    cases q with
    | none => exact hl.trans hk
    | some t => obtain ⟨m, h1, h2⟩ := hk; exact ⟨m, h1, hl.trans h2⟩

/-! ## The confirmed chain -/

theorem cur_of_iff {s s' : TokenStore} {pk : Pubkey} {q : Option TokenAccount}
    (h : ∀ x k, NewestOn s'.processed pk s'.confirmedSlot x k ↔ NewestOn s.processed pk s.confirmedSlot x k)
    (ht : s'.tokens.getByPubkey pk = s.tokens.getByPubkey pk) (hq : Cur .confirmed s pk q) : Cur .confirmed s' pk q := by
  rcases hq with ⟨x, k, t, h1, h2, h3⟩ | ⟨h1, h2⟩
  · exact .inl ⟨x, k, t, (h x k).2 h1, h2, h3⟩
  · exact .inr ⟨fun x k hx => h1 x k ((h x k).1 hx), ht.trans h2⟩

theorem newest_same {par : Nat → Nat} {P P' : ProcStore} (hd : ∀ i, par i ≤ i) (hp : TrueIn par P) (hp' : TrueIn par P') {pk : Pubkey} {c : Nat}
    (he : ∀ i, Ancestor par c i → stateAt P' i pk = stateAt P i pk ∧ parentAt P' i = parentAt P i) (x : Processed) (k : Nat) :
    NewestOn P' pk c x k ↔ NewestOn P pk c x k :=
  ⟨newest_transfer hd hp' (Nat.zero_le k) fun i hi _ => ⟨(he i hi).1.symm, fun p h => by rw [← (he i hi).2]; exact h⟩,
    newest_transfer hd hp (Nat.zero_le k) fun i hi _ => ⟨(he i hi).1, fun p h => by rw [(he i hi).2]; exact h⟩⟩

/-- A submission for a slot that is not on the confirmed chain. -/
theorem cur_update {X : Codecs} {par : Nat → Nat} {s s' : TokenStore} {pk : Pubkey} {a : AccountData} {d : Commitment} {b : Bool}
    {q : Option TokenAccount} (hd : ∀ i, par i ≤ i) (hg : Good par pk s) (hg' : Good par pk s')
    (hs : s.updateAccount X a d = .ok (b, s')) (ha : a.pubkey = pk → ¬ Ancestor par s.confirmedSlot a.slot)
    (ht : s'.tokens.getByPubkey pk = s.tokens.getByPubkey pk) (hq : Cur .confirmed s pk q) : Cur .confirmed s' pk q := by
  obtain ⟨h1, h2⟩ := update_processed hs
  refine cur_of_iff ?_ ht hq
  rw [h1]
  refine newest_same hd hg.links hg'.links fun i hi => ?_
  rcases h2 with h2 | ⟨x, h2⟩
  · rw [h2]; exact ⟨rfl, rfl⟩
  · rw [h2, stateAt_insertAccount, parentAt_insertAccount, if_neg]
    · exact ⟨rfl, rfl⟩
    · rintro ⟨rfl, e⟩
      exact ha e hi

/-- A processed notification for a slot that is not on the confirmed chain. -/
theorem cur_processed {par : Nat → Nat} {s s' : TokenStore} {pk : Pubkey} {σ : Orders} {info : SlotInfo} {notes : List AccountData}
    {q : Option TokenAccount} (hd : ∀ i, par i ≤ i) (hg : Good par pk s) (hg' : Good par pk s')
    (hs : s.processSlot σ info .processed = .ok (notes, s')) (ha : ¬ Ancestor par s.confirmedSlot info.slot)
    (hq : Cur .confirmed s pk q) : Cur .confirmed s' pk q := by
  simp only [TokenStore.processSlot, Run.ok.injEq, Prod.mk.injEq] at hs
  obtain ⟨-, rfl⟩ := hs
  refine cur_of_iff (s := s) ?_ rfl hq
  refine newest_same hd hg.links hg'.links fun i hi => ?_
  simp only
  rw [stateAt_updateSlotInfo, parentAt_updateSlotInfo, if_neg]
  · exact ⟨rfl, rfl⟩
  · rintro ⟨rfl, -⟩
    exact ha hi

/-- The next confirmed slot. -/
theorem told_confirmed {par : Nat → Nat} {s s' : TokenStore} {pk : Pubkey} {σ : Orders} {info : SlotInfo} {notes : List AccountData}
    {v : TokenHeard} {q : Option TokenAccount} (hd : ∀ i, par i ≤ i) (hg : Good par pk s) (hg' : Good par pk s')
    (hs : s.processSlot σ info .confirmed = .ok (notes, s')) (hlt : s.confirmedSlot < info.slot) (hpar : info.parent = s.confirmedSlot)
    (hf : BMap.find s.processed info.slot ≠ none) (hq : Cur .confirmed s pk q) (hk : Knows s v pk q) :
    ∃ q, Cur .confirmed s' pk q ∧ Knows s (tokenLearn v notes) pk q := by
  obtain ⟨slots, orig, n, inv⟩ := hg.live
  unfold TokenStore.processSlot at hs
  simp only [if_pos hlt, Run.bind_eq_ok] at hs
  obtain ⟨⟨l, P⟩, hl, hs⟩ := hs
  simp only [Run.pure_eq, Run.ok.injEq, Prod.mk.injEq] at hs
  obtain ⟨rfl, rfl⟩ := hs
  have hf' : BMap.find (s.processed.updateSlotInfo info) info.slot ≠ none := by
    unfold ProcStore.updateSlotInfo
    split <;> simp [BMap.find_insert]
  obtain ⟨rfl, n1, n2⟩ := slot_notes (inv.proc.updateSlotInfo info).1 hf' hl
  simp only [stateAt_updateSlotInfo] at n1
  have hup : parentAt (s.processed.updateSlotInfo info) info.slot = some s.confirmedSlot := by
    rw [parentAt_updateSlotInfo, if_pos ⟨rfl, hf⟩, hpar]
  have hsame := newest_same (c := s.confirmedSlot) (pk := pk) hd hg.links hg'.links (fun i hi => by
    simp only
    rw [stateAt_updateSlotInfo, parentAt_updateSlotInfo, if_neg]
    · exact ⟨rfl, rfl⟩
    · rintro ⟨rfl, -⟩
      have := anc_le hd hi
      omega)
  simp only at hsame
  cases hst : stateAt s.processed info.slot pk with
  | some x =>
    obtain ⟨t, ht, hdel, hpk⟩ := hg.token _ x hst
    have hconv : ∃ o, x.account.toSolana s.mints info.slot x.wv = .ok o := by
      unfold ProcStore.getProcessedForSlot at hl
      cases he : BMap.find (s.processed.updateSlotInfo info) info.slot with
      | none => exact absurd he hf'
      | some e =>
        rw [he] at hl
        simp only [Run.bind_eq_ok] at hl
        obtain ⟨l', hl', -⟩ := hl
        refine toSolanaAll_each hl' (List.mem_map.2 ⟨(pk, x), AMap.mem_of_find ?_, rfl⟩)
        rw [← stateAt_updateSlotInfo s.processed info] at hst
        simpa [stateAt, he] using hst
    obtain ⟨o, ho⟩ := hconv
    have hmem := n1
    rw [ht] at ho
    obtain ⟨m, hm, rfl⟩ := converted hdel ho
    have hin := (n1 ⟨t.pubkey, content t m.pubkey, info.slot, x.wv⟩).2 ⟨pk, x, hst, by rw [ht]; exact ho⟩
    have hl := learn_mem (v := v) n2 hin
    simp only at hl
    rw [hpk] at hl
    refine ⟨some t, .inl ⟨x, info.slot, t, newest_here ?_, ht, rfl⟩, m, hm, hl⟩
    simp only
    rw [stateAt_updateSlotInfo]; exact hst
  | none =>
    have hl : tokenLearn v l pk = v pk := learn_other (fun r hr e => by
      obtain ⟨p, x, h1, h2⟩ := (n1 r).1 hr
      have hkey : x.account.pubkey = p := by
        simp only [stateAt, Option.bind_eq_some_iff] at h1
        obtain ⟨e, he, hx⟩ := h1
        exact inv.proc.key _ _ _ _ he hx
      rw [toSolana_key h2, hkey] at e
      subst e
      rw [hst] at h1; simp at h1)
    refine ⟨q, cur_of_iff (s := s) ?_ rfl hq, ?_⟩
    · intro x k
      simp only
      rw [← hsame x k]
      constructor
      · intro h
        rcases newest_cases h with ⟨h, -⟩ | ⟨-, p, hp, h⟩
        · rw [stateAt_updateSlotInfo, hst] at h; simp at h
        · rw [hup] at hp; simp at hp; subst hp; exact h
      · intro h
        exact newest_up (by rw [stateAt_updateSlotInfo]; exact hst) hup h
    · cases q with
      | none => exact hl.trans hk
      | some t => obtain ⟨m, h1, h2⟩ := hk; exact ⟨m, h1, hl.trans h2⟩

/-- A finalized slot of the confirmed chain. -/
theorem cur_final {X : Codecs} {par : Nat → Nat} {ops : List TOp} {s s' : TokenStore} {pk : Pubkey} {σ : Orders} {info : SlotInfo}
    {notes : List AccountData} {q : Option TokenAccount} (hn : ops.length < 2 ^ 31 - 1) (hd : ∀ i, par i ≤ i)
    (hp : TrueParents par (ops ++ [.slot σ info .finalized])) (hot : OnTime ops)
    (hg : Good par pk s) (hg' : Good par pk s')
    (hw : NoTwinClosed X pk ops) (hr : TokenStore.run X ops .empty = .ok s)
    (hs : s.processSlot σ info .finalized = .ok (notes, s')) (ha : Ancestor par (confirmedOf ops) info.slot)
    (hl : ∀ i, Ancestor par (confirmedOf ops) i → info.slot ≤ i → lastFinal ops < i → LinkNoted X ops i)
    (hq : Cur .confirmed s pk q) : Cur .confirmed s' pk q := by
  have hp0 : TrueParents par ops := parents_left hp
  obtain ⟨e1, e2⟩ := run_slots ops (by omega) hp0 hr
  obtain ⟨t1, -, t3, t4⟩ := finalized_table hn hp hr hs
  obtain ⟨f1, f2⟩ := stored_final hn hg hw hr hs
  rw [← e2] at ha hl
  rw [← e1] at hl
  have hlink : ∀ i, Ancestor par s.confirmedSlot i → info.slot ≤ i → s.finalizedSlot < i → parentAt s.processed i = some (par i) := by
    intro i h1 h2 h3
    obtain ⟨e, he, hpar⟩ := stream_linked ops (by omega) hp0 hr (k := i) (by omega) (hl i h1 h2 h3)
    simp [parentAt, he, hpar]
  have hcl : ∀ i, i ≤ s.finalizedSlot → stateAt s.processed i pk = none :=
    fun i hi => stream_cleared ops (by omega) hp0 hot hr (by omega) pk
  have hinfo := hp σ info .finalized (by simp)
  have hN : TrueIn par (noted s info s.finalizedSlot) := by
    unfold noted; split
    · exact trueIn_updateSlotInfo hg.links hinfo
    · exact hg.links
  have hst' : ∀ i, stateAt s'.processed i pk = if i ≤ info.slot then none else stateAt s.processed i pk := by
    intro i
    split
    · rename_i h; simp [stateAt, t3 i h]
    · rename_i h; simp only [stateAt]; rw [t4 i (by omega)]
  have hpa' : ∀ i, info.slot < i → parentAt s'.processed i = parentAt s.processed i := by
    intro i h; simp only [parentAt]; rw [t4 i h]
  -- what is found afterwards was found before
  have back : ∀ x k, NewestOn s'.processed pk s'.confirmedSlot x k → info.slot < k ∧ NewestOn s.processed pk s.confirmedSlot x k := by
    intro x k h
    have hk : info.slot < k := by
      have := newestOn_state h
      rw [hst'] at this
      split at this
      · simp at this
      · omega
    refine ⟨hk, ?_⟩
    rw [t1] at h
    refine newest_transfer hd hg'.links (f := info.slot + 1) hk (fun i _ hi => ⟨?_, fun p h => ?_⟩) h
    · rw [hst', if_neg (by omega)]
    · rw [← hpa' i (by omega)]; exact h
  rcases hq with ⟨x, k, t, h1, h2, rfl⟩ | ⟨h1, h2⟩
  · by_cases hk : info.slot < k
    · refine .inl ⟨x, k, t, ?_, h2, rfl⟩
      rw [t1]
      refine newest_transfer hd hg.links (f := info.slot + 1) hk (fun i _ hi => ⟨?_, fun p h => ?_⟩) h1
      · rw [hst', if_neg (by omega)]
      · rw [hpa' i (by omega)]; exact h
    · obtain ⟨g1, g2⟩ := newest_from hd hg.links ha (by omega) h1
      have hnew : NewestOn (noted s info s.finalizedSlot) pk info.slot x k := by
        refine newest_transfer hd hg.links (Nat.zero_le k) (fun i _ _ => ⟨stateAt_noted _ _ _ _ _, fun p h => ?_⟩) g1
        unfold noted; split
        · rw [parentAt_updateSlotInfo]
          split
          · rename_i hi
            rw [hi.1] at h
            rw [(hg.links _ _ h).1, hinfo.1]
          · exact h
        · exact h
      obtain ⟨t', ht', -, -, hst⟩ := f1 x k hnew
      rw [h2] at ht'; simp at ht'; subst ht'
      refine .inr ⟨fun y j hy => ?_, hst⟩
      obtain ⟨b1, b2⟩ := back y j hy
      have := newest_fun h1 b2
      omega
  · refine .inr ⟨fun x k h => h1 x k (back x k h).2, (f2 fun x k hx => ?_).trans h2⟩
    have hk : k ≤ info.slot := anc_le hd (newest_ancestor hN hx)
    have hkst := newestOn_state hx
    rw [stateAt_noted] at hkst
    have hflt : s.finalizedSlot < info.slot := by
      by_contra hc
      rw [hcl k (by omega)] at hkst
      simp at hkst
    -- the parent of the finalized slot was recorded before
    have hfs : NewestOn s.processed pk info.slot x k := by
      refine newest_transfer hd hN (Nat.zero_le k) (fun i _ _ => ⟨(stateAt_noted _ _ _ _ _).symm, fun p h => ?_⟩) hx
      have hpi := hN i p h
      unfold noted at h
      rw [if_pos hflt, parentAt_updateSlotInfo] at h
      split at h
      · rename_i hi
        rw [hi.1, hlink info.slot ha (Nat.le_refl _) hflt, ← hi.1, hpi.1]
      · exact h
    obtain ⟨y, j, hy⟩ := newest_extend ha (fun i hi h2 hne => by
      have := anc_le hd h2
      exact hlink i hi this (by omega)) hfs
    exact h1 y j hy

/-! ## All calls -/

/-- The conditions under which a listener is told everything. -/
structure Conds (X : Codecs) (par : Nat → Nat) (pk : Pubkey) (c : Commitment) (h h3 : List TOp) : Prop where
  len : (h ++ h3).length < 2 ^ 31
  le : ∀ i, par i ≤ i
  parents : TrueParents par (h ++ h3)
  only : OnlyToken X pk (h ++ h3)
  never : NeverClosed X pk (h ++ h3)
  twins : NoTwinClosed X pk (h ++ h3)
  mints : MintsStay X (h ++ h3)
  atOnce : NothingAtOnce pk h3
  turn : c = .confirmed → OnTime (h ++ h3) ∧ ChainRespected X par pk h h3 ∧ ConfirmedInTurn X h h3

theorem mintsStay_left {X : Codecs} {l l' : List TOp} (h : MintsStay X (l ++ l')) : MintsStay X l :=
  fun pre s hp hr i m hm o ho => h pre s (hp.trans (List.prefix_append l l')) hr i m hm o (by simp [ho])

theorem onTime_app {l l' : List TOp} (h : OnTime (l ++ l')) : OnTime l :=
  fun pre a c post e => h pre a c (post ++ l') (by simp [e])

theorem Conds.next {X : Codecs} {par : Nat → Nat} {pk : Pubkey} {c : Commitment} {h h3 : List TOp} {o : TOp}
    (H : Conds X par pk c h (o :: h3)) : Conds X par pk c (h ++ [o]) h3 := by
  have e : h ++ [o] ++ h3 = h ++ o :: h3 := by simp
  refine ⟨by rw [e]; exact H.len, H.le, by rw [e]; exact H.parents, by rw [e]; exact H.only, by rw [e]; exact H.never,
    by rw [e]; exact H.twins, by rw [e]; exact H.mints, fun o' ho' => H.atOnce o' (by simp [ho']), fun hc => ?_⟩
  obtain ⟨t1, t2, t3⟩ := H.turn hc
  refine ⟨by rw [e]; exact t1, ⟨?_, ?_, ?_⟩, ?_⟩
  · intro pre a d post hs
    have := t2.update (o :: pre) a d post (by simp [hs])
    simpa using this
  · intro pre σ info post hs
    have := t2.processed (o :: pre) σ info post (by simp [hs])
    simpa using this
  · intro pre σ info post hs
    have := t2.finalized (o :: pre) σ info post (by simp [hs])
    simpa using this
  · intro pre σ info post hs
    have := t3 (o :: pre) σ info post (by simp [hs])
    simpa using this

theorem Conds.good {X : Codecs} {par : Nat → Nat} {pk : Pubkey} {c : Commitment} {h h3 : List TOp} (H : Conds X par pk c h h3)
    {s : TokenStore} (hr : TokenStore.run X h .empty = .ok s) : Good par pk s :=
  good_of (by have := H.len; simp at this; omega) (fun σ info c hm => H.parents σ info c (by simp [hm]))
    (fun o ho => H.only o (by simp [ho])) (fun o ho => H.never o (by simp [ho])) hr

theorem run_next {X : Codecs} {h : List TOp} {o : TOp} {s s' : TokenStore} (hr : TokenStore.run X h .empty = .ok s)
    (hs : s.step X o = .ok s') : TokenStore.run X (h ++ [o]) .empty = .ok s' :=
  (storeRun_append _ _).2 ⟨s, hr, by simp [TokenStore.run, hs]⟩

/-- One submission. -/
theorem told_update {X : Codecs} {par : Nat → Nat} {pk : Pubkey} {c : Commitment} (hc : c ≠ .processed) {h h3 : List TOp} {o : TOp}
    {a : AccountData} {d : Commitment} (hod : o = .update a d ∨ (o = .init a ∧ d = .finalized))
    (H : Conds X par pk c h (o :: h3)) {s s' : TokenStore} {v : TokenHeard} (hr : TokenStore.run X h .empty = .ok s)
    (hs : s.step X o = .ok s') (hI : ∃ q, Cur c s pk q ∧ Knows s v pk q) : ∃ q, Cur c s' pk q ∧ Knows s' v pk q := by
  have hlen := H.len
  simp only [List.length_append, List.length_cons] at hlen
  have e : h ++ [o] ++ h3 = h ++ o :: h3 := by simp
  obtain ⟨q, h1, h2⟩ := hI
  have hf : ∀ σ info, o ≠ .slot σ info .finalized := by
    rintro σ info rfl
    rcases hod with h | ⟨h, -⟩ <;> simp at h
  have hst := stored_same (pk := pk) (by omega) (fun o' ho' => H.twins o' (by simp at ho' ⊢; rcases ho' with h | h <;> simp [h])) hr hs hf
    (H.atOnce o (by simp))
  refine ⟨q, ?_, knows_step (by omega) hr hs (mintsStay_left (l' := h3) (by rw [e]; exact H.mints)) h2⟩
  cases c with
  | processed => exact absurd rfl hc
  | finalized => exact hst.trans h1
  | confirmed =>
    have hg := H.good hr
    have hg' := H.next.good (run_next hr hs)
    obtain ⟨t1, t2, t3⟩ := H.turn rfl
    have hsl := (run_slots h (by omega) (fun σ info c hm => H.parents σ info c (by simp [hm])) hr).2
    have hup : ∃ b, s.updateAccount X a d = .ok (b, s') := by
      rcases hod with rfl | ⟨rfl, rfl⟩
      · simp only [TokenStore.step, Run.bind_eq_ok] at hs
        obtain ⟨⟨b, s1⟩, h1, hs⟩ := hs
        simp at hs; subst hs
        exact ⟨b, h1⟩
      · simp only [TokenStore.step, init_eq_update, Run.bind_eq_ok] at hs
        obtain ⟨⟨b, s1⟩, h1, hs⟩ := hs
        simp at hs; subst hs
        exact ⟨b, h1⟩
    obtain ⟨b, hup⟩ := hup
    refine cur_update H.le hg hg' hup ?_ hst h1
    intro hk
    rcases hod with rfl | ⟨rfl, rfl⟩
    · have := t2.update [] a d h3 (by simp) hk
      rw [hsl]; simpa using this
    · exact absurd hk (H.atOnce (.init a) (by simp) (by simp [AtOnce]) a rfl)

/-- One slot notification. -/
theorem told_slot {X : Codecs} {par : Nat → Nat} {pk : Pubkey} {c : Commitment} (hc : c ≠ .processed) {h h3 : List TOp} {σ : Orders}
    {info : SlotInfo} {d : Commitment} (H : Conds X par pk c h (.slot σ info d :: h3)) {s s' : TokenStore} {v : TokenHeard}
    {notes : List AccountData} (hr : TokenStore.run X h .empty = .ok s) (hs : s.processSlot σ info d = .ok (notes, s'))
    (hI : ∃ q, Cur c s pk q ∧ Knows s v pk q) :
    ∃ q, Cur c s' pk q ∧ Knows s' (if d = c then tokenLearn v notes else v) pk q := by
  have hlen := H.len
  simp only [List.length_append, List.length_cons] at hlen
  have e : h ++ [.slot σ info d] ++ h3 = h ++ .slot σ info d :: h3 := by simp
  obtain ⟨q, h1, h2⟩ := hI
  have hstep : s.step X (.slot σ info d) = .ok s' := by simp [TokenStore.step, hs]
  have hg := H.good hr
  have hg' := H.next.good (run_next hr hstep)
  have hw : NoTwinClosed X pk h := fun o' ho' => H.twins o' (by simp [ho'])
  have hp : TrueParents par (h ++ [.slot σ info d]) := fun σ' info' c' hm => H.parents σ' info' c' (by
    simp at hm ⊢
    rcases hm with hm | hm
    · exact .inl hm
    · exact .inr (.inl hm))
  have hm := mintsStay_left (l' := h3) (by rw [e]; exact H.mints)
  have hsl := (run_slots h (by omega) (parents_left hp) hr).2
  suffices hmain : ∃ q, Cur c s' pk q ∧ Knows s (if d = c then tokenLearn v notes else v) pk q by
    obtain ⟨q, a, b⟩ := hmain
    exact ⟨q, a, knows_step (by omega) hr hstep hm b⟩
  have hnf : d ≠ .finalized → s'.tokens.getByPubkey pk = s.tokens.getByPubkey pk := fun hd =>
    stored_same (pk := pk) (by omega) (fun o' ho' => H.twins o' (by simp at ho' ⊢; rcases ho' with h | h <;> simp [h])) hr hstep
      (by simpa using hd) (fun ha => absurd ha (by simp [AtOnce]))
  cases c with
  | processed => exact absurd rfl hc
  | finalized =>
    by_cases hd : d = .finalized
    · subst hd
      rw [if_pos rfl]
      exact told_final (by omega) hg hw hr hs h1 h2
    · rw [if_neg hd]
      exact ⟨q, (hnf hd).trans h1, h2⟩
  | confirmed =>
    obtain ⟨t1, t2, t3⟩ := H.turn rfl
    cases d with
    | processed =>
      rw [if_neg (by simp)]
      have := t2.processed [] σ info h3 (by simp)
      exact ⟨q, cur_processed H.le hg hg' hs (by rw [hsl]; simpa using this) h1, h2⟩
    | confirmed =>
      rw [if_pos rfl]
      obtain ⟨c1, c2, c3, c4⟩ := t3 [] σ info h3 (by simp)
      simp only [List.append_nil] at c1 c2 c3 c4
      exact told_confirmed H.le hg hg' hs (by rw [hsl]; exact c1) (by rw [hsl]; exact c2)
        (stream_known h (by omega) (parents_left hp) hr c3 c4) h1 h2
    | finalized =>
      rw [if_neg (by simp)]
      obtain ⟨c1, c2⟩ := t2.finalized [] σ info h3 (by simp)
      simp only [List.append_nil] at c1 c2
      exact ⟨q, cur_final (by omega) H.le hp (onTime_app t1) hg hg' hw hr hs c1 c2 h1, h2⟩

theorem listen_run {X : Codecs} {par : Nat → Nat} {pk : Pubkey} {c : Commitment} (hc : c ≠ .processed) (h3 : List TOp) {h : List TOp}
    {s s3 : TokenStore} {v v3 : TokenHeard} (H : Conds X par pk c h h3) (hr : TokenStore.run X h .empty = .ok s)
    (hl : tokenListen X c s v h3 = .ok (s3, v3)) (hI : ∃ q, Cur c s pk q ∧ Knows s v pk q) :
    Good par pk s3 ∧ ∃ q, Cur c s3 pk q ∧ Knows s3 v3 pk q := by
  induction h3 generalizing h s v with
  | nil =>
    simp [tokenListen] at hl
    obtain ⟨rfl, rfl⟩ := hl
    exact ⟨H.good hr, hI⟩
  | cons o h3 ih =>
    cases o with
    | update a d =>
      simp only [tokenListen, Run.bind_eq_ok] at hl
      obtain ⟨s', hs, hl⟩ := hl
      exact ih H.next (run_next hr hs) hl (told_update hc (.inl rfl) H hr hs hI)
    | init a =>
      simp only [tokenListen, Run.bind_eq_ok] at hl
      obtain ⟨s', hs, hl⟩ := hl
      exact ih H.next (run_next hr hs) hl (told_update hc (.inr ⟨rfl, rfl⟩) H hr hs hI)
    | slot σ info d =>
      simp only [tokenListen, Run.bind_eq_ok] at hl
      obtain ⟨⟨notes, s'⟩, hs, hl⟩ := hl
      exact ih H.next (run_next hr (by simp [TokenStore.step, hs])) hl (told_slot hc H hr hs hI)

end Listen
end LAM.Token
