import Verif.Lemmas.TokenStoreHist
import Verif.Spec.TokenSafe
/-!
# Stores whose token accounts all have a known mint
-/
namespace LAM.Token
open Spec ProcStore
open TokenStore (TOp addFinalized)

/-- Token accounts have the index of a mint in `M` and satisfy `P`, keys of `M` are not deleted. -/
def Safe (M : Pubkey → Prop) (ix : Pubkey → Nat) (P : Pubkey → Pubkey → Pubkey → Prop) : ProgramAccount → Prop
  | .token t => ∃ mint, M mint ∧ t.mint = ix mint ∧ P t.pubkey t.owner mint
  | .deleted pk => ¬ M pk
  | _ => True

/-- The mints `M` have the indexes `ix`, and every index has a mint. -/
structure Ready (M : Pubkey → Prop) (ix : Pubkey → Nat) (s : TokenStore) : Prop where
  known : ∀ pk, M pk → s.table.index.find pk = some (ix pk)
  full : ∀ pk i, s.table.index.find pk = some i → s.mints.find i ≠ none

variable {M : Pubkey → Prop} {ix : Pubkey → Nat} {P : Pubkey → Pubkey → Pubkey → Prop}

theorem Ready.congr {s s' : TokenStore} (h : Ready M ix s) (h1 : s'.table = s.table)
    (h2 : s'.mints = s.mints) : Ready M ix s' := by
  obtain ⟨a, c⟩ := h
  constructor <;> (simp only [h1, h2]; assumption)

theorem Ready.resolved {s : TokenStore} (h : Ready M ix s) {mint : Pubkey} (hi : M mint) :
    s.mints.find (ix mint) ≠ none := h.full mint _ (h.known mint hi)

theorem convertible {s : TokenStore} (h : Ready M ix s) {x : ProgramAccount}
    (hf : ProgFits x) (hx : Safe M ix P x) : Convertible s.mints x := by
  cases x with
  | token t =>
    obtain ⟨mint, h1, h2, -⟩ := hx
    right
    rw [h2]
    exact h.resolved h1
  | mint m => trivial
  | multisig m pk => exact hf.1
  | deleted pk => trivial

theorem ready_add {Q : ProgramAccount → Prop} {s s' : TokenStore} {slots orig : List TokenAccount}
    (hfin : Fin Q s slots orig) (h : Ready M ix s) {x : ProgramAccount} (hx : Safe M ix P x) (ha : s.addFinalized x = .ok s') :
    Ready M ix s' := by
  cases x with
  | token t =>
    simp only [addFinalized, Run.bind_eq_ok] at ha
    obtain ⟨⟨⟨i, b⟩, tk⟩, -, ha⟩ := ha
    cases b <;> · simp at ha; subst ha; exact h.congr rfl rfl
  | multisig m pk => simp only [addFinalized, Run.ok.injEq] at ha; subst ha; exact h.congr rfl rfl
  | mint m =>
    simp only [addFinalized] at ha
    cases hi : s.table.index.find m.pubkey with
    | some i =>
      rw [hi] at ha
      simp only [Run.ok.injEq] at ha; subst ha
      refine ⟨h.known, ?_⟩
      intro pk j hj
      simp only [AMap.find_insert]
      split
      · simp
      · exact h.full pk j hj
    | none =>
      rw [hi] at ha
      simp only [Run.ok.injEq] at ha; subst ha
      have hne : ∀ pk i, s.table.index.find pk = some i → m.pubkey ≠ pk := by
        rintro pk i h rfl; rw [hi] at h; simp at h
      refine ⟨?_, ?_⟩
      · intro pk hpk
        have h1 := h.known pk hpk
        simp [AMap.find_insert, hne _ _ h1, h1]
      · intro pk j hj
        simp only [AMap.find_insert] at hj ⊢
        split
        · simp
        · split at hj
          · simp at hj; rename_i h1 _; exact absurd hj h1
          · exact h.full pk j hj
  | deleted pk =>
    simp only [addFinalized] at ha
    cases hi : s.table.index.find pk with
    | none =>
      rw [hi] at ha
      simp only [Run.bind_eq_ok] at ha
      obtain ⟨tk, -, ha⟩ := ha
      simp at ha; subst ha; exact h.congr rfl rfl
    | some i =>
      rw [hi] at ha
      simp only [Run.ok.injEq] at ha; subst ha
      have hx : ¬ M pk := hx
      refine ⟨?_, ?_⟩
      · intro p hp
        simp only [AMap.find_erase]
        rw [if_neg (by rintro rfl; exact hx hp)]
        exact h.known p hp
      · intro p j hj
        simp only [AMap.find_erase] at hj ⊢
        split at hj
        · simp at hj
        · rename_i hne
          rw [if_neg (by rintro rfl; exact hne (hfin.idx_inj _ _ _ hi hj))]
          exact h.full p j hj

/-- Classification of a respectful submission does not panic, gives out no new index, and its result is safe. -/
theorem classify_ready {X : Codecs} {s : TokenStore} (h : Ready M ix s) {a : AccountData}
    (ha : Respects X M P a) : ∃ r, classify X s.table a = .ok (r, s.table) ∧ ∀ x, r = some x → Safe M ix P x := by
  obtain ⟨⟨bs, ⟨hd, hlen⟩, hmint⟩, hkept⟩ := ha
  have hget : ∀ sa, Spl.unpackAccount bs = some sa → ∃ i, s.table.getOrCreate sa.mint = (i, s.table) ∧
      ∃ mint, M mint ∧ i = ix mint ∧ P a.pubkey sa.owner mint := by
    intro sa hsa
    obtain ⟨g1, g2⟩ := hmint sa ((Spl.unpackAccount_iff _ _).1 hsa)
    exact ⟨ix sa.mint, by simp [MintTable.getOrCreate, h.known _ g1], sa.mint, g1, rfl, g2⟩
  have htail : ∀ b, (b = true → 165 ≤ bs.length) → ∃ e, tail165 bs b = .ok e := by
    intro b hb
    unfold tail165
    split
    · rename_i e
      have := hb e
      exact ⟨_, by simp [slice, this]; rfl⟩
    · exact ⟨_, rfl⟩
  unfold classify
  split
  · rename_i hdel
    refine ⟨_, rfl, ?_⟩
    rintro x hx; cases hx
    intro hM
    have := hkept hM
    rcases hdel with h1 | h1
    · exact this.1 h1
    · rcases this.2 with h2 | h2
      · exact h1.1 h2
      · exact h1.2 h2
  · rename_i hlive
    split
    · simp only [hd, Run.ok_bind, hlen]
      have hk : ∃ k, kind2022 bs.length bs = .ok k ∧ ∀ kd, k = some (kd, true) → 165 ≤ bs.length := by
        unfold kind2022
        split
        · exact ⟨_, rfl, by simp⟩
        split
        · exact ⟨_, rfl, by simp⟩
        split
        · exact ⟨_, rfl, by simp⟩
        split
        · rename_i hgt
          rw [List.getElem?_eq_getElem hgt]
          simp only
          split
          · exact ⟨_, rfl, fun _ _ => by omega⟩
          split
          · exact ⟨_, rfl, fun _ _ => by omega⟩
          · exact ⟨_, rfl, by simp⟩
        · exact ⟨_, rfl, by simp⟩
      obtain ⟨k, hk, hadd⟩ := hk
      rw [hk]
      simp only [Run.ok_bind]
      split
      · exact ⟨_, rfl, by simp⟩
      · rename_i b
        split
        · exact ⟨_, rfl, by simp⟩
        · obtain ⟨e, he⟩ := htail b (fun hb => hadd .mint (by rw [hb]))
          rw [he]
          exact ⟨_, rfl, by rintro x hx; cases hx; trivial⟩
      · rename_i b
        split
        · exact ⟨_, rfl, by simp⟩
        · rename_i sa hsa
          obtain ⟨e, he⟩ := htail b (fun hb => hadd .token (by rw [hb]))
          obtain ⟨i, hi, hI⟩ := hget sa hsa
          rw [hi, he]
          exact ⟨_, rfl, by rintro x hx; cases hx; exact hI⟩
      · split
        · exact ⟨_, rfl, by simp⟩
        · exact ⟨_, rfl, by rintro x hx; cases hx; trivial⟩
    · simp only [hd, Run.ok_bind]
      split
      · split
        · exact ⟨_, rfl, by simp⟩
        · exact ⟨_, rfl, by rintro x hx; cases hx; trivial⟩
      split
      · split
        · exact ⟨_, rfl, by simp⟩
        · rename_i sa hsa
          obtain ⟨i, hi, hI⟩ := hget sa hsa
          rw [hi]
          exact ⟨_, rfl, by rintro x hx; cases hx; exact hI⟩
      · split
        · exact ⟨_, rfl, by simp⟩
        · exact ⟨_, rfl, by rintro x hx; cases hx; trivial⟩

/-- Classification of data that decodes does not panic. -/
theorem classify_total {X : Codecs} (T : MintTable) {a : AccountData} {bs : Bytes} (ha : HonestData X a.account.data bs) :
    ∃ r, classify X T a = .ok r := by
  obtain ⟨hd, hlen⟩ := ha
  have htail : ∀ b, (b = true → 165 ≤ bs.length) → ∃ e, tail165 bs b = .ok e := by
    intro b hb
    unfold tail165
    split
    · rename_i e
      have := hb e
      exact ⟨_, by simp [slice, this]; rfl⟩
    · exact ⟨_, rfl⟩
  unfold classify
  split
  · exact ⟨_, rfl⟩
  · split
    · simp only [hd, Run.ok_bind, hlen]
      have hk : ∃ k, kind2022 bs.length bs = .ok k ∧ ∀ kd, k = some (kd, true) → 165 ≤ bs.length := by
        unfold kind2022
        split
        · exact ⟨_, rfl, by simp⟩
        split
        · exact ⟨_, rfl, by simp⟩
        split
        · exact ⟨_, rfl, by simp⟩
        split
        · rename_i hgt
          rw [List.getElem?_eq_getElem hgt]
          simp only
          split
          · exact ⟨_, rfl, fun _ _ => by omega⟩
          split
          · exact ⟨_, rfl, fun _ _ => by omega⟩
          · exact ⟨_, rfl, by simp⟩
        · exact ⟨_, rfl, by simp⟩
      obtain ⟨k, hk, hadd⟩ := hk
      rw [hk]
      simp only [Run.ok_bind]
      split
      · exact ⟨_, rfl⟩
      · rename_i b
        split
        · exact ⟨_, rfl⟩
        · obtain ⟨e, he⟩ := htail b (fun hb => hadd .mint (by rw [hb]))
          rw [he]
          exact ⟨_, rfl⟩
      · rename_i b
        split
        · exact ⟨_, rfl⟩
        · obtain ⟨e, he⟩ := htail b (fun hb => hadd .token (by rw [hb]))
          rw [he]
          exact ⟨_, rfl⟩
      · split <;> exact ⟨_, rfl⟩
    · simp only [hd, Run.ok_bind]
      split
      · split <;> exact ⟨_, rfl⟩
      split
      · split <;> exact ⟨_, rfl⟩
      · split <;> exact ⟨_, rfl⟩

theorem contains_ok {s : TokenStorage} {slots : List TokenAccount} (h : Holds s slots) (pk : Pubkey) : ∃ r, s.contains pk = .ok r := by
  unfold TokenStorage.contains
  split
  · rename_i is his
    split
    · rcases firstMatch_spec h pk is (fun i hi => by obtain ⟨t, ht, -⟩ := (h.bucket _ _ his).2 i hi; exact ⟨t, ht⟩) with
        ⟨i, -, t, -, -, h1⟩ | ⟨-, h1⟩
      · exact ⟨_, h1⟩
      · exact ⟨_, h1⟩
    · cases is with
      | nil => exact absurd rfl (h.bucket _ _ his).1
      | cons i is => exact ⟨_, rfl⟩
  · exact ⟨_, rfl⟩

theorem isToken_ok {Q : ProgramAccount → Prop} {s : TokenStore} {slots orig : List TokenAccount} (h : Fin Q s slots orig)
    (a : AccountData) : ∃ b, s.isTokenAccount a = .ok b := by
  unfold TokenStore.isTokenAccount
  split
  · exact ⟨_, rfl⟩
  · obtain ⟨r, hr⟩ := contains_ok h.holds a.pubkey
    exact ⟨_, by rw [hr]; rfl⟩

theorem addAll_ready (l : List (Processed × Nat)) {s : TokenStore}
    {slots orig : List TokenAccount} (h : Fin (Safe M ix P) s slots orig) (hr : Ready M ix s)
    (hl : ∀ e ∈ l, ProgFits e.1.account ∧ Safe M ix P e.1.account ∧ MintBelow s.table.counter e.1.account)
    (hlen : slots.length + l.length < 2 ^ 32) (hc : s.table.counter + l.length < 2 ^ 32) :
    ∃ s', TokenStore.addAll l s = .ok s' ∧ Ready M ix s' := by
  induction l generalizing s slots orig with
  | nil => exact ⟨s, rfl, hr⟩
  | cons a l ih =>
    simp only [List.length_cons] at hlen hc
    obtain ⟨g1, g2, g3⟩ := hl a (by simp)
    obtain ⟨s1, slots1, orig1, b1, b2, b3, b4, b5, -⟩ := add_fin h g1 g2 g3 (by omega) (by omega)
    obtain ⟨s', c1, c2⟩ := ih b2 (ready_add h hr g2 b1)
      (fun e he => ⟨(hl e (by simp [he])).1, (hl e (by simp [he])).2.1, (hl e (by simp [he])).2.2.mono b4⟩) (by omega) (by omega)
    exact ⟨s', by simp [TokenStore.addAll, b1, c1], c2⟩

theorem update_ready {X : Codecs} {n : Nat} {s : TokenStore} {slots orig : List TokenAccount}
    {a : AccountData} (h : Inv (Safe M ix P) n s slots orig) (hn : n < 2 ^ 31 - 1) (hr : Ready M ix s) (ha : Respects X M P a)
    (c : Commitment) : ∃ b s', s.updateAccount X a c = .ok (b, s') ∧ Ready M ix s' := by
  have hb := h.bound
  have hcb := h.cbound
  obtain ⟨b, h1⟩ := isToken_ok h.fin a
  obtain ⟨r, h2, h3⟩ := classify_ready hr ha
  unfold TokenStore.updateAccount
  rw [h1]
  simp only [Run.ok_bind]
  cases b with
  | false => exact ⟨_, s, rfl, hr⟩
  | true =>
    simp only [Bool.not_true, Bool.false_eq_true, if_false, h2, Run.ok_bind]
    obtain ⟨-, -, -, -, h5, -⟩ := classify_inv h.fin (by omega) (fun x T' hx => h3 x (by rw [h2] at hx; cases hx; rfl)) h2
    cases r with
    | none => exact ⟨_, _, rfl, hr.congr rfl rfl⟩
    | some x =>
      obtain ⟨-, hw⟩ := h5 x rfl
      simp only
      split
      · exact ⟨_, _, rfl, hr.congr rfl rfl⟩
      · obtain ⟨s1, slots1, orig1, b1, -⟩ := add_fin h.fin hw.1 hw.2.1 hw.2.2 (by omega) (by omega)
        have e : ({ s with table := s.table } : TokenStore) = s := rfl
        rw [e, b1]
        exact ⟨_, s1, rfl, ready_add h.fin hr hw.2.1 b1⟩

/-- Updates with data that decodes do not panic. -/
theorem update_total {X : Codecs} {n : Nat} {s : TokenStore} {slots orig : List TokenAccount} {a : AccountData} {bs : Bytes}
    (h : Inv (fun _ => True) n s slots orig) (hn : n < 2 ^ 31 - 1) (ha : HonestData X a.account.data bs) (c : Commitment) :
    ∃ r, s.updateAccount X a c = .ok r := by
  have hb := h.bound
  have hcb := h.cbound
  obtain ⟨b, h1⟩ := isToken_ok h.fin a
  obtain ⟨⟨r, T'⟩, h2⟩ := classify_total s.table ha
  unfold TokenStore.updateAccount
  rw [h1]
  simp only [Run.ok_bind]
  cases b with
  | false => exact ⟨_, rfl⟩
  | true =>
    simp only [Bool.not_true, Bool.false_eq_true, if_false, h2, Run.ok_bind]
    obtain ⟨g1, g2, g3, -, h5, -⟩ := classify_inv h.fin (by omega) (fun x T' hx => trivial) h2
    cases r with
    | none => exact ⟨_, rfl⟩
    | some x =>
      obtain ⟨-, hw⟩ := h5 x rfl
      simp only
      split
      · exact ⟨_, rfl⟩
      · obtain ⟨s1, slots1, orig1, b1, -⟩ := add_fin g1 hw.1 hw.2.1 hw.2.2 (by omega) (by simp only; omega)
        rw [b1]
        exact ⟨_, rfl⟩

theorem updates_total {X : Codecs} (ops : List TOp) {n : Nat} {s : TokenStore} {slots orig : List TokenAccount}
    (h : Inv (fun _ => True) n s slots orig) (hn : n + ops.length < 2 ^ 31) (hu : ∀ σ i c, TOp.slot σ i c ∉ ops)
    (hd : ∀ o ∈ ops, ∀ a, o.account = some a → ∃ bs, HonestData X a.account.data bs) :
    ∃ s', TokenStore.run X ops s = .ok s' := by
  induction ops generalizing s slots orig n with
  | nil => exact ⟨s, rfl⟩
  | cons o os ih =>
    simp only [List.length_cons] at hn
    have h1 : ∃ s', s.step X o = .ok s' := by
      cases o with
      | update a c =>
        obtain ⟨bs, hbs⟩ := hd _ List.mem_cons_self a rfl
        obtain ⟨r, hr⟩ := update_total h (by omega) hbs c
        exact ⟨r.2, by simp only [TokenStore.step, hr]; rfl⟩
      | init a =>
        obtain ⟨bs, hbs⟩ := hd _ List.mem_cons_self a rfl
        obtain ⟨r, hr⟩ := update_total h (by omega) hbs .finalized
        exact ⟨r.2, by simp only [TokenStore.step, init_eq_update, hr]; rfl⟩
      | slot σ i c => exact absurd (by simp) (hu σ i c)
    obtain ⟨s1, h1⟩ := h1
    obtain ⟨slots1, orig1, h2⟩ := step_inv h (by omega) (fun _ _ _ _ _ => trivial) h1
    obtain ⟨s', h3⟩ := ih h2 (by omega) (fun σ i c hm => hu σ i c (by simp [hm])) (fun o ho => hd o (by simp [ho]))
    exact ⟨s', by simp [TokenStore.run, h1, h3]⟩

theorem slot_ready {n : Nat} {s : TokenStore} {slots orig : List TokenAccount}
    (h : Inv (Safe M ix P) n s slots orig) (hn : n < 2 ^ 31 - 1) (hr : Ready M ix s) (σ : Orders) (info : SlotInfo)
    (c : Commitment) : ∃ l s', s.processSlot σ info c = .ok (l, s') ∧ Ready M ix s' := by
  have hb := h.bound
  have hcb := h.cbound
  cases c with
  | processed => exact ⟨_, _, rfl, hr.congr rfl rfl⟩
  | confirmed =>
    simp only [TokenStore.processSlot]
    generalize hs0 : (if s.confirmedSlot < info.slot then
        { s with confirmedSlot := info.slot, processed := s.processed.updateSlotInfo info } else s) = s0
    have hr0 : Ready M ix s0 := by rw [← hs0]; split <;> exact hr.congr rfl rfl
    have hp0 : ProcOk (Waiting (Safe M ix P) s.table.counter) s0.processed := by
      rw [← hs0]; split
      · exact (h.proc.updateSlotInfo info).1
      · exact h.proc
    unfold ProcStore.getProcessedForSlot
    cases hf : BMap.find s0.processed info.slot with
    | none => exact ⟨_, _, rfl, hr0.congr rfl rfl⟩
    | some e =>
      obtain ⟨r, hc⟩ := toSolanaAll_ok (mints := s0.mints) (e.accounts.map (fun x => (x.2, info.slot))) (by
        intro y hy
        obtain ⟨⟨pk, x⟩, hx, rfl⟩ := List.mem_map.1 hy
        have := hp0.good _ _ _ _ hf (AMap.find_of_mem (hp0.distinct _ _ hf) hx)
        exact convertible hr0 this.1 this.2.1)
      simp only [hc, Run.ok_bind]
      exact ⟨_, _, rfl, hr0.congr rfl rfl⟩
  | finalized =>
    simp only [TokenStore.processSlot]
    generalize hs0 : (if s.finalizedSlot < info.slot then
        { s with finalizedSlot := info.slot, processed := s.processed.updateSlotInfo info } else s) = s0
    have hr0 : Ready M ix s0 := by rw [← hs0]; split <;> exact hr.congr rfl rfl
    have hf0 : Fin (Safe M ix P) s0 slots orig := by
      rw [← hs0]; split
      · exact h.fin.congr rfl rfl rfl rfl rfl rfl
      · exact h.fin
    have ht0 : s0.table = s.table := by rw [← hs0]; split <;> rfl
    have hp0 : ProcOk (Waiting (Safe M ix P) s.table.counter) s0.processed ∧ pending s0.processed = pending s.processed := by
      rw [← hs0]; split
      · exact h.proc.updateSlotInfo info
      · exact ⟨h.proc, rfl⟩
    obtain ⟨P', l, z1, -, z3, z4, -⟩ := finalize_spec hp0.1 info.slot
    have hgood : ∀ e ∈ σ.final l, Waiting (Safe M ix P) s.table.counter e.1.account := by
      rintro ⟨x, k⟩ he
      exact (newest_good hp0.1 ((z4 x k).1 ((σ.final_perm l).mem_iff.1 he))).2
    have hlen : (σ.final l).length = l.length := (σ.final_perm l).length_eq
    have hr1 : Ready M ix { s0 with processed := P' } := hr0.congr rfl rfl
    have hf1 : Fin (Safe M ix P) { s0 with processed := P' } slots orig := hf0.congr rfl rfl rfl rfl rfl rfl
    obtain ⟨r, hc⟩ := toSolanaAll_ok (mints := s0.mints) (σ.final l) (fun e he => convertible hr0 (hgood e he).1 (hgood e he).2.1)
    obtain ⟨s', ha, hr'⟩ := addAll_ready (σ.final l) hf1 hr1 (fun e he => by
      have := hgood e he
      rw [← ht0] at this
      exact this) (by omega) (by simp only [ht0]; omega)
    simp only [z1, Run.ok_bind, hc, ha]
    exact ⟨_, _, rfl, hr'⟩

theorem step_ready {X : Codecs} {n : Nat} {s : TokenStore} {slots orig : List TokenAccount}
    {o : TOp} (h : Inv (Safe M ix P) n s slots orig) (hn : n < 2 ^ 31 - 1) (hr : Ready M ix s)
    (ho : ∀ a, o.account = some a → Respects X M P a) :
    ∃ s' slots' orig', s.step X o = .ok s' ∧ Ready M ix s' ∧ Inv (Safe M ix P) (n + 1) s' slots' orig' := by
  have : ∃ s', s.step X o = .ok s' ∧ Ready M ix s' := by
    cases o with
    | update a c =>
      obtain ⟨b, s', h1, h2⟩ := update_ready h hn hr (ho a rfl) c
      exact ⟨s', by simp only [TokenStore.step, h1]; rfl, h2⟩
    | init a =>
      obtain ⟨b, s', h1, h2⟩ := update_ready h hn hr (ho a rfl) .finalized
      exact ⟨s', by simp only [TokenStore.step, init_eq_update, h1]; rfl, h2⟩
    | slot σ info c =>
      obtain ⟨l, s', h1, h2⟩ := slot_ready h hn hr σ info c
      exact ⟨s', by simp only [TokenStore.step, h1]; rfl, h2⟩
  obtain ⟨s', h1, h2⟩ := this
  obtain ⟨slots', orig', h3⟩ := step_inv h hn (fun a ha x T' hx => by
    obtain ⟨r, g1, g2⟩ := classify_ready hr (ho a ha)
    rw [g1] at hx; cases hx; exact g2 x rfl) h1
  exact ⟨s', slots', orig', h1, h2, h3⟩

theorem run_ready {X : Codecs} (ops : List TOp) {n : Nat} {s : TokenStore}
    {slots orig : List TokenAccount} (h : Inv (Safe M ix P) n s slots orig) (hn : n + ops.length < 2 ^ 31) (hr : Ready M ix s)
    (ho : ∀ o ∈ ops, ∀ a, o.account = some a → Respects X M P a) :
    ∃ s' slots' orig', TokenStore.run X ops s = .ok s' ∧ Ready M ix s' ∧ Inv (Safe M ix P) (n + ops.length) s' slots' orig' := by
  induction ops generalizing s slots orig n with
  | nil => exact ⟨s, slots, orig, rfl, hr, h⟩
  | cons o os ih =>
    simp only [List.length_cons] at hn
    obtain ⟨s1, slots1, orig1, h1, h2, h3⟩ := step_ready h (by omega) hr (ho o (by simp))
    obtain ⟨s', slots', orig', h4, h5, h6⟩ := ih h3 (by omega) h2 (fun o h => ho o (by simp [h]))
    exact ⟨s', slots', orig', by simp [TokenStore.run, h1, h4], h5, h6.mono (by simp; omega)⟩

/-! ## Loading mints first -/

theorem load_mint {X : Codecs} {n : Nat} {s : TokenStore} (h : Inv (fun _ => True) n s [] []) (hn : n < 2 ^ 31 - 1)
    (hp : s.processed = []) (hfull : ∀ pk i, s.table.index.find pk = some i → s.mints.find i ≠ none) {a : AccountData}
    (ha : IsMintAccount X a) :
    ∃ s', s.initAccount X a = .ok s' ∧ Inv (fun _ => True) (n + 1) s' [] [] ∧ s'.processed = [] ∧
      (∀ pk i, s'.table.index.find pk = some i → s'.mints.find i ≠ none) ∧
      ∀ pk, s'.table.index.find pk ≠ none ↔ (s.table.index.find pk ≠ none ∨ pk = a.pubkey) := by
  have hb := h.bound
  have hcb := h.cbound
  obtain ⟨p, bs, sm, ho, hd, hl⟩ := ha
  obtain ⟨T, hT⟩ := (Props.C46_mint_iff X s.table a p bs ho hd (mintOf a p sm none)).2 ⟨rfl, rfl, sm, hl, by constructor <;> rfl⟩
  have hT' : T = s.table := by
    obtain ⟨-, h, -⟩ := classify_some hT
    rcases h with ⟨h, -⟩ | ⟨t, mint, h, -⟩
    · exact h
    · simp at h
  subst hT'
  obtain ⟨s', i, e1, e2, e3, e3', -, -, e6, -, -, -, e10, e11⟩ := add_mint h.fin (mintOf a p sm none) (by omega)
  have hs : s.initAccount X a = .ok s' := by
    rw [init_eq_update, update_finalized ho hT]
    have e : ({ s with table := s.table } : TokenStore) = s := rfl
    rw [e, e1]; rfl
  refine ⟨s', hs, ⟨e2, ?_, ?_, ?_⟩, by rw [e6, hp], ?_, ?_⟩
  · rw [e6, hp]; exact procOk_nil _
  · rw [e6, hp]; simp [pending]
  · rw [e6, hp]; rw [hp] at hcb; simp [pending] at hcb ⊢; omega
  · intro pk j hj
    rw [e11]
    split
    · simp
    · rename_i hne
      rw [e10] at hj
      split at hj
      · simp at hj; exact absurd hj hne
      · exact hfull pk j hj
  · intro pk
    rw [e10]
    split
    · rename_i e
      have e : a.pubkey = pk := e
      simp [e]
    · rename_i e
      have e : a.pubkey ≠ pk := e
      simp [Ne.symm e]

theorem load_mints {X : Codecs} (loads : List AccountData) {n : Nat} {s : TokenStore} (h : Inv (fun _ => True) n s [] [])
    (hn : n + loads.length < 2 ^ 31) (hp : s.processed = [])
    (hfull : ∀ pk i, s.table.index.find pk = some i → s.mints.find i ≠ none) (ha : ∀ a ∈ loads, IsMintAccount X a) :
    ∃ s', TokenStore.run X (loads.map TOp.init) s = .ok s' ∧ Inv (fun _ => True) (n + loads.length) s' [] [] ∧ s'.processed = [] ∧
      (∀ pk i, s'.table.index.find pk = some i → s'.mints.find i ≠ none) ∧
      ∀ pk, s'.table.index.find pk ≠ none ↔ (s.table.index.find pk ≠ none ∨ ∃ a ∈ loads, a.pubkey = pk) := by
  induction loads generalizing s n with
  | nil => exact ⟨s, rfl, h, hp, hfull, by simp⟩
  | cons a l ih =>
    simp only [List.length_cons] at hn
    obtain ⟨s1, g1, g2, g3, g4, g5⟩ := load_mint h (by omega) hp hfull (ha a (by simp))
    obtain ⟨s', k1, k2, k3, k4, k5⟩ := ih g2 (by omega) g3 g4 (fun b hb => ha b (by simp [hb]))
    refine ⟨s', ?_, k2.mono (by simp; omega), k3, k4, ?_⟩
    · simp only [List.map_cons, TokenStore.run, TokenStore.step, g1, Run.ok_bind, k1]
    · intro pk
      rw [k5, g5]
      simp only [List.mem_cons, exists_eq_or_imp, or_assoc, eq_comm (a := pk)]

/-- A store into which mints were loaded first and to which only respectful calls were made. -/
theorem loaded_ready {X : Codecs} (P : Pubkey → Pubkey → Pubkey → Prop) (loads : List AccountData) (ops : List TOp)
    (hn : loads.length + ops.length < 2 ^ 31) (ha : ∀ a ∈ loads, IsMintAccount X a)
    (ho : ∀ o ∈ ops, ∀ a, o.account = some a → Respects X (fun pk => ∃ a ∈ loads, a.pubkey = pk) P a) :
    ∃ s ix slots orig, TokenStore.run X (loads.map TOp.init ++ ops) .empty = .ok s ∧
      Ready (fun pk => ∃ a ∈ loads, a.pubkey = pk) ix s ∧
      Inv (Safe (fun pk => ∃ a ∈ loads, a.pubkey = pk) ix P) (loads.length + ops.length) s slots orig := by
  obtain ⟨s1, k1, k2, k3, k4, k5⟩ := load_mints loads (inv_empty (fun _ => True)) (by omega) rfl (by simp [TokenStore.empty]) ha
  let M : Pubkey → Prop := fun pk => ∃ a ∈ loads, a.pubkey = pk
  let ix : Pubkey → Nat := fun pk => (s1.table.index.find pk).getD 0
  have hr : Ready M ix s1 := by
    refine ⟨?_, k4⟩
    intro pk hpk
    have := (k5 pk).2 (.inr hpk)
    obtain ⟨i, hi⟩ := Option.ne_none_iff_exists'.1 this
    simp [ix, hi]
  have hfin : Fin (Safe M ix P) s1 [] [] := by
    have h := k2.fin
    exact ⟨h.holds, h.idx_lt, h.idx_inj, h.mints_idx, h.mints_distinct, h.multis, h.live, by simp, rfl, by simp, by simp,
      by simp, by simp, h.mint_only, h.last, h.multis_distinct, by simp⟩
  have hinv : Inv (Safe M ix P) (0 + loads.length) s1 [] [] := by
    refine ⟨hfin, ?_, k2.bound, k2.cbound⟩
    rw [k3]; exact procOk_nil _
  obtain ⟨s, slots, orig, h1, h2, h3⟩ := run_ready ops hinv (by omega) hr ho
  exact ⟨s, ix, slots, orig, (storeRun_append _ _).2 ⟨s1, k1, h1⟩, h2, h3.mono (by omega)⟩

/-! ## Reads do not panic -/

theorem getFinalized_ready {s : TokenStore} {slots orig : List TokenAccount}
    (h : Fin (Safe M ix P) s slots orig) (hr : Ready M ix s) (pk : Pubkey) : ∃ r, s.getFinalized pk = .ok r := by
  obtain ⟨h1, h2, -, h4, h5⟩ := getFinalized_eq h pk
  cases hm : (recOf s slots pk).multi with
  | some m => obtain ⟨r, hr, -⟩ := h1 m hm; exact ⟨_, hr⟩
  | none =>
    cases hn : (recOf s slots pk).mint with
    | some m =>
      cases m with
      | some m => exact ⟨_, h2 hm m hn⟩
      | none =>
        simp only [recOf, Option.map_eq_some_iff] at hn
        obtain ⟨i, hi, hn⟩ := hn
        exact absurd hn (hr.full pk i hi)
    | none =>
      cases ht : (recOf s slots pk).token with
      | none => exact ⟨_, h5 hm hn ht⟩
      | some t =>
        obtain ⟨g1, g2⟩ := h4 hm hn t ht
        rw [g1]
        have : Safe M ix P (.token t) := by
          simp only [recOf] at ht
          obtain ⟨-, i, is, -, -, hi⟩ := (view_eq_some h.holds).1 ht
          rcases h.slotsQ t (List.mem_of_getElem? hi) with rfl | ⟨hq, -⟩
          · simp [TokenStorage.tombstone] at g2
          · exact hq
        obtain ⟨mint, q1, q2, -⟩ := this
        have q3 := hr.resolved q1
        rw [← q2] at q3
        obtain ⟨m, hm⟩ := Option.ne_none_iff_exists'.1 q3
        exact ⟨_, tokenToSolana_ok g2 hm _ _⟩

theorem newest_waiting {Q : ProgramAccount → Prop} {P : ProcStore} (h : ProcOk Q P) {pk : Pubkey} {c : Commitment} {n : Nat}
    {x : Processed} {k : Nat} (hx : Newest P pk c n x k) : x.account.pubkey = pk ∧ Q x.account := by
  cases c with
  | processed =>
    rcases hx with ⟨-, ⟨e, h1, h2⟩, -⟩ | ⟨-, hx⟩
    · exact ⟨h.key _ _ _ _ h1 h2, h.good _ _ _ _ h1 h2⟩
    · exact newest_good h hx
  | confirmed => exact newest_good h hx
  | finalized => exact hx.elim

theorem getAccounts_no_panic (P : ProcStore) (pks : List Pubkey) {c : Commitment} (hc : c ≠ .finalized) (n : Nat) :
    P.getAccounts pks c n ≠ .panic := by
  cases c with
  | processed =>
    simp only [ProcStore.getAccounts]
    generalize List.replicate pks.length none = ret
    generalize hl : List.reverse P = l
    clear hl
    induction l generalizing ret with
    | nil => simp [getProcessed]
    | cons a l ih =>
      simp only [getProcessed]
      split
      · split
        · simp
        · exact ih _
      · exact getConfirmed_no_panic _ _ _ _ _
  | confirmed => exact getConfirmed_no_panic _ _ _ _ _
  | finalized => exact absurd rfl hc

theorem getAccount_ready {n : Nat} {s : TokenStore} {slots orig : List TokenAccount}
    (h : Inv (Safe M ix P) n s slots orig) (hr : Ready M ix s) (pk : Pubkey) (c : Commitment) : s.getAccount pk c ≠ .panic := by
  obtain ⟨r0, h0⟩ := getFinalized_ready h.fin hr pk
  by_cases hc : c = .finalized
  · simp [TokenStore.getAccount, hc, h0]
  · cases hg : s.processed.getAccounts [pk] c s.confirmedSlot with
    | panic => exact absurd hg (getAccounts_no_panic _ _ hc _)
    | diverge => simp [TokenStore.getAccount, hc, hg]
    | ok r =>
      obtain ⟨h1, h2⟩ := getAccount_eq h.proc.sorted pk hc hg
      by_cases hx : ∃ x k, Newest s.processed pk c s.confirmedSlot x k
      · obtain ⟨x, k, hx⟩ := hx
        rw [h1 x k hx]
        have := (newest_waiting h.proc hx).2
        obtain ⟨r, hr⟩ := toSolana_ok (convertible hr this.1 this.2.1) k 0
        rw [hr]; simp
      · rw [h2 (fun x k h => hx ⟨x, k, h⟩), h0]; simp

theorem tokensToSolana_ready {s : TokenStore} (hr : Ready M ix s) (slot : Nat) (l : List TokenAccount)
    (hl : ∀ t ∈ l, t.isDeleted = true ∨ ∃ mint, M mint ∧ t.mint = ix mint) : ∃ r, TokenStore.tokensToSolana s.mints slot l = .ok r := by
  induction l with
  | nil => exact ⟨_, rfl⟩
  | cons t l ih =>
    obtain ⟨rs, h1⟩ := ih (fun u hu => hl u (by simp [hu]))
    obtain ⟨r, h2⟩ := toSolana_ok (mints := s.mints) (x := .token t) (by
      rcases hl t (by simp) with h | h
      · exact .inl h
      · obtain ⟨mint, q1, q2⟩ := h
        right
        rw [q2]
        exact hr.resolved q1) slot 0
    simp only [ProgramAccount.toSolana] at h2
    exact ⟨_, by simp only [TokenStore.tokensToSolana, h2, h1, Run.ok_bind]; rfl⟩

/-- The stored accounts at some positions. -/
theorem getByIndex_eq {s : TokenStorage} {slots : List TokenAccount} (h : Holds s slots) (l : List Nat) :
    s.getByIndex l = .ok (l.filterMap (fun i => slots[i]?)) := by
  unfold TokenStorage.getByIndex
  induction l with
  | nil => rfl
  | cons i l ih =>
    simp only [List.filterMap_cons, h.accounts, List.getElem?_map] at ih ⊢
    cases hi : slots[i]? with
    | none => simpa using ih
    | some t =>
      simp only [Option.map_some, mapRun]
      rw [fromBytes_toBytes (h.fits t (List.mem_of_getElem? hi)), ih]
      rfl

theorem filterRun_total {f : α → Run Bool} (l : List α) (h : ∀ x ∈ l, ∃ b, f x = .ok b) : ∃ r, TokenStorage.filterRun f l = .ok r := by
  induction l with
  | nil => exact ⟨_, rfl⟩
  | cons a l ih =>
    obtain ⟨b, h1⟩ := h a (by simp)
    obtain ⟨r, h2⟩ := ih (fun x hx => h x (by simp [hx]))
    exact ⟨_, by simp only [TokenStorage.filterRun, h1, h2, Run.ok_bind]; rfl⟩

theorem allM_total {f : α → Run Bool} (l : List α) (h : ∀ x ∈ l, ∃ b, f x = .ok b) : ∃ r, Run.allM f l = .ok r := by
  induction l with
  | nil => exact ⟨_, rfl⟩
  | cons a l ih =>
    obtain ⟨b, h1⟩ := h a (by simp)
    obtain ⟨r, h2⟩ := ih (fun x hx => h x (by simp [hx]))
    simp only [Run.allM, h1, Run.ok_bind]
    cases b
    · exact ⟨_, rfl⟩
    · exact ⟨r, by simpa using h2⟩

theorem slots_safe {s : TokenStore} {slots orig : List TokenAccount}
    (h : Fin (Safe M ix P) s slots orig) {t : TokenAccount} (ht : t ∈ slots) : t.isDeleted = true ∨ ∃ mint, M mint ∧ t.mint = ix mint := by
  rcases h.slotsQ t ht with rfl | ⟨hq, -⟩
  · exact .inl rfl
  · obtain ⟨mint, q1, q2, -⟩ := hq
    exact .inr ⟨mint, q1, q2⟩

theorem gpaFinalized_ready {X : Codecs} {s : TokenStore} {slots orig : List TokenAccount}
    (h : Fin (Safe M ix P) s slots orig) (hr : Ready M ix s) (σ : Orders) (program : Pubkey) (filters : Option (List AccountFilterType))
    (hw : ∀ l, filters = some l → (∀ f ∈ l, ∀ d, ∃ b, f.allows X d = .ok b) ∧
      ∀ owner mint, ownerMintFilter program l = (some owner, some mint) → s.table.index.find mint ≠ none) :
    ∃ r, s.gpaFinalized X σ program filters = .ok r := by
  unfold TokenStore.gpaFinalized
  cases filters with
  | none => exact ⟨_, rfl⟩
  | some l =>
    obtain ⟨hw1, hw2⟩ := hw l rfl
    have hsub : ∀ (is : List Nat) t, t ∈ is.filterMap (fun i => slots[i]?) → t.isDeleted = true ∨ ∃ mint, M mint ∧ t.mint = ix mint := by
      intro is t ht
      obtain ⟨i, -, hi⟩ := List.mem_filterMap.1 ht
      exact slots_safe h (List.mem_of_getElem? hi)
    simp only
    split
    · rename_i owner mint hom
      have hrest : ∀ mi : Option Nat, ∃ r, (match s.byOwner.find (prefix4 owner) with
          | some l => do
            let ts ← s.tokens.getByIndex (σ.set l)
            let ts := ts.filter (fun t => match mi with
              | some i => t.mint = i && t.owner = owner
              | none => t.owner = owner)
            return .ok (← TokenStore.tokensToSolana s.mints s.finalizedSlot ts)
          | none => return .ok [] : Run (Except LoadError (List AccountData))) = .ok r := by
        intro mi
        split
        · rename_i is _
          rw [getByIndex_eq h.holds]
          simp only [Run.ok_bind]
          obtain ⟨r, hts⟩ := tokensToSolana_ready hr s.finalizedSlot ((List.filterMap (fun i => slots[i]?) (σ.set is)).filter
            (fun t => match mi with
              | some i => t.mint = i && t.owner = owner
              | none => t.owner = owner)) (fun t ht => hsub _ t (List.mem_of_mem_filter ht))
          rw [hts]
          exact ⟨_, rfl⟩
        · exact ⟨_, rfl⟩
      cases mint with
      | none => exact hrest none
      | some pk =>
        obtain ⟨i, hi⟩ := Option.ne_none_iff_exists'.1 (hw2 owner pk hom)
        simp only [hi, Run.unwrap_some]
        exact hrest (some i)
    · split
      · split
        · rw [getByIndex_eq h.holds]
          simp only [Run.ok_bind]
          obtain ⟨r, hts⟩ := tokensToSolana_ready hr s.finalizedSlot _ (hsub _)
          rw [hts]
          exact ⟨_, rfl⟩
        · exact ⟨_, rfl⟩
      · exact ⟨_, rfl⟩
    · split
      · obtain ⟨r, hf⟩ := filterRun_total (f := fun a : AccountData => do
            let d ← a.account.data.data X
            Run.allM (fun f => f.allows X d) l) (s.mints.map (fun e => mintToSolana e.2 s.finalizedSlot 0)) (by
          intro a ha
          obtain ⟨e, -, rfl⟩ := List.mem_map.1 ha
          obtain ⟨b, hb⟩ := allM_total (f := fun f => f.allows X (mintBytes e.2)) l (fun f hf => hw1 f hf _)
          exact ⟨b, hb⟩)
        simp only [hf, Run.ok_bind]
        exact ⟨_, rfl⟩
      · exact ⟨_, rfl⟩

theorem overlay_ready {s : TokenStore} (hr : Ready M ix s) (l : List AccountData) (r : Answers)
    (h : ∀ x k, some (x, k) ∈ r → ProgFits x.account ∧ Safe M ix P x.account) : ∃ y, TokenStore.overlay s.mints l r = .ok y := by
  induction l generalizing r with
  | nil => cases r <;> exact ⟨_, rfl⟩
  | cons a l ih =>
    cases r with
    | nil => exact ⟨_, rfl⟩
    | cons b r =>
      obtain ⟨y, hy⟩ := ih r (fun x k hx => h x k (by simp [hx]))
      cases b with
      | none => exact ⟨_, by simp only [TokenStore.overlay, hy, Run.ok_bind]; rfl⟩
      | some b =>
        obtain ⟨x, k⟩ := b
        obtain ⟨h1, h2⟩ := h x k (by simp)
        obtain ⟨z, hz⟩ := toSolana_ok (convertible hr h1 h2) k x.wv
        exact ⟨_, by simp only [TokenStore.overlay, hy, hz, Run.ok_bind]; rfl⟩

theorem getProgramAccounts_ready {X : Codecs} {n : Nat} {s : TokenStore} {slots orig : List TokenAccount}
    (h : Inv (Safe M ix P) n s slots orig) (hr : Ready M ix s) (σ : Orders) (program : Pubkey) (filters : Option (List AccountFilterType))
    (c : Commitment) (hw : ∀ l, filters = some l → (∀ f ∈ l, ∀ d, ∃ b, f.allows X d = .ok b) ∧
      ∀ owner mint, ownerMintFilter program l = (some owner, some mint) → s.table.index.find mint ≠ none) :
    s.getProgramAccounts X σ program filters c ≠ .panic := by
  obtain ⟨r, hg⟩ := gpaFinalized_ready h.fin hr σ program filters hw
  unfold TokenStore.getProgramAccounts
  split
  · simp
  · rw [hg]
    simp only [Run.ok_bind]
    cases r with
    | error e => simp
    | ok l =>
      simp only
      split
      · simp
      · rename_i hc
        cases ha : s.processed.getAccounts (l.map (·.pubkey)) c s.confirmedSlot with
        | panic => exact absurd ha (getAccounts_no_panic _ _ hc _)
        | diverge => simp
        | ok r =>
          obtain ⟨g1, g2⟩ := getAccounts_spec h.proc.sorted ha
          obtain ⟨y, hy⟩ := overlay_ready hr l r (by
            intro x k hx
            obtain ⟨i, hi⟩ := List.getElem?_of_mem hx
            have hlt : i < (l.map (·.pubkey)).length := by
              rw [← g1]; exact (List.getElem?_eq_some_iff.1 hi).1
            have := (newest_waiting h.proc ((g2 i _ (List.getElem?_eq_getElem hlt) x k).1 hi)).2
            exact ⟨this.1, this.2.1⟩)
          simp [hy]

end LAM.Token
