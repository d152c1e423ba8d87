import Verif.Lemmas.TokenStoreIndex
import Verif.Spec.TokenSafe
/-!
# A mint that is stored stays stored unless it is closed
-/
namespace LAM.Token
open Spec TokenStore

variable {pk : Pubkey}

theorem known_congr {s s' : TokenStore} (h : KnownMint s pk) (h1 : s'.table = s.table) (h2 : s'.mints = s.mints) :
    KnownMint s' pk := by
  obtain ⟨i, m, a, b⟩ := h
  exact ⟨i, m, by rw [h1]; exact a, by rw [h2]; exact b⟩

theorem known_getOrCreate {s : TokenStore} (h : KnownMint s pk) (mint : Pubkey) :
    KnownMint { s with table := (s.table.getOrCreate mint).2 } pk := by
  obtain ⟨i, m, a, b⟩ := h
  refine ⟨i, m, ?_, b⟩
  simp only [MintTable.getOrCreate]
  split
  · exact a
  · rename_i hf
    simp only [AMap.find_insert]
    rw [if_neg]
    · exact a
    · rintro rfl; rw [hf] at a; simp at a

theorem known_add {Q : ProgramAccount → Prop} {s s' : TokenStore} {slots orig : List TokenAccount} (hfin : Fin Q s slots orig)
    {x : ProgramAccount} (hx : Deletes (fun p => p ≠ pk) x) (h : KnownMint s pk) (ha : s.addFinalized x = .ok s') :
    KnownMint s' pk := by
  cases x with
  | token t =>
    simp only [addFinalized, Run.bind_eq_ok] at ha
    obtain ⟨⟨⟨i, b⟩, tk⟩, -, ha⟩ := ha
    cases b <;> · simp at ha; subst ha; exact known_congr h rfl rfl
  | multisig m p => simp only [addFinalized, Run.ok.injEq] at ha; subst ha; exact known_congr h rfl rfl
  | mint m =>
    obtain ⟨i, m0, h1, h2⟩ := h
    simp only [addFinalized] at ha
    cases hi : s.table.index.find m.pubkey with
    | some j =>
      rw [hi] at ha
      simp only [Run.ok.injEq] at ha; subst ha
      by_cases hij : j = i
      · exact ⟨i, m, h1, by simp [AMap.find_insert, hij]⟩
      · exact ⟨i, m0, h1, by simp [AMap.find_insert, hij, h2]⟩
    | none =>
      rw [hi] at ha
      simp only [Run.ok.injEq] at ha; subst ha
      have hne : m.pubkey ≠ pk := by rintro rfl; rw [hi] at h1; simp at h1
      have hlt := hfin.idx_lt _ _ h1
      refine ⟨i, m0, by simp [AMap.find_insert, hne, h1], ?_⟩
      simp only [AMap.find_insert]
      rw [if_neg (by omega)]
      exact h2
  | deleted p =>
    have hne := hx p rfl
    simp only [addFinalized] at ha
    cases hi : s.table.index.find p with
    | none =>
      rw [hi] at ha
      simp only [Run.bind_eq_ok] at ha
      obtain ⟨tk, -, ha⟩ := ha
      simp at ha; subst ha; exact known_congr h rfl rfl
    | some j =>
      rw [hi] at ha
      simp only [Run.ok.injEq] at ha; subst ha
      obtain ⟨i, m0, h1, h2⟩ := h
      refine ⟨i, m0, ?_, ?_⟩
      · simp only [AMap.find_erase]; rw [if_neg hne]; exact h1
      · simp only [AMap.find_erase]
        rw [if_neg]
        · exact h2
        · rintro rfl; exact hne (hfin.idx_inj _ _ _ hi h1)

theorem known_addAll {Q : ProgramAccount → Prop} (l : List (Processed × Nat)) {s s' : TokenStore}
    (hl : ∀ e ∈ l, Q e.1.account ∧ Deletes (fun p => p ≠ pk) e.1.account) (hc : s.table.counter + l.length < 2 ^ 32)
    {slots orig : List TokenAccount} (h : Fin Q s slots orig)
    (hw : ∀ e ∈ l, ProgFits e.1.account ∧ MintBelow s.table.counter e.1.account) (hlen : slots.length + l.length < 2 ^ 32)
    (hk : KnownMint s pk) (ha : TokenStore.addAll l s = .ok s') : KnownMint s' pk := by
  induction l generalizing s slots orig with
  | nil => simp [TokenStore.addAll] at ha; subst ha; exact hk
  | cons a l ih =>
    simp only [List.length_cons] at hlen hc
    obtain ⟨g1, g3⟩ := hw a (by simp)
    obtain ⟨s1, slots1, orig1, b1, b2, b3, b4, b5, -⟩ := add_fin h g1 (hl a (by simp)).1 g3 (by omega) (by omega)
    simp only [TokenStore.addAll, b1, Run.ok_bind] at ha
    exact ih (fun e he => hl e (by simp [he])) (by omega) b2
      (fun e he => ⟨(hw e (by simp [he])).1, (hw e (by simp [he])).2.mono b4⟩) (by omega)
      (known_add h (hl a (by simp)).2 hk b1) ha

theorem known_update {X : Codecs} {n : Nat} {s s' : TokenStore} {slots orig : List TokenAccount} {a : AccountData} {c : Commitment}
    {b : Bool} (h : Inv (Deletes (fun p => p ≠ pk)) n s slots orig) (hn : n < 2 ^ 31 - 1)
    (hq : ∀ T x T', classify X T a = .ok (some x, T') → Deletes (fun p => p ≠ pk) x) (hk : KnownMint s pk)
    (hr : s.updateAccount X a c = .ok (b, s')) : KnownMint s' pk := by
  have hcb := h.cbound
  unfold TokenStore.updateAccount at hr
  simp only [Run.bind_eq_ok] at hr
  obtain ⟨isT, -, hr⟩ := hr
  split at hr
  · simp at hr; obtain ⟨-, rfl⟩ := hr; exact hk
  · simp only [Run.bind_eq_ok] at hr
    obtain ⟨⟨r, T⟩, h1, hr⟩ := hr
    have hT : KnownMint { s with table := T } pk := by
      cases r with
      | none => rw [classify_none h1]; exact hk
      | some x =>
        obtain ⟨-, h2, -⟩ := classify_some h1
        rcases h2 with ⟨rfl, -⟩ | ⟨t, mint, -, rfl, -⟩
        · exact hk
        · exact known_getOrCreate hk mint
    cases r with
    | none => simp at hr; obtain ⟨-, rfl⟩ := hr; exact hT
    | some x =>
      have hf := (classify_inv h.fin (by omega) (fun x T' => hq _ x T') h1).1
      simp only at hr
      split at hr
      · simp at hr; obtain ⟨-, rfl⟩ := hr; exact known_congr hT rfl rfl
      · simp only [Run.bind_eq_ok] at hr
        obtain ⟨s1, h2, hr⟩ := hr
        simp at hr; obtain ⟨-, rfl⟩ := hr
        exact known_add (s := { s with table := T }) hf (hq _ _ _ h1) hT h2

theorem known_slot {n : Nat} {s s' : TokenStore} {slots orig : List TokenAccount} {σ : Orders} {info : SlotInfo} {c : Commitment}
    {notes : List AccountData} (h : Inv (Deletes (fun p => p ≠ pk)) n s slots orig) (hn : n < 2 ^ 31 - 1) (hk : KnownMint s pk)
    (hr : s.processSlot σ info c = .ok (notes, s')) : KnownMint s' pk := by
  have hb := h.bound
  have hcb := h.cbound
  cases c with
  | processed => simp [TokenStore.processSlot] at hr; obtain ⟨-, rfl⟩ := hr; exact known_congr hk rfl rfl
  | confirmed =>
    simp only [TokenStore.processSlot, Run.bind_eq_ok] at hr
    obtain ⟨⟨l, P⟩, -, hr⟩ := hr
    simp at hr
    obtain ⟨-, rfl⟩ := hr
    split <;> exact known_congr hk rfl rfl
  | finalized =>
    simp only [TokenStore.processSlot, Run.bind_eq_ok] at hr
    generalize hs0 : (if s.finalizedSlot < info.slot then
        { s with finalizedSlot := info.slot, processed := s.processed.updateSlotInfo info } else s) = s0 at hr
    have hf0 : Fin (Deletes (fun p => p ≠ pk)) s0 slots orig := by
      rw [← hs0]; split
      · exact h.fin.congr rfl rfl rfl rfl rfl rfl
      · exact h.fin
    have ht0 : s0.table = s.table := by rw [← hs0]; split <;> rfl
    have hm0 : s0.mints = s.mints := by rw [← hs0]; split <;> rfl
    have hp0 : ProcOk (Waiting (Deletes (fun p => p ≠ pk)) s.table.counter) s0.processed ∧ pending s0.processed = pending s.processed := by
      rw [← hs0]; split
      · exact h.proc.updateSlotInfo info
      · exact ⟨h.proc, rfl⟩
    obtain ⟨P', l, z1, -, z3, z4, -⟩ := finalize_spec hp0.1 info.slot
    have hgood : ∀ e ∈ σ.final l, Waiting (Deletes (fun p => p ≠ pk)) s.table.counter e.1.account := by
      rintro ⟨x, k⟩ he
      exact (newest_good hp0.1 ((z4 x k).1 ((σ.final_perm l).mem_iff.1 he))).2
    have hlen : (σ.final l).length = l.length := (σ.final_perm l).length_eq
    have hf1 : Fin (Deletes (fun p => p ≠ pk)) { s0 with processed := P' } slots orig := hf0.congr rfl rfl rfl rfl rfl rfl
    obtain ⟨⟨P1, l1⟩, e1, notes', -, s1, e2, hr⟩ := hr
    rw [z1] at e1; cases e1
    simp at hr; obtain ⟨-, rfl⟩ := hr
    exact known_addAll (σ.final l) (s := { s0 with processed := P' }) (fun e he => ⟨(hgood e he).2.1, (hgood e he).2.1⟩)
      (by simp only [ht0]; omega) hf1 (fun e he => ⟨(hgood e he).1, by simp only [ht0]; exact (hgood e he).2.2⟩) (by omega)
      (known_congr hk ht0 hm0) e2

theorem known_run {X : Codecs} (ops : List TOp) {n : Nat} {s s' : TokenStore} {slots orig : List TokenAccount}
    (h : Inv (Deletes (fun p => p ≠ pk)) n s slots orig) (hn : n + ops.length < 2 ^ 31)
    (hq : ∀ o ∈ ops, ∀ a, o.account = some a → ∀ T x T', classify X T a = .ok (some x, T') → Deletes (fun p => p ≠ pk) x)
    (hk : KnownMint s pk) (hr : TokenStore.run X ops s = .ok s') : KnownMint s' pk := by
  induction ops generalizing s slots orig n with
  | nil => simp [TokenStore.run] at hr; subst hr; exact hk
  | cons o os ih =>
    simp only [TokenStore.run, Run.bind_eq_ok] at hr
    obtain ⟨s1, h1, hr⟩ := hr
    simp only [List.length_cons] at hn
    obtain ⟨slots1, orig1, i1⟩ := step_inv h (by omega) (fun a ha x T' hx => hq o (by simp) a ha _ x T' hx) h1
    refine ih i1 (by omega) (fun o ho => hq o (by simp [ho])) ?_ hr
    cases o with
    | update a c =>
      simp only [TokenStore.step, Run.bind_eq_ok] at h1
      obtain ⟨⟨b, s2⟩, h2, h1⟩ := h1
      simp at h1; subst h1
      exact known_update h (by omega) (hq (.update a c) (by simp) a rfl) hk h2
    | init a =>
      simp only [TokenStore.step, init_eq_update, Run.bind_eq_ok] at h1
      obtain ⟨⟨b, s2⟩, h2, h1⟩ := h1
      simp at h1; subst h1
      exact known_update h (by omega) (hq (.init a) (by simp) a rfl) hk h2
    | slot σ info c =>
      simp only [TokenStore.step, Run.bind_eq_ok] at h1
      obtain ⟨⟨b, s2⟩, h2, h1⟩ := h1
      simp at h1; subst h1
      exact known_slot h (by omega) hk h2

end LAM.Token
