import Verif.Lemmas.TokenStore
/-!
# The finalized part of the token program store, and all reachable states
-/
namespace LAM.Token
open Spec ProcStore
open TokenStore (push addFinalized)
open TokenStorage (tombstone)

/-- The mint index of a token account has been given out. -/
def MintBelow (c : Nat) : ProgramAccount → Prop
  | .token t => t.mint < c
  | _ => True

theorem MintBelow.mono {c c' : Nat} (h : c ≤ c') {x : ProgramAccount} (hx : MintBelow c x) : MintBelow c' x := by
  cases x <;> simp_all [MintBelow]
  omega

/-- Invariant of the finalized part.  `slots` are the token accounts by position, `orig` the ones first saved there. -/
structure Fin (Q : ProgramAccount → Prop) (s : TokenStore) (slots orig : List TokenAccount) : Prop where
  holds : Holds s.tokens slots
  idx_lt : ∀ pk i, s.table.index.find pk = some i → i < s.table.counter
  idx_inj : ∀ pk pk' i, s.table.index.find pk = some i → s.table.index.find pk' = some i → pk = pk'
  mints_idx : ∀ i m, s.mints.find i = some m → s.table.index.find m.pubkey = some i
  mints_distinct : s.mints.Distinct
  multis : ∀ pk m, s.multisigs.find pk = some m → m.signers.length ≤ 11 ∧ m.pubkey = pk
  live : ∀ i t, Stored s.tokens slots i t → t.isDeleted = false
  slotsQ : ∀ t ∈ slots, t = TokenStorage.tombstone ∨ (Q (.token t) ∧ t.isDeleted = false ∧ t.mint < s.table.counter)
  orig_len : orig.length = slots.length
  origQ : ∀ o ∈ orig, Q (.token o) ∧ o.mint < s.table.counter
  orig_key : ∀ (i : Nat) t o, slots[i]? = some t → orig[i]? = some o → t = TokenStorage.tombstone ∨ o.pubkey = t.pubkey
  owner : ∀ (i : Nat) o, orig[i]? = some o → ∃ l, s.byOwner.find (prefix4 o.owner) = some l ∧ i ∈ l
  mint : ∀ (i : Nat) o pk, orig[i]? = some o → s.table.index.find pk = some o.mint →
    ∃ l, s.byMint.find o.mint = some l ∧ i ∈ l
  mint_only : ∀ m l, s.byMint.find m = some l → ∀ i ∈ l, ∃ o, orig[i]? = some o ∧ o.mint = m
  last : ∀ (i j : Nat) t u, Stored s.tokens slots i t → slots[j]? = some u → u.pubkey = t.pubkey → u.isDeleted = false → j ≤ i
  multis_distinct : s.multisigs.Distinct
  linked : ∀ pk, (∀ p, p ≠ pk → prefix4 p = prefix4 pk → ¬ Q (.deleted p)) → ∀ (j : Nat) u, slots[j]? = some u →
    u.pubkey = pk → u.isDeleted = false → Stored s.tokens slots j u

theorem fin_empty (Q : ProgramAccount → Prop) : Fin Q .empty [] [] where
  holds := holds_empty
  idx_lt := by simp [TokenStore.empty]
  idx_inj := by simp [TokenStore.empty]
  mints_idx := by simp [TokenStore.empty]
  mints_distinct := AMap.distinct_nil
  multis := by simp [TokenStore.empty]
  live := by rintro i t ⟨is, -, -, h⟩; simp at h
  slotsQ := by simp
  orig_len := rfl
  origQ := by simp
  orig_key := by simp
  owner := by simp
  mint := by simp
  mint_only := by simp [TokenStore.empty]
  last := by simp
  multis_distinct := AMap.distinct_nil
  linked := by simp

theorem find_push {K : Type} [DecidableEq K] (m : AMap K (List Nat)) (k k' : K) (i : Nat) :
    (push m k i).find k' = if k = k' then some ((m.find k).getD [] ++ [i]) else m.find k' := by
  unfold push
  cases hk : m.find k with
  | none => simp [AMap.find_insert]
  | some l => simp [AMap.find_insert]

/-- The invariant does not depend on the unfinalized part. -/
theorem Fin.congr {Q : ProgramAccount → Prop} {s s' : TokenStore} {slots orig : List TokenAccount} (h : Fin Q s slots orig)
    (h1 : s'.tokens = s.tokens) (h2 : s'.table = s.table) (h3 : s'.mints = s.mints) (h4 : s'.multisigs = s.multisigs)
    (h5 : s'.byOwner = s.byOwner) (h6 : s'.byMint = s.byMint) : Fin Q s' slots orig := by
  obtain ⟨a, b, c, d, e, f, g, i, j, k, l, m, n, o, q, r, t⟩ := h
  constructor <;> (try simp only [h1, h2, h3, h4, h5, h6]) <;> assumption

/-! ## Adding a finalized account -/

theorem add_token {Q : ProgramAccount → Prop} {s : TokenStore} {slots orig : List TokenAccount} (h : Fin Q s slots orig)
    {t : TokenAccount} (hf : TokenFits t) (hd : t.isDeleted = false) (hq : Q (.token t)) (hm : t.mint < s.table.counter)
    (hlen : slots.length < 2 ^ 32) :
    ∃ s' slots' orig', s.addFinalized (.token t) = .ok s' ∧ Fin Q s' slots' orig' ∧ slots'.length ≤ slots.length + 1 ∧
      s'.table = s.table ∧ s'.mints = s.mints ∧ s'.multisigs = s.multisigs ∧ s'.processed = s.processed ∧
      s'.confirmedSlot = s.confirmedSlot ∧ s'.finalizedSlot = s.finalizedSlot ∧
      (∀ pk, view s'.tokens slots' pk = if t.pubkey = pk then some t else view s.tokens slots pk) := by
  obtain ⟨i, added, tk, slots', e1, e2, e3, e4, e5, -, e6⟩ := save_spec h.holds t hf hlen
  have hv := view_save h.holds e2 e3 e6
  have hlive : ∀ j u, Stored tk slots' j u → u.isDeleted = false := by
    intro j u hu
    by_cases hk : u.pubkey = t.pubkey
    · have h1 := (view_eq_some e2).2 ⟨hk, j, hu⟩
      have h2 := (view_eq_some e2).2 ⟨rfl, i, e3⟩
      rw [h1] at h2; cases h2; exact hd
    · exact h.live j u ((e6 j u hk).1 hu)
  cases added with
  | true =>
    obtain ⟨rfl, rfl, hnone⟩ := e4 rfl
    refine ⟨{ s with tokens := tk, byMint := push s.byMint t.mint slots.length, byOwner := push s.byOwner (prefix4 t.owner) slots.length },
      slots ++ [t], orig ++ [t], by simp only [addFinalized, e1]; rfl, ?_, by simp, rfl, rfl, rfl, rfl, rfl, rfl, hv⟩
    exact
      { holds := e2
        idx_lt := h.idx_lt
        idx_inj := h.idx_inj
        mints_idx := h.mints_idx
        mints_distinct := h.mints_distinct
        multis := h.multis
        live := hlive
        slotsQ := by
          intro u hu
          rcases List.mem_append.1 hu with hu | hu
          · exact h.slotsQ u hu
          · simp at hu; subst hu; exact .inr ⟨hq, hd, hm⟩
        orig_len := by simp [h.orig_len]
        origQ := by
          intro u hu
          rcases List.mem_append.1 hu with hu | hu
          · exact h.origQ u hu
          · simp at hu; subst hu; exact ⟨hq, hm⟩
        orig_key := by
          intro j u o hu ho
          rw [List.getElem?_append] at hu ho
          rw [h.orig_len] at ho
          split at hu
          · rename_i hlt
            rw [if_pos hlt] at ho
            exact h.orig_key j u o hu ho
          · rename_i hlt
            rw [if_neg hlt] at ho
            rw [hu] at ho; cases ho; exact .inr rfl
        owner := by
          intro j o ho
          simp only [find_push]
          rw [List.getElem?_append, h.orig_len] at ho
          split at ho
          · obtain ⟨l, hl, hj⟩ := h.owner j o ho
            split
            · rename_i e; rw [← e] at hl; exact ⟨_, rfl, by simp [hl, hj]⟩
            · exact ⟨l, hl, hj⟩
          · rename_i hge
            have hj : j - slots.length = 0 := by
              cases hx : j - slots.length with
              | zero => rfl
              | succ n => rw [hx] at ho; simp at ho
            rw [hj] at ho
            simp at ho; subst ho
            refine ⟨_, by rw [if_pos rfl], ?_⟩
            have : j = slots.length := by omega
            simp [this]
        mint := by
          intro j o pk ho hpk
          simp only [find_push]
          rw [List.getElem?_append, h.orig_len] at ho
          split at ho
          · obtain ⟨l, hl, hj⟩ := h.mint j o pk ho hpk
            split
            · rename_i e; rw [← e] at hl; exact ⟨_, rfl, by simp [hl, hj]⟩
            · exact ⟨l, hl, hj⟩
          · rename_i hge
            have hj : j - slots.length = 0 := by
              cases hx : j - slots.length with
              | zero => rfl
              | succ n => rw [hx] at ho; simp at ho
            rw [hj] at ho
            simp at ho; subst ho
            refine ⟨_, by rw [if_pos rfl], ?_⟩
            have : j = slots.length := by omega
            simp [this]
        mint_only := by
          intro m l hl j hj
          simp only [find_push] at hl
          split at hl
          · rename_i e
            cases hl
            rcases List.mem_append.1 hj with hj | hj
            · cases hf : s.byMint.find t.mint with
              | none => simp [hf] at hj
              | some l =>
                simp [hf] at hj
                obtain ⟨o, ho, hm⟩ := h.mint_only _ l hf j hj
                exact ⟨o, by rw [List.getElem?_append_left (List.getElem?_eq_some_iff.1 ho).1]; exact ho, by rw [hm, e]⟩
            · simp at hj; subst hj
              exact ⟨t, by rw [← h.orig_len]; simp, e⟩
          · obtain ⟨o, ho, hm⟩ := h.mint_only m l hl j hj
            exact ⟨o, by rw [List.getElem?_append_left (List.getElem?_eq_some_iff.1 ho).1]; exact ho, hm⟩
        multis_distinct := h.multis_distinct
        last := by
          intro j k v u hv hu hk hdu
          by_cases e : v.pubkey = t.pubkey
          · have h1 := (view_eq_some e2).2 ⟨e, j, hv⟩
            have h2 := (view_eq_some e2).2 ⟨rfl, _, e3⟩
            rw [h1] at h2; cases h2
            have hlt := (List.getElem?_eq_some_iff.1 hu).1
            obtain ⟨is, his, hj, hsj⟩ := hv
            obtain ⟨is', his', hi', hsi⟩ := e3
            rw [his] at his'; cases his'
            have := e2.unique _ _ _ _ _ _ his hj hi' hsj hsi rfl
            simp at hlt; omega
          · have hv0 := (e6 j v e).1 hv
            refine h.last j k v u hv0 ?_ hk hdu
            rw [List.getElem?_append] at hu
            split at hu
            · exact hu
            · rename_i hge
              have hx : k - slots.length = 0 := by
                cases hx : k - slots.length with
                | zero => rfl
                | succ n => rw [hx] at hu; simp at hu
              rw [hx] at hu
              simp at hu
              subst hu
              exact absurd hk.symm e
        linked := by
          intro pk hno j u hu hk hdu
          have hcase : slots[j]? = some u ∨ (j = slots.length ∧ u = t) := by
            rw [List.getElem?_append] at hu
            split at hu
            · exact .inl hu
            · rename_i hge
              have hx : j - slots.length = 0 := by
                cases hx : j - slots.length with
                | zero => rfl
                | succ n => rw [hx] at hu; simp at hu
              rw [hx] at hu
              simp at hu
              exact .inr ⟨by omega, hu.symm⟩
          rcases hcase with h1 | ⟨rfl, rfl⟩
          · have h2 := h.linked pk hno j u h1 hk hdu
            refine (e6 j u ?_).2 h2
            intro e
            exact (view_eq_none h.holds).1 hnone u j e h2
          · exact e3 }
  | false =>
    obtain ⟨rfl, hb, u0, hu0, hs0⟩ := e5 rfl
    refine ⟨{ s with tokens := tk }, slots.set i t, orig, by simp only [addFinalized, e1]; rfl, ?_, by simp, rfl, rfl, rfl, rfl, rfl, rfl, hv⟩
    exact
      { holds := e2
        idx_lt := h.idx_lt
        idx_inj := h.idx_inj
        mints_idx := h.mints_idx
        mints_distinct := h.mints_distinct
        multis := h.multis
        live := hlive
        slotsQ := by
          intro u hu
          rcases List.mem_or_eq_of_mem_set hu with hu | hu
          · exact h.slotsQ u hu
          · subst hu; exact .inr ⟨hq, hd, hm⟩
        orig_len := by simp [h.orig_len]
        origQ := h.origQ
        orig_key := by
          intro j u o hu ho
          by_cases e : i = j
          · subst e
            have hl0 := h.live _ _ hs0
            obtain ⟨-, -, -, hsi⟩ := hs0
            have hlt := (List.getElem?_eq_some_iff.1 hsi).1
            rw [List.getElem?_set_self hlt] at hu
            cases hu
            rcases h.orig_key i _ _ hsi ho with rfl | hk
            · simp [tombstone] at hl0
            · right; rw [hk, hu0]
          · rw [List.getElem?_set_ne e] at hu
            exact h.orig_key j u o hu ho
        owner := h.owner
        mint := h.mint
        mint_only := h.mint_only
        multis_distinct := h.multis_distinct
        last := by
          intro j k v u hv hu hk hdu
          have hli := h.live _ _ hs0
          have hs1 := hs0
          obtain ⟨is, his, hi, hsi⟩ := hs1
          have hlt := (List.getElem?_eq_some_iff.1 hsi).1
          by_cases e : v.pubkey = t.pubkey
          · have hji : j = i := by
              have h1 := (view_eq_some e2).2 ⟨e, j, hv⟩
              have h2 := (view_eq_some e2).2 ⟨rfl, _, e3⟩
              rw [h1] at h2; cases h2
              obtain ⟨is1, his1, hj, hsj⟩ := hv
              obtain ⟨is', his', hi', hsi'⟩ := e3
              rw [his1] at his'; cases his'
              exact e2.unique _ _ _ _ _ _ his1 hj hi' hsj hsi' rfl
            subst hji
            by_cases ek : j = k
            · omega
            · rw [List.getElem?_set_ne ek] at hu
              exact h.last j k u0 u hs0 hu (by rw [hk, e, hu0]) hdu
          · have hv0 := (e6 j v e).1 hv
            by_cases ek : i = k
            · subst ek
              rw [List.getElem?_set_self hlt] at hu
              cases hu
              exact absurd hk.symm e
            · rw [List.getElem?_set_ne ek] at hu
              exact h.last j k v u hv0 hu hk hdu
        linked := by
          intro pk hno j u hu hk hdu
          by_cases ej : i = j
          · subst ej
            obtain ⟨-, -, -, hsi⟩ := hs0
            rw [List.getElem?_set_self (List.getElem?_eq_some_iff.1 hsi).1] at hu
            cases hu
            exact e3
          · rw [List.getElem?_set_ne ej] at hu
            have h2 := h.linked pk hno j u hu hk hdu
            refine (e6 j u ?_).2 h2
            intro e
            obtain ⟨is, his, hi, hsi⟩ := hs0
            obtain ⟨is', his', hj', -⟩ := h2
            rw [e, ← hu0, his] at his'; cases his'
            exact ej (h.holds.unique _ _ _ _ _ _ his hi hj' hsi hu (by rw [hu0, e])) }

theorem add_mint {Q : ProgramAccount → Prop} {s : TokenStore} {slots orig : List TokenAccount} (h : Fin Q s slots orig)
    (m : MintAccount) (hc : s.table.counter + 1 < 2 ^ 32) :
    ∃ s' i, s.addFinalized (.mint m) = .ok s' ∧ Fin Q s' slots orig ∧
      s.table.counter ≤ s'.table.counter ∧ s'.table.counter ≤ s.table.counter + 1 ∧
      s'.tokens = s.tokens ∧ s'.multisigs = s.multisigs ∧ s'.processed = s.processed ∧
      s'.confirmedSlot = s.confirmedSlot ∧ s'.finalizedSlot = s.finalizedSlot ∧
      (s.table.index.find m.pubkey = some i ∨ s.table.index.find m.pubkey = none ∧ i = s.table.counter) ∧
      (∀ pk, s'.table.index.find pk = if m.pubkey = pk then some i else s.table.index.find pk) ∧
      (∀ j, s'.mints.find j = if i = j then some m else s.mints.find j) := by
  cases hf : s.table.index.find m.pubkey with
  | some i =>
    refine ⟨{ s with mints := s.mints.insert i m }, i, by simp [addFinalized, hf], ?_, by simp, by simp, rfl, rfl, rfl, rfl, rfl,
      .inl rfl, ?_, fun j => AMap.find_insert ..⟩
    · refine { h with mints_idx := ?_, mints_distinct := AMap.distinct_insert h.mints_distinct _ _ }
      intro j m' hm'
      simp only [AMap.find_insert] at hm'
      split at hm'
      · rename_i e; cases hm'; rw [← e]; exact hf
      · exact h.mints_idx j m' hm'
    · intro pk
      split
      · rename_i e; rw [← e]; exact hf
      · rfl
  | none =>
    have hw : wrap32 (s.table.counter + 1) = s.table.counter + 1 := Nat.mod_eq_of_lt hc
    refine ⟨{ s with mints := s.mints.insert s.table.counter m, table := ⟨s.table.index.insert m.pubkey s.table.counter, wrap32 (s.table.counter + 1)⟩ },
      s.table.counter, by simp [addFinalized, hf], ?_, by simp [hw], by simp [hw], rfl, rfl, rfl, rfl, rfl,
      .inr ⟨rfl, rfl⟩, fun pk => AMap.find_insert .., fun j => AMap.find_insert ..⟩
    refine { h with mints_idx := ?_, mints_distinct := AMap.distinct_insert h.mints_distinct _ _, idx_lt := ?_, idx_inj := ?_, slotsQ := ?_, origQ := ?_, mint := ?_ }
    · intro pk i hi
      simp only [AMap.find_insert] at hi
      simp only [hw]
      split at hi
      · cases hi; omega
      · have := h.idx_lt pk i hi; omega
    · intro pk pk' i h1 h2
      simp only [AMap.find_insert] at h1 h2
      have a1 := h.idx_lt pk i
      have a2 := h.idx_lt pk' i
      have a3 := h.idx_inj pk pk' i
      grind
    · intro j m' hm'
      simp only [AMap.find_insert] at hm' ⊢
      split at hm'
      · rename_i e; cases hm'; rw [if_pos rfl, e]
      · have := h.mints_idx j m' hm'
        rw [if_neg]
        · exact this
        · intro e; rw [← e, hf] at this; simp at this
    · intro t ht
      simp only [hw]
      rcases h.slotsQ t ht with h1 | ⟨h1, h2, h3⟩
      · exact .inl h1
      · exact .inr ⟨h1, h2, by omega⟩
    · intro t ht
      simp only [hw]
      obtain ⟨h1, h2⟩ := h.origQ t ht
      exact ⟨h1, by omega⟩
    · intro j o pk ho hpk
      simp only [AMap.find_insert] at hpk
      split at hpk
      · have := (h.origQ o (List.mem_of_getElem? ho)).2
        simp at hpk; omega
      · exact h.mint j o pk ho hpk

theorem add_multisig {Q : ProgramAccount → Prop} {s : TokenStore} {slots orig : List TokenAccount} (h : Fin Q s slots orig)
    (m : MultiSig) (pk : Pubkey) (hm : m.signers.length ≤ 11 ∧ m.pubkey = pk) :
    ∃ s', s.addFinalized (.multisig m pk) = .ok s' ∧ Fin Q s' slots orig ∧ s' = { s with multisigs := s.multisigs.insert pk m } := by
  refine ⟨{ s with multisigs := s.multisigs.insert pk m }, rfl, { h with multis := ?_, multis_distinct := AMap.distinct_insert h.multis_distinct pk m }, rfl⟩
  intro pk' m' hm'
  simp only [AMap.find_insert] at hm'
  split at hm'
  · rename_i e; cases hm'; rw [← e]; exact hm
  · exact h.multis pk' m' hm'

theorem add_deleted_mint {Q : ProgramAccount → Prop} {s : TokenStore} {slots orig : List TokenAccount} (h : Fin Q s slots orig)
    (pk : Pubkey) {i : Nat} (hi : s.table.index.find pk = some i) :
    ∃ s', s.addFinalized (.deleted pk) = .ok s' ∧ Fin Q s' slots orig ∧ s'.table.counter = s.table.counter ∧
      s'.tokens = s.tokens ∧ s'.multisigs = s.multisigs ∧ s'.processed = s.processed ∧
      s'.confirmedSlot = s.confirmedSlot ∧ s'.finalizedSlot = s.finalizedSlot ∧
      (∀ pk', s'.table.index.find pk' = if pk = pk' then none else s.table.index.find pk') ∧
      (∀ j, s'.mints.find j = if i = j then none else s.mints.find j) := by
  refine ⟨{ s with
        table := { s.table with index := s.table.index.erase pk }
        mints := s.mints.erase i
        byMint := s.byMint.erase i }, by simp [addFinalized, hi], ?_, rfl, rfl, rfl, rfl, rfl, rfl,
        fun _ => AMap.find_erase .., fun _ => AMap.find_erase ..⟩
  refine { h with idx_lt := ?_, idx_inj := ?_, mints_idx := ?_, mints_distinct := AMap.distinct_erase h.mints_distinct _, mint := ?_, mint_only := ?_ }
  · intro pk' j hj
    simp only [AMap.find_erase] at hj
    split at hj
    · simp at hj
    · exact h.idx_lt _ _ hj
  · intro p p' j h1 h2
    simp only [AMap.find_erase] at h1 h2
    have := h.idx_inj p p' j
    grind
  · intro j m hm
    simp only [AMap.find_erase] at hm ⊢
    split at hm
    · simp at hm
    · rename_i hne
      have := h.mints_idx j m hm
      rw [if_neg]
      · exact this
      · intro e; rw [← e, hi] at this; cases this; exact hne rfl
  · intro j o p ho hp
    simp only [AMap.find_erase] at hp ⊢
    split at hp
    · simp at hp
    · rename_i hne
      have hne' : i ≠ o.mint := by
        intro e; rw [← e] at hp; exact hne (h.idx_inj _ _ _ hi hp)
      rw [if_neg hne']
      exact h.mint j o p ho hp
  · intro m l hl
    simp only [AMap.find_erase] at hl
    split at hl
    · simp at hl
    · exact h.mint_only m l hl

theorem add_deleted_token {Q : ProgramAccount → Prop} {s : TokenStore} {slots orig : List TokenAccount} (h : Fin Q s slots orig)
    (pk : Pubkey) (hq : Q (.deleted pk)) (hi : s.table.index.find pk = none) :
    ∃ s' slots' tk, s.addFinalized (.deleted pk) = .ok s' ∧ Fin Q s' slots' orig ∧ slots'.length = slots.length ∧
      s' = { s with tokens := tk } ∧
      (∀ pk', view s'.tokens slots' pk' = if prefix4 pk = prefix4 pk' then none else view s.tokens slots pk') := by
  obtain ⟨tk, slots', d1, d2, d3, d4, d5, d6⟩ := delete_spec h.holds pk
  have hv := view_delete (s' := tk) h.holds d4 d5
  refine ⟨{ s with tokens := tk }, slots', tk, by simp [addFinalized, hi, d1], ?_, d3, rfl, hv⟩
  have hslot : ∀ (j : Nat) u, slots'[j]? = some u → u = tombstone ∨ slots[j]? = some u := by
    intro j u hu
    rcases d6 with ⟨rfl, -⟩ | ⟨i, -, -, -, rfl⟩
    · exact .inr hu
    · by_cases e : i = j
      · subst e
        have := List.getElem?_eq_some_iff.1 hu
        simp at this
        exact .inl this.2.symm
      · rw [List.getElem?_set_ne e] at hu; exact .inr hu
  refine { h with holds := d2, live := ?_, slotsQ := ?_, orig_len := by rw [h.orig_len, d3], orig_key := ?_, last := ?_, linked := ?_ }
  · rintro j u ⟨is, his, hj, hu⟩
    rw [d4] at his
    split at his
    · simp at his
    · rename_i hne
      obtain ⟨v, hv1, hv2⟩ := (h.holds.bucket _ _ his).2 j hj
      have := d5 j v (by rw [hv2]; exact fun e => hne e.symm) hv1
      rw [hu] at this; cases this
      exact h.live j u ⟨is, his, hj, hv1⟩
  · intro t ht
    obtain ⟨j, hj⟩ := List.getElem?_of_mem ht
    rcases hslot j t hj with h1 | h1
    · exact .inl h1
    · exact h.slotsQ t (List.mem_of_getElem? h1)
  · intro j t o ht ho
    rcases hslot j t ht with h1 | h1
    · exact .inl h1
    · exact h.orig_key j t o h1 ho
  · rintro j k v u ⟨is, his, hj, hv⟩ hu hk hdu
    rw [d4] at his
    split at his
    · simp at his
    · rename_i hne
      obtain ⟨w, hw1, hw2⟩ := (h.holds.bucket _ _ his).2 j hj
      have := d5 j w (by rw [hw2]; exact fun e => hne e.symm) hw1
      rw [hv] at this; cases this
      rcases hslot k u hu with rfl | h1
      · simp [tombstone] at hdu
      · exact h.last j k v u ⟨is, his, hj, hw1⟩ h1 hk hdu
  · intro p hno j u hu hk hdu
    rcases hslot j u hu with rfl | h1
    · simp [tombstone] at hdu
    · have h2 := h.linked p hno j u h1 hk hdu
      by_cases e : pk = p
      · exfalso
        rcases d6 with ⟨-, hn⟩ | ⟨i, v, hv1, hv2, rfl⟩
        · exact (view_eq_none h.holds).1 hn u j (by rw [hk, e]) h2
        · have hji : i = j := by
            obtain ⟨is, his, hi', hsi⟩ := hv2
            obtain ⟨is', his', hj', hsj⟩ := h2
            rw [hk, ← e, ← hv1, his] at his'; cases his'
            exact h.holds.unique _ _ _ _ _ _ his hi' hj' hsi hsj (by rw [hv1, hk, e])
          subst hji
          rw [List.getElem?_set_self (List.getElem?_eq_some_iff.1 h1).1] at hu
          cases hu
          simp [tombstone] at hdu
      · have hne : prefix4 pk ≠ prefix4 p := fun e' => hno pk e e' hq
        obtain ⟨is, his, hj, -⟩ := h2
        exact ⟨is, by rw [d4, hk, if_neg hne, ← hk]; exact his, hj, hu⟩

/-! ## What the finalized part records about one public key -/

/-- The finalized records of a public key: multisig, mint index with its mint, token account. -/
structure Rec where
  multi : Option MultiSig
  mint : Option (Option MintAccount)
  token : Option TokenAccount

/-- The finalized records of `pk`. -/
def recOf (s : TokenStore) (slots : List TokenAccount) (pk : Pubkey) : Rec where
  multi := s.multisigs.find pk
  mint := (s.table.index.find pk).map s.mints.find
  token := view s.tokens slots pk

/-- Effect of a finalized state on the records of its own public key. -/
def Rec.apply (r : Rec) : ProgramAccount → Rec
  | .token t => { r with token := some t }
  | .mint m => { r with mint := some (some m) }
  | .multisig m _ => { r with multi := some m }
  | .deleted _ => if r.mint.isSome then { r with mint := none } else { r with token := none }

/-- The records without the token account. -/
def Rec.solid (r : Rec) : Rec := { r with token := none }

theorem solid_apply {r r' : Rec} (x : ProgramAccount) (h : r.solid = r'.solid) : (r.apply x).solid = (r'.apply x).solid := by
  obtain ⟨a, b, c⟩ := r
  obtain ⟨a', b', c'⟩ := r'
  simp only [Rec.solid, Rec.mk.injEq, and_true] at h
  obtain ⟨rfl, rfl⟩ := h
  cases x <;> simp only [Rec.apply, Rec.solid]
  split <;> rfl

/-- A deletion of another key that removes the token account of `pk` too. -/
def Clash (s : TokenStore) (x : ProgramAccount) (pk : Pubkey) : Prop :=
  ∃ p, x = .deleted p ∧ s.table.index.find p = none ∧ prefix4 p = prefix4 pk

/-- Adding a finalized state. -/
theorem add_fin {Q : ProgramAccount → Prop} {s : TokenStore} {slots orig : List TokenAccount} (h : Fin Q s slots orig)
    {x : ProgramAccount} (hf : ProgFits x) (hq : Q x) (hm : MintBelow s.table.counter x) (hlen : slots.length < 2 ^ 32)
    (hc : s.table.counter + 1 < 2 ^ 32) :
    ∃ s' slots' orig', s.addFinalized x = .ok s' ∧ Fin Q s' slots' orig' ∧ slots'.length ≤ slots.length + 1 ∧
      s.table.counter ≤ s'.table.counter ∧ s'.table.counter ≤ s.table.counter + 1 ∧ s'.processed = s.processed ∧
      s'.confirmedSlot = s.confirmedSlot ∧ s'.finalizedSlot = s.finalizedSlot ∧
      (∀ pk, pk ≠ x.pubkey → s'.table.index.find pk = s.table.index.find pk) ∧
      recOf s' slots' x.pubkey = (recOf s slots x.pubkey).apply x ∧
      (∀ pk, pk ≠ x.pubkey → Clash s x pk → recOf s' slots' pk = { recOf s slots pk with token := none }) ∧
      (∀ pk, pk ≠ x.pubkey → ¬ Clash s x pk → recOf s' slots' pk = recOf s slots pk) := by
  cases x with
  | token t =>
    obtain ⟨s', slots', orig', a1, a2, a3, a4, a5, a6, a7, a8, a9, a10⟩ := add_token h hf.1 hf.2 hq hm hlen
    refine ⟨s', slots', orig', a1, a2, a3, by simp [a4], by simp [a4], a7, a8, a9, by simp [a4], ?_, ?_, ?_⟩
    · simp [recOf, Rec.apply, a4, a5, a6, a10, ProgramAccount.pubkey]
    · rintro pk - ⟨p, hp, -⟩; simp at hp
    · rintro pk hpk -
      simp only [ProgramAccount.pubkey] at hpk
      simp [recOf, a4, a5, a6, a10, hpk.symm]
  | mint m =>
    obtain ⟨s', i, a1, a2, a3, a3', a4, a5, a6, a7, a8, a9, a10, a11⟩ := add_mint h m hc
    refine ⟨s', slots, orig, a1, a2, by simp, a3, a3', a6, a7, a8, ?_, ?_, ?_, ?_⟩
    · intro pk hpk
      simp only [ProgramAccount.pubkey] at hpk
      rw [a10, if_neg hpk.symm]
    · simp [recOf, Rec.apply, a4, a5, a10, a11, ProgramAccount.pubkey]
    · rintro pk - ⟨p, hp, -⟩; simp at hp
    · rintro pk hpk -
      simp only [ProgramAccount.pubkey] at hpk
      simp only [recOf, a4, a5, a10, if_neg hpk.symm, Rec.mk.injEq, true_and, and_true]
      cases hj : s.table.index.find pk with
      | none => rfl
      | some j =>
        simp only [Option.map_some, a11]
        rw [if_neg]
        rintro rfl
        rcases a9 with h1 | ⟨-, h1⟩
        · exact hpk (h.idx_inj _ _ _ hj h1)
        · have := h.idx_lt _ _ hj; omega
  | multisig m pk0 =>
    obtain ⟨s', a1, a2, rfl⟩ := add_multisig h m pk0 hf
    refine ⟨_, slots, orig, a1, a2, by simp, by simp, by simp, rfl, rfl, rfl, by simp, ?_, ?_, ?_⟩
    · simp [recOf, Rec.apply, ProgramAccount.pubkey, AMap.find_insert]
    · rintro pk - ⟨p, hp, -⟩; simp at hp
    · rintro pk hpk -
      simp only [ProgramAccount.pubkey] at hpk
      simp [recOf, AMap.find_insert, hpk.symm]
  | deleted p =>
    cases hi : s.table.index.find p with
    | some i =>
      obtain ⟨s', a1, a2, a3, a4, a5, a6, a7, a8, a9, a10⟩ := add_deleted_mint h p hi
      refine ⟨s', slots, orig, a1, a2, by simp, by simp [a3], by simp [a3], a6, a7, a8, ?_, ?_, ?_, ?_⟩
      · intro pk hpk
        simp only [ProgramAccount.pubkey] at hpk
        rw [a9, if_neg hpk.symm]
      · simp [recOf, Rec.apply, a4, a5, a9, hi, ProgramAccount.pubkey]
      · rintro pk - ⟨p', hp, hn, -⟩; simp at hp; subst hp; rw [hi] at hn; simp at hn
      · rintro pk hpk -
        simp only [ProgramAccount.pubkey] at hpk
        simp only [recOf, a4, a5, a9, if_neg hpk.symm, Rec.mk.injEq, true_and, and_true]
        cases hj : s.table.index.find pk with
        | none => rfl
        | some j =>
          simp only [Option.map_some, a10]
          rw [if_neg]
          rintro rfl
          exact hpk (h.idx_inj _ _ _ hj hi)
    | none =>
      obtain ⟨s', slots', tk, a1, a2, a3, rfl, a4⟩ := add_deleted_token h p hq hi
      refine ⟨_, slots', orig, a1, a2, by omega, by simp, by simp, rfl, rfl, rfl, by simp, ?_, ?_, ?_⟩
      · simp only [recOf, Rec.apply, ProgramAccount.pubkey, a4, hi]
        simp
      · rintro pk - ⟨p', hp, hn, hc⟩
        simp at hp; subst hp
        simp only [recOf, a4, if_pos hc]
      · intro pk hpk hc
        have : prefix4 p ≠ prefix4 pk := fun e => hc ⟨p, rfl, hi, e⟩
        simp only [recOf, a4, if_neg this]

/-- Adding finalized states one after the other. -/
theorem addAll_fin {Q : ProgramAccount → Prop} (l : List (Processed × Nat)) {s : TokenStore} {slots orig : List TokenAccount}
    (h : Fin Q s slots orig)
    (hl : ∀ e ∈ l, ProgFits e.1.account ∧ Q e.1.account ∧ MintBelow s.table.counter e.1.account)
    (hlen : slots.length + l.length < 2 ^ 32) (hc : s.table.counter + l.length < 2 ^ 32) :
    ∃ s' slots' orig', TokenStore.addAll l s = .ok s' ∧ Fin Q s' slots' orig' ∧ slots'.length ≤ slots.length + l.length ∧
      s.table.counter ≤ s'.table.counter ∧ s'.table.counter ≤ s.table.counter + l.length ∧ s'.processed = s.processed ∧
      s'.confirmedSlot = s.confirmedSlot ∧ s'.finalizedSlot = s.finalizedSlot ∧
      ((l.map (fun e => e.1.account.pubkey)).Nodup →
        ∀ pk, (∀ p, p ≠ pk → prefix4 p = prefix4 pk → ∀ e ∈ l, e.1.account ≠ .deleted p) →
          (∀ e ∈ l, e.1.account.pubkey = pk → recOf s' slots' pk = (recOf s slots pk).apply e.1.account) ∧
          ((∀ e ∈ l, e.1.account.pubkey ≠ pk) → recOf s' slots' pk = recOf s slots pk)) ∧
      ((l.map (fun e => e.1.account.pubkey)).Nodup →
        ∀ pk, (∀ e ∈ l, e.1.account.pubkey = pk → (recOf s' slots' pk).solid = ((recOf s slots pk).apply e.1.account).solid) ∧
          ((∀ e ∈ l, e.1.account.pubkey ≠ pk) → (recOf s' slots' pk).solid = (recOf s slots pk).solid)) := by
  induction l generalizing s slots orig with
  | nil => exact ⟨s, slots, orig, rfl, h, by simp, by simp, by simp, rfl, rfl, rfl, by simp, by simp⟩
  | cons a l ih =>
    simp only [List.length_cons] at hlen hc
    obtain ⟨g1, g2, g3⟩ := hl a (by simp)
    obtain ⟨s1, slots1, orig1, b1, b2, b3, b4, b5, b6, b7, b8, b9, b10, b11, b12⟩ := add_fin h g1 g2 g3 (by omega) (by omega)
    obtain ⟨s', slots', orig', c1, c2, c3, c4, c5, c6, c7, c8, c9, c10⟩ := ih b2
      (fun e he => ⟨(hl e (by simp [he])).1, (hl e (by simp [he])).2.1, (hl e (by simp [he])).2.2.mono b4⟩)
      (by omega) (by omega)
    refine ⟨s', slots', orig', by simp [TokenStore.addAll, b1, c1], c2, by simp; omega, by omega, by simp; omega,
      by rw [c6, b6], by rw [c7, b7], by rw [c8, b8], ?_, ?_⟩
    rotate_left
    · intro hnd pk
      simp only [List.map_cons, List.nodup_cons] at hnd
      obtain ⟨hnew, hnd⟩ := hnd
      obtain ⟨d1, d2⟩ := c10 hnd pk
      have hkeep : pk ≠ a.1.account.pubkey → (recOf s1 slots1 pk).solid = (recOf s slots pk).solid := by
        intro hne
        by_cases hcl : Clash s a.1.account pk
        · rw [b11 pk hne hcl]; rfl
        · rw [b12 pk hne hcl]
      constructor
      · intro e he hk
        rcases List.mem_cons.1 he with rfl | he
        · rw [d2, ← hk, b10]
          intro e' he' hk'
          exact hnew (List.mem_map.2 ⟨e', he', by rw [hk', hk]⟩)
        · rw [d1 e he hk]
          refine solid_apply _ (hkeep ?_)
          rintro hpk
          exact hnew (List.mem_map.2 ⟨e, he, by rw [hk, hpk]⟩)
      · intro hn
        rw [d2 (fun e he => hn e (by simp [he])), hkeep (fun e => hn a (by simp) e.symm)]
    intro hnd pk hno
    simp only [List.map_cons, List.nodup_cons] at hnd
    obtain ⟨hnew, hnd⟩ := hnd
    obtain ⟨d1, d2⟩ := c9 hnd pk (fun p hp hpp e he => hno p hp hpp e (by simp [he]))
    have hclash : pk ≠ a.1.account.pubkey → recOf s1 slots1 pk = recOf s slots pk := by
      intro hne
      refine b12 pk hne ?_
      rintro ⟨p, hp, -, hpp⟩
      exact hno p (by rintro rfl; rw [hp] at hne; exact hne rfl) hpp a (by simp) hp
    constructor
    · intro e he hk
      rcases List.mem_cons.1 he with rfl | he
      · rw [d2, ← hk, b10]
        intro e' he' hk'
        exact hnew (List.mem_map.2 ⟨e', he', by rw [hk', hk]⟩)
      · rw [d1 e he hk, hclash]
        rintro hpk
        exact hnew (List.mem_map.2 ⟨e, he, by rw [hk, hpk]⟩)
    · intro hn
      rw [d2 (fun e he => hn e (by simp [he])), hclash (fun e => hn a (by simp) e.symm)]

end LAM.Token
