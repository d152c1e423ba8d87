import Verif.Lemmas.Visible
import Verif.Spec.StoreChain
/-!
# The account store follows a chain
-/
namespace LAM
open Spec ByCommitment

namespace Store

/-! ## Chains -/

section
variable {par : Nat → Nat}

theorem anc_le (hd : ∀ k, par k ≤ k) {s k : Nat} (h : Ancestor par s k) : k ≤ s := by
  induction h with
  | here => exact Nat.le_refl _
  | @up s k _ ih => have := hd s; omega

theorem anc_trans {i j k : Nat} (h1 : Ancestor par i j) (h2 : Ancestor par j k) : Ancestor par i k := by
  induction h1 with
  | here => exact h2
  | up _ ih => exact .up (ih h2)

theorem anc_linear (hd : ∀ k, par k ≤ k) {t a b : Nat} (ha : Ancestor par t a) (hb : Ancestor par t b) (h : b ≤ a) :
    Ancestor par a b := by
  induction ha with
  | here => exact hb
  | @up t a ha ih =>
    cases hb with
    | here =>
      have h1 := anc_le hd ha
      have h2 := hd b
      have : a = b := by omega
      rw [this]
      exact .here
    | up hb => exact ih hb h

theorem anc_ne {t a : Nat} (h : Ancestor par t a) (hne : a ≠ t) : Ancestor par (par t) a := by
  cases h with
  | here => exact absurd rfl hne
  | up h => exact h

end

/-! ## The walk on a chain -/

/-- A walk that starts before `base` stays there. -/
theorem Walk.before {base : Nat} {info : SlotInfo} {c : Commitment} {m w k p path m' w'}
    (h : Walk info c m w k p path m' w') (hfresh : c = .finalized ∨ info.parent < base)
    (hb : ∀ j st q, j < base → BMap.find m j = some st → st.parent = some q → q < base)
    (hk : k < base) (hp : ∀ q, p = some q → q < base) :
    (∀ j ∈ path, j < base) ∧ ∀ j st q, j < base → BMap.find m' j = some st → st.parent = some q → q < base := by
  have key : ∀ (m : BMap SlotStatus) (st : SlotStatus) (k : Nat) (p : Option Nat),
      (∀ j st q, j < base → BMap.find m j = some st → st.parent = some q → q < base) → BMap.find m k = some st → k < base →
      (∀ q, p = some q → q < base) →
      (∀ q, (if p.isSome then p else st.parent) = some q → q < base) ∧
      ∀ j st' q, j < base → BMap.find (BMap.insert m k { st with commitment := c, parent := if p.isSome then p else st.parent }) j = some st' →
        st'.parent = some q → q < base := by
    intro m st k p hb hf hk hp
    have h1 : ∀ q, (if p.isSome then p else st.parent) = some q → q < base := by
      intro q hq
      split at hq
      · exact hp q hq
      · exact hb k st q hk hf hq
    refine ⟨h1, ?_⟩
    intro j st' q hj hf' hq
    rw [BMap.find_insert] at hf'
    split at hf'
    · simp only [Option.some.injEq] at hf'; subst hf'; exact h1 q hq
    · exact hb j st' q hj hf' hq
  induction h with
  | same => exact ⟨by simp, hb⟩
  | missing => exact ⟨by simp, hb⟩
  | @stop m w k p st hf hc hs =>
    exact ⟨by simpa using hk, (key m st k p hb hf hk hp).2⟩
  | @next m w k p st q path m' w' hf hc hn hq _ ih =>
    have h2 := key m st k p hb hf hk hp
    have h3 := ih h2.2 (h2.1 q hq) (by simp)
    exact ⟨by simpa using ⟨hk, h3.1⟩, h3.2⟩
  | @fresh m w k p hf hn =>
    refine ⟨by simpa using hk, ?_⟩
    intro j st q hj hf' hq
    rw [BMap.find_insert] at hf'
    split at hf'
    · simp only [Option.some.injEq] at hf'
      subst hf'
      simp only [Option.some.injEq] at hq
      rcases hfresh with h | h
      · exact absurd h hn
      · omega
    · exact hb j st q hj hf' hq

/-- What a walk does on a chain: it raises the slots above `lo`. -/
structure Raised (par : Nat → Nat) (base lo : Nat) (c : Commitment) (m : BMap SlotStatus) (k : Nat) (path : List Nat)
    (m' : BMap SlotStatus) : Prop where
  parts : ∃ seg junk, path = seg ++ junk ∧ seg.Pairwise (· > ·) ∧
    (∀ j, j ∈ seg ↔ Ancestor par k j ∧ base ≤ j ∧ lo < j) ∧ ∀ j ∈ junk, j < base
  raised : ∀ j, Ancestor par k j → base ≤ j → lo < j →
    ∃ st, BMap.find m' j = some st ∧ st.commitment = c ∧ st.parent = some (par j)
  same : ∀ j, base ≤ j → ¬ (Ancestor par k j ∧ lo < j) → BMap.find m' j = BMap.find m j
  below : ∀ j st q, j < base → BMap.find m' j = some st → st.parent = some q → q < base

theorem Walk.chain {par : Nat → Nat} {base lo : Nat} (hd : ∀ k, par k ≤ k) (hold : ∀ k, base ≤ k → par k < k)
    {info : SlotInfo} {c : Commitment} (hcp : c ≠ .processed) {m w k p path m' w'}
    (h : Walk info c m w k p path m' w') (hfresh : c = .finalized ∨ info.parent < base ∨ base ≤ lo)
    (hb : ∀ j st q, j < base → BMap.find m j = some st → st.parent = some q → q < base)
    (hp : k < base → ∀ q, p = some q → q < base)
    (hopen : ∀ j, Ancestor par k j → base ≤ j → lo < j → ∃ st, BMap.find m j = some st ∧ st.commitment ≠ c ∧
      (j = k → (if p.isSome then p else st.parent) = some (par k)) ∧ (j ≠ k → st.parent = some (par j)))
    (hlo : base ≤ lo → Ancestor par k lo ∧ ∃ st, BMap.find m lo = some st ∧ st.commitment = c) :
    Raised par base lo c m k path m' := by
  have hbase : base ≤ lo → base ≤ k := fun h => by have := anc_le hd (hlo h).1; omega
  by_cases hk : k < base
  · have hlt : ¬ base ≤ lo := fun h => by have := hbase h; omega
    have hfr : c = .finalized ∨ info.parent < base := by
      rcases hfresh with h | h | h
      · exact Or.inl h
      · exact Or.inr h
      · exact absurd h hlt
    have h1 := h.before hfr hb hk (hp hk)
    have hno : ∀ j, Ancestor par k j → base ≤ j → False := by
      intro j ha hj; have := anc_le hd ha; omega
    refine ⟨⟨[], path, rfl, List.Pairwise.nil, ?_, h1.1⟩, ?_, ?_, h1.2⟩
    · intro j; simp only [List.not_mem_nil, false_iff]; exact fun ⟨ha, hj, _⟩ => hno j ha hj
    · intro j ha hj; exact absurd hj (fun hj => hno j ha hj)
    · intro j hj _
      exact (h.status j).1 (fun hm => by have := h1.1 j hm; omega)
  · have hk : base ≤ k := by omega
    -- a slot at or before `lo` is `lo` itself
    have hat : ¬ lo < k → ∃ st, BMap.find m k = some st ∧ st.commitment = c := by
      intro hle
      obtain ⟨ha, hst⟩ := hlo (by omega)
      have := anc_le hd ha
      have : lo = k := by omega
      subst this
      exact hst
    induction h with
    | @same m w k p st hf hc =>
      have hle : ¬ lo < k := by
        intro hlt
        obtain ⟨st', hf', hc', -⟩ := hopen k .here hk hlt
        rw [hf] at hf'; cases hf'; exact hc' hc
      refine ⟨⟨[], [], rfl, List.Pairwise.nil, ?_, by simp⟩, ?_, fun _ _ _ => rfl, hb⟩
      · intro j; simp only [List.not_mem_nil, false_iff]
        rintro ⟨ha, hj, hl⟩; have := anc_le hd ha; omega
      · intro j ha hj hl; have := anc_le hd ha; omega
    | @missing m w k p hf =>
      by_cases hlt : lo < k
      · obtain ⟨st', hf', -⟩ := hopen k .here hk hlt
        rw [hf] at hf'; cases hf'
      · obtain ⟨st', hf', -⟩ := hat hlt
        rw [hf] at hf'; cases hf'
    | @fresh m w k p hf =>
      by_cases hlt : lo < k
      · obtain ⟨st', hf', -⟩ := hopen k .here hk hlt
        rw [hf] at hf'; cases hf'
      · obtain ⟨st', hf', -⟩ := hat hlt
        rw [hf] at hf'; cases hf'
    | @stop m w k p st hf hc hs =>
      by_cases hlt : lo < k
      · obtain ⟨st', hf', -, h1, -⟩ := hopen k .here hk hlt
        rw [hf] at hf'; cases hf'
        rcases hs with hs | hs
        · exact absurd hs hcp
        · rw [h1 rfl] at hs; cases hs
      · obtain ⟨st', hf', h1⟩ := hat hlt
        rw [hf] at hf'; cases hf'; exact absurd h1 hc
    | @next m w k p st q path m' w' hf hc hn hq ht ih =>
      have hlt : lo < k := by
        apply Classical.byContradiction
        intro hlt
        obtain ⟨st', hf', h1⟩ := hat hlt
        rw [hf] at hf'; cases hf'; exact absurd h1 hc
      obtain ⟨st', hf', -, h1, -⟩ := hopen k .here hk hlt
      rw [hf] at hf'; cases hf'
      rw [h1 rfl] at hq; cases hq
      have hpk := hold k hk
      have hfind : ∀ j, j < k → BMap.find (BMap.insert m k { st with commitment := c, parent := if p.isSome then p else st.parent }) j = BMap.find m j := by
        intro j hj; rw [BMap.find_insert, if_neg (by omega)]
      have hb' : ∀ j st' q, j < base → BMap.find (BMap.insert m k { st with commitment := c, parent := if p.isSome then p else st.parent }) j = some st' →
          st'.parent = some q → q < base := by
        intro j st' q hj hf'; rw [hfind j (by omega)] at hf'; exact hb j st' q hj hf'
      have hopen' : ∀ j, Ancestor par (par k) j → base ≤ j → lo < j → ∃ st',
          BMap.find (BMap.insert m k { st with commitment := c, parent := if p.isSome then p else st.parent }) j = some st' ∧
          st'.commitment ≠ c ∧ st'.parent = some (par j) := by
        intro j ha hj hl
        have := anc_le hd ha
        obtain ⟨st', h2, h3, -, h4⟩ := hopen j (.up ha) hj hl
        exact ⟨st', by rw [hfind j (by omega)]; exact h2, h3, h4 (by omega)⟩
      have hlo' : base ≤ lo → Ancestor par (par k) lo ∧ ∃ st',
          BMap.find (BMap.insert m k { st with commitment := c, parent := if p.isSome then p else st.parent }) lo = some st' ∧ st'.commitment = c := by
        intro hbl
        obtain ⟨ha, st', h2, h3⟩ := hlo hbl
        exact ⟨anc_ne ha (by omega), st', by rw [hfind lo (by omega)]; exact h2, h3⟩
      -- what the rest of the walk does
      have hR : Raised par base lo c (BMap.insert m k { st with commitment := c, parent := if p.isSome then p else st.parent })
          (par k) path m' := by
        by_cases hpb : par k < base
        · have hlt' : ¬ base ≤ lo := fun h => by have := anc_le hd (hlo' h).1; omega
          have hfr : c = .finalized ∨ info.parent < base := by
            rcases hfresh with h | h | h
            · exact Or.inl h
            · exact Or.inr h
            · exact absurd h hlt'
          have h2 := ht.before hfr hb' hpb (by simp)
          have hno : ∀ j, Ancestor par (par k) j → base ≤ j → False := by
            intro j ha hj; have := anc_le hd ha; omega
          refine ⟨⟨[], path, rfl, List.Pairwise.nil, ?_, h2.1⟩, ?_, ?_, h2.2⟩
          · intro j; simp only [List.not_mem_nil, false_iff]; exact fun ⟨ha, hj, _⟩ => hno j ha hj
          · intro j ha hj; exact absurd hj (fun hj => hno j ha hj)
          · intro j hj _
            exact (ht.status j).1 (fun hm => by have := h2.1 j hm; omega)
        · refine ih hb' (by simp) ?_ hlo' ?_ hpb (by omega) ?_
          · intro j ha hj hl
            obtain ⟨st', h2, h3, h4⟩ := hopen' j ha hj hl
            exact ⟨st', h2, h3, fun hjk => by subst hjk; simpa using h4, fun _ => h4⟩
          · intro h; have := anc_le hd (hlo' h).1; omega
          · intro hle
            obtain ⟨ha, hst⟩ := hlo' (by omega)
            have := anc_le hd ha
            have : lo = par k := by omega
            rw [this] at hst
            exact hst
      obtain ⟨⟨seg, junk, he, hpw, hmem, hj⟩, hra, hsa, hbe⟩ := hR
      have hin : ∀ j, Ancestor par k j ↔ j = k ∨ Ancestor par (par k) j := by
        intro j
        constructor
        · intro ha
          by_cases hjk : j = k
          · exact Or.inl hjk
          · exact Or.inr (anc_ne ha hjk)
        · rintro (rfl | ha)
          · exact .here
          · exact .up ha
      have hkk : ¬ Ancestor par (par k) k := fun ha => by have := anc_le hd ha; omega
      refine ⟨⟨k :: seg, junk, by rw [he]; rfl, ?_, ?_, hj⟩, ?_, ?_, hbe⟩
      · refine List.pairwise_cons.2 ⟨?_, hpw⟩
        intro j hjs
        have := anc_le hd ((hmem j).1 hjs).1
        show j < k
        omega
      · intro j
        rw [List.mem_cons, hmem j, hin j]
        constructor
        · rintro (rfl | ⟨h2, h3, h4⟩)
          · exact ⟨Or.inl rfl, hk, hlt⟩
          · exact ⟨Or.inr h2, h3, h4⟩
        · rintro ⟨rfl | h2, h3, h4⟩
          · exact Or.inl rfl
          · exact Or.inr ⟨h2, h3, h4⟩
      · intro j ha hj hl
        rcases (hin j).1 ha with rfl | ha
        · rw [hsa j hj (fun h => hkk h.1), BMap.find_insert, if_pos rfl]
          exact ⟨_, rfl, rfl, h1 rfl⟩
        · exact hra j ha hj hl
      · intro j hj hno
        have hjk : j ≠ k := by rintro rfl; exact hno ⟨.here, hlt⟩
        rw [hsa j hj (fun h => hno ⟨.up h.1, h.2⟩), BMap.find_insert, if_neg (fun h => hjk h.symm)]

/-! ## Histories -/

theorem notified_update {c d : Commitment} {h : List Op} {F : Filters} {a : AccountData} {k : Nat} :
    Notified c (h ++ [.update F a d]) k ↔ Notified c h k := by
  simp [Notified]

theorem notified_slot {c d : Commitment} {h : List Op} {F : Filters} {σ : Order} {info : SlotInfo} {k : Nat} :
    Notified c (h ++ [.slot F σ info d]) k ↔ Notified c h k ∨ (c = d ∧ info.slot = k) := by
  constructor
  · rintro ⟨G, τ, i, hm, rfl⟩
    simp only [List.mem_append, List.mem_singleton, Op.slot.injEq] at hm
    rcases hm with hm | ⟨-, -, rfl, rfl⟩
    · exact Or.inl ⟨G, τ, i, hm, rfl⟩
    · exact Or.inr ⟨rfl, rfl⟩
  · rintro (⟨G, τ, i, hm, rfl⟩ | ⟨rfl, rfl⟩)
    · exact ⟨G, τ, i, List.mem_append_left _ hm, rfl⟩
    · exact ⟨F, σ, info, by simp, rfl⟩

section
variable {par : Nat → Nat} {base : Nat}

theorem onChain_update {c d : Commitment} {h : List Op} {F : Filters} {a : AccountData} {k : Nat} :
    OnChainOf par c (h ++ [.update F a d]) k ↔ OnChainOf par c h k := by
  simp only [OnChainOf, notified_update]

theorem onChain_slot {c d : Commitment} {h : List Op} {F : Filters} {σ : Order} {info : SlotInfo} {k : Nat} :
    OnChainOf par c (h ++ [.slot F σ info d]) k ↔ OnChainOf par c h k ∨ (c = d ∧ Ancestor par info.slot k) := by
  simp only [OnChainOf, notified_slot]
  constructor
  · rintro ⟨t, ht | ⟨rfl, rfl⟩, ha⟩
    · exact Or.inl ⟨t, ht, ha⟩
    · exact Or.inr ⟨rfl, ha⟩
  · rintro (⟨t, ht, ha⟩ | ⟨rfl, ha⟩)
    · exact ⟨t, Or.inl ht, ha⟩
    · exact ⟨_, Or.inr ⟨rfl, rfl⟩, ha⟩

theorem oneChain_init {h : List Op} {op : Op} (H : OneChain par base (h ++ [op])) : OneChain par base h where
  down := H.down
  older := H.older
  parents F σ info c hm := H.parents F σ info c (List.mem_append_left _ hm)
  updates F a c hm := H.updates F a c (List.mem_append_left _ hm)
  processed pre F σ info post he := H.processed pre F σ info (post ++ [op]) (by simp [he])
  confirmed pre F σ info post he := H.confirmed pre F σ info (post ++ [op]) (by simp [he])
  finalized pre F σ info post he := H.finalized pre F σ info (post ++ [op]) (by simp [he])

theorem parentsKnown_init {h : List Op} {op : Op} (H : ParentsKnown par base (h ++ [op])) : ParentsKnown par base h :=
  fun pre F σ info post he => H pre F σ info (post ++ [op]) (by simp [he])

theorem finalizedBehind_init {h : List Op} {op : Op} (H : FinalizedBehind par base (h ++ [op])) :
    FinalizedBehind par base h :=
  fun pre F σ info post he => H pre F σ info (post ++ [op]) (by simp [he])

theorem announced_snoc {h : List Op} {op : Op} {j : Nat} (H : AnnouncedFirst (h ++ [op]) j) :
    AnnouncedFirst h j ∨ ((∃ F σ info, op = .slot F σ info .processed ∧ info.slot = j) ∧
      ∀ G a c, Op.update G a c ∈ h → a.slot ≠ j) := by
  obtain ⟨pre, F, σ, info, post, he, hj, hno⟩ := H
  rcases List.eq_nil_or_concat post with rfl | ⟨post', o, rfl⟩
  · obtain ⟨rfl, h2⟩ := List.append_inj' he (by simp)
    simp only [List.cons.injEq, and_true] at h2
    exact Or.inr ⟨⟨F, σ, info, h2, hj⟩, hno⟩
  · have he' : h ++ [op] = (pre ++ Op.slot F σ info .processed :: post') ++ [o] := by rw [he]; simp
    obtain ⟨rfl, -⟩ := List.append_inj' he' rfl
    exact Or.inl ⟨pre, F, σ, info, post', rfl, hj, hno⟩

/-- The highest confirmed slot. -/
structure TopSlot (par : Nat → Nat) (base : Nat) (h : List Op) (T : Nat) : Prop where
  notified : Notified .confirmed h T
  above : ∀ t, Notified .confirmed h t → Ancestor par T t
  root : Ancestor par T base
  first : Notified .confirmed h base

theorem topSlot : ∀ {h : List Op}, OneChain par base h →
    (∀ t, ¬ Notified .confirmed h t) ∨ ∃ T, TopSlot par base h T := by
  intro h
  refine snoc_induction (P := fun h => OneChain par base h →
    (∀ t, ¬ Notified .confirmed h t) ∨ ∃ T, TopSlot par base h T) ?_ ?_ h
  · intro _; left; rintro t ⟨F, σ, i, hm, -⟩; simp at hm
  · intro h op ih H
    have ih := ih (oneChain_init H)
    cases op with
    | update F a c =>
      rcases ih with h1 | ⟨T, h1⟩
      · left; intro t ht; exact h1 t (notified_update.1 ht)
      · right
        exact ⟨T, notified_update.2 h1.notified, fun t ht => h1.above t (notified_update.1 ht), h1.root,
          notified_update.2 h1.first⟩
    | slot F σ info c =>
      by_cases hc : c = .confirmed
      · subst hc
        right
        obtain ⟨h2, h3, -, h5⟩ := H.confirmed h F σ info [] rfl
        rcases ih with h1 | ⟨T, h1⟩
        · have hb : info.slot = base := by
            rcases h3 with h3 | h3
            · exact h3
            · exact absurd h3 (h1 _)
          refine ⟨info.slot, notified_slot.2 (Or.inr ⟨rfl, rfl⟩), ?_, h2, notified_slot.2 (Or.inr ⟨rfl, hb⟩)⟩
          intro t ht
          rcases notified_slot.1 ht with ht | ⟨-, rfl⟩
          · exact absurd ht (h1 _)
          · exact .here
        · rcases h5 T h1.notified with h6 | h6
          · refine ⟨info.slot, notified_slot.2 (Or.inr ⟨rfl, rfl⟩), ?_, h2, notified_slot.2 (Or.inl h1.first)⟩
            intro t ht
            rcases notified_slot.1 ht with ht | ⟨-, rfl⟩
            · exact anc_trans h6 (h1.above t ht)
            · exact .here
          · refine ⟨T, notified_slot.2 (Or.inl h1.notified), ?_, h1.root, notified_slot.2 (Or.inl h1.first)⟩
            intro t ht
            rcases notified_slot.1 ht with ht | ⟨-, rfl⟩
            · exact h1.above t ht
            · exact h6
      · have hn : ∀ t, Notified .confirmed (h ++ [.slot F σ info c]) t ↔ Notified .confirmed h t := by
          intro t; rw [notified_slot]
          constructor
          · rintro (ht | ⟨h, -⟩)
            · exact ht
            · exact absurd h.symm hc
          · exact Or.inl
        rcases ih with h1 | ⟨T, h1⟩
        · left; intro t ht; exact h1 t ((hn t).1 ht)
        · right
          exact ⟨T, (hn T).2 h1.notified, fun t ht => h1.above t ((hn t).1 ht), h1.root, (hn _).2 h1.first⟩

theorem TopSlot.on {h : List Op} {T j : Nat} (H : TopSlot par base h T) : OnChainOf par .confirmed h j ↔ Ancestor par T j :=
  ⟨fun ⟨t, ht, ha⟩ => anc_trans (H.above t ht) ha, fun ha => ⟨T, H.notified, ha⟩⟩

/-- The last finalized slot. -/
theorem lastSlot : ∀ {h : List Op}, OneChain par base h →
    (∀ t, ¬ Notified .finalized h t) ∨ ∃ f, Notified .finalized h f ∧ ∀ t, Notified .finalized h t → t ≤ f := by
  intro h
  refine snoc_induction (P := fun h => OneChain par base h →
    (∀ t, ¬ Notified .finalized h t) ∨ ∃ f, Notified .finalized h f ∧ ∀ t, Notified .finalized h t → t ≤ f) ?_ ?_ h
  · intro _; left; rintro t ⟨F, σ, i, hm, -⟩; simp at hm
  · intro h op ih H
    have ih := ih (oneChain_init H)
    cases op with
    | update F a c => simpa only [notified_update] using ih
    | slot F σ info c =>
      by_cases hc : c = .finalized
      · subst hc
        right
        obtain ⟨h2, -⟩ := H.finalized h F σ info [] rfl
        refine ⟨info.slot, notified_slot.2 (Or.inr ⟨rfl, rfl⟩), ?_⟩
        intro t ht
        rcases notified_slot.1 ht with ht | ⟨-, rfl⟩
        · exact h2 t ht
        · exact Nat.le_refl _
      · have hn : ∀ t, Notified .finalized (h ++ [.slot F σ info c]) t ↔ Notified .finalized h t := by
          intro t; rw [notified_slot]
          constructor
          · rintro (ht | ⟨h, -⟩)
            · exact ht
            · exact absurd h.symm hc
          · exact Or.inl
        simpa only [hn] using ih

/-- Finalized slots are behind the highest confirmed one. -/
theorem fin_behind {h : List Op} (H : OneChain par base h) (hfb : FinalizedBehind par base h) {t : Nat}
    (ht : Notified .finalized h t) (hb : base ≤ t) : ∃ T, TopSlot par base h T ∧ Ancestor par T t ∧ t < T := by
  obtain ⟨F, σ, info, hm, rfl⟩ := ht
  obtain ⟨pre, post, he⟩ := List.append_of_mem hm
  obtain ⟨t2, ⟨G, τ, i, hm2, rfl⟩, ha, hne⟩ := hfb pre F σ info post he hb
  have hn : Notified .confirmed h i.slot := ⟨G, τ, i, by rw [he]; exact List.mem_append_left _ hm2, rfl⟩
  rcases topSlot H with h1 | ⟨T, h1⟩
  · exact absurd hn (h1 _)
  · have h2 := h1.above _ hn
    have h3 := anc_le H.down h2
    have h4 := anc_le H.down ha
    exact ⟨T, h1, anc_trans h2 ha, by omega⟩

/-- The statuses of the slots agree with the chain. -/
structure ChainOK (par : Nat → Nat) (base : Nat) (h : List Op) (m : BMap SlotStatus) : Prop where
  settled : ∀ j, base ≤ j → OnChainOf par .confirmed h j → (∀ t, Notified .finalized h t → t ≤ j) →
    ∃ st, BMap.find m j = some st ∧ st.parent = some (par j) ∧
      (OnChainOf par .finalized h j → st.commitment = .finalized) ∧
      (¬ OnChainOf par .finalized h j → st.commitment = .confirmed)
  unsettled : ∀ j st, base ≤ j → BMap.find m j = some st → ¬ OnChainOf par .confirmed h j →
    st.commitment = .processed ∧ (∀ q, st.parent = some q → q = par j) ∧
    (st.parent = none → ∃ G a c, Op.update G a c ∈ h ∧ a.slot = j)
  seen : ∀ j, base ≤ j → ¬ OnChainOf par .confirmed h j → Notified .processed h j →
    (∀ t, Notified .finalized h t → t ≤ j) → ∃ st, BMap.find m j = some st
  announced : ∀ j, base ≤ j → ¬ OnChainOf par .confirmed h j → AnnouncedFirst h j →
    (∀ t, Notified .finalized h t → t ≤ j) → ∃ st, BMap.find m j = some st ∧ st.parent = some (par j)
  below : ∀ j st q, j < base → BMap.find m j = some st → st.parent = some q → q < base

theorem chainOK_empty : ChainOK par base [] ([] : BMap SlotStatus) := by
  refine ⟨?_, ?_, ?_, ?_, ?_⟩
  · rintro j - ⟨t, ⟨F, σ, i, hm, -⟩, -⟩; simp at hm
  · intro j st _ hf; simp [BMap.find] at hf
  · rintro j - - ⟨F, σ, i, hm, -⟩; simp at hm
  · rintro j - - ⟨pre, F, σ, i, post, he, -⟩; simp at he
  · intro j st q _ hf; simp [BMap.find] at hf

theorem chainOK_update {h : List Op} {s : Store} (hC : ChainOK par base h s.slots) {F : Filters} {a : AccountData}
    {c : Commitment} (H : OneChain par base (h ++ [.update F a c])) (i : Nat) :
    ChainOK par base (h ++ [.update F a c]) (s.addIndexToSlot a.slot i c).1.slots := by
  have hup := H.updates F a c (by simp)
  have hkeep : ∀ j st, BMap.find s.slots j = some st → ∃ st', BMap.find (s.addIndexToSlot a.slot i c).1.slots j = some st' ∧
      st'.commitment = st.commitment ∧ st'.parent = st.parent := by
    intro j st hf
    rw [find_addIndexToSlot]
    split
    · rename_i hj; subst hj
      simp only [hf, Option.getD_some]
      split
      · exact ⟨_, rfl, rfl, rfl⟩
      · exact ⟨_, rfl, rfl, rfl⟩
    · exact ⟨st, hf, rfl, rfl⟩
  have hback : ∀ j st', BMap.find (s.addIndexToSlot a.slot i c).1.slots j = some st' →
      (∃ st, BMap.find s.slots j = some st ∧ st'.commitment = st.commitment ∧ st'.parent = st.parent) ∨
      (j = a.slot ∧ st'.commitment = c ∧ st'.parent = none) := by
    intro j st' hf
    rw [find_addIndexToSlot] at hf
    split at hf
    · rename_i hj; subst hj
      simp only [Option.some.injEq] at hf
      cases hs : BMap.find s.slots a.slot with
      | none =>
        right
        rw [hs] at hf
        subst hf
        refine ⟨rfl, ?_, ?_⟩ <;> (simp only [Option.getD_none]; split <;> rfl)
      | some st =>
        left
        rw [hs] at hf
        subst hf
        refine ⟨st, rfl, ?_, ?_⟩ <;> (simp only [Option.getD_some]; split <;> rfl)
    · exact Or.inl ⟨st', hf, rfl, rfl⟩
  refine ⟨?_, ?_, ?_, ?_, ?_⟩
  · intro j hj hc hf
    simp only [onChain_update] at hc ⊢
    simp only [notified_update] at hf
    obtain ⟨st, h1, h2, h3, h4⟩ := hC.settled j hj hc hf
    obtain ⟨st', h5, h6, h7⟩ := hkeep j st h1
    exact ⟨st', h5, by rw [h7]; exact h2, fun hx => by rw [h6]; exact h3 hx, fun hx => by rw [h6]; exact h4 hx⟩
  · intro j st' hj hf hc
    rw [onChain_update] at hc
    rcases hback j st' hf with ⟨st, h1, h2, h3⟩ | ⟨rfl, h2, h3⟩
    · obtain ⟨h4, h5, h6⟩ := hC.unsettled j st hj h1 hc
      rw [h2, h3]
      refine ⟨h4, h5, fun hn => ?_⟩
      obtain ⟨G, b, d, hm, hb⟩ := h6 hn
      exact ⟨G, b, d, List.mem_append_left _ hm, hb⟩
    · refine ⟨?_, by rw [h3]; simp, fun _ => ⟨F, a, c, by simp, rfl⟩⟩
      rw [h2]
      rcases hup with h | ⟨-, h⟩
      · exact h
      · omega
  · intro j hj hc hs hf
    rw [onChain_update] at hc
    rw [notified_update] at hs
    simp only [notified_update] at hf
    obtain ⟨st, h1⟩ := hC.seen j hj hc hs hf
    obtain ⟨st', h5, -⟩ := hkeep j st h1
    exact ⟨st', h5⟩
  · intro j hj hc hs hf
    rw [onChain_update] at hc
    simp only [notified_update] at hf
    rcases announced_snoc hs with hs | ⟨⟨G, τ, inf, he, -⟩, -⟩
    · obtain ⟨st, h1, h2⟩ := hC.announced j hj hc hs hf
      obtain ⟨st', h5, -, h7⟩ := hkeep j st h1
      exact ⟨st', h5, by rw [h7]; exact h2⟩
    · cases he
  · intro j st' q hj hf hq
    rcases hback j st' hf with ⟨st, h1, -, h3⟩ | ⟨-, -, h3⟩
    · exact hC.below j st q hj h1 (by rw [← h3]; exact hq)
    · rw [h3] at hq; cases hq

/-- A call that leaves the statuses alone. -/
theorem chainOK_rejected {h : List Op} {m : BMap SlotStatus} (hC : ChainOK par base h m) {F : Filters} {a : AccountData}
    {c : Commitment} : ChainOK par base (h ++ [.update F a c]) m := by
  refine ⟨?_, ?_, ?_, ?_, hC.below⟩
  · intro j hj hc hf
    simp only [onChain_update] at hc ⊢
    simp only [notified_update] at hf
    exact hC.settled j hj hc hf
  · intro j st hj hf hc
    rw [onChain_update] at hc
    obtain ⟨h4, h5, h6⟩ := hC.unsettled j st hj hf hc
    refine ⟨h4, h5, fun hn => ?_⟩
    obtain ⟨G, b, d, hm, hb⟩ := h6 hn
    exact ⟨G, b, d, List.mem_append_left _ hm, hb⟩
  · intro j hj hc hs hf
    rw [onChain_update] at hc
    rw [notified_update] at hs
    simp only [notified_update] at hf
    exact hC.seen j hj hc hs hf
  · intro j hj hc hs hf
    rw [onChain_update] at hc
    simp only [notified_update] at hf
    rcases announced_snoc hs with hs | ⟨⟨G, τ, inf, he, -⟩, -⟩
    · exact hC.announced j hj hc hs hf
    · cases he

/-- The slots raised by a notification: those that came on the chain with it. -/
structure Rise (par : Nat → Nat) (base : Nat) (c : Commitment) (h h' : List Op) (path : List Nat) : Prop where
  parts : ∃ seg junk, path = seg ++ junk ∧ seg.Pairwise (· > ·) ∧
    (∀ j, j ∈ seg ↔ base ≤ j ∧ OnChainOf par c h' j ∧ ¬ OnChainOf par c h j) ∧ ∀ j ∈ junk, j < base
  above : ∀ j, base ≤ j → OnChainOf par c h' j → ¬ OnChainOf par c h j → ∀ i, OnChainOf par c h i → i < j

theorem rise_of {c : Commitment} {h h' : List Op} {m m' : BMap SlotStatus} {k lo : Nat} {path : List Nat}
    (hR : Raised par base lo c m k path m')
    (hA : ∀ j, base ≤ j → (OnChainOf par c h' j ↔ OnChainOf par c h j ∨ (Ancestor par k j ∧ lo < j)))
    (hB : ∀ j, OnChainOf par c h j → base ≤ j → j ≤ lo) : Rise par base c h h' path := by
  have key : ∀ j, base ≤ j → ((OnChainOf par c h' j ∧ ¬ OnChainOf par c h j) ↔ (Ancestor par k j ∧ lo < j)) := by
    intro j hj
    rw [hA j hj]
    constructor
    · rintro ⟨h1 | h1, h2⟩
      · exact absurd h1 h2
      · exact h1
    · intro h1
      refine ⟨Or.inr h1, fun h2 => ?_⟩
      have := hB j h2 hj; omega
  constructor
  · obtain ⟨seg, junk, h1, h2, h3, h4⟩ := hR.parts
    refine ⟨seg, junk, h1, h2, ?_, h4⟩
    intro j
    rw [h3]
    constructor
    · rintro ⟨h5, h6, h7⟩; exact ⟨h6, (key j h6).2 ⟨h5, h7⟩⟩
    · rintro ⟨h6, h7⟩; exact ⟨((key j h6).1 h7).1, h6, ((key j h6).1 h7).2⟩
  · intro j hj h1 h2 i hi
    have h3 := (key j hj).1 ⟨h1, h2⟩
    by_cases hb : base ≤ i
    · have := hB i hi hb; omega
    · omega

theorem fins_le {h : List Op} (H : OneChain par base h) (hfb : FinalizedBehind par base h) {T : Nat}
    (hT : TopSlot par base h T) {t : Nat} (ht : Notified .finalized h t) (hb : base ≤ t) : Ancestor par T t ∧ t < T := by
  obtain ⟨T', h1, h2, h3⟩ := fin_behind H hfb ht hb
  have h4 := hT.above _ h1.notified
  have := anc_le H.down h4
  exact ⟨anc_trans h4 h2, by omega⟩

theorem Walk.of_none {info : SlotInfo} {c : Commitment} {m w k p path m' w'} (hw : Walk info c m w k p path m' w')
    (hs : BMap.find m k = none) (hc : c ≠ .finalized) : path = [k] ∧ m' = BMap.insert m k ⟨c, [], some info.parent⟩ := by
  cases hw with
  | same hf => rw [hs] at hf; cases hf
  | missing hf hn => exact absurd hn hc
  | stop hf => rw [hs] at hf; cases hf
  | next hf => rw [hs] at hf; cases hf
  | fresh hf => exact ⟨rfl, rfl⟩

theorem Walk.of_same {info : SlotInfo} {c : Commitment} {m w k p path m' w'} (hw : Walk info c m w k p path m' w')
    {st : SlotStatus} (hs : BMap.find m k = some st) (hc : st.commitment = c) : path = [] ∧ m' = m := by
  cases hw with
  | same hf => exact ⟨rfl, rfl⟩
  | missing hf hn => exact ⟨rfl, rfl⟩
  | stop hf hn => rw [hs] at hf; cases hf; exact absurd hc hn
  | next hf hn => rw [hs] at hf; cases hf; exact absurd hc hn
  | fresh hf => rw [hs] at hf; cases hf

theorem chain_confirmed {h : List Op} {m : BMap SlotStatus} (hC : ChainOK par base h m) {F : Filters} {σ : Order}
    {info : SlotInfo} (H : OneChain par base (h ++ [.slot F σ info .confirmed]))
    (hpk : ParentsKnown par base (h ++ [.slot F σ info .confirmed]))
    (hfb : FinalizedBehind par base (h ++ [.slot F σ info .confirmed])) {path m' w w'}
    (hw : Walk info .confirmed m w info.slot (some info.parent) path m' w') :
    ChainOK par base (h ++ [.slot F σ info .confirmed]) m' ∧
      Rise par base .confirmed h (h ++ [.slot F σ info .confirmed]) path := by
  have H0 := oneChain_init H
  have hfb0 := finalizedBehind_init hfb
  have hd := H.down
  obtain ⟨hkb, hk2, hknf, hkc⟩ := H.confirmed h F σ info [] rfl
  have hpar := H.parents F σ info .confirmed (by simp)
  have hkb' := anc_le hd hkb
  have hpk0 := hpk h F σ info [] rfl
  have hfn : ∀ t, Notified .finalized (h ++ [.slot F σ info .confirmed]) t ↔ Notified .finalized h t := by
    intro t; rw [notified_slot]; simp
  have hfo : ∀ t, OnChainOf par .finalized (h ++ [.slot F σ info .confirmed]) t ↔ OnChainOf par .finalized h t := by
    intro t; rw [onChain_slot]; simp
  have hpn : ∀ t, Notified .processed (h ++ [.slot F σ info .confirmed]) t ↔ Notified .processed h t := by
    intro t; rw [notified_slot]; simp
  have hco : ∀ j, OnChainOf par .confirmed (h ++ [.slot F σ info .confirmed]) j ↔
      OnChainOf par .confirmed h j ∨ Ancestor par info.slot j := by
    intro j; rw [onChain_slot]; simp
  -- the slot up to which the chain is confirmed
  obtain ⟨lo, hB, hA, hf, hlo, hfr, hfins⟩ : ∃ lo,
      (∀ j, OnChainOf par .confirmed h j → base ≤ j → OnChainOf par .confirmed h info.slot ∨ j ≤ lo) ∧
      (∀ j, Ancestor par info.slot j → base ≤ j → OnChainOf par .confirmed h j ∨ lo < j) ∧
      (OnChainOf par .confirmed h info.slot → lo = info.slot) ∧
      (base ≤ lo → Ancestor par info.slot lo ∧ ∃ st, BMap.find m lo = some st ∧ st.commitment = .confirmed) ∧
      (info.parent < base ∨ base ≤ lo) ∧
      (∀ t j, Notified .finalized h t → base ≤ j → lo < j → t < j) := by
    rcases topSlot H0 with hno | ⟨T, hT⟩
    · have hkeq : info.slot = base := by
        rcases hk2 with h1 | h1
        · exact h1
        · exact absurd h1 (hno _)
      have hlt := H.older base (Nat.le_refl _)
      have hnc : ∀ j, ¬ OnChainOf par .confirmed h j := fun j ⟨t, ht, _⟩ => hno t ht
      refine ⟨base - 1, fun j hj => absurd hj (hnc j), fun j _ hj => Or.inr (by omega), fun hx => absurd hx (hnc _),
        fun hx => by omega, Or.inl (by rw [hpar, hkeq]; exact hlt), ?_⟩
      intro t j ht hj _
      by_cases hbt : base ≤ t
      · obtain ⟨T, hT, -⟩ := fin_behind H0 hfb0 ht hbt
        exact absurd hT.notified (hno _)
      · omega
    · have hTb := anc_le hd hT.root
      by_cases hc : OnChainOf par .confirmed h info.slot
      · -- already confirmed
        have hfins : ∀ t, Notified .finalized h t → t ≤ info.slot := by
          intro t ht
          by_cases hbt : base ≤ t
          · have h1 := (fins_le H0 hfb0 hT ht hbt).1
            apply Classical.byContradiction
            intro hlt
            exact hknf ⟨t, ht, anc_linear hd h1 (hT.on.1 hc) (by omega)⟩
          · omega
        obtain ⟨st, h1, -, -, h3⟩ := hC.settled info.slot hkb' hc hfins
        refine ⟨info.slot, fun _ _ _ => Or.inl hc, fun j hj _ => Or.inl (hT.on.2 (anc_trans (hT.on.1 hc) hj)),
          fun _ => rfl, fun _ => ⟨.here, st, h1, h3 hknf⟩, Or.inr hkb', ?_⟩
        intro t j ht _ hlt
        have := hfins t ht; omega
      · have hkT : Ancestor par info.slot T := by
          rcases hkc T hT.notified with h1 | h1
          · exact h1
          · exact absurd (hT.on.2 h1) hc
        have hfins : ∀ t, Notified .finalized h t → t ≤ T := by
          intro t ht
          by_cases hbt : base ≤ t
          · have := (fins_le H0 hfb0 hT ht hbt).2; omega
          · omega
        obtain ⟨st, h1, -, -, h3⟩ := hC.settled T hTb (hT.on.2 .here) hfins
        refine ⟨T, fun j hj _ => Or.inr (anc_le hd (hT.on.1 hj)), ?_, fun hx => absurd hx hc, fun _ => ⟨hkT, st, h1, h3 ?_⟩,
          Or.inr hTb, ?_⟩
        · intro j hj hb
          by_cases hjT : T < j
          · exact Or.inr hjT
          · exact Or.inl (hT.on.2 (anc_linear hd hkT hj (by omega)))
        · rintro ⟨t, ht, ha⟩
          have h5 := anc_le hd ha
          have := (fins_le H0 hfb0 hT ht (by omega)).2
          omega
        · intro t j ht _ hlt
          have := hfins t ht; omega
  have hB' : ∀ j, OnChainOf par .confirmed h j → Ancestor par info.slot j → base ≤ j → j ≤ lo := by
    intro j h1 h2 h3
    rcases hB j h1 h3 with h4 | h4
    · rw [hf h4]; exact anc_le hd h2
    · exact h4
  have hopen : ∀ j, Ancestor par info.slot j → base ≤ j → lo < j → ¬ OnChainOf par .confirmed h j := by
    intro j h1 h2 h3 h4
    have := hB' j h4 h1 h2; omega
  have hR : Raised par base lo .confirmed m info.slot path m' := by
    cases hs : BMap.find m info.slot with
    | some st0 =>
      refine Walk.chain hd H.older (by decide) hw (Or.inr hfr) hC.below (fun hlt => by omega) ?_ hlo
      intro j ha hj hl
      have hnc := hopen j ha hj hl
      have hfj : ∀ t, Notified .finalized h t → t ≤ j := fun t ht => Nat.le_of_lt (hfins t j ht hj hl)
      by_cases hjk : j = info.slot
      · subst hjk
        refine ⟨st0, hs, ?_, fun _ => by simp [hpar], fun hx => absurd rfl hx⟩
        rw [(hC.unsettled _ st0 hj hs hnc).1]; decide
      · obtain ⟨-, hann⟩ := hpk0 j ha hjk hj hnc
        obtain ⟨st, h1, h2⟩ := hC.announced j hj hnc hann hfj
        refine ⟨st, h1, ?_, fun hx => absurd hx hjk, fun _ => h2⟩
        rw [(hC.unsettled _ st hj h1 hnc).1]; decide
    | none =>
      have hk : lo < info.slot := by
        apply Classical.byContradiction
        intro hx
        obtain ⟨ha, st, h1, -⟩ := hlo (by omega)
        have := anc_le hd ha
        have : lo = info.slot := by omega
        rw [this, hs] at h1; cases h1
      have honly : ∀ j, Ancestor par info.slot j → base ≤ j → lo < j → j = info.slot := by
        intro j ha hj hl
        apply Classical.byContradiction
        intro hjk
        obtain ⟨hpn', -⟩ := hpk0 j ha hjk hj (hopen j ha hj hl)
        obtain ⟨st, h1⟩ := hC.seen info.slot hkb' (hopen _ .here hkb' hk) hpn'
          (fun t ht => Nat.le_of_lt (hfins t _ ht hkb' hk))
        rw [hs] at h1; cases h1
      have hpm := hw.of_none hs (by decide)
      obtain ⟨rfl, rfl⟩ := hpm
      refine ⟨⟨[info.slot], [], rfl, List.pairwise_singleton _ _, ?_, by simp⟩, ?_, ?_, ?_⟩
      · intro j
        simp only [List.mem_singleton]
        constructor
        · rintro rfl; exact ⟨.here, hkb', hk⟩
        · rintro ⟨h1, h2, h3⟩; exact honly j h1 h2 h3
      · intro j h1 h2 h3
        have := honly j h1 h2 h3
        subst this
        exact ⟨⟨.confirmed, [], some info.parent⟩, by rw [BMap.find_insert, if_pos rfl], rfl, by simp [hpar]⟩
      · intro j hj hno
        rw [BMap.find_insert, if_neg]
        rintro rfl
        exact hno ⟨.here, hk⟩
      · intro j st q hj hf' hq
        rw [BMap.find_insert, if_neg (by omega)] at hf'
        exact hC.below j st q hj hf' hq
  have hnew : ∀ j, base ≤ j → (OnChainOf par .confirmed (h ++ [.slot F σ info .confirmed]) j ↔
      OnChainOf par .confirmed h j ∨ (Ancestor par info.slot j ∧ lo < j)) := by
    intro j hj
    rw [hco]
    constructor
    · rintro (h1 | h1)
      · exact Or.inl h1
      · rcases hA j h1 hj with h2 | h2
        · exact Or.inl h2
        · exact Or.inr ⟨h1, h2⟩
    · rintro (h1 | h1)
      · exact Or.inl h1
      · exact Or.inr h1.1
  constructor
  · refine ⟨?_, ?_, ?_, ?_, hR.below⟩
    · intro j hj hc hfj
      simp only [hfo, hfn] at hfj ⊢
      by_cases hr : Ancestor par info.slot j ∧ lo < j
      · obtain ⟨st, h1, h2, h3⟩ := hR.raised j hr.1 hj hr.2
        refine ⟨st, h1, h3, ?_, fun _ => h2⟩
        rintro ⟨t, ht, ha⟩
        have h4 := anc_le hd ha
        have := hfins t j ht hj hr.2
        omega
      · rw [hR.same j hj hr]
        rcases (hnew j hj).1 hc with h1 | h1
        · exact hC.settled j hj h1 hfj
        · exact absurd h1 hr
    · intro j st hj hfd hc
      rw [hnew j hj] at hc
      rw [hR.same j hj (fun hx => hc (Or.inr hx))] at hfd
      obtain ⟨h1, h2, h3⟩ := hC.unsettled j st hj hfd (fun hx => hc (Or.inl hx))
      refine ⟨h1, h2, fun hn => ?_⟩
      obtain ⟨G, b, d, hm, hb⟩ := h3 hn
      exact ⟨G, b, d, List.mem_append_left _ hm, hb⟩
    · intro j hj hc hs hfj
      rw [hnew j hj] at hc
      simp only [hfn, hpn] at hfj hs
      rw [hR.same j hj (fun hx => hc (Or.inr hx))]
      exact hC.seen j hj (fun hx => hc (Or.inl hx)) hs hfj
    · intro j hj hc hs hfj
      rw [hnew j hj] at hc
      simp only [hfn] at hfj
      rw [hR.same j hj (fun hx => hc (Or.inr hx))]
      rcases announced_snoc hs with hs | ⟨⟨G, τ, inf, he, -⟩, -⟩
      · exact hC.announced j hj (fun hx => hc (Or.inl hx)) hs hfj
      · cases he
  · by_cases hc : OnChainOf par .confirmed h info.slot
    · -- nothing new
      have hle := hf hc
      have hnone : ∀ j, base ≤ j → ¬ (OnChainOf par .confirmed (h ++ [.slot F σ info .confirmed]) j ∧
          ¬ OnChainOf par .confirmed h j) := by
        rintro j hj ⟨h1, h2⟩
        rcases (hnew j hj).1 h1 with h3 | ⟨h3, h4⟩
        · exact h2 h3
        · have := anc_le hd h3; omega
      obtain ⟨seg, junk, h1, h2, h3, h4⟩ := hR.parts
      refine ⟨⟨seg, junk, h1, h2, ?_, h4⟩, fun j hj h5 h6 => absurd ⟨h5, h6⟩ (hnone j hj)⟩
      intro j
      rw [h3]
      constructor
      · rintro ⟨h5, -, h7⟩; have := anc_le hd h5; omega
      · rintro ⟨h5, h6⟩; exact absurd h6 (hnone j h5)
    · refine rise_of hR hnew ?_
      intro j h1 h2
      rcases hB j h1 h2 with h3 | h3
      · exact absurd h3 hc
      · exact h3

theorem chain_finalized {h : List Op} {m : BMap SlotStatus} (hC : ChainOK par base h m) {F : Filters} {σ : Order}
    {info : SlotInfo} (H : OneChain par base (h ++ [.slot F σ info .finalized]))
    (hfb : FinalizedBehind par base (h ++ [.slot F σ info .finalized])) {path m' w w'}
    (hw : Walk info .finalized m w info.slot (some info.parent) path m' w') {m'' : BMap SlotStatus}
    (hm : ∀ j, BMap.find m'' j = if j < info.slot then none else BMap.find m' j) :
    ChainOK par base (h ++ [.slot F σ info .finalized]) m'' ∧
      Rise par base .finalized h (h ++ [.slot F σ info .finalized]) path := by
  have H0 := oneChain_init H
  have hfb0 := finalizedBehind_init hfb
  have hd := H.down
  obtain ⟨hord, hkc⟩ := H.finalized h F σ info [] rfl
  have hpar := H.parents F σ info .finalized (by simp)
  have hb1 : par base < base := H.older base (Nat.le_refl _)
  have hfn : ∀ t, Notified .finalized (h ++ [.slot F σ info .finalized]) t ↔ Notified .finalized h t ∨ info.slot = t := by
    intro t; rw [notified_slot]; simp
  have hfo : ∀ t, OnChainOf par .finalized (h ++ [.slot F σ info .finalized]) t ↔
      OnChainOf par .finalized h t ∨ Ancestor par info.slot t := by
    intro t; rw [onChain_slot]; simp
  have hpn : ∀ t, Notified .processed (h ++ [.slot F σ info .finalized]) t ↔ Notified .processed h t := by
    intro t; rw [notified_slot]; simp
  have hco : ∀ j, OnChainOf par .confirmed (h ++ [.slot F σ info .finalized]) j ↔ OnChainOf par .confirmed h j := by
    intro j; rw [onChain_slot]; simp
  have hall : ∀ j, (∀ t, Notified .finalized (h ++ [.slot F σ info .finalized]) t → t ≤ j) →
      info.slot ≤ j ∧ ∀ t, Notified .finalized h t → t ≤ j :=
    fun j hx => ⟨hx _ ((hfn _).2 (Or.inr rfl)), fun t ht => hx t ((hfn t).2 (Or.inl ht))⟩
  -- the slot up to which the chain is finalized
  obtain ⟨lo, hB, hA, hlo, hst⟩ : ∃ lo,
      (∀ j, OnChainOf par .finalized h j → base ≤ j → j ≤ lo) ∧
      (∀ j, Ancestor par info.slot j → base ≤ j → OnChainOf par .finalized h j ∨ lo < j) ∧
      (base ≤ lo → Ancestor par info.slot lo ∧ ∃ st, BMap.find m lo = some st ∧ st.commitment = .finalized) ∧
      (∀ j, Ancestor par info.slot j → base ≤ j → lo < j → OnChainOf par .confirmed h j ∧
        ∀ t, Notified .finalized h t → t ≤ j) := by
    have hnone : (∀ t, Notified .finalized h t → t < base) → ∃ lo,
      (∀ j, OnChainOf par .finalized h j → base ≤ j → j ≤ lo) ∧
      (∀ j, Ancestor par info.slot j → base ≤ j → OnChainOf par .finalized h j ∨ lo < j) ∧
      (base ≤ lo → Ancestor par info.slot lo ∧ ∃ st, BMap.find m lo = some st ∧ st.commitment = .finalized) ∧
      (∀ j, Ancestor par info.slot j → base ≤ j → lo < j → OnChainOf par .confirmed h j ∧
        ∀ t, Notified .finalized h t → t ≤ j) := by
      intro hx
      refine ⟨base - 1, ?_, fun j _ hj => Or.inr (by omega), fun hb => by omega, ?_⟩
      · rintro j ⟨t, ht, ha⟩ hj
        have := anc_le hd ha; have := hx t ht; omega
      · intro j ha hj _
        refine ⟨?_, fun t ht => by have := hx t ht; omega⟩
        rcases hkc with h1 | ⟨t, ht, h1⟩
        · have := anc_le hd ha; omega
        · exact ⟨t, ht, anc_trans h1 ha⟩
    rcases lastSlot H0 with hno | ⟨f, hf, hmax⟩
    · exact hnone (fun t ht => absurd ht (hno t))
    · by_cases hfbase : base ≤ f
      · obtain ⟨T, hT, hTf, hlt⟩ := fin_behind H0 hfb0 hf hfbase
        have hfk := hord f hf
        have hck : OnChainOf par .confirmed h info.slot := by
          rcases hkc with h1 | h1
          · omega
          · exact h1
        have hkf : Ancestor par info.slot f := anc_linear hd (hT.on.1 hck) hTf hfk
        obtain ⟨st, h1, -, h3, -⟩ := hC.settled f hfbase (hT.on.2 hTf) hmax
        refine ⟨f, ?_, ?_, fun _ => ⟨hkf, st, h1, h3 ⟨f, hf, .here⟩⟩, ?_⟩
        · rintro j ⟨t, ht, ha⟩ hj
          have := anc_le hd ha; have := hmax t ht; omega
        · intro j ha hj
          by_cases hl : f < j
          · exact Or.inr hl
          · exact Or.inl ⟨f, hf, anc_linear hd hkf ha (by omega)⟩
        · intro j ha hj hl
          exact ⟨hT.on.2 (anc_trans (hT.on.1 hck) ha), fun t ht => by have := hmax t ht; omega⟩
      · exact hnone (fun t ht => by have := hmax t ht; omega)
  have hR : Raised par base lo .finalized m info.slot path m' := by
    refine Walk.chain hd H.older (by decide) hw (Or.inl rfl) hC.below ?_ ?_ hlo
    · intro hlt q hq
      simp only [Option.some.injEq] at hq
      have := hd info.slot
      omega
    · intro j ha hj hl
      obtain ⟨h1, h2⟩ := hst j ha hj hl
      obtain ⟨st, h3, h4, -, h6⟩ := hC.settled j hj h1 h2
      refine ⟨st, h3, ?_, fun _ => by simp [hpar], fun _ => h4⟩
      rw [h6 (fun hx => by have := hB j hx hj; omega)]
      decide
  have hnew : ∀ j, base ≤ j → (OnChainOf par .finalized (h ++ [.slot F σ info .finalized]) j ↔
      OnChainOf par .finalized h j ∨ (Ancestor par info.slot j ∧ lo < j)) := by
    intro j hj
    rw [hfo]
    constructor
    · rintro (h1 | h1)
      · exact Or.inl h1
      · rcases hA j h1 hj with h2 | h2
        · exact Or.inl h2
        · exact Or.inr ⟨h1, h2⟩
    · rintro (h1 | h1)
      · exact Or.inl h1
      · exact Or.inr h1.1
  refine ⟨⟨?_, ?_, ?_, ?_, ?_⟩, rise_of hR hnew hB⟩
  · intro j hj hc hfj
    obtain ⟨hkj, hfj'⟩ := hall j hfj
    rw [hco] at hc
    rw [hm, if_neg (by omega)]
    by_cases hr : Ancestor par info.slot j ∧ lo < j
    · obtain ⟨st, h1, h2, h3⟩ := hR.raised j hr.1 hj hr.2
      exact ⟨st, h1, h3, fun _ => h2, fun hx => absurd ((hnew j hj).2 (Or.inr hr)) hx⟩
    · rw [hR.same j hj hr, hnew j hj]
      obtain ⟨st, h1, h2, h3, h4⟩ := hC.settled j hj hc hfj'
      refine ⟨st, h1, h2, ?_, fun hx => h4 (fun hy => hx (Or.inl hy))⟩
      rintro (hx | hx)
      · exact h3 hx
      · exact absurd hx hr
  · intro j st hj hfd hc
    rw [hco] at hc
    rw [hm] at hfd
    split at hfd
    · cases hfd
    · have hr : ¬ (Ancestor par info.slot j ∧ lo < j) := fun hr => hc (hst j hr.1 hj hr.2).1
      rw [hR.same j hj hr] at hfd
      obtain ⟨h1, h2, h3⟩ := hC.unsettled j st hj hfd hc
      refine ⟨h1, h2, fun hn => ?_⟩
      obtain ⟨G, b, d, hm, hb⟩ := h3 hn
      exact ⟨G, b, d, List.mem_append_left _ hm, hb⟩
  · intro j hj hc hs hfj
    obtain ⟨hkj, hfj'⟩ := hall j hfj
    rw [hco] at hc
    rw [hpn] at hs
    have hr : ¬ (Ancestor par info.slot j ∧ lo < j) := fun hr => hc (hst j hr.1 hj hr.2).1
    rw [hm, if_neg (by omega), hR.same j hj hr]
    exact hC.seen j hj hc hs hfj'
  · intro j hj hc hs hfj
    obtain ⟨hkj, hfj'⟩ := hall j hfj
    rw [hco] at hc
    have hr : ¬ (Ancestor par info.slot j ∧ lo < j) := fun hr => hc (hst j hr.1 hj hr.2).1
    rw [hm, if_neg (by omega), hR.same j hj hr]
    rcases announced_snoc hs with hs | ⟨⟨G, τ, inf, he, -⟩, -⟩
    · exact hC.announced j hj hc hs hfj'
    · cases he
  · intro j st q hj hfd hq
    rw [hm] at hfd
    split at hfd
    · cases hfd
    · exact hR.below j st q hj hfd hq

theorem chain_processed {h : List Op} {m : BMap SlotStatus} (hC : ChainOK par base h m) {F : Filters} {σ : Order}
    {info : SlotInfo} (H : OneChain par base (h ++ [.slot F σ info .processed])) {path m' w w'}
    (hw : Walk info .processed m w info.slot (some info.parent) path m' w') :
    ChainOK par base (h ++ [.slot F σ info .processed]) m' := by
  have hd := H.down
  have hnk := H.processed h F σ info [] rfl
  have hpar := H.parents F σ info .processed (by simp)
  have hfn : ∀ t, Notified .finalized (h ++ [.slot F σ info .processed]) t ↔ Notified .finalized h t := by
    intro t; rw [notified_slot]; simp
  have hfo : ∀ t, OnChainOf par .finalized (h ++ [.slot F σ info .processed]) t ↔ OnChainOf par .finalized h t := by
    intro t; rw [onChain_slot]; simp
  have hpn : ∀ t, Notified .processed (h ++ [.slot F σ info .processed]) t ↔ Notified .processed h t ∨ info.slot = t := by
    intro t; rw [notified_slot]; simp
  have hco : ∀ j, OnChainOf par .confirmed (h ++ [.slot F σ info .processed]) j ↔ OnChainOf par .confirmed h j := by
    intro j; rw [onChain_slot]; simp
  -- what happens to the statuses
  have hoth : ∀ j, j ≠ info.slot → BMap.find m' j = BMap.find m j := by
    intro j hj
    cases hw with
    | same => rfl
    | missing hf hn => rfl
    | stop => rw [BMap.find_insert, if_neg (fun h => hj h.symm)]
    | next hf hc hn => exact absurd rfl hn
    | fresh => rw [BMap.find_insert, if_neg (fun h => hj h.symm)]
  have hown : base ≤ info.slot → (∃ st, BMap.find m info.slot = some st ∧ BMap.find m' info.slot = some st) ∨
      (BMap.find m info.slot = none ∧ BMap.find m' info.slot = some ⟨.processed, [], some (par info.slot)⟩) := by
    intro hb
    cases hs : BMap.find m info.slot with
    | none =>
      right
      obtain ⟨-, rfl⟩ := hw.of_none hs (by decide)
      exact ⟨rfl, by rw [BMap.find_insert, if_pos rfl, hpar]⟩
    | some st =>
      left
      obtain ⟨-, rfl⟩ := hw.of_same hs (hC.unsettled _ st hb hs hnk).1
      exact ⟨st, rfl, hs⟩
  refine ⟨?_, ?_, ?_, ?_, ?_⟩
  · intro j hj hc hfj
    simp only [hco, hfo, hfn] at hc hfj ⊢
    rw [hoth j (fun hx => by subst hx; exact hnk hc)]
    exact hC.settled j hj hc hfj
  · intro j st hj hfd hc
    rw [hco] at hc
    have hold : BMap.find m j = some st → st.commitment = .processed ∧ (∀ q, st.parent = some q → q = par j) ∧
        (st.parent = none → ∃ G a c, Op.update G a c ∈ h ++ [.slot F σ info .processed] ∧ a.slot = j) := by
      intro hfd
      obtain ⟨h1, h2, h3⟩ := hC.unsettled j st hj hfd hc
      refine ⟨h1, h2, fun hn => ?_⟩
      obtain ⟨G, b, d, hm, hb⟩ := h3 hn
      exact ⟨G, b, d, List.mem_append_left _ hm, hb⟩
    by_cases hjk : j = info.slot
    · subst hjk
      rcases hown hj with ⟨st', h1, h2⟩ | ⟨h1, h2⟩
      · rw [h2] at hfd; cases hfd; exact hold h1
      · rw [h2] at hfd; cases hfd
        exact ⟨rfl, fun q hq => by simpa using hq.symm, fun hx => by cases hx⟩
    · rw [hoth j hjk] at hfd
      exact hold hfd
  · intro j hj hc hs hfj
    rw [hco] at hc
    simp only [hfn] at hfj
    by_cases hjk : j = info.slot
    · subst hjk
      rcases hown hj with ⟨st', h1, h2⟩ | ⟨h1, h2⟩
      · exact ⟨_, h2⟩
      · exact ⟨_, h2⟩
    · rw [hoth j hjk]
      rcases (hpn j).1 hs with hs | hs
      · exact hC.seen j hj hc hs hfj
      · exact absurd hs.symm hjk
  · intro j hj hc hs hfj
    rw [hco] at hc
    simp only [hfn] at hfj
    rcases announced_snoc hs with hs | ⟨⟨G, τ, inf, he, hi⟩, hno⟩
    · obtain ⟨st, h1, h2⟩ := hC.announced j hj hc hs hfj
      by_cases hjk : j = info.slot
      · subst hjk
        rcases hown hj with ⟨st', h3, h4⟩ | ⟨h3, -⟩
        · rw [h1] at h3; cases h3
          exact ⟨st, h4, h2⟩
        · rw [h1] at h3; cases h3
      · exact ⟨st, by rw [hoth j hjk]; exact h1, h2⟩
    · cases he
      subst hi
      rcases hown hj with ⟨st', h3, h4⟩ | ⟨-, h4⟩
      · obtain ⟨-, h6, h7⟩ := hC.unsettled _ st' hj h3 hc
        cases hp : st'.parent with
        | none =>
          obtain ⟨G, a, c, hm, ha⟩ := h7 hp
          exact absurd ha (hno G a c hm)
        | some q =>
          exact ⟨st', h4, by rw [hp, h6 q hp]⟩
      · exact ⟨_, h4, rfl⟩
  · intro j st q hj hfd hq
    by_cases hk : info.slot < base
    · refine (hw.before (Or.inr ?_) hC.below hk ?_).2 j st q hj hfd hq
      · have := hd info.slot; omega
      · intro q hq
        simp only [Option.some.injEq] at hq
        have := hd info.slot; omega
    · rw [hoth j (by omega)] at hfd
      exact hC.below j st q hj hfd hq

end

end Store
end LAM
