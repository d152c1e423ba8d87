import Verif.Lemmas.TokenStorage
import Verif.Props.TokenAccount
/-!
# The token account storage: C48 – C50
-/
namespace LAM.Props
open Spec Token TokenStorage

/-- Shares the first four bytes with `Toy.alice`. -/
def aliceTwin : Pubkey := ⟨[1, 1, 1, 1] ++ List.replicate 28 9, by decide⟩

/-- A token account of `pk`. -/
def tokenAt (pk : Pubkey) (amount : Nat) : TokenAccount := { richToken with pubkey := pk, amount := amount }

theorem tokenAt_fits (pk : Pubkey) {n : Nat} (h : n < 2 ^ 64) : TokenFits (tokenAt pk n) := by
  constructor <;> simp [tokenAt, richToken]
  exact h

/-- The storage after the calls `ops`. -/
theorem reach (ops : List TokOp) (h : Admissible ops) :
    ∃ s slots, TokenStorage.run ops .empty = .ok s ∧ Holds s slots ∧ ∀ pk, view s slots pk = lastSavedSharing pk ops := by
  obtain ⟨s, slots, h1, h2, -, h3⟩ := run_spec ops holds_empty h.1 (by simpa using h.2)
  exact ⟨s, slots, h1, h2, h3⟩

theorem sharing_eq (pk : Pubkey) (ops : List TokOp) (h : DeletesDoNotCollide ops) :
    lastSavedSharing pk ops = lastSaved pk ops := by
  induction hn : ops.length generalizing ops with
  | zero =>
    have : ops = [] := List.length_eq_zero_iff.1 hn
    subst this; rfl
  | succ n ih =>
    obtain ⟨before, o, rfl⟩ : ∃ before o, ops = before ++ [o] :=
      ⟨ops.dropLast, ops.getLast (by intro e; simp [e] at hn), (List.dropLast_concat_getLast _).symm⟩
    have hb : lastSavedSharing pk before = lastSaved pk before := by
      refine ih before ?_ (by simpa using hn)
      intro b k a e
      exact h b k (a ++ [o]) (by simp [e])
    unfold lastSavedSharing lastSaved at *
    simp only [List.foldl_append, List.foldl_cons, List.foldl_nil]
    cases o with
    | save t => simp only [hb]
    | delete k =>
      simp only
      by_cases e : k = pk
      · simp [e]
      · rw [if_neg e]
        split
        · rename_i hp
          cases hl : lastSaved pk before with
          | none => unfold lastSaved at hl; rw [hl]
          | some t => exact absurd (h before k [] rfl pk (by rw [hl]; simp) hp.symm).symm e
        · exact hb

/-- **C48**, the full claim. -/
def C48_statement : Prop :=
  ∀ (ops : List TokOp) (pk : Pubkey), Admissible ops →
    ∃ s, TokenStorage.run ops .empty = .ok s ∧ s.getByPubkey pk = .ok (lastSaved pk ops)

/-- **C48**, for all histories: no call panics, and a lookup returns the account last saved, where deleting a public key
forgets every key with the same first four bytes. -/
theorem C48_exact (ops : List TokOp) (pk : Pubkey) (h : Admissible ops) :
    ∃ s, TokenStorage.run ops .empty = .ok s ∧ s.getByPubkey pk = .ok (lastSavedSharing pk ops) := by
  obtain ⟨s, slots, h1, h2, h3⟩ := reach ops h
  exact ⟨s, h1, by rw [getByPubkey_eq h2, h3]⟩

/-- **C48**, histories in which no delete hits the bucket of another stored key. -/
theorem C48_map_partial (ops : List TokOp) (pk : Pubkey) (h : Admissible ops) (hc : DeletesDoNotCollide ops) :
    ∃ s, TokenStorage.run ops .empty = .ok s ∧ s.getByPubkey pk = .ok (lastSaved pk ops) := by
  rw [← sharing_eq pk ops hc]
  exact C48_exact ops pk h

/-- **C48**. Deleting a public key makes another stored token account unreadable. -/
theorem C48_refuted : ¬ C48_statement := by
  intro h
  have ha : Admissible [.save (tokenAt Toy.alice 5), .save (tokenAt aliceTwin 6), .delete aliceTwin] := by
    refine ⟨?_, by simp⟩
    intro t ht
    simp at ht
    rcases ht with rfl | rfl <;> exact tokenAt_fits _ (by decide)
  obtain ⟨s, h1, h2⟩ := h _ Toy.alice ha
  obtain ⟨s', h1', h2'⟩ := C48_exact _ Toy.alice ha
  rw [h1] at h1'
  cases h1'
  rw [h2] at h2'
  have : lastSaved Toy.alice [.save (tokenAt Toy.alice 5), .save (tokenAt aliceTwin 6), .delete aliceTwin] =
    some (tokenAt Toy.alice 5) := by decide
  rw [this] at h2'
  have : lastSavedSharing Toy.alice [.save (tokenAt Toy.alice 5), .save (tokenAt aliceTwin 6), .delete aliceTwin] =
    none := by decide
  rw [this] at h2'
  simp at h2'

/-- A history with saves of colliding keys, an update and a delete. -/
def storageOps : List TokOp :=
  [.save (tokenAt Toy.alice 5), .save (tokenAt aliceTwin 6), .save (tokenAt Toy.bob 1), .save (tokenAt Toy.alice 7),
    .delete Toy.bob]

theorem storageOps_ok : Admissible storageOps := by
  refine ⟨?_, by simp [storageOps]⟩
  intro t ht
  simp [storageOps] at ht
  rcases ht with rfl | rfl | rfl | rfl <;> exact tokenAt_fits _ (by decide)

theorem storageOps_deletes : DeletesDoNotCollide storageOps := by
  intro before k after e pk hs hp
  have hk : k = Toy.bob := by
    have : TokOp.delete k ∈ storageOps := by rw [e]; simp
    simpa [storageOps] using this
  subst hk
  by_cases h1 : pk = Toy.bob
  · exact h1
  · exfalso
    have hsub : ∀ t, TokOp.save t ∈ before → t.pubkey = Toy.alice ∨ t.pubkey = aliceTwin ∨ t.pubkey = Toy.bob := by
      intro t ht
      have : TokOp.save t ∈ storageOps := by rw [e]; simp [ht]
      simp [storageOps] at this
      rcases this with rfl | rfl | rfl | rfl <;> simp [tokenAt]
    have hno : ∀ (l : List TokOp), (∀ t, TokOp.save t ∈ l → t.pubkey ≠ pk) → lastSaved pk l = none := by
      intro l hl
      unfold lastSaved
      generalize hr : (none : Option TokenAccount) = r
      suffices l.foldl (fun r o => match o with
        | .save t => if t.pubkey = pk then some t else r
        | .delete k => if k = pk then none else r) none = none by rw [← hr]; exact this
      clear hr r
      induction l with
      | nil => rfl
      | cons o l ih =>
        have ih := ih (fun t ht => hl t (by simp [ht]))
        cases o with
        | save t => simp only [List.foldl_cons, if_neg (hl t (by simp)), ih]
        | delete k => simp only [List.foldl_cons, ite_self, ih]
    refine hs (hno before ?_)
    rintro t ht rfl
    rcases hsub t ht with h | h | h
    · rw [h] at hp; revert hp; decide
    · rw [h] at hp; revert hp; decide
    · exact h1 h

example : ∃ s, TokenStorage.run storageOps .empty = .ok s ∧ s.getByPubkey Toy.alice = .ok (some (tokenAt Toy.alice 7)) :=
  C48_map_partial storageOps Toy.alice storageOps_ok storageOps_deletes

/-! ## Membership -/

/-- **C49**, the full claim. -/
def C49_statement : Prop :=
  ∀ (ops : List TokOp) (pk : Pubkey) (s : TokenStorage) (r : Option Nat), Admissible ops →
    TokenStorage.run ops .empty = .ok s → s.contains pk = .ok r → (r.isSome ↔ lastSavedSharing pk ops ≠ none)

theorem contains_spec {s : TokenStorage} {slots : List TokenAccount} (h : Holds s slots) (pk : Pubkey) :
    (∃ i, s.contains pk = .ok (some i) ∧ ∃ t, t.pubkey = pk ∧ Stored s slots i t) ∨
    (view s slots pk = none ∧ s.contains pk = .ok none ∧ ∀ i, s.buckets.find (prefix4 pk) ≠ some [i]) ∨
    (view s slots pk = none ∧ ∃ i, s.contains pk = .ok (some i) ∧ s.buckets.find (prefix4 pk) = some [i]) := by
  unfold contains
  cases hb : s.buckets.find (prefix4 pk) with
  | none => right; left; simp [view, hb]
  | some is =>
    simp only
    have hne := (h.bucket _ _ hb).1
    have hf := firstMatch_spec h pk is
      (fun i hi => by obtain ⟨t, ht, _⟩ := (h.bucket _ _ hb).2 i hi; exact ⟨t, ht⟩)
    by_cases hl : is.length > 1
    · rw [if_pos hl]
      rcases hf with ⟨i, hi, t, ht, hk, he⟩ | ⟨hn, he⟩
      · left
        exact ⟨i, he, t, hk, is, by rw [hk]; exact hb, hi, ht⟩
      · right; left
        refine ⟨?_, he, fun i e => ?_⟩
        · rw [view_eq_none h]
          rintro t i hk ⟨is', his', hi, ht⟩
          rw [hk, hb] at his'; cases his'
          exact hn i hi t ht hk
        · cases e; simp at hl
    · rw [if_neg hl]
      obtain ⟨i, rfl⟩ : ∃ i, is = [i] := by
        cases is with
        | nil => simp at hne
        | cons a t => cases t with
          | nil => exact ⟨a, rfl⟩
          | cons b t => simp at hl
      rcases hf with ⟨j, hi, t, ht, hk, he⟩ | ⟨hn, he⟩
      · left
        simp at hi; subst hi
        exact ⟨j, rfl, t, hk, [j], by rw [hk]; exact hb, by simp, ht⟩
      · right; right
        refine ⟨?_, i, rfl, rfl⟩
        rw [view_eq_none h]
        rintro t j hk ⟨is', his', hj, ht⟩
        rw [hk, hb] at his'; cases his'
        exact hn j hj t ht hk

/-- **C49**. `contains` never panics and never misses: for a stored key it returns an index under which the stored account
is found. -/
theorem C49_never_misses (ops : List TokOp) (pk : Pubkey) (t : TokenAccount) (h : Admissible ops)
    (hs : lastSavedSharing pk ops = some t) :
    ∃ s i, TokenStorage.run ops .empty = .ok s ∧ s.contains pk = .ok (some i) ∧ s.getByIndex [i] = .ok [t] := by
  obtain ⟨s, slots, h1, h2, h3⟩ := reach ops h
  have hv : view s slots pk = some t := by rw [h3, hs]
  obtain ⟨hk, j, hj⟩ := (view_eq_some h2).1 hv
  rcases contains_spec h2 pk with ⟨i, hi, u, hu, hsu⟩ | ⟨hn, -⟩ | ⟨hn, -⟩
  · have := (view_eq_some h2).2 ⟨hu, i, hsu⟩
    rw [hv] at this; cases this
    obtain ⟨is, -, -, hsl⟩ := hsu
    refine ⟨s, i, h1, hi, ?_⟩
    simp [getByIndex, h2.get hsl, mapRun, fromBytes_toBytes (h2.fits t (List.mem_of_getElem? hsl))]
  · rw [hn] at hv; simp at hv
  · rw [hn] at hv; simp at hv

/-- **C49**, for all histories: `contains` says yes exactly for stored keys and for keys that share their first four bytes
with exactly one stored key. -/
theorem C49_exact (ops : List TokOp) (pk : Pubkey) (h : Admissible ops) :
    ∃ s r, TokenStorage.run ops .empty = .ok s ∧ s.contains pk = .ok r ∧
      (r.isSome ↔ lastSavedSharing pk ops ≠ none ∨
        ∃ k, k.bytes.take 4 = pk.bytes.take 4 ∧
          ∀ k', k'.bytes.take 4 = pk.bytes.take 4 → (lastSavedSharing k' ops ≠ none ↔ k' = k)) := by
  obtain ⟨s, slots, h1, h2, h3⟩ := reach ops h
  have hne : ∀ k, lastSavedSharing k ops ≠ none ↔ ∃ t i, t.pubkey = k ∧ Stored s slots i t := by
    intro k
    rw [← h3, Option.ne_none_iff_exists']
    constructor
    · rintro ⟨t, ht⟩
      obtain ⟨hk, i, hi⟩ := (view_eq_some h2).1 ht
      exact ⟨t, i, hk, hi⟩
    · rintro ⟨t, i, hk, hi⟩
      exact ⟨t, (view_eq_some h2).2 ⟨hk, i, hi⟩⟩
  rcases contains_spec h2 pk with ⟨i, hi, t, ht, hst⟩ | ⟨hv, hc, hb⟩ | ⟨hv, i, hc, hb⟩
  · exact ⟨s, some i, h1, hi, by simp only [Option.isSome_some, true_iff]; exact .inl ((hne pk).2 ⟨t, i, ht, hst⟩)⟩
  · refine ⟨s, none, h1, hc, ?_⟩
    simp only [Option.isSome_none, Bool.false_eq_true, false_iff]
    rintro (hs | ⟨k, hk, hu⟩)
    · rw [← h3, hv] at hs; exact hs rfl
    · obtain ⟨t, i, htk, is, his, hi, ht⟩ := (hne k).1 ((hu k hk).2 rfl)
      have hpk : prefix4 t.pubkey = prefix4 pk := by rw [htk]; exact hk
      rw [hpk] at his
      have hall : ∀ j ∈ is, j = i := by
        intro j hj
        obtain ⟨u, hu', hpu⟩ := (h2.bucket _ _ his).2 j hj
        have : u.pubkey = k := (hu u.pubkey hpu).1 ((hne _).2 ⟨u, j, rfl, is, by rw [hpu]; exact his, hj, hu'⟩)
        exact h2.unique _ _ _ _ _ _ his hj hi hu' ht (by rw [this, htk])
      have hnd := h2.nodup _ _ his
      apply hb i
      rw [his]
      cases is with
      | nil => simp at hi
      | cons a l =>
        have ha := hall a (by simp)
        cases l with
        | nil => rw [ha]
        | cons b l =>
          have hb' := hall b (by simp)
          rw [List.nodup_cons] at hnd
          exact absurd (by rw [ha, hb']; simp) hnd.1
  · refine ⟨s, some i, h1, hc, ?_⟩
    simp only [Option.isSome_some, true_iff]
    right
    obtain ⟨t, ht, hpt⟩ := (h2.bucket _ _ hb).2 i (by simp)
    refine ⟨t.pubkey, hpt, ?_⟩
    intro k' hk'
    rw [hne]
    constructor
    · rintro ⟨u, j, rfl, is, his, hj, hu⟩
      have : prefix4 u.pubkey = prefix4 pk := hk'
      rw [this, hb] at his; cases his
      simp at hj; subst hj
      rw [ht] at hu; cases hu; rfl
    · rintro rfl
      exact ⟨t, i, rfl, [i], by rw [hpt]; exact hb, by simp, ht⟩

/-- **C49**, public keys not sharing their first four bytes with a different stored one. -/
theorem C49_membership_partial (ops : List TokOp) (pk : Pubkey) (h : Admissible ops)
    (hc : ∀ k, lastSavedSharing k ops ≠ none → k.bytes.take 4 = pk.bytes.take 4 → k = pk) :
    ∃ s r, TokenStorage.run ops .empty = .ok s ∧ s.contains pk = .ok r ∧ (r.isSome ↔ lastSavedSharing pk ops ≠ none) := by
  obtain ⟨s, r, h1, h2, h3⟩ := C49_exact ops pk h
  refine ⟨s, r, h1, h2, ?_⟩
  rw [h3]
  constructor
  · rintro (h | ⟨k, hk, hu⟩)
    · exact h
    · have hs := (hu k hk).2 rfl
      have := hc k hs hk
      rwa [this] at hs
  · exact .inl

/-- **C49**. A key that was never saved is reported as contained. -/
theorem C49_refuted : ¬ C49_statement := by
  intro h
  have ha : Admissible [.save (tokenAt Toy.alice 5)] := by
    refine ⟨?_, by simp⟩
    intro t ht
    simp at ht
    subst ht
    exact tokenAt_fits _ (by decide)
  obtain ⟨s, r, h1, h2, h3⟩ := C49_exact _ aliceTwin ha
  have h4 := h _ aliceTwin s r ha h1 h2
  rw [h4] at h3
  have hn : lastSavedSharing aliceTwin [.save (tokenAt Toy.alice 5)] = none := by decide
  rw [hn] at h3
  simp only [ne_eq, not_true, false_or, false_iff] at h3
  apply h3
  refine ⟨Toy.alice, by decide, ?_⟩
  intro k' _
  simp only [lastSavedSharing, List.foldl_cons, List.foldl_nil]
  constructor
  · intro hk
    by_cases e : (tokenAt Toy.alice 5).pubkey = k'
    · exact e.symm
    · simp [e] at hk
  · rintro rfl
    simp [tokenAt]

example : ∃ s i, TokenStorage.run storageOps .empty = .ok s ∧ s.contains aliceTwin = .ok (some i) ∧
    s.getByIndex [i] = .ok [tokenAt aliceTwin 6] :=
  C49_never_misses storageOps aliceTwin _ storageOps_ok (by decide)

/-! ## Snapshots -/

theorem wanted_toBytes (p : Program) (t : TokenAccount) :
    wanted p t.toBytes = .ok (decide (t.program = p) && !t.isDeleted) := by
  have h0 : t.toBytes[0]? = some t.flags := by simp [TokenAccount.toBytes]
  have h1 : t.toBytes[1]? = some (if t.isDeleted then 1 else 0) := by simp [TokenAccount.toBytes]
  have hbit : (t.flags &&& 0x3 = programBit p) ↔ t.program = p := by
    unfold TokenAccount.flags
    generalize t.delegate.isSome = a
    generalize t.isNative.isSome = b
    generalize t.closeAuthority.isSome = c
    generalize t.additionalData.isSome = d
    generalize t.program = q
    generalize t.state = st
    cases a <;> cases b <;> cases c <;> cases d <;> cases q <;> cases st <;> cases p <;> decide
  unfold wanted
  simp only [h0, h1, Run.unwrap_some, Run.ok_bind, Run.pure_eq]
  by_cases hp : t.program = p
  · rw [if_pos (hbit.2 hp)]
    cases t.isDeleted <;> simp [hp]
  · rw [if_neg (fun e => hp (hbit.1 e))]
    simp [hp]

theorem filterRun_ok {f : α → Run Bool} {g : α → Bool} (l : List α) (h : ∀ x ∈ l, f x = .ok (g x)) :
    filterRun f l = .ok (l.filter g) := by
  induction l with
  | nil => rfl
  | cons a l ih =>
    have ih := ih (fun x hx => h x (by simp [hx]))
    simp only [filterRun, h a (by simp), ih, Run.ok_bind, Run.pure_eq, List.filter_cons]

theorem createSnapshot_eq {s : TokenStorage} {slots : List TokenAccount} (h : Holds s slots) (p : Program) :
    s.createSnapshot p = .ok ((slots.filter (fun t => decide (t.program = p) && !t.isDeleted)).map TokenAccount.toBytes) := by
  unfold createSnapshot
  rw [h.accounts]
  have hgen : ∀ l : List TokenAccount, filterRun (wanted p) (l.map TokenAccount.toBytes) =
      .ok ((l.filter (fun t => decide (t.program = p) && !t.isDeleted)).map TokenAccount.toBytes) := by
    intro l
    induction l with
    | nil => rfl
    | cons a l ih =>
      simp only [List.map_cons, filterRun, wanted_toBytes, ih, Run.ok_bind, Run.pure_eq, List.filter_cons]
      split <;> simp_all
  exact hgen slots

/-- **C50**, the full claim. -/
def C50_statement : Prop :=
  ∀ (ops : List TokOp) (p : Program), Admissible ops →
    ∃ s l, TokenStorage.run ops .empty = .ok s ∧ s.createSnapshot p = .ok l ∧ l.Nodup ∧
      ∀ b, b ∈ l ↔ ∃ pk t, lastSavedSharing pk ops = some t ∧ t.program = p ∧ t.isDeleted = false ∧ b = t.toBytes

/-- **C50**, for all histories: creating a snapshot does not panic and every readable account of the program is in it. -/
theorem C50_complete (ops : List TokOp) (p : Program) (h : Admissible ops) :
    ∃ s l, TokenStorage.run ops .empty = .ok s ∧ s.createSnapshot p = .ok l ∧
      ∀ pk t, lastSavedSharing pk ops = some t → t.program = p → t.isDeleted = false → t.toBytes ∈ l := by
  obtain ⟨s, slots, h1, h2, h3⟩ := reach ops h
  refine ⟨s, _, h1, createSnapshot_eq h2 p, ?_⟩
  intro pk t hl hp hd
  rw [← h3] at hl
  obtain ⟨-, i, is, -, -, hs⟩ := (view_eq_some h2).1 hl
  refine List.mem_map.2 ⟨t, List.mem_filter.2 ⟨List.mem_of_getElem? hs, by simp [hp, hd]⟩, rfl⟩

/-- Every position holds a tombstone or a stored account. -/
def AllStored (s : TokenStorage) (slots : List TokenAccount) : Prop :=
  ∀ i t, slots[i]? = some t → t = tombstone ∨ Stored s slots i t

theorem allStored_save {s s' : TokenStorage} {slots slots' : List TokenAccount} {i : Nat} {added : Bool} {t : TokenAccount}
    (ha : AllStored s slots) (hs : Stored s' slots' i t)
    (h3 : added = true → slots' = slots ++ [t] ∧ i = slots.length ∧ view s slots t.pubkey = none)
    (h4 : added = false → slots' = slots.set i t ∧ s'.buckets = s.buckets ∧ ∃ u, u.pubkey = t.pubkey ∧ Stored s slots i u)
    (h5 : ∀ j u, u.pubkey ≠ t.pubkey → (Stored s' slots' j u ↔ Stored s slots j u)) (hH : Holds s slots) :
    AllStored s' slots' := by
  intro j u hu
  by_cases e : j = i
  · subst e
    have hs0 := hs
    obtain ⟨_, _, _, hs'⟩ := hs0
    rw [hs'] at hu; cases hu
    exact .inr hs
  · have hold : slots[j]? = some u := by
      cases added with
      | true =>
        obtain ⟨rfl, rfl, -⟩ := h3 rfl
        rw [List.getElem?_append] at hu
        split at hu
        · exact hu
        · rename_i hge
          have : j - slots.length ≠ 0 := by omega
          rw [List.getElem?_cons] at hu
          simp [this] at hu
      | false =>
        obtain ⟨rfl, -, -⟩ := h4 rfl
        rwa [List.getElem?_set_ne (fun e' => e e'.symm)] at hu
    rcases ha j u hold with h | h
    · exact .inl h
    · right
      by_cases hk : u.pubkey = t.pubkey
      · exfalso
        cases added with
        | true =>
          obtain ⟨-, -, hv⟩ := h3 rfl
          exact (view_eq_none hH).1 hv u j hk h
        | false =>
          obtain ⟨-, -, w, hw, is, his, hi, hsw⟩ := h4 rfl
          obtain ⟨is', his', hj, -⟩ := h
          rw [hk, ← hw, his] at his'
          cases his'
          exact e (hH.unique _ _ _ _ _ _ his hj hi hold hsw (by rw [hk, hw]))
      · exact (h5 j u hk).2 h

theorem reach_allStored (ops : List TokOp) (h : Admissible ops) (hc : DeletesDoNotCollide ops) :
    ∃ s slots, TokenStorage.run ops .empty = .ok s ∧ Holds s slots ∧ (slots.length ≤ ops.length) ∧
      (∀ pk, view s slots pk = lastSavedSharing pk ops) ∧ AllStored s slots := by
  induction hn : ops.length generalizing ops with
  | zero =>
    have : ops = [] := List.length_eq_zero_iff.1 hn
    subst this
    exact ⟨.empty, [], rfl, holds_empty, by simp, fun _ => rfl, by intro i t ht; simp at ht⟩
  | succ n ih =>
    obtain ⟨before, o, rfl⟩ : ∃ before o, ops = before ++ [o] :=
      ⟨ops.dropLast, ops.getLast (by intro e; simp [e] at hn), (List.dropLast_concat_getLast _).symm⟩
    have hcb : DeletesDoNotCollide before := fun b k a e => hc b k (a ++ [o]) (by simp [e])
    have hlen : before.length + 1 ≤ 2 ^ 32 := by simpa using h.2
    have hlen' : before.length = n := by simpa using hn
    obtain ⟨s, slots, h1, h2, hl, h3, h4⟩ := ih before
      ⟨fun t ht => h.1 t (by simp [ht]), by omega⟩ hcb hlen'
    cases o with
    | save t =>
      obtain ⟨i, added, s', slots', e1, e2, e3, e4, e5, -, e6⟩ := save_spec h2 t (h.1 t (by simp)) (by omega)
      refine ⟨s', slots', ?_, e2, ?_, ?_, allStored_save h4 e3 e4 e5 e6 h2⟩
      · rw [run_append, h1]; simp [TokenStorage.run, TokenStorage.step, e1]
      · cases added with
        | true => obtain ⟨rfl, -, -⟩ := e4 rfl; simp; omega
        | false => obtain ⟨rfl, -, -⟩ := e5 rfl; simp; omega
      · intro pk
        rw [view_save h2 e2 e3 e6 pk, h3]
        simp [lastSavedSharing, List.foldl_append]
    | delete k =>
      obtain ⟨s', slots', e1, e2, e3, e4, e5, e6⟩ := delete_spec h2 k
      refine ⟨s', slots', ?_, e2, by omega, ?_, ?_⟩
      · rw [run_append, h1]; simp [TokenStorage.run, TokenStorage.step, e1]
      · intro pk
        rw [view_delete h2 e4 e5 pk, h3]
        simp only [lastSavedSharing, List.foldl_append, List.foldl_cons, List.foldl_nil]
        rfl
      · have hother : ∀ j u, Stored s slots j u → u.pubkey ≠ k → prefix4 u.pubkey ≠ prefix4 k := by
          intro j u hu hne hp
          refine hne (hc before k [] rfl u.pubkey ?_ hp)
          rw [← sharing_eq _ _ hcb, ← h3, (view_eq_some h2).2 ⟨rfl, j, hu⟩]
          simp
        have hkeep : ∀ j u, Stored s slots j u → u.pubkey ≠ k → Stored s' slots' j u := by
          intro j u hu hne
          have hp := hother j u hu hne
          obtain ⟨is, his, hj, hs⟩ := hu
          exact ⟨is, by rw [e4, if_neg (fun e => hp e.symm)]; exact his, hj, e5 j u hp hs⟩
        intro j u hu
        rcases e6 with ⟨rfl, hv⟩ | ⟨i, w, hw, hsw, rfl⟩
        · rcases h4 j u hu with hx | hx
          · exact .inl hx
          · refine .inr (hkeep j u hx ?_)
            intro hk
            exact (view_eq_none h2).1 hv u j hk hx
        · by_cases e : i = j
          · subst e
            rw [List.getElem?_set_self'] at hu
            obtain ⟨-, -, -, hsl⟩ := hsw
            rw [hsl] at hu
            simp at hu
            exact .inl hu.symm
          · rw [List.getElem?_set_ne e] at hu
            rcases h4 j u hu with hx | hx
            · exact .inl hx
            · refine .inr (hkeep j u hx ?_)
              intro hk
              obtain ⟨is, his, hi, hsl⟩ := hsw
              obtain ⟨is', his', hj, -⟩ := hx
              rw [hk, ← hw, his] at his'; cases his'
              exact e (h2.unique _ _ _ _ _ _ his hi hj hsl hu (hw.trans hk.symm))

/-- **C50**, histories in which no delete hits the bucket of another stored key. -/
theorem C50_exact_partial (ops : List TokOp) (p : Program) (h : Admissible ops) (hc : DeletesDoNotCollide ops) :
    ∃ s l, TokenStorage.run ops .empty = .ok s ∧ s.createSnapshot p = .ok l ∧ l.Nodup ∧
      ∀ b, b ∈ l ↔ ∃ pk t, lastSaved pk ops = some t ∧ t.program = p ∧ t.isDeleted = false ∧ b = t.toBytes := by
  obtain ⟨s, slots, h1, h2, -, h3, h4⟩ := reach_allStored ops h hc
  refine ⟨s, _, h1, createSnapshot_eq h2 p, ?_, ?_⟩
  · unfold List.Nodup
    rw [List.pairwise_map, List.pairwise_filter, List.pairwise_iff_getElem]
    intro i j hi hj hlt ha hb e
    have hti : slots[i]? = some slots[i] := by simp [hi]
    have htj : slots[j]? = some slots[j] := by simp [hj]
    have hf := fromBytes_toBytes (h2.fits _ (List.getElem_mem hi))
    rw [e, fromBytes_toBytes (h2.fits _ (List.getElem_mem hj))] at hf
    have hf : slots[j] = slots[i] := by simpa using hf
    have hnt : ∀ t : TokenAccount, (decide (t.program = p) && !t.isDeleted) = true → t ≠ tombstone := by
      rintro t ht rfl
      simp [tombstone] at ht
    have hsi := (h4 i _ hti).resolve_left (hnt _ (by simpa using ha))
    have hsj := (h4 j _ htj).resolve_left (hnt _ (by simpa using hb))
    rw [hf] at hsj
    obtain ⟨is, his, hii, hsi⟩ := hsi
    obtain ⟨is', his', hjj, hsj⟩ := hsj
    rw [his] at his'; cases his'
    have := h2.unique _ _ _ _ _ _ his hii hjj hsi hsj rfl
    omega
  · intro b
    constructor
    · intro hb
      obtain ⟨t, ht, rfl⟩ := List.mem_map.1 hb
      obtain ⟨hm, hw⟩ := List.mem_filter.1 ht
      simp only [Bool.and_eq_true, decide_eq_true_eq, Bool.not_eq_true'] at hw
      obtain ⟨i, hi⟩ := List.getElem?_of_mem hm
      rcases h4 i t hi with rfl | hs
      · simp [tombstone] at hw
      · exact ⟨t.pubkey, t, by rw [← sharing_eq _ _ hc, ← h3]; exact (view_eq_some h2).2 ⟨rfl, i, hs⟩, hw.1, hw.2, rfl⟩
    · rintro ⟨pk, t, hl, hp, hd, rfl⟩
      rw [← sharing_eq _ _ hc, ← h3] at hl
      obtain ⟨-, i, is, -, -, hs⟩ := (view_eq_some h2).1 hl
      exact List.mem_map.2 ⟨t, List.mem_filter.2 ⟨List.mem_of_getElem? hs, by simp [hp, hd]⟩, rfl⟩

/-- **C50**. The snapshot contains an account that is no longer readable. -/
theorem C50_refuted : ¬ C50_statement := by
  intro h
  have ha : Admissible [.save (tokenAt Toy.alice 5), .delete aliceTwin] := by
    refine ⟨?_, by simp⟩
    intro t ht
    simp at ht
    subst ht
    exact tokenAt_fits _ (by decide)
  obtain ⟨s, l, h1, h2, -, h3⟩ := h _ .token2022Program ha
  have hs : TokenStorage.run [.save (tokenAt Toy.alice 5), .delete aliceTwin] .empty =
      .ok ⟨[], [(tokenAt Toy.alice 5).toBytes]⟩ := by decide +kernel
  rw [hs] at h1; cases h1
  have hc : TokenStorage.createSnapshot ⟨[], [(tokenAt Toy.alice 5).toBytes]⟩ .token2022Program =
      .ok [(tokenAt Toy.alice 5).toBytes] := by decide +kernel
  rw [hc] at h2; cases h2
  obtain ⟨pk, t, hl, -⟩ := (h3 (tokenAt Toy.alice 5).toBytes).1 (by simp)
  have : lastSavedSharing pk [.save (tokenAt Toy.alice 5), .delete aliceTwin] = none := by
    simp only [lastSavedSharing, List.foldl_cons, List.foldl_nil]
    split
    · rfl
    · rename_i hp
      rw [if_neg]
      rintro rfl
      exact hp (by decide)
  rw [this] at hl
  simp at hl

example : ∃ s l, TokenStorage.run storageOps .empty = .ok s ∧ s.createSnapshot .token2022Program = .ok l ∧ l.Nodup ∧
      ∀ b, b ∈ l ↔ ∃ pk t, lastSaved pk storageOps = some t ∧ t.program = .token2022Program ∧ t.isDeleted = false ∧
        b = t.toBytes :=
  C50_exact_partial storageOps .token2022Program storageOps_ok storageOps_deletes

example : (TokenStorage.run storageOps .empty).bind (createSnapshot · .token2022Program) =
    .ok [(tokenAt Toy.alice 7).toBytes, (tokenAt aliceTwin 6).toBytes] := by decide +kernel

end LAM.Props
