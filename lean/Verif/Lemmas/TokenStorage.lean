import Verif.Spec.TokenStorage
import Verif.Lemmas.TokenAccount
/-!
# Invariant of the token account storage
-/
namespace LAM.Token
open Spec TokenStorage

/-- What the storage holds: `slots i` is the account whose binary is at position `i`. -/
structure Holds (s : TokenStorage) (slots : List TokenAccount) : Prop where
  accounts : s.accounts = slots.map TokenAccount.toBytes
  fits : ∀ t ∈ slots, TokenFits t
  bucket : ∀ p is, s.buckets.find p = some is → is ≠ [] ∧ ∀ i ∈ is, ∃ t, slots[i]? = some t ∧ prefix4 t.pubkey = p
  unique : ∀ p is i j t u, s.buckets.find p = some is → i ∈ is → j ∈ is → slots[i]? = some t → slots[j]? = some u →
    t.pubkey = u.pubkey → i = j
  nodup : ∀ p is, s.buckets.find p = some is → is.Nodup

/-- The account stored for a public key. -/
def Stored (s : TokenStorage) (slots : List TokenAccount) (i : Nat) (t : TokenAccount) : Prop :=
  ∃ is, s.buckets.find (prefix4 t.pubkey) = some is ∧ i ∈ is ∧ slots[i]? = some t

theorem Holds.get {s : TokenStorage} {slots : List TokenAccount} (h : Holds s slots) {i : Nat} {t : TokenAccount}
    (hi : slots[i]? = some t) : s.accounts[i]? = some t.toBytes := by
  rw [h.accounts, List.getElem?_map, hi]; rfl

theorem firstMatch_spec {s : TokenStorage} {slots : List TokenAccount} (h : Holds s slots) (pk : Pubkey) (is : List Nat)
    (his : ∀ i ∈ is, ∃ t, slots[i]? = some t) :
    (∃ i ∈ is, ∃ t, slots[i]? = some t ∧ t.pubkey = pk ∧ firstMatch s.accounts pk is = .ok (some i)) ∨
    ((∀ i ∈ is, ∀ t, slots[i]? = some t → t.pubkey ≠ pk) ∧ firstMatch s.accounts pk is = .ok none) := by
  induction is with
  | nil => right; simp [firstMatch]
  | cons i is ih =>
    obtain ⟨t, ht⟩ := his i (by simp)
    simp only [firstMatch, h.get ht, Run.unwrap_some, Run.ok_bind, getPubkey_toBytes]
    by_cases hp : t.pubkey = pk
    · left
      exact ⟨i, by simp, t, ht, hp, by simp [hp]⟩
    · rw [if_neg hp]
      rcases ih (fun j hj => his j (by simp [hj])) with ⟨j, hj, u, hu, hk, he⟩ | ⟨hn, he⟩
      · exact .inl ⟨j, by simp [hj], u, hu, hk, he⟩
      · right
        refine ⟨?_, he⟩
        intro j hj u hu
        rcases List.mem_cons.1 hj with rfl | hj
        · rw [ht] at hu; cases hu; exact hp
        · exact hn j hj u hu

theorem holds_empty : Holds TokenStorage.empty [] := by
  constructor <;> simp [TokenStorage.empty]

/-- What is stored for a public key. -/
def view (s : TokenStorage) (slots : List TokenAccount) (pk : Pubkey) : Option TokenAccount :=
  match s.buckets.find (prefix4 pk) with
  | some is => (is.filterMap (fun i => slots[i]?)).find? (fun t => t.pubkey = pk)
  | none => none

theorem view_eq_some {s : TokenStorage} {slots : List TokenAccount} (h : Holds s slots) {pk : Pubkey} {t : TokenAccount} :
    view s slots pk = some t ↔ t.pubkey = pk ∧ ∃ i, Stored s slots i t := by
  unfold view Stored
  constructor
  · intro hv
    split at hv
    · rename_i is his
      have h1 := List.find?_some hv
      have h2 := List.mem_of_find?_eq_some hv
      simp only [decide_eq_true_eq] at h1
      simp only [List.mem_filterMap] at h2
      obtain ⟨i, hi, hs⟩ := h2
      exact ⟨h1, i, is, by rw [h1]; exact his, hi, hs⟩
    · simp at hv
  · rintro ⟨rfl, i, is, his, hi, hs⟩
    rw [his]
    simp only
    cases hf : (is.filterMap (fun i => slots[i]?)).find? (fun u => decide (u.pubkey = t.pubkey)) with
    | none =>
      rw [List.find?_eq_none] at hf
      exact absurd (by simp) (hf t (List.mem_filterMap.2 ⟨i, hi, hs⟩))
    | some u =>
      have h1 := List.find?_some hf
      have h2 := List.mem_of_find?_eq_some hf
      simp only [decide_eq_true_eq] at h1
      obtain ⟨j, hj, hu⟩ := List.mem_filterMap.1 h2
      have := h.unique _ _ _ _ _ _ his hj hi hu hs h1
      subst this
      rw [hs] at hu
      rw [hu]

theorem view_eq_none {s : TokenStorage} {slots : List TokenAccount} (h : Holds s slots) {pk : Pubkey} :
    view s slots pk = none ↔ ∀ t i, t.pubkey = pk → ¬ Stored s slots i t := by
  constructor
  · intro hv t i ht hs
    have := (view_eq_some h).2 ⟨ht, i, hs⟩
    rw [hv] at this; simp at this
  · intro hn
    cases hv : view s slots pk with
    | none => rfl
    | some t =>
      obtain ⟨h1, i, h2⟩ := (view_eq_some h).1 hv
      exact absurd h2 (hn t i h1)

theorem getByPubkey_eq {s : TokenStorage} {slots : List TokenAccount} (h : Holds s slots) (pk : Pubkey) :
    s.getByPubkey pk = .ok (view s slots pk) := by
  unfold getByPubkey
  cases hb : s.buckets.find (prefix4 pk) with
  | none => simp [view, hb]
  | some is =>
    simp only
    rcases firstMatch_spec h pk is (fun i hi => by obtain ⟨t, ht, _⟩ := (h.bucket _ _ hb).2 i hi; exact ⟨t, ht⟩) with
      ⟨i, hi, t, ht, hk, he⟩ | ⟨hn, he⟩
    · have hv : view s slots pk = some t := (view_eq_some h).2 ⟨hk, i, is, by rw [hk]; exact hb, hi, ht⟩
      rw [he, hv]
      simp [h.get ht, fromBytes_toBytes (h.fits t (List.mem_of_getElem? ht))]
    · rw [he]
      have hv : view s slots pk = none := by
        rw [view_eq_none h]
        rintro t i hk ⟨is', his', hi, ht⟩
        rw [hk, hb] at his'
        cases his'
        exact hn i hi t ht hk
      rw [hv]; rfl

/-- Saving: the outcome and what is stored afterwards. -/
theorem save_spec {s : TokenStorage} {slots : List TokenAccount} (h : Holds s slots) (t : TokenAccount) (ht : TokenFits t)
    (hlen : slots.length < 2 ^ 32) :
    ∃ i added s' slots', s.save t = .ok ((i, added), s') ∧ Holds s' slots' ∧ Stored s' slots' i t ∧
      (added = true → slots' = slots ++ [t] ∧ i = slots.length ∧ view s slots t.pubkey = none) ∧
      (added = false → slots' = slots.set i t ∧ s'.buckets = s.buckets ∧ ∃ u, u.pubkey = t.pubkey ∧ Stored s slots i u) ∧
      (∀ p, p ≠ prefix4 t.pubkey → s'.buckets.find p = s.buckets.find p) ∧
      (∀ j u, u.pubkey ≠ t.pubkey → (Stored s' slots' j u ↔ Stored s slots j u)) := by
  have hal : s.accounts.length = slots.length := by simp [h.accounts]
  have hw : wrap32 s.accounts.length = slots.length := by
    rw [hal]; exact Nat.mod_eq_of_lt hlen
  have hnew : ∀ is0 : List Nat, (s.buckets.find (prefix4 t.pubkey)).getD [] = is0 →
      (∀ i ∈ is0, ∀ u, slots[i]? = some u → u.pubkey ≠ t.pubkey) →
      Holds ⟨s.buckets.insert (prefix4 t.pubkey) (is0 ++ [slots.length]), s.accounts ++ [t.toBytes]⟩ (slots ++ [t]) ∧
      Stored ⟨s.buckets.insert (prefix4 t.pubkey) (is0 ++ [slots.length]), s.accounts ++ [t.toBytes]⟩ (slots ++ [t])
        slots.length t ∧ view s slots t.pubkey = none ∧
      (∀ j u, u.pubkey ≠ t.pubkey → (Stored ⟨s.buckets.insert (prefix4 t.pubkey) (is0 ++ [slots.length]),
        s.accounts ++ [t.toBytes]⟩ (slots ++ [t]) j u ↔ Stored s slots j u)) := by
    intro is0 his0 hno
    have hold : ∀ i ∈ is0, ∃ u, slots[i]? = some u ∧ prefix4 u.pubkey = prefix4 t.pubkey := by
      intro i hi
      cases hb : s.buckets.find (prefix4 t.pubkey) with
      | none => simp [hb] at his0; subst his0; simp at hi
      | some is =>
        simp [hb] at his0; subst his0
        exact (h.bucket _ _ hb).2 i hi
    have happ : ∀ (i : Nat) (u : TokenAccount), slots[i]? = some u → (slots ++ [t])[i]? = some u := by
      intro i u hu
      obtain ⟨hlt, -⟩ := List.getElem?_eq_some_iff.1 hu
      rw [List.getElem?_append_left hlt, hu]
    have hlast : (slots ++ [t])[slots.length]? = some t := by simp
    have hback : ∀ i ∈ is0, ∀ u, (slots ++ [t])[i]? = some u → slots[i]? = some u := by
      intro i hi u hu
      obtain ⟨v, hv, -⟩ := hold i hi
      rw [happ i v hv] at hu
      rw [hv, hu]
    refine ⟨⟨by simp [h.accounts], ?_, ?_, ?_, ?_⟩, ?_, ?_, ?_⟩
    · intro u hu
      rcases List.mem_append.1 hu with hu | hu
      · exact h.fits u hu
      · simp at hu; subst hu; exact ht
    · intro p is his
      simp only [AMap.find_insert] at his
      split at his
      · rename_i hp
        cases his
        refine ⟨by simp, ?_⟩
        intro i hi
        rcases List.mem_append.1 hi with hi | hi
        · obtain ⟨u, hu, hpu⟩ := hold i hi
          exact ⟨u, happ i u hu, by rw [hpu, hp]⟩
        · simp at hi; subst hi
          exact ⟨t, hlast, hp⟩
      · obtain ⟨h1, h2⟩ := h.bucket p is his
        refine ⟨h1, fun i hi => ?_⟩
        obtain ⟨u, hu, hpu⟩ := h2 i hi
        exact ⟨u, happ i u hu, hpu⟩
    · intro p is i j u v his hi hj hu hv hpk
      simp only [AMap.find_insert] at his
      split at his
      · cases his
        rcases List.mem_append.1 hi with hi | hi <;> rcases List.mem_append.1 hj with hj | hj
        · have hu' := hback i hi u hu
          have hv' := hback j hj v hv
          cases hb : s.buckets.find (prefix4 t.pubkey) with
          | none => simp [hb] at his0; subst his0; simp at hi
          | some is =>
            simp [hb] at his0; subst his0
            exact h.unique _ _ _ _ _ _ hb hi hj hu' hv' hpk
        · simp at hj; subst hj
          rw [hlast] at hv; cases hv
          exact absurd hpk (hno i hi u (hback i hi u hu))
        · simp at hi; subst hi
          rw [hlast] at hu; cases hu
          exact absurd hpk.symm (hno j hj v (hback j hj v hv))
        · simp at hi hj; omega
      · have h2 := (h.bucket p is his).2
        obtain ⟨u', hu', -⟩ := h2 i hi
        obtain ⟨v', hv', -⟩ := h2 j hj
        rw [happ _ _ hu'] at hu; rw [happ _ _ hv'] at hv
        cases hu; cases hv
        exact h.unique p is i j _ _ his hi hj hu' hv' hpk
    · intro p is his
      simp only [AMap.find_insert] at his
      split at his
      · cases his
        rw [List.nodup_append]
        refine ⟨?_, by simp, ?_⟩
        · cases hb : s.buckets.find (prefix4 t.pubkey) with
          | none => simp [hb] at his0; subst his0; simp
          | some is =>
            simp [hb] at his0; subst his0
            exact h.nodup _ _ hb
        · intro a ha b hb
          simp at hb; subst hb
          obtain ⟨u, hu, -⟩ := hold a ha
          obtain ⟨hlt, -⟩ := List.getElem?_eq_some_iff.1 hu
          omega
      · exact h.nodup p is his
    · exact ⟨is0 ++ [slots.length], by simp [AMap.find_insert], by simp, hlast⟩
    · rw [view_eq_none h]
      rintro u i hk ⟨is, his, hi, hu⟩
      rw [hk] at his
      simp [his] at his0; subst his0
      exact hno i hi u hu hk
    · intro j u hne
      unfold Stored
      simp only [AMap.find_insert]
      by_cases hp : prefix4 t.pubkey = prefix4 u.pubkey
      · simp only [hp, if_true, Option.some.injEq, exists_eq_left']
        constructor
        · rintro ⟨hj, hu⟩
          rcases List.mem_append.1 hj with hj | hj
          · cases hb : s.buckets.find (prefix4 t.pubkey) with
            | none => simp [hb] at his0; subst his0; simp at hj
            | some is =>
              simp [hb] at his0; subst his0
              exact ⟨is, by rw [← hp]; exact hb, hj, hback j hj u hu⟩
          · simp at hj; subst hj
            rw [hlast] at hu; cases hu
            exact absurd rfl hne
        · rintro ⟨is, his, hj, hu⟩
          rw [← hp] at his
          simp [his] at his0; subst his0
          exact ⟨by simp [hj], happ j u hu⟩
      · simp only [hp, if_false]
        constructor
        · rintro ⟨is, his, hj, hu⟩
          obtain ⟨v, hv, -⟩ := (h.bucket _ _ his).2 j hj
          rw [happ _ _ hv] at hu; cases hu
          exact ⟨is, his, hj, hv⟩
        · rintro ⟨is, his, hj, hu⟩
          exact ⟨is, his, hj, happ j u hu⟩
  unfold TokenStorage.save
  cases hb : s.buckets.find (prefix4 t.pubkey) with
  | none =>
    obtain ⟨h1, h2, h3, h4⟩ := hnew [] (by simp [hb]) (by simp)
    simp only [List.nil_append] at h1 h2 h4
    simp only [hw]
    refine ⟨_, _, _, _, rfl, h1, h2, fun _ => ⟨rfl, rfl, h3⟩, fun hf => by simp at hf, ?_, h4⟩
    intro p hp
    simp only [AMap.find_insert]
    rw [if_neg (fun e => hp e.symm)]
  | some is =>
    simp only
    rcases firstMatch_spec h t.pubkey is
      (fun i hi => by obtain ⟨t, ht, _⟩ := (h.bucket _ _ hb).2 i hi; exact ⟨t, ht⟩) with
      ⟨i, hi, u, hu, hk, he⟩ | ⟨hn, he⟩
    · rw [he]
      simp only [Run.ok_bind, Run.pure_eq]
      obtain ⟨hlt, -⟩ := List.getElem?_eq_some_iff.1 hu
      have hset : ∀ j v, (slots.set i t)[j]? = some v → (j = i ∧ v = t) ∨ (j ≠ i ∧ slots[j]? = some v) := by
        intro j v hv
        rw [List.getElem?_set] at hv
        by_cases e : i = j
        · rw [if_pos e, if_pos (e ▸ hlt)] at hv
          cases hv
          exact .inl ⟨e.symm, rfl⟩
        · rw [if_neg e] at hv
          exact .inr ⟨fun e' => e e'.symm, hv⟩
      have hget : ∀ j v, slots[j]? = some v → ∃ v', (slots.set i t)[j]? = some v' ∧ v'.pubkey = v.pubkey ∧ (j ≠ i → v' = v) := by
        intro j v hv
        by_cases e : i = j
        · subst e
          rw [hu] at hv; cases hv
          exact ⟨t, by simp [hlt], hk.symm, fun hne => absurd rfl hne⟩
        · exact ⟨v, by rw [List.getElem?_set_ne e]; exact hv, rfl, fun _ => rfl⟩
      have hH : Holds { s with accounts := s.accounts.set i t.toBytes } (slots.set i t) := by
        refine ⟨by simp [h.accounts, List.map_set], ?_, ?_, ?_, h.nodup⟩
        · intro v hv
          rcases List.mem_or_eq_of_mem_set hv with hv | hv
          · exact h.fits v hv
          · subst hv; exact ht
        · intro p is' his'
          obtain ⟨h1, h2⟩ := h.bucket p is' his'
          refine ⟨h1, fun j hj => ?_⟩
          obtain ⟨v, hv, hp⟩ := h2 j hj
          obtain ⟨v', hv', hkv, -⟩ := hget j v hv
          exact ⟨v', hv', by rw [hkv, hp]⟩
        · intro p is' a b v w his' ha hb' hv hw' hpk
          have h2 := (h.bucket p is' his').2
          obtain ⟨v0, hv0, -⟩ := h2 a ha
          obtain ⟨w0, hw0, -⟩ := h2 b hb'
          obtain ⟨v', hv', hkv, -⟩ := hget a v0 hv0
          obtain ⟨w', hw1, hkw, -⟩ := hget b w0 hw0
          rw [hv'] at hv; rw [hw1] at hw'
          cases hv; cases hw'
          exact h.unique p is' a b _ _ his' ha hb' hv0 hw0 (by rw [← hkv, ← hkw, hpk])
      refine ⟨_, _, _, _, rfl, hH, ⟨is, hb, hi, by simp [hlt]⟩, fun hf => by simp at hf,
        fun _ => ⟨rfl, rfl, u, hk, is, by rw [hk]; exact hb, hi, hu⟩, fun _ _ => rfl, ?_⟩
      intro j v hne
      unfold Stored
      constructor
      · rintro ⟨is', his', hj, hv⟩
        rcases hset j v hv with ⟨-, rfl⟩ | ⟨-, hv⟩
        · exact absurd rfl hne
        · exact ⟨is', his', hj, hv⟩
      · rintro ⟨is', his', hj, hv⟩
        obtain ⟨v', hv', hkv, hsame⟩ := hget j v hv
        by_cases e : j = i
        · subst e
          rw [hu] at hv; cases hv
          exact absurd hk hne
        · rw [hsame e] at hv'
          exact ⟨is', his', hj, hv'⟩
    · rw [he]
      simp only [Run.ok_bind, Run.pure_eq, hw]
      obtain ⟨h1, h2, h3, h4⟩ := hnew is (by simp [hb]) hn
      refine ⟨_, _, _, _, rfl, h1, h2, fun _ => ⟨rfl, rfl, h3⟩, fun hf => by simp at hf, ?_, h4⟩
      intro p hp
      simp only [AMap.find_insert]
      rw [if_neg (fun e => hp e.symm)]

theorem tombstone_fits : TokenFits tombstone := by constructor <;> simp [tombstone]

/-- Deleting: the bucket is gone; at most one position is overwritten, and only if it held the public key. -/
theorem delete_spec {s : TokenStorage} {slots : List TokenAccount} (h : Holds s slots) (pk : Pubkey) :
    ∃ s' slots', s.delete pk = .ok s' ∧ Holds s' slots' ∧ slots'.length = slots.length ∧
      (∀ p, s'.buckets.find p = if prefix4 pk = p then none else s.buckets.find p) ∧
      (∀ (i : Nat) (u : TokenAccount), prefix4 u.pubkey ≠ prefix4 pk → slots[i]? = some u → slots'[i]? = some u) ∧
      ((slots' = slots ∧ view s slots pk = none) ∨
        ∃ i u, u.pubkey = pk ∧ Stored s slots i u ∧ slots' = slots.set i tombstone) := by
  have herase : ∀ slots', (slots'.length = slots.length) → (∀ t ∈ slots', TokenFits t) →
      (∀ (i : Nat) (u : TokenAccount), prefix4 u.pubkey ≠ prefix4 pk → slots[i]? = some u → slots'[i]? = some u) →
      Holds ⟨s.buckets.erase (prefix4 pk), slots'.map TokenAccount.toBytes⟩ slots' := by
    intro slots' hl hf hk
    refine ⟨rfl, hf, ?_, ?_, fun p is his => ?_⟩
    · intro p is his
      simp only [AMap.find_erase] at his
      split at his
      · simp at his
      · rename_i hp
        obtain ⟨h1, h2⟩ := h.bucket p is his
        refine ⟨h1, fun i hi => ?_⟩
        obtain ⟨u, hu, hpu⟩ := h2 i hi
        exact ⟨u, hk i u (by rw [hpu]; exact fun e => hp e.symm) hu, hpu⟩
    · intro p is i j u v his hi hj hu hv hpk
      simp only [AMap.find_erase] at his
      split at his
      · simp at his
      · rename_i hp
        have h2 := (h.bucket p is his).2
        obtain ⟨u0, hu0, hpu⟩ := h2 i hi
        obtain ⟨v0, hv0, hpv⟩ := h2 j hj
        rw [hk i u0 (by rw [hpu]; exact fun e => hp e.symm) hu0] at hu
        rw [hk j v0 (by rw [hpv]; exact fun e => hp e.symm) hv0] at hv
        cases hu; cases hv
        exact h.unique p is i j _ _ his hi hj hu0 hv0 hpk
    · simp only [AMap.find_erase] at his
      split at his
      · simp at his
      · exact h.nodup p is his
  unfold TokenStorage.delete
  cases hb : s.buckets.find (prefix4 pk) with
  | none =>
    refine ⟨s, slots, rfl, h, rfl, ?_, fun _ _ _ hu => hu, .inl ⟨rfl, by simp [view, hb]⟩⟩
    intro p
    split
    · rename_i e; rw [← e, hb]
    · rfl
  | some is =>
    simp only
    rcases firstMatch_spec h pk is
      (fun i hi => by obtain ⟨t, ht, _⟩ := (h.bucket _ _ hb).2 i hi; exact ⟨t, ht⟩) with
      ⟨i, hi, u, hu, hk, he⟩ | ⟨hn, he⟩
    · rw [he]
      simp only [Run.ok_bind, Run.pure_eq]
      have hkeep : ∀ (j : Nat) (v : TokenAccount), prefix4 v.pubkey ≠ prefix4 pk → slots[j]? = some v → (slots.set i tombstone)[j]? = some v := by
        intro j v hp hv
        by_cases e : i = j
        · subst e
          rw [hu] at hv; cases hv
          rw [hk] at hp; exact absurd rfl hp
        · rw [List.getElem?_set_ne e]; exact hv
      have := herase (slots.set i tombstone) (by simp) (by
        intro v hv
        rcases List.mem_or_eq_of_mem_set hv with hv | hv
        · exact h.fits v hv
        · subst hv; exact tombstone_fits) hkeep
      rw [List.map_set, ← h.accounts] at this
      exact ⟨_, slots.set i tombstone, rfl, this, by simp, fun p => AMap.find_erase _ _ _, hkeep,
        .inr ⟨i, u, hk, ⟨is, by rw [hk]; exact hb, hi, hu⟩, rfl⟩⟩
    · rw [he]
      have := herase slots rfl h.fits (fun _ _ _ hu => hu)
      rw [← h.accounts] at this
      refine ⟨_, slots, rfl, this, rfl, fun p => AMap.find_erase _ _ _, fun _ _ _ hu => hu, .inl ⟨rfl, ?_⟩⟩
      rw [view_eq_none h]
      rintro t i hk ⟨is', his', hi, ht⟩
      rw [hk, hb] at his'
      cases his'
      exact hn i hi t ht hk

theorem view_save {s s' : TokenStorage} {slots slots' : List TokenAccount} {i : Nat} {t : TokenAccount} (h : Holds s slots)
    (h' : Holds s' slots') (hs : Stored s' slots' i t)
    (ho : ∀ j u, u.pubkey ≠ t.pubkey → (Stored s' slots' j u ↔ Stored s slots j u)) (pk : Pubkey) :
    view s' slots' pk = if t.pubkey = pk then some t else view s slots pk := by
  split
  · rename_i e
    exact (view_eq_some h').2 ⟨e, i, hs⟩
  · rename_i e
    cases hv : view s slots pk with
    | some u =>
      obtain ⟨hk, j, hj⟩ := (view_eq_some h).1 hv
      exact (view_eq_some h').2 ⟨hk, j, (ho j u (by rw [hk]; exact fun e' => e e'.symm)).2 hj⟩
    | none =>
      rw [view_eq_none h] at hv
      rw [view_eq_none h']
      intro u j hk hj
      exact hv u j hk ((ho j u (by rw [hk]; exact fun e' => e e'.symm)).1 hj)

theorem filterMap_congr' {f g : α → Option β} (l : List α) (h : ∀ x ∈ l, f x = g x) : l.filterMap f = l.filterMap g := by
  induction l with
  | nil => rfl
  | cons a l ih => simp only [List.filterMap_cons, h a (by simp), ih (fun x hx => h x (by simp [hx]))]

theorem view_delete {s s' : TokenStorage} {slots slots' : List TokenAccount} {pk : Pubkey} (h : Holds s slots)
    (hb : ∀ p, s'.buckets.find p = if prefix4 pk = p then none else s.buckets.find p)
    (hk : ∀ (i : Nat) (u : TokenAccount), prefix4 u.pubkey ≠ prefix4 pk → slots[i]? = some u → slots'[i]? = some u) (pk' : Pubkey) :
    view s' slots' pk' = if prefix4 pk = prefix4 pk' then none else view s slots pk' := by
  unfold view
  rw [hb]
  by_cases hp : prefix4 pk = prefix4 pk'
  · rw [if_pos hp, if_pos hp]
  · rw [if_neg hp, if_neg hp]
    cases hf : s.buckets.find (prefix4 pk') with
    | none => rfl
    | some is =>
      simp only
      congr 1
      refine filterMap_congr' _ ?_
      intro i hi
      obtain ⟨u, hu, hpu⟩ := (h.bucket _ _ hf).2 i hi
      rw [hu, hk i u (by rw [hpu]; exact fun e => hp e.symm) hu]

/-- The state after a history: what is held and what is found. -/
theorem run_spec (ops : List TokOp) {s : TokenStorage} {slots : List TokenAccount} (h : Holds s slots)
    (hf : ∀ t, TokOp.save t ∈ ops → TokenFits t) (hl : slots.length + ops.length ≤ 2 ^ 32) :
    ∃ s' slots', TokenStorage.run ops s = .ok s' ∧ Holds s' slots' ∧ slots'.length ≤ slots.length + ops.length ∧
      ∀ pk, view s' slots' pk = ops.foldl (fun r o => match o with
        | .save t => if t.pubkey = pk then some t else r
        | .delete k => if k.bytes.take 4 = pk.bytes.take 4 then none else r) (view s slots pk) := by
  induction ops generalizing s slots with
  | nil => exact ⟨s, slots, rfl, h, by simp, fun _ => rfl⟩
  | cons o ops ih =>
    simp only [List.length_cons] at hl
    cases o with
    | save t =>
      obtain ⟨i, added, s1, slots1, hs, h1, h2, h3, h4, -, h5⟩ := save_spec h t (hf t (by simp)) (by omega)
      have hlen : slots1.length ≤ slots.length + 1 := by
        cases added
        · rw [(h4 rfl).1]; simp
        · rw [(h3 rfl).1]; simp
      obtain ⟨s', slots', hr, hH, hle, hv⟩ := ih h1 (fun u hu => hf u (by simp [hu])) (by omega)
      refine ⟨s', slots', by simp [TokenStorage.run, TokenStorage.step, hs, hr], hH, by simp only [List.length_cons]; omega, ?_⟩
      intro pk
      rw [hv, view_save h h1 h2 h5 pk, List.foldl_cons]
    | delete k =>
      obtain ⟨s1, slots1, hs, h1, hlen, h2, h3, -⟩ := delete_spec h k
      obtain ⟨s', slots', hr, hH, hle, hv⟩ := ih h1 (fun u hu => hf u (by simp [hu])) (by omega)
      refine ⟨s', slots', by simp [TokenStorage.run, TokenStorage.step, hs, hr], hH, by simp only [List.length_cons]; omega, ?_⟩
      intro pk
      rw [hv, view_delete h h2 h3 pk, List.foldl_cons]
      rfl

theorem run_append (o1 o2 : List TokOp) (s : TokenStorage) :
    TokenStorage.run (o1 ++ o2) s = (TokenStorage.run o1 s >>= TokenStorage.run o2) := by
  induction o1 generalizing s with
  | nil => rfl
  | cons o o1 ih =>
    simp only [List.cons_append, TokenStorage.run]
    cases s.step o <;> simp [ih]

end LAM.Token
