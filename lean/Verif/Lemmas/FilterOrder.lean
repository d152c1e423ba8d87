import Verif.Lemmas.Filter
import Verif.Spec.FilterOrder
/-!
# Helper lemmas about the order of filters
-/
namespace LAM
open Spec

theorem map_toNat_lt (b c : Bytes) : b.map UInt8.toNat < c.map UInt8.toNat ↔ b < c := by
  induction b generalizing c with
  | nil => cases c <;> simp
  | cons x xs ih =>
    cases c with
    | nil => simp
    | cons y ys =>
      simp only [List.map_cons, List.cons_lt_cons_iff, ih, UInt8.lt_iff_toNat_lt, UInt8.toNat_inj]

theorem lt_iff_before (a b : AccountFilterType) : AccountFilterType.lt a b = true ↔ Before a b := by
  constructor
  · intro h
    rcases a with m | ⟨o, d | d | d⟩ <;> rcases b with n | ⟨o', e | e | e⟩ <;>
      simp [AccountFilterType.lt, AccountFilterType.key, List.cons_lt_cons_iff, map_toNat_lt] at h
    all_goals first
      | exact .size h
      | exact .kind _ _
      | skip
    all_goals first
      | exact .offset _ _ h
      | (rcases h with h | h
         · exact .offset _ _ h
         · first
           | (subst h; exact .pattern _ (by constructor))
           | (obtain ⟨rfl, h⟩ := h; exact .pattern _ (by constructor; exact h)))
  · intro h
    rcases h with h | _ | ⟨d, e, h⟩ | ⟨_, h⟩
    · simp [AccountFilterType.lt, AccountFilterType.key, List.cons_lt_cons_iff, h]
    · rename_i n f; rcases f with ⟨o, d | d | d⟩ <;>
        simp [AccountFilterType.lt, AccountFilterType.key, List.cons_lt_cons_iff]
    · cases d <;> cases e <;>
        simp [AccountFilterType.lt, AccountFilterType.key, List.cons_lt_cons_iff, h]
    · cases h <;> simp_all [AccountFilterType.lt, AccountFilterType.key, List.cons_lt_cons_iff, map_toNat_lt]

theorem prefix_iff {α : Type} {lt : α → α → Bool} (hst : StrictTotal lt) (S Q : List α) (hS : SSorted lt S)
    (hQ : SSorted lt Q) :
    (∃ rest, Q = S ++ rest) ↔ (∀ x ∈ S, x ∈ Q) ∧ ∀ x ∈ Q, x ∉ S → ∀ y ∈ S, lt y x = true := by
  constructor
  · rintro ⟨rest, rfl⟩
    refine ⟨fun x hx => by simp [hx], fun x hx hn y hy => ?_⟩
    have hx : x ∈ rest := by simpa [hn] using hx
    exact (List.pairwise_append.1 hQ).2.2 y hy x hx
  · rintro ⟨h1, h2⟩
    induction S generalizing Q with
    | nil => exact ⟨Q, rfl⟩
    | cons s S ih =>
      have hs := List.pairwise_cons.1 hS
      cases Q with
      | nil => simpa using h1 s
      | cons q Q =>
        have hq := List.pairwise_cons.1 hQ
        have hsq : s = q := by
          rcases List.mem_cons.1 (h1 s (by simp)) with h | h
          · exact h
          · have hlt := hq.1 s h
            by_cases hm : q ∈ s :: S
            · rcases List.mem_cons.1 hm with h' | h'
              · exact h'.symm
              · have := hst.trans _ _ _ hlt (hs.1 q h'); simp [hst.irrefl] at this
            · have := hst.trans _ _ _ hlt (h2 q (by simp) hm s (by simp)); simp [hst.irrefl] at this
        subst hsq
        obtain ⟨rest, hr⟩ := ih Q hs.2 hq.2 (fun x hx => by
            rcases List.mem_cons.1 (h1 x (by simp [hx])) with h | h
            · subst h; have := hs.1 x hx; simp [hst.irrefl] at this
            · exact h)
          (fun x hx hn y hy => h2 x (by simp [hx]) (by
            intro h
            rcases List.mem_cons.1 h with h | h
            · subst h; have := hq.1 x hx; simp [hst.irrefl] at this
            · exact hn h) y (by simp [hy]))
        exact ⟨rest, by simp [hr]⟩

theorem prefixMatches_covered (l q : List AccountFilterType) :
    prefixMatches (FSet.collect q) (FSet.collect l) = true ↔ Covered l q := by
  rw [prefixMatches_iff _ _ (FSet.sorted_collect q),
    prefix_iff AccountFilterType.lt_strict _ _ (FSet.sorted_collect l) (FSet.sorted_collect q)]
  simp only [FSet.mem_collect, lt_iff_before, Covered]

theorem decoded_of_mapRun (X : Codecs) : ∀ (l l' : List AccountFilterType),
    mapRun (AccountFilterType.toBytes X) l = .ok l' → Decoded X l l'
  | [], l', h => by simp [mapRun] at h; subst h; exact .nil
  | x :: l, l', h => by
    simp only [mapRun, Run.bind_eq_ok, Run.pure_eq, Run.ok.injEq] at h
    obtain ⟨y, hy, ys, hys, rfl⟩ := h
    have ih := decoded_of_mapRun X l ys hys
    rcases x with n | ⟨o, d | d | d⟩
    · simp [AccountFilterType.toBytes] at hy; subst hy; exact .size n ih
    · simp [AccountFilterType.toBytes] at hy; subst hy; exact .compare o rfl ih
    · simp only [AccountFilterType.toBytes, bytes_eq, Run.bind_eq_ok, Run.pure_eq, Run.ok.injEq] at hy
      obtain ⟨b, hb, rfl⟩ := hy
      refine .compare o ?_ ih
      cases hp : pattern X (.base58 d) <;> simp [hp] at hb ⊢; exact hb
    · simp only [AccountFilterType.toBytes, bytes_eq, Run.bind_eq_ok, Run.pure_eq, Run.ok.injEq] at hy
      obtain ⟨b, hb, rfl⟩ := hy
      refine .compare o ?_ ih
      cases hp : pattern X (.base64 d) <;> simp [hp] at hb ⊢; exact hb

end LAM
