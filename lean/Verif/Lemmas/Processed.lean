import Verif.Spec.Processed
import Mathlib.Data.List.Nodup
import Mathlib.Data.List.Perm.Subperm
/-!
# Lemmas on the table of unfinalized accounts
-/
namespace LAM

namespace BMap
variable {V : Type}

theorem find_erase (m : BMap V) (k k' : Nat) : find (erase m k) k' = if k = k' then none else find m k' := by
  induction m with
  | nil => simp [erase, find]
  | cons e t ih =>
    obtain ⟨a, b⟩ := e
    unfold erase at ih ⊢
    rw [List.filter_cons]
    split
    · simp only [find, ih]; grind
    · simp only [find, ih]; grind

theorem sorted_erase {m : BMap V} (h : Sorted m) (k : Nat) : Sorted (erase m k) := h.filter _

theorem length_erase {m : BMap V} {k : Nat} {v : V} (h : find m k = some v) : (erase m k).length < m.length := by
  unfold erase
  rw [← List.countP_eq_length_filter]
  have h1 : m.countP (fun e => decide (e.1 ≠ k)) ≠ m.length := by
    intro e
    have := (List.countP_eq_length.1 e) _ (mem_of_find h)
    simp at this
  have h2 := List.countP_le_length (p := fun e : Nat × V => decide (e.1 ≠ k)) (l := m)
  omega

theorem find_dropWhile {m : BMap V} (h : Sorted m) (s k : Nat) :
    find (m.dropWhile (fun e => decide (e.1 ≤ s))) k = if k ≤ s then none else find m k := by
  induction m with
  | nil => simp
  | cons e t ih =>
    obtain ⟨a, b⟩ := e
    simp only [Sorted, List.pairwise_cons] at h
    rw [List.dropWhile_cons]
    split
    · rename_i hle
      simp at hle
      rw [ih h.2]
      simp only [find]
      grind
    · rename_i hle
      simp at hle
      split
      · rename_i hk
        cases hf : find ((a, b) :: t) k with
        | none => rfl
        | some v =>
          have := mem_of_find hf
          rcases List.mem_cons.1 this with e | e
          · simp at e; omega
          · have := h.1 _ e; simp at this; omega
      · rfl

theorem sorted_dropWhile {m : BMap V} (h : Sorted m) (p : Nat × V → Bool) : Sorted (m.dropWhile p) :=
  List.Pairwise.sublist (List.dropWhile_sublist p) h

end BMap

namespace Token
open Spec ProcStore

/-! ## Finalization -/

theorem find_collect (slot : Nat) (l : AMap Pubkey Processed) (found : Found) (pk : Pubkey) :
    (collect slot l found).find pk = match found.find pk with
      | some v => some v
      | none => (l.find pk).map (fun x => (x, slot)) := by
  induction l generalizing found with
  | nil => simp only [collect]; cases found.find pk <;> rfl
  | cons a l ih =>
    obtain ⟨k, x⟩ := a
    simp only [collect]
    rw [ih]
    cases hk : found.find k with
    | some v =>
      simp only []
      cases hp : found.find pk with
      | some w => rfl
      | none =>
        have : k ≠ pk := by rintro rfl; rw [hk] at hp; simp at hp
        simp [AMap.find, this]
    | none =>
      simp only [AMap.find_insert]
      by_cases e : k = pk
      · subst e; simp [hk, AMap.find]
      · simp only [if_neg e, AMap.find]

theorem distinct_collect (slot : Nat) (l : AMap Pubkey Processed) {found : Found} (h : AMap.Distinct found) :
    AMap.Distinct (collect slot l found) := by
  induction l generalizing found with
  | nil => exact h
  | cons a l ih =>
    simp only [collect]
    apply ih
    split
    · exact h
    · exact AMap.distinct_insert h _ _

theorem newest_erase {P : ProcStore} {pk : Pubkey} {s p : Nat} {e : BySlot} (hs : BMap.find P s = some e)
    (hn : e.accounts.find pk = none) (hp : e.parent = some p) (x : Processed) (k : Nat) :
    NewestOn P pk s x k ↔ NewestOn (BMap.erase P s) pk p x k := by
  constructor
  · intro h
    have key : ∀ q, NewestOn P pk q x k → NewestOn (BMap.erase P s) pk q x k ∨ NewestOn (BMap.erase P s) pk p x k := by
      clear h
      intro q hq
      induction hq with
      | @here q e' y hq hy =>
        left
        have : s ≠ q := by rintro rfl; rw [hs] at hq; cases hq; rw [hn] at hy; simp at hy
        exact .here (e := e') (by rw [BMap.find_erase, if_neg this]; exact hq) hy
      | @up q e' p' y k' hq hy hp' _ ih =>
        by_cases heq : s = q
        · subst heq
          rw [hs] at hq; cases hq
          rw [hp] at hp'; cases hp'
          rcases ih with h | h <;> exact .inr h
        · rcases ih with h | h
          · exact .inl (.up (by rw [BMap.find_erase, if_neg heq]; exact hq) hy hp' h)
          · exact .inr h
    have hp2 : NewestOn P pk p x k := by
      cases h with
      | here h1 h2 => rw [hs] at h1; cases h1; rw [hn] at h2; simp at h2
      | up h1 h2 h3 h4 => rw [hs] at h1; cases h1; rw [hp] at h3; cases h3; exact h4
    rcases key p hp2 with h | h <;> exact h
  · intro h
    refine .up hs hn hp ?_
    clear hp
    induction h with
    | @here q e' y hq hy =>
      rw [BMap.find_erase] at hq
      split at hq
      · simp at hq
      · exact .here hq hy
    | @up q e' p' y k' hq hy hp' _ ih =>
      rw [BMap.find_erase] at hq
      split at hq
      · simp at hq
      · exact .up hq hy hp' ih

theorem onChain_erase {P : ProcStore} {s p : Nat} {e : BySlot} (hs : BMap.find P s = some e) (hp : e.parent = some p)
    (k : Nat) : OnChain P s k ↔ s = k ∨ OnChain (BMap.erase P s) p k := by
  constructor
  · intro h
    have key : ∀ q, OnChain P q k → s = k ∨ OnChain (BMap.erase P s) q k ∨ OnChain (BMap.erase P s) p k := by
      clear h
      intro q hq
      induction hq with
      | @here q e' hq =>
        by_cases heq : s = q
        · exact .inl heq
        · exact .inr (.inl (.here (by rw [BMap.find_erase, if_neg heq]; exact hq)))
      | @up q e' p' k' hq hp' _ ih =>
        rcases ih with h | h | h
        · exact .inl h
        · by_cases heq : s = q
          · subst heq
            rw [hs] at hq; cases hq
            rw [hp] at hp'; cases hp'
            exact .inr (.inr h)
          · exact .inr (.inl (.up (by rw [BMap.find_erase, if_neg heq]; exact hq) hp' h))
        · exact .inr (.inr h)
    cases h with
    | here => exact .inl rfl
    | up h1 h2 h3 =>
      rw [hs] at h1; cases h1; rw [hp] at h2; cases h2
      rcases key p h3 with h | h | h
      · exact .inl h
      · exact .inr h
      · exact .inr h
  · rintro (rfl | h)
    · exact .here hs
    · refine .up hs hp ?_
      clear hp
      induction h with
      | @here q e' hq =>
        rw [BMap.find_erase] at hq
        split at hq
        · simp at hq
        · exact .here hq
      | @up q e' p' k' hq hp' _ ih =>
        rw [BMap.find_erase] at hq
        split at hq
        · simp at hq
        · exact .up hq hp' ih

/-- The finalization loop always ends: each round removes an entry. -/
theorem finalizeLoop_total (fuel : Nat) (P : ProcStore) (found : Found) (slot : Nat) (h : P.length < fuel) :
    ∃ r, finalizeLoop fuel P found slot = .ok r := by
  induction fuel generalizing P found slot with
  | zero => omega
  | succ n ih =>
    simp only [finalizeLoop]
    cases hf : BMap.find P slot with
    | none => exact ⟨_, rfl⟩
    | some e =>
      simp only
      cases hp : e.parent with
      | none => exact ⟨_, rfl⟩
      | some p =>
        have := BMap.length_erase hf
        exact ih _ _ _ (by omega)

theorem finalizeLoop_spec (fuel : Nat) {P P' : ProcStore} {found found' : Found} {slot : Nat}
    (h : finalizeLoop fuel P found slot = .ok (P', found')) (hs : BMap.Sorted P) (hd : AMap.Distinct found) :
    BMap.Sorted P' ∧ AMap.Distinct found' ∧
    (∀ k, (OnChain P slot k → BMap.find P' k = none) ∧ (¬ OnChain P slot k → BMap.find P' k = BMap.find P k)) ∧
    (∀ pk v, found.find pk = some v → found'.find pk = some v) ∧
    (∀ pk, found.find pk = none → ∀ x k, found'.find pk = some (x, k) ↔ NewestOn P pk slot x k) := by
  induction fuel generalizing P found slot with
  | zero => simp [finalizeLoop] at h
  | succ n ih =>
    simp only [finalizeLoop] at h
    cases hf : BMap.find P slot with
    | none =>
      rw [hf] at h
      simp only [Run.ok.injEq, Prod.mk.injEq] at h
      obtain ⟨rfl, rfl⟩ := h
      refine ⟨hs, hd, fun k => ⟨?_, fun _ => rfl⟩, fun _ _ h => h, ?_⟩
      · intro hc
        cases hc with
        | here h1 => rw [hf] at h1; simp at h1
        | up h1 => rw [hf] at h1; simp at h1
      · intro pk hn x k
        rw [hn]
        refine ⟨by simp, fun hc => ?_⟩
        cases hc with
        | here h1 => rw [hf] at h1; simp at h1
        | up h1 => rw [hf] at h1; simp at h1
    | some e =>
      rw [hf] at h
      simp only at h
      have hit : ∀ pk x k, (∃ y, e.accounts.find pk = some y) →
          (NewestOn P pk slot x k ↔ e.accounts.find pk = some x ∧ k = slot) := by
        rintro pk x k ⟨y, hy⟩
        constructor
        · intro hc
          cases hc with
          | here h1 h2 => rw [hf] at h1; cases h1; exact ⟨h2, rfl⟩
          | up h1 h2 => rw [hf] at h1; cases h1; rw [hy] at h2; simp at h2
        · rintro ⟨h1, rfl⟩
          exact .here hf h1
      cases hp : e.parent with
      | none =>
        rw [hp] at h
        simp only [Run.ok.injEq, Prod.mk.injEq] at h
        obtain ⟨rfl, rfl⟩ := h
        refine ⟨BMap.sorted_erase hs _, distinct_collect _ _ hd, fun k => ?_, ?_, ?_⟩
        · have hc : OnChain P slot k ↔ slot = k := by
            constructor
            · intro hc
              cases hc with
              | here => rfl
              | up h1 h2 => rw [hf] at h1; cases h1; rw [hp] at h2; simp at h2
            · rintro rfl; exact .here hf
          rw [hc, BMap.find_erase]
          grind
        · intro pk v hv
          rw [find_collect, hv]
        · intro pk hn x k
          rw [find_collect, hn]
          simp only
          cases hx : e.accounts.find pk with
          | some y =>
            rw [hit pk x k ⟨y, hx⟩, hx]
            simp [eq_comm]
          | none =>
            simp only [Option.map_none, reduceCtorEq, false_iff]
            intro hc
            cases hc with
            | here h1 h2 => rw [hf] at h1; cases h1; rw [hx] at h2; simp at h2
            | up h1 h2 h3 => rw [hf] at h1; cases h1; rw [hp] at h3; simp at h3
      | some p =>
        rw [hp] at h
        simp only at h
        obtain ⟨h1, h2, h3, h4, h5⟩ := ih h (BMap.sorted_erase hs _) (distinct_collect _ _ hd)
        refine ⟨h1, h2, fun k => ?_, ?_, ?_⟩
        · rw [onChain_erase hf hp]
          obtain ⟨ha, hb⟩ := h3 k
          constructor
          · rintro (rfl | hc)
            · by_cases hc : OnChain (BMap.erase P slot) p slot
              · exact ha hc
              · rw [hb hc, BMap.find_erase]; simp
            · exact ha hc
          · intro hc
            rw [not_or] at hc
            rw [hb hc.2, BMap.find_erase, if_neg hc.1]
        · intro pk v hv
          exact h4 pk v (by rw [find_collect, hv])
        · intro pk hn x k
          cases hx : e.accounts.find pk with
          | some y =>
            have := h4 pk (y, slot) (by rw [find_collect, hn, hx]; rfl)
            rw [this, hit pk x k ⟨y, hx⟩, hx]
            simp [eq_comm]
          | none =>
            rw [newest_erase hf hx hp]
            exact h5 pk (by rw [find_collect, hn, hx]; rfl) x k

theorem find_dropUpTo {P : ProcStore} (h : BMap.Sorted P) (s k : Nat) :
    BMap.find (dropUpTo P s) k = if k ≤ s then none else BMap.find P k := BMap.find_dropWhile h s k

/-! ## Reads -/

theorem length_fill (slot : Nat) (e : BySlot) (pks : List Pubkey) (ret : Answers) (h : ret.length = pks.length) :
    (fill slot e pks ret).length = pks.length := by
  simp [fill, h]

theorem getElem?_fill (slot : Nat) (e : BySlot) (pks : List Pubkey) (ret : Answers) (i : Nat) (pk : Pubkey)
    (r : Option (Processed × Nat)) (hp : pks[i]? = some pk) (hr : ret[i]? = some r) :
    (fill slot e pks ret)[i]? = some (r.or ((e.accounts.find pk).map (fun x => (x, slot)))) := by
  unfold fill
  rw [List.getElem?_zipWith, hp, hr]

theorem all_some {r : Answers} (h : r.all Option.isSome = true) (i : Nat) : r[i]? ≠ some none := by
  intro hi
  have := List.all_eq_true.1 h _ (List.mem_of_getElem? hi)
  simp at this

/-- What a confirmed read answers, whenever it returns. -/
theorem getConfirmed_spec (fuel : Nat) {P : ProcStore} {pks : List Pubkey} {ret r : Answers} {slot : Nat}
    (hl : ret.length = pks.length) (h : getConfirmed fuel P pks ret slot = .ok r) :
    r.length = pks.length ∧ ∀ (i : Nat) (pk : Pubkey), pks[i]? = some pk →
      (∀ v, ret[i]? = some (some v) → r[i]? = some (some v)) ∧
      (ret[i]? = some none → ∀ x k, r[i]? = some (some (x, k)) ↔ NewestOn P pk slot x k) := by
  induction fuel generalizing ret slot with
  | zero => simp [getConfirmed] at h
  | succ n ih =>
    simp only [getConfirmed] at h
    cases hf : BMap.find P slot with
    | none =>
      rw [hf] at h
      simp only [Run.ok.injEq] at h
      subst h
      refine ⟨hl, fun i pk hp => ⟨fun v h => h, fun hn x k => ?_⟩⟩
      rw [hn]
      refine ⟨by simp, fun hc => ?_⟩
      cases hc with
      | here h1 => rw [hf] at h1; simp at h1
      | up h1 => rw [hf] at h1; simp at h1
    | some e =>
      rw [hf] at h
      simp only at h
      have hlen := length_fill slot e pks ret hl
      have hit : ∀ pk x k, (∃ y, e.accounts.find pk = some y) →
          (NewestOn P pk slot x k ↔ e.accounts.find pk = some x ∧ k = slot) := by
        rintro pk x k ⟨y, hy⟩
        constructor
        · intro hc
          cases hc with
          | here h1 h2 => rw [hf] at h1; cases h1; exact ⟨h2, rfl⟩
          | up h1 h2 => rw [hf] at h1; cases h1; rw [hy] at h2; simp at h2
        · rintro ⟨h1, rfl⟩
          exact .here hf h1
      -- the answer when the walk stops here
      have stop : (∀ (i : Nat) (pk : Pubkey), pks[i]? = some pk → (fill slot e pks ret)[i]? = some none →
            ∀ x k, ¬ NewestOn P pk slot x k) → ∀ (i : Nat) (pk : Pubkey), pks[i]? = some pk →
          (∀ v, ret[i]? = some (some v) → (fill slot e pks ret)[i]? = some (some v)) ∧
          (ret[i]? = some none → ∀ x k, (fill slot e pks ret)[i]? = some (some (x, k)) ↔ NewestOn P pk slot x k) := by
        intro hno i pk hp
        refine ⟨fun v hv => by rw [getElem?_fill slot e pks ret i pk _ hp hv]; rfl, fun hn x k => ?_⟩
        have hg := getElem?_fill slot e pks ret i pk none hp hn
        cases hx : e.accounts.find pk with
        | some y =>
          rw [hg, hit pk x k ⟨y, hx⟩, hx]
          simp [eq_comm]
        | none =>
          rw [hx] at hg
          simp only [Option.map_none, Option.or_none] at hg
          rw [hg]
          simpa using hno i pk hp hg x k
      by_cases ha : (fill slot e pks ret).all Option.isSome = true
      · rw [if_pos ha] at h
        simp only [Run.ok.injEq] at h
        subst h
        exact ⟨hlen, stop fun i pk hp hn => absurd hn (all_some ha i)⟩
      · rw [if_neg ha] at h
        cases hp : e.parent with
        | none =>
          rw [hp] at h
          simp only [Run.ok.injEq] at h
          subst h
          refine ⟨hlen, stop fun i pk hpk hn x k hc => ?_⟩
          cases hc with
          | here h1 h2 =>
            rw [hf] at h1; cases h1
            obtain ⟨r0, hr0⟩ : ∃ r0, ret[i]? = some r0 := by
              obtain ⟨hlt, -⟩ := List.getElem?_eq_some_iff.1 hpk
              exact ⟨_, List.getElem?_eq_getElem (by omega)⟩
            rw [getElem?_fill slot e pks ret i pk r0 hpk hr0] at hn
            cases r0 with
            | some v => simp at hn
            | none => simp [h2] at hn
          | up h1 h2 h3 => rw [hf] at h1; cases h1; rw [hp] at h3; simp at h3
        | some p =>
          rw [hp] at h
          simp only at h
          obtain ⟨h1, h2⟩ := ih hlen h
          refine ⟨h1, fun i pk hpk => ?_⟩
          obtain ⟨h3, h4⟩ := h2 i pk hpk
          refine ⟨fun v hv => h3 v (by rw [getElem?_fill slot e pks ret i pk _ hpk hv]; rfl), fun hn x k => ?_⟩
          have hg := getElem?_fill slot e pks ret i pk none hpk hn
          cases hx : e.accounts.find pk with
          | some y =>
            rw [hx] at hg
            rw [h3 _ hg, hit pk x k ⟨y, hx⟩, hx]
            simp [eq_comm]
          | none =>
            rw [hx] at hg
            rw [h4 hg]
            constructor
            · exact fun hc => .up hf hx hp hc
            · intro hc
              cases hc with
              | here h1 h2 => rw [hf] at h1; cases h1; rw [hx] at h2; simp at h2
              | up h1 h2 h3 h4 => rw [hf] at h1; cases h1; rw [hp] at h3; cases h3; exact h4

/-- Reads terminate when parents are older than their slots. -/
theorem getConfirmed_total (fuel : Nat) {P : ProcStore} (hb : ParentsBelow P) (pks : List Pubkey) (ret : Answers) (slot : Nat)
    (h : (P.filter (fun e => decide (e.1 ≤ slot))).length < fuel) : ∃ r, getConfirmed fuel P pks ret slot = .ok r := by
  induction fuel generalizing ret slot with
  | zero => omega
  | succ n ih =>
    simp only [getConfirmed]
    cases hf : BMap.find P slot with
    | none => exact ⟨_, rfl⟩
    | some e =>
      simp only
      split
      · exact ⟨_, rfl⟩
      · cases hp : e.parent with
        | none => exact ⟨_, rfl⟩
        | some p =>
          refine ih _ _ ?_
          have hlt := hb slot e p hf hp
          have : (P.filter (fun e => decide (e.1 ≤ p))).length < (P.filter (fun e => decide (e.1 ≤ slot))).length := by
            rw [← List.countP_eq_length_filter, ← List.countP_eq_length_filter]
            have hm := BMap.mem_of_find hf
            clear h ih hf hb
            induction P with
            | nil => simp at hm
            | cons a t iht =>
              have hmono : t.countP (fun e => decide (e.1 ≤ p)) ≤ t.countP (fun e => decide (e.1 ≤ slot)) :=
                List.countP_mono_left (fun x _ hx => by simp at *; omega)
              rw [List.countP_cons, List.countP_cons]
              rcases List.mem_cons.1 hm with rfl | hm
              · simp only [decide_eq_true_eq]
                rw [if_neg (by omega), if_pos (by omega)]
                omega
              · have := iht hm
                simp only [decide_eq_true_eq]
                split <;> split <;> omega
          omega

theorem fill_idem {slot slot' : Nat} {e e' : BySlot} {pks : List Pubkey} {ret : Answers} (hl : ret.length = pks.length)
    (h : fill slot' e' pks ret = ret) : fill slot' e' pks (fill slot e pks ret) = fill slot e pks ret := by
  apply List.ext_getElem?
  intro i
  cases hp : pks[i]? with
  | none =>
    have : pks.length ≤ i := List.getElem?_eq_none_iff.1 hp
    rw [List.getElem?_eq_none (by rw [length_fill _ _ _ _ (length_fill _ _ _ _ hl)]; exact this),
      List.getElem?_eq_none (by rw [length_fill _ _ _ _ hl]; exact this)]
  | some pk =>
    obtain ⟨r0, hr0⟩ : ∃ r0, ret[i]? = some r0 := by
      obtain ⟨hlt, -⟩ := List.getElem?_eq_some_iff.1 hp
      exact ⟨_, List.getElem?_eq_getElem (by omega)⟩
    have h1 := getElem?_fill slot e pks ret i pk r0 hp hr0
    have h2 := getElem?_fill slot' e' pks ret i pk r0 hp hr0
    rw [h, hr0] at h2
    have h3 := getElem?_fill slot' e' pks _ i pk _ hp h1
    rw [h3, h1]
    cases r0 with
    | some v => rfl
    | none =>
      simp only [Option.some.injEq] at h2 ⊢
      cases hx : e.accounts.find pk with
      | some y => rfl
      | none => simp [← h2]

theorem fill_fill {slot : Nat} {e : BySlot} {pks : List Pubkey} {ret : Answers} (hl : ret.length = pks.length) :
    fill slot e pks (fill slot e pks ret) = fill slot e pks ret := by
  apply List.ext_getElem?
  intro i
  cases hp : pks[i]? with
  | none =>
    have : pks.length ≤ i := List.getElem?_eq_none_iff.1 hp
    rw [List.getElem?_eq_none (by rw [length_fill _ _ _ _ (length_fill _ _ _ _ hl)]; exact this),
      List.getElem?_eq_none (by rw [length_fill _ _ _ _ hl]; exact this)]
  | some pk =>
    obtain ⟨r0, hr0⟩ : ∃ r0, ret[i]? = some r0 := by
      obtain ⟨hlt, -⟩ := List.getElem?_eq_some_iff.1 hp
      exact ⟨_, List.getElem?_eq_getElem (by omega)⟩
    have h1 := getElem?_fill slot e pks ret i pk r0 hp hr0
    rw [getElem?_fill slot e pks _ i pk _ hp h1, h1]
    cases r0 with
    | some v => rfl
    | none => cases e.accounts.find pk <;> rfl

/-- A walk inside a set of slots closed under parents that adds nothing never ends. -/
theorem getConfirmed_cycle (fuel : Nat) {P : ProcStore} {pks : List Pubkey} {ret : Answers} {V : List Nat} {slot : Nat}
    (hs : slot ∈ V) (hn : ret.all Option.isSome ≠ true)
    (hV : ∀ v ∈ V, ∃ e p, BMap.find P v = some e ∧ e.parent = some p ∧ p ∈ V ∧ fill v e pks ret = ret) :
    getConfirmed fuel P pks ret slot = .diverge := by
  induction fuel generalizing slot with
  | zero => rfl
  | succ n ih =>
    obtain ⟨e, p, h1, h2, h3, h4⟩ := hV slot hs
    simp only [getConfirmed, h1, h4]
    rw [if_neg hn, h2]
    exact ih h3

theorem getConfirmed_diverge_aux (f : Nat) {P : ProcStore} {pks : List Pubkey} {ret : Answers} {V : List Nat} {slot : Nat}
    (hl : ret.length = pks.length) (hnd : V.Nodup) (hn : V ≠ [] → ret.all Option.isSome ≠ true)
    (hV : ∀ v ∈ V, ∃ e p, BMap.find P v = some e ∧ e.parent = some p ∧ (p ∈ V ∨ p = slot) ∧ fill v e pks ret = ret)
    (hf : P.length < f + V.length) (h : getConfirmed f P pks ret slot = .diverge) (fuel : Nat) :
    getConfirmed fuel P pks ret slot = .diverge := by
  induction f generalizing ret V slot fuel with
  | zero =>
    exfalso
    have hsub : V ⊆ P.map Prod.fst := by
      intro v hv
      obtain ⟨e, p, h1, -⟩ := hV v hv
      exact List.mem_map.2 ⟨_, BMap.mem_of_find h1, rfl⟩
    have := (hnd.subperm hsub).length_le
    simp at this
    omega
  | succ n ih =>
    by_cases hs : slot ∈ V
    · refine getConfirmed_cycle fuel hs (hn (by rintro rfl; simp at hs)) ?_
      intro v hv
      obtain ⟨e, p, h1, h2, h3, h4⟩ := hV v hv
      refine ⟨e, p, h1, h2, ?_, h4⟩
      rcases h3 with h3 | rfl
      · exact h3
      · exact hs
    · simp only [getConfirmed] at h
      cases hfi : BMap.find P slot with
      | none => rw [hfi] at h; simp at h
      | some e =>
        rw [hfi] at h
        simp only at h
        by_cases ha : (fill slot e pks ret).all Option.isSome = true
        · rw [if_pos ha] at h; simp at h
        · rw [if_neg ha] at h
          cases hp : e.parent with
          | none => rw [hp] at h; simp at h
          | some p =>
            rw [hp] at h
            simp only at h
            have hrec := ih (V := slot :: V) (length_fill slot e pks ret hl) (List.nodup_cons.2 ⟨hs, hnd⟩) (fun _ => ha)
              (by
                intro v hv
                rcases List.mem_cons.1 hv with rfl | hv
                · exact ⟨e, p, hfi, hp, .inr rfl, fill_fill hl⟩
                · obtain ⟨e', p', h1, h2, h3, h4⟩ := hV v hv
                  refine ⟨e', p', h1, h2, ?_, fill_idem hl h4⟩
                  rcases h3 with h3 | rfl
                  · exact .inl (by simp [h3])
                  · exact .inl (by simp))
              (by simp; omega) h
            cases fuel with
            | zero => rfl
            | succ m =>
              simp only [getConfirmed, hfi]
              rw [if_neg ha, hp]
              exact hrec m

/-- `diverge` in `getAccounts` is a genuine endless loop: no number of rounds suffices. -/
theorem getConfirmed_diverge {P : ProcStore} {pks : List Pubkey} {ret : Answers} {slot : Nat}
    (hl : ret.length = pks.length) (h : getConfirmed (P.length + 1) P pks ret slot = .diverge) (fuel : Nat) :
    getConfirmed fuel P pks ret slot = .diverge :=
  getConfirmed_diverge_aux (P.length + 1) (V := []) hl List.nodup_nil (by simp) (by simp) (by simp) h fuel

theorem getConfirmed_no_panic (fuel : Nat) (P : ProcStore) (pks : List Pubkey) (ret : Answers) (slot : Nat) :
    getConfirmed fuel P pks ret slot ≠ .panic := by
  induction fuel generalizing ret slot with
  | zero => simp [getConfirmed]
  | succ n ih =>
    simp only [getConfirmed]
    split
    · simp
    · split
      · simp
      · split
        · simp
        · exact ih _ _

/-- What a processed read answers: `l` are the entries still to visit, newest first; everything above them has been
visited. -/
theorem getProcessed_spec {P : ProcStore} {pks : List Pubkey} {confirmed : Nat} (hs : BMap.Sorted P)
    (l : List (Nat × BySlot)) (done : List (Nat × BySlot)) {ret r : Answers} (hP : P.reverse = done ++ l)
    (hdone : ∀ e ∈ done, confirmed < e.1) (hl : ret.length = pks.length)
    (h : getProcessed P pks confirmed l ret = .ok r) :
    r.length = pks.length ∧ ∀ (i : Nat) (pk : Pubkey), pks[i]? = some pk →
      (∀ v, ret[i]? = some (some v) → r[i]? = some (some v)) ∧
      (ret[i]? = some none → (∀ e ∈ done, e.2.accounts.find pk = none) →
        ∀ x k, r[i]? = some (some (x, k)) ↔ NewestProcessed P pk confirmed x k) := by
  induction l generalizing done ret with
  | nil =>
    simp only [getProcessed, Run.ok.injEq] at h
    subst h
    refine ⟨hl, fun i pk hp => ⟨fun v h => h, fun hn hd x k => ?_⟩⟩
    rw [hn]
    refine ⟨by simp, ?_⟩
    have hall : ∀ k e, BMap.find P k = some e → (k, e) ∈ done := by
      intro k e hk
      have := BMap.mem_of_find hk
      rw [← List.mem_reverse, hP] at this
      simpa using this
    rintro (⟨-, ⟨e, h1, h2⟩, -⟩ | ⟨h1, h2⟩)
    · rw [hd _ (hall _ _ h1)] at h2; simp at h2
    · exfalso
      cases h2 with
      | here h3 h4 => rw [hd _ (hall _ _ h3)] at h4; simp at h4
      | up h3 => have := hdone _ (hall _ _ h3); simp at this
  | cons a l ih =>
    obtain ⟨slot, e⟩ := a
    simp only [getProcessed] at h
    have hmem : ∀ k e', BMap.find P k = some e' → (k, e') ∈ done ∨ k = slot ∧ e' = e ∨ (k, e') ∈ l := by
      intro k e' hk
      have := BMap.mem_of_find hk
      rw [← List.mem_reverse, hP] at this
      simpa using this
    have hfind : BMap.find P slot = some e := by
      apply BMap.find_of_mem hs
      rw [← List.mem_reverse, hP]
      simp
    have hsort : P.reverse.Pairwise (fun a b => b.1 < a.1) := List.pairwise_reverse.2 hs
    rw [hP, List.pairwise_append] at hsort
    have hlow : ∀ x ∈ l, x.1 < slot := by
      have := hsort.2.1
      rw [List.pairwise_cons] at this
      exact this.1
    by_cases hgt : slot > confirmed
    · rw [if_pos hgt] at h
      have hlen := length_fill slot e pks ret hl
      have hit : ∀ pk y, e.accounts.find pk = some y → (∀ e ∈ done, e.2.accounts.find pk = none) → ∀ x k,
          (NewestProcessed P pk confirmed x k ↔ y = x ∧ slot = k) := by
        intro pk y hy hd x k
        constructor
        · rintro (⟨h0, ⟨e', h1, h2⟩, h3⟩ | ⟨h1, -⟩)
          · rcases hmem k e' h1 with hm | ⟨rfl, rfl⟩ | hm
            · rw [hd _ hm] at h2; simp at h2
            · rw [hy] at h2; simp at h2; exact ⟨h2, rfl⟩
            · have := h3 slot e (hlow _ hm) hfind
              rw [hy] at this; simp at this
          · have := h1 slot e hgt hfind
            rw [hy] at this; simp at this
        · rintro ⟨rfl, rfl⟩
          refine .inl ⟨hgt, ⟨e, hfind, hy⟩, fun k' e' hlt hk => ?_⟩
          rcases hmem k' e' hk with hm | ⟨rfl, rfl⟩ | hm
          · exact hd _ hm
          · omega
          · have := hlow _ hm; simp at this; omega
      by_cases ha : (fill slot e pks ret).all Option.isSome = true
      · rw [if_pos ha] at h
        simp only [Run.ok.injEq] at h
        subst h
        refine ⟨hlen, fun i pk hp => ⟨fun v hv => by rw [getElem?_fill slot e pks ret i pk _ hp hv]; rfl, ?_⟩⟩
        intro hn hd x k
        have hg := getElem?_fill slot e pks ret i pk none hp hn
        cases hx : e.accounts.find pk with
        | none => rw [hx] at hg; exact absurd hg (all_some ha i)
        | some y =>
          rw [hg, hx, hit pk y hx hd]
          simp
      · rw [if_neg ha] at h
        obtain ⟨h1, h2⟩ := ih (done ++ [(slot, e)]) (by simp [hP]) (by
          intro z hz
          rcases List.mem_append.1 hz with hz | hz
          · exact hdone z hz
          · simp at hz; subst hz; exact hgt) hlen h
        refine ⟨h1, fun i pk hp => ?_⟩
        obtain ⟨h3, h4⟩ := h2 i pk hp
        refine ⟨fun v hv => h3 v (by rw [getElem?_fill slot e pks ret i pk _ hp hv]; rfl), fun hn hd x k => ?_⟩
        have hg := getElem?_fill slot e pks ret i pk none hp hn
        cases hx : e.accounts.find pk with
        | some y =>
          rw [hx] at hg
          rw [h3 _ hg, hit pk y hx hd]
          simp
        | none =>
          rw [hx] at hg
          refine h4 hg ?_ x k
          intro z hz
          rcases List.mem_append.1 hz with hz | hz
          · exact hd z hz
          · simp at hz; subst hz; exact hx
    · rw [if_neg hgt] at h
      obtain ⟨h1, h2⟩ := getConfirmed_spec _ hl h
      refine ⟨h1, fun i pk hp => ?_⟩
      obtain ⟨h3, h4⟩ := h2 i pk hp
      refine ⟨h3, fun hn hd x k => ?_⟩
      rw [h4 hn]
      have hnone : ∀ k' e', confirmed < k' → BMap.find P k' = some e' → e'.accounts.find pk = none := by
        intro k' e' hlt hk
        rcases hmem k' e' hk with hm | ⟨rfl, rfl⟩ | hm
        · exact hd _ hm
        · omega
        · have := hlow _ hm; simp at this; omega
      constructor
      · exact fun h => .inr ⟨hnone, h⟩
      · rintro (⟨h0, ⟨e', h1, h2⟩, -⟩ | ⟨-, h⟩)
        · rw [hnone _ _ h0 h1] at h2; simp at h2
        · exact h

theorem getProcessed_total {P : ProcStore} (hb : ParentsBelow P) (pks : List Pubkey) (confirmed : Nat)
    (l : List (Nat × BySlot)) (ret : Answers) : ∃ r, getProcessed P pks confirmed l ret = .ok r := by
  induction l generalizing ret with
  | nil => exact ⟨_, rfl⟩
  | cons a l ih =>
    simp only [getProcessed]
    split
    · split
      · exact ⟨_, rfl⟩
      · exact ih _
    · exact getConfirmed_total _ hb _ _ _ (by have := List.length_filter_le (fun e : Nat × BySlot => decide (e.1 ≤ confirmed)) P; omega)

theorem getAccounts_total {P : ProcStore} (hb : ParentsBelow P) (pks : List Pubkey) {c : Commitment} (hc : c ≠ .finalized)
    (confirmed : Nat) : ∃ r, getAccounts P pks c confirmed = .ok r := by
  cases c with
  | processed => exact getProcessed_total hb _ _ _ _
  | confirmed =>
    exact getConfirmed_total _ hb _ _ _ (by have := List.length_filter_le (fun e : Nat × BySlot => decide (e.1 ≤ confirmed)) P; omega)
  | finalized => exact absurd rfl hc

/-- The state a read at commitment `c` shows. -/
def Newest (P : ProcStore) (pk : Pubkey) (c : Commitment) (confirmed : Nat) (x : Processed) (k : Nat) : Prop :=
  match c with
  | .processed => NewestProcessed P pk confirmed x k
  | .confirmed => NewestOn P pk confirmed x k
  | .finalized => False

theorem getAccounts_spec {P : ProcStore} (hs : BMap.Sorted P) {pks : List Pubkey} {c : Commitment} {confirmed : Nat}
    {r : Answers} (h : getAccounts P pks c confirmed = .ok r) :
    r.length = pks.length ∧ ∀ (i : Nat) (pk : Pubkey), pks[i]? = some pk → ∀ x k, r[i]? = some (some (x, k)) ↔ Newest P pk c confirmed x k := by
  have hrep : ∀ (i : Nat) (pk : Pubkey), pks[i]? = some pk → (List.replicate pks.length (none : Option (Processed × Nat)))[i]? = some none := by
    intro i pk hp
    obtain ⟨hlt, -⟩ := List.getElem?_eq_some_iff.1 hp
    simp [hlt]
  cases c with
  | processed =>
    obtain ⟨h1, h2⟩ := getProcessed_spec hs P.reverse [] rfl (by simp) (by simp) h
    exact ⟨h1, fun i pk hp x k => (h2 i pk hp).2 (hrep i pk hp) (by simp) x k⟩
  | confirmed =>
    obtain ⟨h1, h2⟩ := getConfirmed_spec _ (by simp) h
    exact ⟨h1, fun i pk hp x k => (h2 i pk hp).2 (hrep i pk hp) x k⟩
  | finalized => simp [getAccounts] at h

end Token
end LAM
