/-!
# Sorted association lists (`BTreeMap<u64, V>`)
-/
namespace LAM

/-- A `BTreeMap<u64, V>` as the list of its entries in key order. -/
abbrev BMap (V : Type) := List (Nat × V)

namespace BMap

variable {V : Type}

/-- `BTreeMap::get`. -/
def find (m : BMap V) (k : Nat) : Option V :=
  match m with
  | [] => none
  | (k', v) :: t => if k' = k then some v else find t k

/-- `BTreeMap::insert` (replaces the value of an existing key). -/
def insert (m : BMap V) (k : Nat) (v : V) : BMap V :=
  match m with
  | [] => [(k, v)]
  | (k', v') :: t =>
    if k < k' then (k, v) :: (k', v') :: t
    else if k = k' then (k, v) :: t
    else (k', v') :: insert t k v

/-- `BTreeMap::remove`. -/
def erase (m : BMap V) (k : Nat) : BMap V := m.filter (fun e => e.1 ≠ k)

/-- `last_key_value().map(|(_, v)| v)`. -/
def lastVal (m : BMap V) : Option V := m.getLast?.map Prod.snd

/-- Keys strictly increase. -/
def Sorted (m : BMap V) : Prop := m.Pairwise (fun a b => a.1 < b.1)

@[simp] theorem find_nil (k : Nat) : find ([] : BMap V) k = none := rfl

theorem find_insert (m : BMap V) (k k' : Nat) (v : V) :
    find (insert m k v) k' = if k = k' then some v else find m k' := by
  induction m with
  | nil => simp [insert, find]
  | cons e t ih =>
    obtain ⟨a, b⟩ := e
    simp only [insert]
    split
    · simp only [find]
    · split
      · simp only [find]; grind
      · simp only [find, ih]; grind

theorem mem_of_find {m : BMap V} {k : Nat} {v : V} (h : find m k = some v) : (k, v) ∈ m := by
  induction m with
  | nil => simp at h
  | cons e t ih =>
    obtain ⟨a, b⟩ := e
    simp only [find] at h
    split at h
    · simp_all
    · simp [ih h]

theorem find_of_mem {m : BMap V} {k : Nat} {v : V} (hs : Sorted m) (h : (k, v) ∈ m) :
    find m k = some v := by
  induction m with
  | nil => simp at h
  | cons e t ih =>
    obtain ⟨a, b⟩ := e
    simp only [Sorted, List.pairwise_cons] at hs
    simp only [find]
    rcases List.mem_cons.1 h with h | h
    · simp_all
    · have := hs.1 _ h
      split
      · simp_all
      · exact ih hs.2 h

theorem mem_iff_find {m : BMap V} (hs : Sorted m) (k : Nat) (v : V) :
    (k, v) ∈ m ↔ find m k = some v := ⟨find_of_mem hs, mem_of_find⟩

theorem mem_insert {m : BMap V} {k : Nat} {v : V} {e : Nat × V} (h : e ∈ insert m k v) :
    e = (k, v) ∨ e ∈ m := by
  induction m with
  | nil => simpa [insert] using h
  | cons x t ih =>
    obtain ⟨a, b⟩ := x
    simp only [insert] at h
    split at h
    · simpa using h
    · split at h
      · rcases List.mem_cons.1 h with h | h <;> simp [h]
      · rcases List.mem_cons.1 h with h | h
        · simp [h]
        · rcases ih h with h | h <;> simp [h]

theorem sorted_insert {m : BMap V} (hs : Sorted m) (k : Nat) (v : V) : Sorted (insert m k v) := by
  induction m with
  | nil => simp [insert, Sorted]
  | cons e t ih =>
    obtain ⟨a, b⟩ := e
    simp only [Sorted, List.pairwise_cons] at hs
    simp only [insert]
    split
    · simp only [Sorted, List.pairwise_cons]
      refine ⟨?_, hs⟩
      intro x hx
      rcases List.mem_cons.1 hx with rfl | hx
      · assumption
      · have := hs.1 x hx; simp at *; omega
    · split
      · rename_i h; subst h
        simp only [Sorted, List.pairwise_cons]; exact hs
      · simp only [Sorted, List.pairwise_cons]
        refine ⟨?_, ih hs.2⟩
        intro x hx
        rcases mem_insert hx with rfl | hx
        · simp; omega
        · exact hs.1 x hx

theorem length_insert (m : BMap V) (k : Nat) (v : V) :
    m.length ≤ (insert m k v).length := by
  induction m with
  | nil => simp [insert]
  | cons e t ih =>
    obtain ⟨a, b⟩ := e
    simp only [insert]
    split
    · simp
    · split <;> simp_all

theorem insert_ne_nil (m : BMap V) (k : Nat) (v : V) : insert m k v ≠ [] := by
  cases m with
  | nil => simp [insert]
  | cons e t => obtain ⟨a, b⟩ := e; simp only [insert]; split <;> (try split) <;> simp

/-- Two sorted maps with the same lookups are equal. -/
theorem ext {m n : BMap V} (hm : Sorted m) (hn : Sorted n) (h : ∀ k, find m k = find n k) :
    m = n := by
  induction m generalizing n with
  | nil =>
    cases n with
    | nil => rfl
    | cons e t => have := h e.1; simp [find] at this
  | cons e t ih =>
    cases n with
    | nil => have := h e.1; simp [find] at this
    | cons f u =>
      obtain ⟨a, b⟩ := e
      obtain ⟨c, d⟩ := f
      have hm' := hm; have hn' := hn
      simp only [Sorted, List.pairwise_cons] at hm' hn'
      have hac : a = c := by
        have h1 := h a
        have h2 := h c
        simp only [find, if_true] at h1 h2
        rcases Nat.lt_trichotomy a c with hlt | heq | hgt
        · rw [if_neg (by omega)] at h1
          have := hn'.1 _ (mem_of_find h1.symm); simp at this; omega
        · exact heq
        · rw [if_neg (by omega)] at h2
          have := hm'.1 _ (mem_of_find h2); simp at this; omega
      subst hac
      have hbd : b = d := by have := h a; simpa [find] using this
      subst hbd
      congr 1
      refine ih hm'.2 hn'.2 fun k => ?_
      by_cases hk : a = k
      · subst hk
        have e1 : find t a = none := by
          cases hf : find t a with
          | none => rfl
          | some v => have := hm'.1 _ (mem_of_find hf); simp at this
        have e2 : find u a = none := by
          cases hf : find u a with
          | none => rfl
          | some v => have := hn'.1 _ (mem_of_find hf); simp at this
        rw [e1, e2]
      · have := h k
        simpa [find, hk] using this

theorem lastVal_eq_some {m : BMap V} {v : V} (hs : Sorted m) (h : lastVal m = some v) :
    ∃ k, find m k = some v ∧ ∀ k' v', find m k' = some v' → k' ≤ k := by
  unfold lastVal at h
  cases hg : m.getLast? with
  | none => simp [hg] at h
  | some e =>
    obtain ⟨k, w⟩ := e
    simp [hg] at h; subst h
    obtain ⟨init, rfl⟩ : ∃ init, m = init ++ [(k, w)] := by
      exact List.getLast?_eq_some_iff.1 hg
    refine ⟨k, find_of_mem hs (by simp), fun k' v' hf => ?_⟩
    have hm := mem_of_find hf
    rcases List.mem_append.1 hm with h1 | h1
    · have := (List.pairwise_append.1 hs).2.2 _ h1 (k, w) (by simp)
      simp at this; omega
    · simp at h1; omega

theorem lastVal_eq_none {m : BMap V} : lastVal m = none ↔ m = [] := by
  simp [lastVal]

/-- The last value is the one of the greatest key. -/
theorem lastVal_of_max {m : BMap V} (hs : Sorted m) {k : Nat} {v : V} (h : find m k = some v)
    (hmax : ∀ k' v', find m k' = some v' → k' ≤ k) : lastVal m = some v := by
  cases hl : lastVal m with
  | none => rw [lastVal_eq_none] at hl; subst hl; simp at h
  | some w =>
    obtain ⟨k2, hk2, hm2⟩ := lastVal_eq_some hs hl
    have h1 := hm2 _ _ h
    have h2 := hmax _ _ hk2
    have : k = k2 := by omega
    subst this
    rw [h] at hk2; exact hk2.symm

end BMap
end LAM
