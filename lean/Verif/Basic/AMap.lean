/-!
# Association lists (`HashMap`, `DashMap`)

Keys are unique; the order of the list stands for the iteration order of the hash map.
-/
namespace LAM

/-- A hash map as the list of its entries. -/
abbrev AMap (K V : Type) := List (K × V)

namespace AMap

variable {K V : Type} [DecidableEq K]

/-- `get`. -/
def find (m : AMap K V) (k : K) : Option V :=
  match m with
  | [] => none
  | (k', v) :: t => if k' = k then some v else find t k

/-- `insert` (replaces the value of an existing key). -/
def insert (m : AMap K V) (k : K) (v : V) : AMap K V :=
  match m with
  | [] => [(k, v)]
  | (k', v') :: t => if k' = k then (k, v) :: t else (k', v') :: insert t k v

/-- `remove`. -/
def erase (m : AMap K V) (k : K) : AMap K V := m.filter (fun e => e.1 ≠ k)

/-- No key occurs twice. -/
def Distinct (m : AMap K V) : Prop := m.Pairwise (fun a b => a.1 ≠ b.1)

@[simp] theorem find_nil (k : K) : find ([] : AMap K V) k = none := rfl

theorem find_insert (m : AMap K V) (k k' : K) (v : V) :
    find (insert m k v) k' = if k = k' then some v else find m k' := by
  induction m with
  | nil => simp [insert, find]
  | cons e t ih =>
    obtain ⟨a, b⟩ := e
    simp only [insert]
    split
    · simp only [find]; grind
    · simp only [find, ih]; grind

theorem find_erase (m : AMap K V) (k k' : K) : find (erase m k) k' = if k = k' then none else find m k' := by
  induction m with
  | nil => simp [erase, find]
  | cons e t ih =>
    obtain ⟨a, b⟩ := e
    unfold erase at ih ⊢
    rw [List.filter_cons]
    split
    · simp only [find, ih]; grind
    · simp only [find, ih]; grind

theorem mem_of_find {m : AMap K V} {k : K} {v : V} (h : find m k = some v) : (k, v) ∈ m := by
  induction m with
  | nil => simp at h
  | cons e t ih =>
    obtain ⟨a, b⟩ := e
    simp only [find] at h
    split at h
    · simp_all
    · simp [ih h]

theorem find_of_mem {m : AMap K V} {k : K} {v : V} (hs : Distinct m) (h : (k, v) ∈ m) : find m k = some v := by
  induction m with
  | nil => simp at h
  | cons e t ih =>
    obtain ⟨a, b⟩ := e
    simp only [Distinct, List.pairwise_cons] at hs
    simp only [find]
    rcases List.mem_cons.1 h with h | h
    · simp_all
    · have := hs.1 _ h
      split
      · simp_all
      · exact ih hs.2 h

theorem mem_iff_find {m : AMap K V} (hs : Distinct m) (k : K) (v : V) : (k, v) ∈ m ↔ find m k = some v :=
  ⟨find_of_mem hs, mem_of_find⟩

theorem mem_insert {m : AMap K V} {k : K} {v : V} {e : K × V} (h : e ∈ insert m k v) : e = (k, v) ∨ e ∈ m := by
  induction m with
  | nil => simpa [insert] using h
  | cons x t ih =>
    obtain ⟨a, b⟩ := x
    simp only [insert] at h
    split at h
    · simp at h ⊢; grind
    · simp at h ⊢
      rcases h with h | h
      · simp [h]
      · rcases ih h with h | h <;> simp [h]

theorem distinct_insert {m : AMap K V} (hs : Distinct m) (k : K) (v : V) : Distinct (insert m k v) := by
  induction m with
  | nil => simp [insert, Distinct]
  | cons x t ih =>
    obtain ⟨a, b⟩ := x
    simp only [Distinct, List.pairwise_cons] at hs
    simp only [insert]
    split
    · rename_i h
      subst h
      simp only [Distinct, List.pairwise_cons]
      exact hs
    · rename_i h
      simp only [Distinct, List.pairwise_cons]
      refine ⟨?_, ih hs.2⟩
      intro e he
      rcases mem_insert he with rfl | he
      · exact h
      · exact hs.1 e he

theorem distinct_erase {m : AMap K V} (hs : Distinct m) (k : K) : Distinct (erase m k) := hs.filter _

omit [DecidableEq K] in
theorem distinct_nil : Distinct ([] : AMap K V) := List.Pairwise.nil

theorem find_eq_none {m : AMap K V} {k : K} : find m k = none ↔ ∀ e ∈ m, e.1 ≠ k := by
  induction m with
  | nil => simp
  | cons e t ih =>
    obtain ⟨a, b⟩ := e
    simp only [find]
    split
    · simp_all
    · simp_all

end AMap
end LAM
