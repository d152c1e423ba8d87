import Verif.Model.Types
/-!
# Versions of account states
-/
namespace LAM.Spec

/-- State `a` is older than state `b`: smaller slot, or same slot and smaller write version. -/
def Older (a b : AccountData) : Prop := a.slot < b.slot ∨ (a.slot = b.slot ∧ a.wv < b.wv)

instance (a b : AccountData) : Decidable (Older a b) := inferInstanceAs (Decidable (_ ∨ _))

/-- `a` is the newest of the submissions `l`: nothing in `l` is newer, and it was submitted before all
others of the same version. -/
def Newest (l : List AccountData) (a : AccountData) : Prop :=
  ∃ l1 l2, l = l1 ++ a :: l2 ∧ (∀ b ∈ l1, Older b a) ∧ ∀ b ∈ l2, ¬ Older a b

theorem Older.irrefl (a : AccountData) : ¬ Older a a := by simp [Older]

theorem Older.trans {a b c : AccountData} (h1 : Older a b) (h2 : Older b c) : Older a c := by
  simp only [Older] at *; omega

theorem not_older_trans {a b c : AccountData} (h1 : ¬ Older a b) (h2 : ¬ Older b c) : ¬ Older a c := by
  simp only [Older] at *; omega

theorem older_of_not_older {a b c : AccountData} (h1 : ¬ Older b a) (h2 : Older b c) : Older a c := by
  simp only [Older] at *; omega

theorem Newest.mem {l : List AccountData} {a : AccountData} (h : Newest l a) : a ∈ l := by
  obtain ⟨l1, l2, rfl, -, -⟩ := h; simp

theorem Newest.max {l : List AccountData} {a b : AccountData} (h : Newest l a) (hb : b ∈ l) :
    ¬ Older a b := by
  obtain ⟨l1, l2, rfl, h1, h2⟩ := h
  rcases List.mem_append.1 hb with hb | hb
  · have := h1 b hb; simp only [Older] at *; omega
  · rcases List.mem_cons.1 hb with rfl | hb
    · exact Older.irrefl _
    · exact h2 b hb

theorem Newest.single (a : AccountData) : Newest [a] a := ⟨[], [], rfl, by simp, by simp⟩

theorem Newest.snoc {l : List AccountData} {p : AccountData} (h : Newest l p) (a : AccountData) :
    Newest (l ++ [a]) (if Older p a then a else p) := by
  obtain ⟨l1, l2, rfl, h1, h2⟩ := h
  split
  · rename_i ho
    refine ⟨l1 ++ p :: l2, [], by simp, ?_, by simp⟩
    intro b hb
    have := Newest.max ⟨l1, l2, rfl, h1, h2⟩ hb
    exact older_of_not_older this ho
  · rename_i ho
    refine ⟨l1, l2 ++ [a], by simp, h1, ?_⟩
    intro b hb
    rcases List.mem_append.1 hb with hb | hb
    · exact h2 b hb
    · simp at hb; subst hb; exact ho

/-- The newest submission is unique. -/
theorem Newest.unique {l : List AccountData} {a b : AccountData} (ha : Newest l a) (hb : Newest l b) :
    a = b := by
  obtain ⟨l1, l2, rfl, h1, h2⟩ := ha
  obtain ⟨m1, m2, he, g1, g2⟩ := hb
  rcases List.append_eq_append_iff.1 he with ⟨t, ht1, ht2⟩ | ⟨t, ht1, ht2⟩
  · cases t with
    | nil => simp at ht2; exact ht2.1
    | cons x xs =>
      simp at ht2
      obtain ⟨rfl, ht2⟩ := ht2
      have := g1 a (by simp [ht1])
      have := h2 b (by simp [ht2])
      contradiction
  · cases t with
    | nil => simp at ht2; exact ht2.1.symm
    | cons x xs =>
      simp at ht2
      obtain ⟨rfl, ht2⟩ := ht2
      have := h1 b (by simp [ht1])
      have := g2 a (by simp [ht2])
      contradiction

end LAM.Spec
