/-!
# Sorted duplicate-free lists (`BTreeSet`)
-/
namespace LAM

/-- `BTreeSet::insert` on a sorted list, for a strict order `lt`; an equal element is kept. -/
def sinsert (lt : α → α → Bool) (x : α) : List α → List α
  | [] => [x]
  | y :: ys => if lt x y then x :: y :: ys else if lt y x then y :: sinsert lt x ys else y :: ys

/-- `iter().collect::<BTreeSet<_>>()`. -/
def scollect (lt : α → α → Bool) (l : List α) : List α :=
  l.foldl (fun s x => sinsert lt x s) []

/-- `lt` is a strict total order. -/
structure StrictTotal (lt : α → α → Bool) : Prop where
  irrefl : ∀ a, lt a a = false
  trans : ∀ a b c, lt a b = true → lt b c = true → lt a c = true
  tri : ∀ a b, lt a b = false → lt b a = false → a = b

def SSorted (lt : α → α → Bool) (l : List α) : Prop := l.Pairwise (fun a b => lt a b = true)

variable {lt : α → α → Bool}

theorem mem_sinsert (h : StrictTotal lt) (x a : α) (l : List α) :
    a ∈ sinsert lt x l ↔ a = x ∨ a ∈ l := by
  induction l with
  | nil => simp [sinsert]
  | cons y ys ih =>
    unfold sinsert
    split
    · simp
    · split
      · simp [ih]; grind
      · have := h.tri x y (by simp_all) (by simp_all)
        subst this; simp

theorem sorted_sinsert (h : StrictTotal lt) (x : α) (l : List α) (hs : SSorted lt l) :
    SSorted lt (sinsert lt x l) := by
  induction l with
  | nil => simp [sinsert, SSorted]
  | cons y ys ih =>
    unfold sinsert
    simp only [SSorted, List.pairwise_cons] at hs
    split
    · rename_i hxy
      simp only [SSorted, List.pairwise_cons]
      refine ⟨?_, hs⟩
      intro a ha
      rcases List.mem_cons.1 ha with rfl | ha
      · exact hxy
      · exact h.trans _ _ _ hxy (hs.1 a ha)
    · split
      · rename_i hyx
        simp only [SSorted, List.pairwise_cons]
        refine ⟨?_, ih hs.2⟩
        intro a ha
        rcases (mem_sinsert h x a ys).1 ha with rfl | ha
        · exact hyx
        · exact hs.1 a ha
      · simpa [SSorted] using hs

private theorem foldl_sinsert (h : StrictTotal lt) (l : List α) : ∀ s,
    SSorted lt s →
    SSorted lt (l.foldl (fun s x => sinsert lt x s) s) ∧
    ∀ a, a ∈ l.foldl (fun s x => sinsert lt x s) s ↔ a ∈ s ∨ a ∈ l := by
  induction l with
  | nil => intro s hs; simp [hs]
  | cons x xs ih =>
    intro s hs
    obtain ⟨h1, h2⟩ := ih (sinsert lt x s) (sorted_sinsert h x s hs)
    refine ⟨h1, fun a => ?_⟩
    simp only [List.foldl_cons, h2, mem_sinsert h, List.mem_cons]; grind

theorem sorted_scollect (h : StrictTotal lt) (l : List α) : SSorted lt (scollect lt l) :=
  (foldl_sinsert h l [] (by simp [SSorted])).1

theorem mem_scollect (h : StrictTotal lt) (l : List α) (a : α) : a ∈ scollect lt l ↔ a ∈ l := by
  simpa [scollect] using (foldl_sinsert h l [] (by simp [SSorted])).2 a

/-- Two sorted lists with the same elements are equal. -/
theorem sorted_ext (h : StrictTotal lt) : ∀ (l m : List α), SSorted lt l → SSorted lt m →
    (∀ a, a ∈ l ↔ a ∈ m) → l = m := by
  intro l
  induction l with
  | nil =>
    intro m _ _ he
    cases m with
    | nil => rfl
    | cons y ys => have := (he y).2 (by simp); simp at this
  | cons x xs ih =>
    intro m hl hm he
    cases m with
    | nil => have := (he x).1 (by simp); simp at this
    | cons y ys =>
      simp only [SSorted, List.pairwise_cons] at hl hm
      have hxy : x = y := by
        rcases List.mem_cons.1 ((he x).1 (by simp)) with h1 | h1
        · exact h1
        rcases List.mem_cons.1 ((he y).2 (by simp)) with h2 | h2
        · exact h2.symm
        have a1 := hm.1 x h1
        have a2 := hl.1 y h2
        have := h.trans _ _ _ a1 a2
        simp [h.irrefl] at this
      subst hxy
      congr 1
      refine ih ys hl.2 hm.2 fun a => ?_
      constructor
      · intro ha
        rcases List.mem_cons.1 ((he a).1 (by simp [ha])) with h1 | h1
        · subst h1; have := hl.1 _ ha; simp [h.irrefl] at this
        · exact h1
      · intro ha
        rcases List.mem_cons.1 ((he a).2 (by simp [ha])) with h1 | h1
        · subst h1; have := hm.1 _ ha; simp [h.irrefl] at this
        · exact h1

theorem scollect_congr (h : StrictTotal lt) (l m : List α) (he : ∀ a, a ∈ l ↔ a ∈ m) :
    scollect lt l = scollect lt m :=
  sorted_ext h _ _ (sorted_scollect h l) (sorted_scollect h m)
    (fun a => by simp [mem_scollect h, he])

theorem scollect_of_sorted (h : StrictTotal lt) (l : List α) (hs : SSorted lt l) :
    scollect lt l = l :=
  sorted_ext h _ _ (sorted_scollect h l) hs (fun a => mem_scollect h l a)

theorem sorted_nodup (h : StrictTotal lt) (l : List α) (hs : SSorted lt l) : l.Nodup := by
  unfold SSorted at hs
  refine hs.imp ?_
  rintro a b hab rfl
  simp [h.irrefl] at hab

/-- The order of natural numbers used for `BTreeSet<usize>`. -/
def natLt (a b : Nat) : Bool := decide (a < b)

theorem natLt_strict : StrictTotal natLt :=
  ⟨by simp [natLt], by simp [natLt]; omega, by simp [natLt]; omega⟩

end LAM
