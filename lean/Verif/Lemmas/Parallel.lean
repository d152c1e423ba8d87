import Verif.Model.Simulator
import Mathlib.Data.List.Forall2
import Mathlib.Data.List.Perm.Basic
/-!
# Lemmas about parallel iteration
-/
namespace LAM.Sim

variable {V C E : Type}

/-- A consumer given these items one after the other. -/
def consume (on : C → V → Except E C) (c : C) : List (Except E V) → Except E C
  | [] => .ok c
  | v :: vs => (parTask on c v).bind (fun c => consume on c vs)

theorem consume_snoc (on : C → V → Except E C) (c : C) (h : List (Except E V)) (v : Except E V) :
    consume on c (h ++ [v]) = (consume on c h).bind (fun c => parTask on c v) := by
  induction h generalizing c with
  | nil =>
    simp only [List.nil_append, consume, Except.bind]
    cases parTask on c v <;> rfl
  | cons u h ih =>
    simp only [List.cons_append, consume]
    cases parTask on c u with
    | error e => rfl
    | ok c' => exact ih c'

theorem consume_ok {on : C → V → Except E C} {c c' : C} {h : List (Except E V)} (hc : consume on c h = .ok c') :
    ∃ vs : List V, h = vs.map .ok ∧ vs.foldlM on c = .ok c' := by
  induction h generalizing c with
  | nil => exact ⟨[], rfl, hc⟩
  | cons u h ih =>
    simp only [consume] at hc
    cases u with
    | error e => simp [parTask, Except.bind] at hc
    | ok v =>
      cases ho : on c v with
      | error e => simp [parTask, ho, Except.bind] at hc
      | ok c1 =>
        simp only [parTask, ho, Except.bind] at hc
        obtain ⟨vs, rfl, h2⟩ := ih hc
        refine ⟨v :: vs, rfl, ?_⟩
        simp only [List.foldlM_cons, ho]
        exact h2

/-- Any error of a consumer comes from an item or from the consumer. -/
theorem consume_error {on : C → V → Except E C} {c : C} {h : List (Except E V)} {e : E} (hc : consume on c h = .error e) :
    Except.error e ∈ h ∨ ∃ c v, .ok v ∈ h ∧ on c v = .error e := by
  induction h generalizing c with
  | nil => simp [consume] at hc
  | cons u h ih =>
    simp only [consume] at hc
    cases u with
    | error e' =>
      simp only [parTask, Except.bind, Except.error.injEq] at hc
      subst hc; simp
    | ok v =>
      cases ho : on c v with
      | error e' =>
        simp only [parTask, ho, Except.bind, Except.error.injEq] at hc
        subst hc
        exact .inr ⟨c, v, by simp, ho⟩
      | ok c1 =>
        simp only [parTask, ho, Except.bind] at hc
        rcases ih hc with h1 | ⟨c, v, h1, h2⟩
        · simp [h1]
        · exact .inr ⟨c, v, by simp [h1], h2⟩

theorem eraseIdx_perm {α : Type} : ∀ (l : List α) (i : Nat) (a : α), l[i]? = some a → l.Perm (a :: l.eraseIdx i)
  | [], i, a, h => by simp at h
  | b :: l, 0, a, h => by simp at h; subst h; simp
  | b :: l, i + 1, a, h => by
    simp only [List.getElem?_cons_succ] at h
    simp only [List.eraseIdx_cons_succ]
    exact ((eraseIdx_perm l i a h).cons b).trans (List.Perm.swap a b _)

theorem forall₂_erase {α β : Type} {R : α → β → Prop} : ∀ {l : List α} {m : List β}, List.Forall₂ R l m → ∀ (i : Nat) (a : α),
    l[i]? = some a → ∃ b, m[i]? = some b ∧ R a b ∧ List.Forall₂ R (l.eraseIdx i) (m.eraseIdx i)
  | _, _, .nil, i, a, h => by simp at h
  | _, _, .cons hr ht, 0, a, h => by simp at h; subst h; exact ⟨_, by simp, hr, by simpa using ht⟩
  | _, _, .cons hr ht, i + 1, a, h => by
    simp only [List.getElem?_cons_succ] at h
    obtain ⟨b, h1, h2, h3⟩ := forall₂_erase ht i a h
    exact ⟨b, by simpa using h1, h2, by simpa using ⟨hr, h3⟩⟩

theorem drain_ok (pick : Nat → Nat) (k : Nat) : ∀ (n : Nat) (tasks : List (Except E C)) (cs : List C), tasks.length = k →
    parDrain pick n tasks = .ok cs → tasks.Perm (cs.map .ok) := by
  induction k with
  | zero =>
    intro n tasks cs hk h
    obtain rfl := List.length_eq_zero_iff.1 hk
    simp [parDrain] at h; subst h; simp
  | succ k ih =>
    intro n tasks cs hk h
    cases tasks with
    | nil => simp at hk
    | cons t ts =>
      have hlt := Nat.mod_lt (pick n) (Nat.succ_pos ts.length)
      simp only [Nat.succ_eq_add_one] at hlt
      rw [parDrain] at h
      cases hg : (t :: ts)[pick n % (ts.length + 1)]? with
      | none => simp only [List.getElem?_eq_none_iff, List.length_cons] at hg; omega
      | some r =>
        rw [hg] at h
        have hp := eraseIdx_perm _ _ _ hg
        cases r with
        | error e => simp at h
        | ok c =>
          simp only at h
          cases hd : parDrain pick (n + 1) ((t :: ts).eraseIdx (pick n % (ts.length + 1))) with
          | error e => rw [hd] at h; simp at h
          | ok cs' =>
            rw [hd] at h
            simp only [Except.ok.injEq] at h
            subst h
            have := ih (n + 1) _ cs' (by rw [List.length_eraseIdx]; simp only [List.length_cons] at hk ⊢; rw [if_pos hlt]; omega) hd
            exact hp.trans (by simpa using this)

theorem drain_error (pick : Nat → Nat) (k : Nat) : ∀ (n : Nat) (tasks : List (Except E C)) (e : E), tasks.length = k →
    parDrain pick n tasks = .error e → .error e ∈ tasks := by
  induction k with
  | zero =>
    intro n tasks cs hk h
    obtain rfl := List.length_eq_zero_iff.1 hk
    simp [parDrain] at h
  | succ k ih =>
    intro n tasks e hk h
    cases tasks with
    | nil => simp at hk
    | cons t ts =>
      have hlt := Nat.mod_lt (pick n) (Nat.succ_pos ts.length)
      simp only [Nat.succ_eq_add_one] at hlt
      rw [parDrain] at h
      cases hg : (t :: ts)[pick n % (ts.length + 1)]? with
      | none => simp only [List.getElem?_eq_none_iff, List.length_cons] at hg; omega
      | some r =>
        rw [hg] at h
        cases r with
        | error e' =>
          simp only [Except.error.injEq] at h
          subst h
          exact List.mem_of_getElem? hg
        | ok c =>
          simp only at h
          cases hd : parDrain pick (n + 1) ((t :: ts).eraseIdx (pick n % (ts.length + 1))) with
          | error e' =>
            rw [hd] at h
            simp only [Except.error.injEq] at h
            subst h
            have := ih (n + 1) _ e' (by rw [List.length_eraseIdx]; simp only [List.length_cons] at hk ⊢; rw [if_pos hlt]; omega) hd
            exact List.mem_of_mem_eraseIdx this
          | ok cs' => rw [hd] at h; simp at h

theorem takeAt_some {α : Type} {l : List α} {p : Nat} {a : α} {rest : List α} (h : takeAt l p = some (a, rest)) :
    l[p % l.length]? = some a ∧ rest = l.eraseIdx (p % l.length) := by
  unfold takeAt at h
  split at h
  · simp at h
  · rename_i b hb
    simp only [Option.some.injEq, Prod.mk.injEq] at h
    obtain ⟨rfl, rfl⟩ := h
    exact ⟨hb, rfl⟩

theorem takeAt_none {α : Type} {l : List α} {p : Nat} : takeAt l p = none ↔ l = [] := by
  unfold takeAt
  constructor
  · intro h
    split at h
    · rename_i hb
      rw [List.getElem?_eq_none_iff] at hb
      by_contra hne
      have : 0 < l.length := List.length_pos_iff.2 hne
      have := Nat.mod_lt p this
      omega
    · simp at h
  · rintro rfl; simp

/-- The tasks are consumers that were given the items of `hs`. -/
def TasksOf (new : C) (on : C → V → Except E C) (tasks : List (Except E C)) (hs : List (List (Except E V))) : Prop :=
  List.Forall₂ (fun t h => t = consume on new h) tasks hs

theorem tasksOf_join {new : C} {on : C → V → Except E C} {tasks : List (Except E C)} {hs : List (List (Except E V))}
    (h : TasksOf new on tasks hs) {p : Nat} {c : C} {rest : List (Except E C)} (ht : takeAt tasks p = some (.ok c, rest))
    (v : Except E V) :
    ∃ hs', TasksOf new on (rest ++ [parTask on c v]) hs' ∧ hs'.length = hs.length ∧ hs'.flatten.Perm (hs.flatten ++ [v]) ∧
      ∀ g ∈ hs', g ∈ hs ∨ ∃ g0 ∈ hs, g = g0 ++ [v] := by
  obtain ⟨h1, rfl⟩ := takeAt_some ht
  obtain ⟨g, h2, h3, h4⟩ := forall₂_erase h _ _ h1
  have hperm := eraseIdx_perm hs _ _ h2
  refine ⟨hs.eraseIdx (p % tasks.length) ++ [g ++ [v]], ?_, ?_, ?_, ?_⟩
  · refine List.rel_append h4 (.cons ?_ .nil)
    rw [consume_snoc, ← h3]; rfl
  · have := hperm.length_eq
    simp only [List.length_cons] at this
    simp [this]
  · have h5 := hperm.flatten
    refine List.Perm.trans ?_ (h5.symm.append_right [v])
    simp only [List.flatten_append, List.flatten_cons, List.flatten_nil, List.append_nil]
    rw [← List.append_assoc]
    exact (List.perm_append_comm).append_right [v]
  · intro g' hg'
    simp only [List.mem_append, List.mem_singleton] at hg'
    rcases hg' with hg' | rfl
    · exact .inl (List.mem_of_mem_eraseIdx hg')
    · exact .inr ⟨g, List.mem_of_getElem? h2, rfl⟩

theorem parIter_ok {new : C} {on : C → V → Except E C} {threads : Nat} {pick : Nat → Nat} :
    ∀ (items : List (Except E V)) (n : Nat) (tasks : List (Except E C)) (hs : List (List (Except E V))) (done : List (Except E V)) (cs : List C),
    TasksOf new on tasks hs → hs.length ≤ threads → hs.flatten.Perm done → (∀ g ∈ hs, g.Sublist done) →
    parIter new on threads pick items n tasks = .ok (.ok cs) →
    ∃ hs', TasksOf new on (cs.map .ok) hs' ∧ hs'.length ≤ threads ∧ hs'.flatten.Perm (done ++ items) ∧ ∀ g ∈ hs', g.Sublist (done ++ items)
  | [], n, tasks, hs, done, cs, h, hl, hp, hsub, hr => by
    simp only [parIter, Run.ok.injEq] at hr
    have hperm := drain_ok pick tasks.length n tasks cs rfl hr
    obtain ⟨hs', h1, h2⟩ := List.perm_comp_forall₂ hperm.symm h
    refine ⟨hs', h1, ?_, ?_, ?_⟩
    · rw [h2.length_eq]; exact hl
    · simpa using h2.flatten.trans hp
    · intro g hg
      simpa using hsub g (h2.mem_iff.1 hg)
  | v :: items, n, tasks, hs, done, cs, h, hl, hp, hsub, hr => by
    simp only [parIter] at hr
    split at hr
    · cases ht : takeAt tasks (pick n) with
      | none => rw [ht] at hr; simp at hr
      | some r =>
        obtain ⟨t, rest⟩ := r
        rw [ht] at hr
        cases t with
        | error e => simp at hr
        | ok c =>
          simp only at hr
          obtain ⟨hs1, a1, a2, a3, a4⟩ := tasksOf_join h ht v
          obtain ⟨hs', b1, b2, b3, b4⟩ := parIter_ok items (n + 1) _ hs1 (done ++ [v]) cs a1 (by omega)
            (a3.trans (hp.append_right [v])) (by
              intro g hg
              rcases a4 g hg with hg | ⟨g0, hg0, rfl⟩
              · exact (hsub g hg).trans (List.sublist_append_left _ _)
              · exact (hsub g0 hg0).append (List.Sublist.refl _)) hr
          exact ⟨hs', b1, b2, by simpa using b3, by simpa using b4⟩
    · rename_i hlt
      have hlen := List.Forall₂.length_eq h
      obtain ⟨hs', b1, b2, b3, b4⟩ := parIter_ok items n _ (hs ++ [[v]]) (done ++ [v]) cs
        (List.rel_append h (.cons (by simp [consume, Except.bind]; cases parTask on new v <;> rfl) .nil))
        (by simp; omega) (by simpa using hp.append_right [v]) (by
          intro g hg
          simp only [List.mem_append, List.mem_singleton] at hg
          rcases hg with hg | rfl
          · exact (hsub g hg).trans (List.sublist_append_left _ _)
          · exact List.sublist_append_right _ _) hr
      exact ⟨hs', b1, b2, by simpa using b3, by simpa using b4⟩

theorem parIter_error {new : C} {on : C → V → Except E C} {threads : Nat} {pick : Nat → Nat} :
    ∀ (items : List (Except E V)) (n : Nat) (tasks : List (Except E C)) (hs : List (List (Except E V))) (done : List (Except E V)) (e : E),
    TasksOf new on tasks hs → hs.flatten.Perm done → parIter new on threads pick items n tasks = .ok (.error e) →
    Except.error e ∈ done ++ items ∨ ∃ c v, .ok v ∈ done ++ items ∧ on c v = .error e := by
  have key : ∀ (tasks : List (Except E C)) (hs : List (List (Except E V))) (done : List (Except E V)) (e : E),
      TasksOf new on tasks hs → hs.flatten.Perm done → Except.error e ∈ tasks →
      Except.error e ∈ done ∨ ∃ c v, .ok v ∈ done ∧ on c v = .error e := by
    intro tasks hs done e h hp he
    obtain ⟨i, hi⟩ := List.mem_iff_getElem?.1 he
    obtain ⟨g, h1, h2, -⟩ := forall₂_erase h i _ hi
    have hg : ∀ x, x ∈ g → x ∈ done := fun x hx => hp.mem_iff.1 (List.mem_flatten.2 ⟨g, List.mem_of_getElem? h1, hx⟩)
    rcases consume_error h2.symm with h3 | ⟨c, v, h3, h4⟩
    · exact .inl (hg _ h3)
    · exact .inr ⟨c, v, hg _ h3, h4⟩
  intro items
  induction items with
  | nil =>
    intro n tasks hs done e h hp hr
    simp only [parIter, Run.ok.injEq] at hr
    simpa using key tasks hs done e h hp (drain_error pick tasks.length n tasks e rfl hr)
  | cons v items ih =>
    intro n tasks hs done e h hp hr
    simp only [parIter] at hr
    split at hr
    · cases ht : takeAt tasks (pick n) with
      | none => rw [ht] at hr; simp at hr
      | some r =>
        obtain ⟨t, rest⟩ := r
        rw [ht] at hr
        cases t with
        | error e' =>
          simp only [Run.ok.injEq, Except.error.injEq] at hr
          subst hr
          rcases key tasks hs done e' h hp (List.mem_of_getElem? (takeAt_some ht).1) with h3 | ⟨c, v', h3, h4⟩
          · exact .inl (by simp [h3])
          · exact .inr ⟨c, v', by simp [h3], h4⟩
        | ok c =>
          simp only at hr
          obtain ⟨hs1, a1, a2, a3, a4⟩ := tasksOf_join h ht v
          simpa using ih (n + 1) _ hs1 (done ++ [v]) e a1 (a3.trans (hp.append_right [v])) hr
    · simpa using ih n _ (hs ++ [[v]]) (done ++ [v]) e
        (List.rel_append h (.cons (by simp [consume, Except.bind]; cases parTask on new v <;> rfl) .nil))
        (by simpa using hp.append_right [v]) hr

theorem parIter_total {new : C} {on : C → V → Except E C} {threads : Nat} {pick : Nat → Nat} (ht : 0 < threads) :
    ∀ (items : List (Except E V)) (n : Nat) (tasks : List (Except E C)),
    ∃ r, parIter new on threads pick items n tasks = .ok r
  | [], n, tasks => ⟨_, rfl⟩
  | v :: items, n, tasks => by
    simp only [parIter]
    split
    · cases h : takeAt tasks (pick n) with
      | none =>
        rw [takeAt_none] at h
        subst h
        simp_all
      | some r =>
        obtain ⟨t, rest⟩ := r
        cases t with
        | error e => exact ⟨_, rfl⟩
        | ok c => exact parIter_total ht items (n + 1) _
    · exact parIter_total ht items n _

end LAM.Sim
