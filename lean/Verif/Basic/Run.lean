/-!
# Outcomes of running Rust code

`Run α` is the result of a Rust call: it returns, it panics (failed `unwrap`, `expect`,
`assert`, slice index out of range, `unimplemented!`) or it never returns.
-/
namespace LAM

inductive Run (α : Type u) where
  | ok (a : α)
  | panic
  | diverge
deriving Repr, DecidableEq

namespace Run

/-- Sequencing: a panic or an endless loop ends the call. -/
protected def bind (x : Run α) (f : α → Run β) : Run β :=
  match x with
  | ok a => f a
  | panic => panic
  | diverge => diverge

instance : Monad Run where
  pure := ok
  bind := Run.bind

@[simp] theorem ok_bind (a : α) (f : α → Run β) : ((ok a : Run α) >>= f) = f a := rfl
@[simp] theorem panic_bind (f : α → Run β) : ((panic : Run α) >>= f) = panic := rfl
@[simp] theorem diverge_bind (f : α → Run β) : ((diverge : Run α) >>= f) = diverge := rfl
@[simp] theorem pure_eq (a : α) : (pure a : Run α) = ok a := rfl

theorem bind_eq_ok {x : Run α} {f : α → Run β} {b : β} :
    (x >>= f) = ok b ↔ ∃ a, x = ok a ∧ f a = ok b := by
  cases x <;> simp

/-- `Option::unwrap` / `expect`. -/
def unwrap : Option α → Run α
  | some a => ok a
  | none => panic

@[simp] theorem unwrap_some (a : α) : unwrap (some a) = ok a := rfl
@[simp] theorem unwrap_none : unwrap (none : Option α) = panic := rfl

/-- `iter().all(f)`: stops at the first `false`. -/
def allM (f : α → Run Bool) : List α → Run Bool
  | [] => ok true
  | x :: xs => do if (← f x) then allM f xs else ok false

/-- `iter().any(f)`: stops at the first `true`. -/
def anyM (f : α → Run Bool) : List α → Run Bool
  | [] => ok false
  | x :: xs => do if (← f x) then ok true else anyM f xs

theorem allM_ok (f : α → Run Bool) (g : α → Bool) (l : List α)
    (h : ∀ x ∈ l, f x = ok (g x)) : allM f l = ok (l.all g) := by
  induction l with
  | nil => rfl
  | cons x xs ih =>
    have hx := h x (by simp)
    have ih := ih (fun y hy => h y (by simp [hy]))
    cases hg : g x <;> simp [allM, hx, ih, hg]

theorem anyM_ok (f : α → Run Bool) (g : α → Bool) (l : List α)
    (h : ∀ x ∈ l, f x = ok (g x)) : anyM f l = ok (l.any g) := by
  induction l with
  | nil => rfl
  | cons x xs ih =>
    have hx := h x (by simp)
    have ih := ih (fun y hy => h y (by simp [hy]))
    cases hg : g x <;> simp [anyM, hx, ih, hg]

end Run
end LAM
