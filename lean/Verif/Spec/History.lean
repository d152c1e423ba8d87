import Verif.Model.Store
import Verif.Spec.Version
/-!
# Histories of calls, seen from outside

What was submitted and announced in a history; nothing here looks inside the store except for "is this
pubkey tracked".
-/
namespace LAM.Spec

/-- Account states submitted for `pk`, in order. -/
def submissions (pk : Pubkey) (h : List Op) : List AccountData :=
  h.filterMap fun op => match op with
    | .update _ a _ => if a.pubkey = pk then some a else none
    | .slot .. => none

/-- The store tracks `pk` after every further call of `ops`. -/
def StaysTracked (s : Store) (ops : List Op) (pk : Pubkey) : Prop :=
  ∀ p, p ≠ [] → p <+: ops → ∃ s', s.run p = .ok s' ∧ s'.containsKey pk = true

/-- What a read shows of a state: nothing if it has no lamports. -/
def shown (a : AccountData) : Option AccountData := if a.account.lamports > 0 then some a else none

theorem submissions_append (pk : Pubkey) (l m : List Op) :
    submissions pk (l ++ m) = submissions pk l ++ submissions pk m := by
  simp [submissions]

theorem submissions_update (pk : Pubkey) (F : Filters) (a : AccountData) (c : Commitment) :
    submissions pk [.update F a c] = if a.pubkey = pk then [a] else [] := by
  by_cases h : a.pubkey = pk <;> simp [submissions, h]

theorem submissions_slot (pk : Pubkey) (F : Filters) (σ : Store.Order) (i : SlotInfo) (c : Commitment) :
    submissions pk [.slot F σ i c] = [] := rfl

theorem mem_submissions {pk : Pubkey} {h : List Op} {a : AccountData} :
    a ∈ submissions pk h ↔ a.pubkey = pk ∧ ∃ F c, Op.update F a c ∈ h := by
  simp only [submissions, List.mem_filterMap]
  constructor
  · rintro ⟨op, hop, hm⟩
    cases op with
    | update F b c =>
      simp only at hm
      split at hm
      · simp at hm; subst hm; exact ⟨by assumption, F, c, hop⟩
      · simp at hm
    | slot => simp at hm
  · rintro ⟨hpk, F, c, hop⟩
    exact ⟨_, hop, by simp [hpk]⟩

end LAM.Spec

namespace LAM.Spec

/-- The history reports slot `k` with at least commitment `c`: by a slot notification or by the
commitment of an update at that slot. -/
def Reported (c : Commitment) (h : List Op) (k : Nat) : Prop :=
  (∃ F σ info d, Op.slot F σ info d ∈ h ∧ info.slot = k ∧ c ≤ d) ∨
  (∃ F a d, Op.update F a d ∈ h ∧ a.slot = k ∧ c ≤ d)

/-- The history announces `p` as the parent of `k`. -/
def Announced (h : List Op) (k p : Nat) : Prop :=
  ∃ F σ info d, Op.slot F σ info d ∈ h ∧ info.slot = k ∧ info.parent = p

/-- Reported with at least commitment `c`, or an announced ancestor of such a slot. -/
inductive Settled (c : Commitment) (h : List Op) : Nat → Prop where
  | reported {k} : Reported c h k → Settled c h k
  | ancestor {k p} : Settled c h k → Announced h k p → Settled c h p

/-- `k` is reached from `x` over announced parents, or over the parent the code makes up for a slot it
has no status of: the parent of the confirmed slot it came from. -/
inductive Linked (h : List Op) : Nat → Nat → Prop where
  | refl {x} : Linked h x x
  | announced {x k p} : Linked h x k → Announced h k p → Linked h x p
  | madeUp {x k F σ info} : Linked h x k → Op.slot F σ info .confirmed ∈ h → Linked h info.slot k →
      Linked h x info.parent

theorem Reported.mono {c : Commitment} {h h' : List Op} (hs : ∀ op ∈ h, op ∈ h') {k : Nat}
    (hr : Reported c h k) : Reported c h' k := by
  rcases hr with ⟨F, σ, info, d, hm, hk⟩ | ⟨F, a, d, hm, hk⟩
  · exact Or.inl ⟨F, σ, info, d, hs _ hm, hk⟩
  · exact Or.inr ⟨F, a, d, hs _ hm, hk⟩

theorem Announced.mono {h h' : List Op} (hs : ∀ op ∈ h, op ∈ h') {k p : Nat}
    (hr : Announced h k p) : Announced h' k p := by
  obtain ⟨F, σ, info, d, hm, hk⟩ := hr
  exact ⟨F, σ, info, d, hs _ hm, hk⟩

theorem Settled.mono {c : Commitment} {h h' : List Op} (hs : ∀ op ∈ h, op ∈ h') {k : Nat}
    (hr : Settled c h k) : Settled c h' k := by
  induction hr with
  | reported hr => exact .reported (hr.mono hs)
  | ancestor _ ha ih => exact .ancestor ih (ha.mono hs)

theorem Linked.mono {h h' : List Op} (hs : ∀ op ∈ h, op ∈ h') {x k : Nat} (hr : Linked h x k) :
    Linked h' x k := by
  induction hr with
  | refl => exact .refl
  | announced _ ha ih => exact .announced ih (ha.mono hs)
  | madeUp _ hm _ ih1 ih2 => exact .madeUp ih1 (hs _ hm) ih2

end LAM.Spec
