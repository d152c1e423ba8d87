import Verif.Lemmas.StoreChainCheck
import Verif.Spec.StoreChainOwner
/-!
# Deciding the conditions on owners for given histories (used for examples)
-/
namespace LAM.Spec

def visB (par : Nat → Nat) (base : Nat) (c : Commitment) (h : List Op) (a : AccountData) : Bool :=
  a.slot < base || onB par c h a.slot

theorem visB_iff {par : Nat → Nat} {base : Nat} (h0 : par 0 = 0) (hpar : ∀ k, 0 < k → par k < k) {c : Commitment} {h : List Op}
    {a : AccountData} : visB par base c h a = true ↔ ChainVisible par base c h a := by
  simp [visB, ChainVisible, onB_iff h0 hpar]

def askedB (F : Filters) (a : AccountData) : Bool := a.account.lamports == 0 || F.satisfies a

def firstB (par : Nat → Nat) (base : Nat) (pk : Pubkey) (h1 pre : List Op) (a : AccountData) : Bool :=
  [Commitment.confirmed, .finalized].all fun d => a.account.lamports == 0 || !visB par base d (h1 ++ pre) a ||
    (submissions pk pre).any (visB par base d (h1 ++ pre)) ||
    (submissions pk pre).all fun b => b.account.owner == a.account.owner

def staleB (par : Nat → Nat) (base : Nat) (pk : Pubkey) (h1 pre : List Op) (a : AccountData) : Bool :=
  !visB par base .finalized (h1 ++ pre) a || (submissions pk pre).all fun x => !visB par base .finalized (h1 ++ pre) x ||
    decide (Older x a) || a.account.owner == x.account.owner

/-- The conditions on the states before an update. -/
def placedB (par : Nat → Nat) (base : Nat) (pk : Pubkey) (h1 pre : List Op) : Op → Bool
  | .update F a _ => a.pubkey != pk || (askedB F a && firstB par base pk h1 pre a && staleB par base pk h1 pre a)
  | _ => true

def settleB (par : Nat → Nat) (base : Nat) (pk : Pubkey) (h1 h2 : List Op) : Bool :=
  eachB (placedB par base pk h1) [] h2 &&
  (let L := submissions pk h2
   L.all fun x => L.all fun z => (x.account.lamports != 0 || z.account.lamports == 0 || x.account.owner != z.account.owner) &&
    L.all fun y => !visB par base .finalized (h1 ++ h2) x || !visB par base .finalized (h1 ++ h2) y || !decide (Older x y) ||
      decide (Older z y) || z.account.lamports == 0 || z.account.owner != x.account.owner || y.account.owner == x.account.owner)

theorem settle_of {par : Nat → Nat} {base : Nat} {pk : Pubkey} {h1 h2 : List Op} (h0 : par 0 = 0) (hpar : ∀ k, 0 < k → par k < k)
    (hc : settleB par base pk h1 h2 = true) : OwnersSettle par base pk h1 h2 := by
  simp only [settleB, Bool.and_eq_true, List.all_eq_true] at hc
  obtain ⟨hp, hq⟩ := hc
  have hp' : ∀ pre F a c post, h2 = pre ++ Op.update F a c :: post → a.pubkey = pk →
      (askedB F a = true ∧ firstB par base pk h1 pre a = true) ∧ staleB par base pk h1 pre a = true := by
    intro pre F a c post he hpk
    have h3 := eachB_sound hp he
    simp only [List.nil_append, placedB, Bool.or_eq_true, bne_iff_ne, ne_eq, hpk, not_true_eq_false, false_or,
      Bool.and_eq_true] at h3
    exact h3
  refine ⟨?_, ?_, ?_, ?_, ?_⟩
  · intro F a c hm hpk hl
    obtain ⟨pre, post, he⟩ := List.append_of_mem hm
    have := (hp' pre F a c post he hpk).1.1
    simp only [askedB, Bool.or_eq_true, beq_iff_eq] at this
    rcases this with h | h
    · omega
    · exact h
  · intro x hx z hz hxl hzl ho
    have := (hq x hx z hz).1
    simp only [Bool.or_eq_true, bne_iff_ne, beq_iff_eq, ne_eq] at this
    rcases this with (h | h) | h
    · exact h hxl
    · omega
    · exact h ho
  · intro x hx y hy z hz vx vy hxy hzy hzl ho
    have := (hq x hx z hz).2 y hy
    simp only [Bool.or_eq_true, Bool.not_eq_true', bne_iff_ne, beq_iff_eq, ne_eq, (visB_iff h0 hpar).2 vx, (visB_iff h0 hpar).2 vy,
      decide_eq_true_eq, decide_eq_false_iff_not, Bool.true_eq_false, false_or] at this
    rcases this with (((h | h) | h) | h) | h
    · exact absurd hxy h
    · exact absurd h hzy
    · omega
    · exact absurd ho h
    · exact h
  · intro pre F a c post he hpk hl d hd hv
    have := (hp' pre F a c post he hpk).1.2
    rw [firstB, List.all_eq_true] at this
    have := this d (by cases d <;> simp at hd ⊢)
    simp only [Bool.or_eq_true, Bool.not_eq_true', beq_iff_eq, (visB_iff h0 hpar).2 hv, Bool.true_eq_false, or_false,
      List.any_eq_true, List.all_eq_true] at this
    rcases this with (h | ⟨b, hb, hbv⟩) | h
    · omega
    · exact .inl ⟨b, hb, (visB_iff h0 hpar).1 hbv⟩
    · exact .inr h
  · intro pre F a c post x he hpk hv hn hold
    have := (hp' pre F a c post he hpk).2
    simp only [staleB, Bool.or_eq_true, Bool.not_eq_true', (visB_iff h0 hpar).2 hv, Bool.true_eq_false, false_or,
      List.all_eq_true] at this
    obtain ⟨l1, l2, hl, hx, -⟩ := hn
    have := this x (by rw [hl]; simp)
    simp only [(visB_iff h0 hpar).2 hx, Bool.true_eq_false, false_or, decide_eq_true_eq, beq_iff_eq] at this
    rcases this with h | h
    · exact absurd h hold
    · exact h

end LAM.Spec
