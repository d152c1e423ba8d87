import Verif.Spec.StoreChain
/-!
# Deciding the conditions of `Spec/StoreChain` for concrete histories

Used for examples and counterexamples only.
-/
namespace LAM.Spec

/-- Is `k` reached from `s` in at most `fuel` steps? -/
def ancB (par : Nat → Nat) : Nat → Nat → Nat → Bool
  | 0, s, k => s == k
  | fuel + 1, s, k => s == k || ancB par fuel (par s) k

theorem ancB_sound {par : Nat → Nat} : ∀ {fuel s k : Nat}, ancB par fuel s k = true → Ancestor par s k := by
  intro fuel
  induction fuel with
  | zero => intro s k h; simp [ancB] at h; subst h; exact .here
  | succ n ih =>
    intro s k h
    simp only [ancB, Bool.or_eq_true, beq_iff_eq] at h
    rcases h with rfl | h
    · exact .here
    · exact .up (ih h)

theorem ancB_mono {par : Nat → Nat} : ∀ {fuel fuel' s k : Nat}, fuel ≤ fuel' → ancB par fuel s k = true → ancB par fuel' s k = true := by
  intro fuel
  induction fuel with
  | zero =>
    intro fuel' s k _ h
    simp only [ancB, beq_iff_eq] at h; subst h
    cases fuel' <;> simp [ancB]
  | succ n ih =>
    intro fuel' s k hle h
    obtain ⟨m, rfl⟩ : ∃ m, fuel' = m + 1 := ⟨fuel' - 1, by omega⟩
    simp only [ancB, Bool.or_eq_true, beq_iff_eq] at h ⊢
    rcases h with h | h
    · exact Or.inl h
    · exact Or.inr (ih (by omega) h)

theorem ancB_iff {par : Nat → Nat} (h0 : par 0 = 0) (hpar : ∀ k, 0 < k → par k < k) {s k : Nat} :
    Ancestor par s k ↔ ancB par s s k = true := by
  constructor
  · intro h
    induction h with
    | @here s => cases s <;> simp [ancB]
    | @up s k _ ih =>
      cases s with
      | zero => rw [h0] at ih; exact ih
      | succ n =>
        simp only [ancB, Bool.or_eq_true]
        exact Or.inr (ancB_mono (by have := hpar (n + 1) (by omega); omega) ih)
  · exact ancB_sound

/-- The slots notified with commitment `c`. -/
def slotsOf (c : Commitment) (h : List Op) : List Nat :=
  h.filterMap fun
    | .slot _ _ info d => if d = c then some info.slot else none
    | .update .. => none

theorem mem_slotsOf {c : Commitment} {h : List Op} {k : Nat} : k ∈ slotsOf c h ↔ Notified c h k := by
  simp only [slotsOf, List.mem_filterMap, Notified]
  constructor
  · rintro ⟨op, hm, ho⟩
    cases op with
    | update => cases ho
    | slot F σ info d =>
      simp only [Option.ite_none_right_eq_some, Option.some.injEq] at ho
      obtain ⟨rfl, rfl⟩ := ho
      exact ⟨F, σ, info, hm, rfl⟩
  · rintro ⟨F, σ, info, hm, rfl⟩
    exact ⟨_, hm, by simp⟩

def onB (par : Nat → Nat) (c : Commitment) (h : List Op) (k : Nat) : Bool := (slotsOf c h).any fun t => ancB par t t k

theorem onB_iff {par : Nat → Nat} (h0 : par 0 = 0) (hpar : ∀ k, 0 < k → par k < k) {c : Commitment} {h : List Op} {k : Nat} :
    onB par c h k = true ↔ OnChainOf par c h k := by
  simp only [onB, List.any_eq_true, OnChainOf, mem_slotsOf, ancB_iff h0 hpar]

/-- `P` holds for every call and the calls before it. -/
def eachB (P : List Op → Op → Bool) : List Op → List Op → Bool
  | _, [] => true
  | pre, op :: post => P pre op && eachB P (pre ++ [op]) post

theorem eachB_sound {P : List Op → Op → Bool} : ∀ {l p pre post : List Op} {op : Op}, eachB P p l = true →
    l = pre ++ op :: post → P (p ++ pre) op = true := by
  intro l
  induction l with
  | nil => intro p pre post op _ h; simp at h
  | cons o t ih =>
    intro p pre post op h he
    simp only [eachB, Bool.and_eq_true] at h
    cases pre with
    | nil => simp only [List.nil_append, List.cons.injEq] at he; obtain ⟨rfl, -⟩ := he; simpa using h.1
    | cons o' pre' =>
      simp only [List.cons_append, List.cons.injEq] at he
      obtain ⟨rfl, he⟩ := he
      have := ih h.2 he
      simpa using this

def announcedB (j : Nat) : List Op → Bool
  | [] => false
  | .slot _ _ info c :: t => (c == .processed && info.slot == j) || announcedB j t
  | .update _ a _ :: t => a.slot != j && announcedB j t

theorem announcedB_sound {j : Nat} : ∀ {h : List Op}, announcedB j h = true → AnnouncedFirst h j := by
  intro h
  induction h with
  | nil => intro h; simp [announcedB] at h
  | cons o t ih =>
    intro h
    cases o with
    | slot F σ info c =>
      simp only [announcedB, Bool.or_eq_true, Bool.and_eq_true, beq_iff_eq] at h
      rcases h with ⟨rfl, hj⟩ | h
      · exact ⟨[], F, σ, info, t, rfl, hj, by simp⟩
      · obtain ⟨pre, G, τ, i, post, he, hj, hno⟩ := ih h
        refine ⟨.slot F σ info c :: pre, G, τ, i, post, by rw [he]; rfl, hj, ?_⟩
        intro G a d hm
        simp only [List.mem_cons, reduceCtorEq, false_or] at hm
        exact hno G a d hm
    | update F a c =>
      simp only [announcedB, Bool.and_eq_true, bne_iff_ne, ne_eq] at h
      obtain ⟨pre, G, τ, i, post, he, hj, hno⟩ := ih h.2
      refine ⟨.update F a c :: pre, G, τ, i, post, by rw [he]; rfl, hj, ?_⟩
      intro G b d hm
      simp only [List.mem_cons, Op.update.injEq] at hm
      rcases hm with ⟨-, rfl, -⟩ | hm
      · exact h.1
      · exact hno G b d hm

def chainB (par : Nat → Nat) (base : Nat) (pre : List Op) : Op → Bool
  | .update _ a c => c == .processed || (c == .finalized && a.slot < base)
  | .slot _ _ info c => info.parent == par info.slot && match c with
    | .processed => !onB par .confirmed pre info.slot
    | .confirmed => ancB par info.slot info.slot base && (info.slot == base || (slotsOf .confirmed pre).contains base) &&
        !onB par .finalized pre info.slot &&
        (slotsOf .confirmed pre).all fun t => ancB par info.slot info.slot t || ancB par t t info.slot
    | .finalized => (slotsOf .finalized pre).all (fun t => t ≤ info.slot) &&
        (info.slot < base || onB par .confirmed pre info.slot)

theorem oneChain_of {par : Nat → Nat} {base : Nat} {h : List Op} (h0 : par 0 = 0) (hpar : ∀ k, 0 < k → par k < k) (hb : 0 < base)
    (hc : eachB (chainB par base) [] h = true) : OneChain par base h := by
  have hall : ∀ {pre op post}, h = pre ++ op :: post → chainB par base pre op = true := by
    intro pre op post he; simpa using eachB_sound hc he
  refine ⟨?_, fun k hk => hpar k (by omega), ?_, ?_, ?_, ?_, ?_⟩
  · intro k
    cases k with
    | zero => omega
    | succ n => exact Nat.le_of_lt (hpar _ (by omega))
  · intro F σ info c hm
    obtain ⟨pre, post, he⟩ := List.append_of_mem hm
    have := hall he
    simp only [chainB, Bool.and_eq_true, beq_iff_eq] at this
    exact this.1
  · intro F a c hm
    obtain ⟨pre, post, he⟩ := List.append_of_mem hm
    have := hall he
    simpa [chainB] using this
  · intro pre F σ info post he
    have := hall he
    simp only [chainB, Bool.and_eq_true, Bool.not_eq_true'] at this
    rw [← onB_iff h0 hpar, this.2]; simp
  · intro pre F σ info post he
    have := hall he
    simp only [chainB, Bool.and_eq_true, Bool.not_eq_true', Bool.or_eq_true, beq_iff_eq, List.contains_iff_mem, mem_slotsOf,
      List.all_eq_true] at this
    obtain ⟨-, ⟨⟨h1, h2⟩, h3⟩, h4⟩ := this
    refine ⟨ancB_sound h1, h2, by rw [← onB_iff h0 hpar, h3]; simp, ?_⟩
    intro t ht
    rcases h4 t ht with h5 | h5
    · exact Or.inl (ancB_sound h5)
    · exact Or.inr (ancB_sound h5)
  · intro pre F σ info post he
    have := hall he
    simp only [chainB, Bool.and_eq_true, Bool.or_eq_true, decide_eq_true_eq, mem_slotsOf, List.all_eq_true, onB_iff h0 hpar] at this
    exact this.2

def knownB (par : Nat → Nat) (base : Nat) (pre : List Op) : Op → Bool
  | .slot _ _ info .confirmed => (List.range info.slot).all fun j =>
      j < base || !ancB par info.slot info.slot j || onB par .confirmed pre j ||
        ((slotsOf .processed pre).contains info.slot && announcedB j pre)
  | _ => true

theorem parentsKnown_of {par : Nat → Nat} {base : Nat} {h : List Op} (h0 : par 0 = 0) (hpar : ∀ k, 0 < k → par k < k)
    (hle : ∀ {s k}, Ancestor par s k → k ≤ s) (hc : eachB (knownB par base) [] h = true) : ParentsKnown par base h := by
  intro pre F σ info post he j ha hne hb hno
  have h1 := eachB_sound hc he
  simp only [List.nil_append, knownB, List.all_eq_true, List.mem_range, Bool.or_eq_true, decide_eq_true_eq, Bool.not_eq_true',
    Bool.and_eq_true, List.contains_iff_mem, mem_slotsOf, onB_iff h0 hpar] at h1
  have h2 := hle ha
  rcases h1 j (by omega) with ((h3 | h3) | h3) | h3
  · omega
  · rw [(ancB_iff h0 hpar).1 ha] at h3; cases h3
  · exact absurd h3 hno
  · exact ⟨h3.1, announcedB_sound h3.2⟩

def behindB (par : Nat → Nat) (base : Nat) (pre : List Op) : Op → Bool
  | .slot _ _ info .finalized => info.slot < base || (slotsOf .confirmed pre).any fun t => ancB par t t info.slot && t != info.slot
  | _ => true

theorem finalizedBehind_of {par : Nat → Nat} {base : Nat} {h : List Op} (hc : eachB (behindB par base) [] h = true) :
    FinalizedBehind par base h := by
  intro pre F σ info post he hb
  have h1 := eachB_sound hc he
  simp only [List.nil_append, behindB, Bool.or_eq_true, decide_eq_true_eq, List.any_eq_true, Bool.and_eq_true, bne_iff_ne, ne_eq,
    mem_slotsOf] at h1
  rcases h1 with h1 | ⟨t, h1, h2, h3⟩
  · omega
  · exact ⟨t, h1, ancB_sound h2, h3⟩

def inTimeB (par : Nat → Nat) (base : Nat) (pk : Pubkey) (h1 pre : List Op) : Op → Bool
  | .update _ a .processed => a.pubkey != pk || (base ≤ a.slot && (!onB par .confirmed (h1 ++ pre) a.slot ||
      (!(submissions pk pre).isEmpty && (slotsOf .finalized (h1 ++ pre)).all fun t => t ≤ a.slot)))
  | _ => true

theorem inTime_of {par : Nat → Nat} {base : Nat} {pk : Pubkey} {h1 h2 : List Op} (h0 : par 0 = 0) (hpar : ∀ k, 0 < k → par k < k)
    (hc : eachB (inTimeB par base pk h1) [] h2 = true) : UpdatesInTime par base pk h1 h2 := by
  intro pre F a post he hpk
  have h3 := eachB_sound hc he
  simp only [List.nil_append, inTimeB, Bool.or_eq_true, bne_iff_ne, ne_eq, Bool.and_eq_true, decide_eq_true_eq, Bool.not_eq_true',
    List.all_eq_true, mem_slotsOf] at h3
  rcases h3 with h3 | ⟨h3, h4⟩
  · exact absurd hpk h3
  · refine ⟨h3, fun hon => ?_⟩
    rcases h4 with h4 | ⟨h4, h5⟩
    · rw [(onB_iff h0 hpar).2 hon] at h4; cases h4
    · refine ⟨?_, h5⟩
      intro hx; rw [hx] at h4; simp at h4

/-- The calls answer and leave the pubkey tracked. -/
def trackedB (pk : Pubkey) (s : Store) : List Op → Bool
  | [] => true
  | op :: t => match s.step op with
    | .ok s' => s'.containsKey pk && trackedB pk s' t
    | _ => false

theorem staysTracked_of {pk : Pubkey} : ∀ {l : List Op} {s : Store}, trackedB pk s l = true → StaysTracked s l pk := by
  intro l
  induction l with
  | nil => intro s _ p hp hpre; exact absurd (List.prefix_nil.1 hpre) hp
  | cons op t ih =>
    intro s h p hp hpre
    simp only [trackedB] at h
    cases hs : s.step op with
    | panic => rw [hs] at h; cases h
    | diverge => rw [hs] at h; cases h
    | ok s' =>
      rw [hs] at h
      simp only [Bool.and_eq_true] at h
      cases p with
      | nil => exact absurd rfl hp
      | cons o p' =>
        obtain ⟨rfl, hpre'⟩ := List.cons_prefix_cons.1 hpre
        by_cases hp' : p' = []
        · subst hp'
          exact ⟨s', by simp [Store.run, hs], h.1⟩
        · obtain ⟨s2, h1, h2⟩ := ih h.2 p' hp' hpre'
          exact ⟨s2, by simp [Store.run, hs, h1], h2⟩

end LAM.Spec
