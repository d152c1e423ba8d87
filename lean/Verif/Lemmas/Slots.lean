import Verif.Lemmas.Store
/-!
# Effect of `process_slot_data`
-/
namespace LAM
open Spec ByCommitment

namespace Store

/-! ## The walk over ancestors -/

/-- Accounts recorded for a slot. -/
def upd (m : BMap SlotStatus) (k : Nat) : List Nat :=
  ((BMap.find m k).map SlotStatus.accountsUpdated).getD []

/-- Collect the accounts of the slots of `path`, in order. -/
def gather (m : BMap SlotStatus) (path : List Nat) (w : Writable) : Writable :=
  path.foldl (fun w k => (upd m k).foldl (fun w i => addWritable w k i) w) w

/-- `walk` as a relation; `path` lists the slots whose status was raised, in order. -/
inductive Walk (info : SlotInfo) (c : Commitment) :
    BMap SlotStatus → Writable → Nat → Option Nat → List Nat → BMap SlotStatus → Writable → Prop where
  | same {m w k par st} (hf : BMap.find m k = some st) (hc : st.commitment = c) :
      Walk info c m w k par [] m w
  | stop {m w k par st} (hf : BMap.find m k = some st) (hc : st.commitment ≠ c)
      (hp : c = .processed ∨ (if par.isSome then par else st.parent) = none) :
      Walk info c m w k par [k]
        (BMap.insert m k { st with commitment := c, parent := if par.isSome then par else st.parent })
        (st.accountsUpdated.foldl (fun w i => addWritable w k i) w)
  | next {m w k par st p path m' w'} (hf : BMap.find m k = some st) (hc : st.commitment ≠ c)
      (hn : c ≠ .processed) (hp : (if par.isSome then par else st.parent) = some p)
      (ht : Walk info c
        (BMap.insert m k { st with commitment := c, parent := if par.isSome then par else st.parent })
        (st.accountsUpdated.foldl (fun w i => addWritable w k i) w) p none path m' w') :
      Walk info c m w k par (k :: path) m' w'
  | fresh {m w k par} (hf : BMap.find m k = none) (hn : c ≠ .finalized) :
      Walk info c m w k par [k] (BMap.insert m k ⟨c, [], some info.parent⟩) w
  | missing {m w k par} (hf : BMap.find m k = none) (hn : c = .finalized) :
      Walk info c m w k par [] m w

theorem walk_rel {info : SlotInfo} {c : Commitment} : ∀ (fuel : Nat) (m : BMap SlotStatus)
    (w : Writable) (k : Nat) (par : Option Nat) (m' : BMap SlotStatus) (w' : Writable),
    walk info c fuel m w k par = .ok (m', w') → ∃ path, Walk info c m w k par path m' w' := by
  intro fuel
  induction fuel with
  | zero => intro m w k par m' w' h; simp [walk] at h
  | succ n ih =>
    intro m w k par m' w' h
    unfold walk at h
    cases hf : BMap.find m k with
    | none =>
      simp only [hf] at h
      split at h
      · rename_i hc
        simp at h; obtain ⟨rfl, rfl⟩ := h
        exact ⟨_, .fresh hf (by rcases hc with rfl | rfl <;> simp)⟩
      · rename_i hc
        simp at h; obtain ⟨rfl, rfl⟩ := h
        exact ⟨_, .missing hf (by cases c <;> simp_all)⟩
    | some st =>
      simp only [hf] at h
      split at h
      · rename_i hc
        simp at h; obtain ⟨rfl, rfl⟩ := h
        exact ⟨_, .same hf hc⟩
      · rename_i hc
        split at h
        · rename_i hcc
          split at h
          · rename_i p hp
            obtain ⟨path, hw⟩ := ih _ _ _ _ _ _ h
            exact ⟨_, .next hf hc (by rcases hcc with rfl | rfl <;> simp) hp hw⟩
          · rename_i hp
            simp at h; obtain ⟨rfl, rfl⟩ := h
            exact ⟨_, .stop hf hc (Or.inr hp)⟩
        · rename_i hcc
          simp at h; obtain ⟨rfl, rfl⟩ := h
          exact ⟨_, .stop hf hc (Or.inl (by cases c <;> simp_all))⟩

/-- Number of statuses the walk may still visit. -/
def pending (c : Commitment) (m : BMap SlotStatus) : Nat :=
  (m.filter (fun e => decide (e.2.commitment ≠ c))).length

theorem pending_le (c : Commitment) (m : BMap SlotStatus) : pending c m ≤ m.length :=
  List.length_filter_le _ _

theorem pending_insert {c : Commitment} {m : BMap SlotStatus} {k : Nat} {st st' : SlotStatus}
    (hs : BMap.Sorted m) (hf : BMap.find m k = some st) (hc : st.commitment ≠ c)
    (hc' : st'.commitment = c) : pending c (BMap.insert m k st') + 1 = pending c m := by
  induction m with
  | nil => simp at hf
  | cons e t ih =>
    obtain ⟨a, b⟩ := e
    simp only [BMap.Sorted, List.pairwise_cons] at hs
    simp only [BMap.find] at hf
    split at hf
    · rename_i h; subst h
      simp at hf; subst hf
      simp [BMap.insert, pending, hc, hc']
    · rename_i h
      have hlt : a < k := hs.1 _ (BMap.mem_of_find hf)
      have := ih hs.2 hf
      simp only [BMap.insert]
      rw [if_neg (by omega), if_neg (by omega)]
      simp only [pending, List.filter_cons] at this ⊢
      split
      · simp only [List.length_cons]; omega
      · exact this

/-- The walk terminates: each step raises one more status. -/
theorem walk_ok {info : SlotInfo} {c : Commitment} : ∀ (fuel : Nat) (m : BMap SlotStatus)
    (w : Writable) (k : Nat) (par : Option Nat), BMap.Sorted m → pending c m < fuel →
    ∃ m' w', walk info c fuel m w k par = .ok (m', w') := by
  intro fuel
  induction fuel with
  | zero => intro m w k par _ h; omega
  | succ n ih =>
    intro m w k par hs h
    unfold walk
    cases hf : BMap.find m k with
    | none => simp only; split <;> exact ⟨_, _, rfl⟩
    | some st =>
      simp only
      split
      · exact ⟨_, _, rfl⟩
      · rename_i hc
        split
        · split
          · refine ih _ _ _ _ (BMap.sorted_insert hs _ _) ?_
            have := pending_insert (st' := { st with commitment := c, parent := if par.isSome then par else st.parent }) hs hf hc rfl
            omega
          · exact ⟨_, _, rfl⟩
        · exact ⟨_, _, rfl⟩

theorem Walk.sorted {info c m w k par path m' w'} (h : Walk info c m w k par path m' w')
    (hs : BMap.Sorted m) : BMap.Sorted m' := by
  induction h with
  | same => exact hs
  | missing => exact hs
  | stop => exact BMap.sorted_insert hs _ _
  | fresh => exact BMap.sorted_insert hs _ _
  | next _ _ _ _ _ ih => exact ih (BMap.sorted_insert hs _ _)

/-- Slots on the path did not have the target status before. -/
theorem Walk.path_before {info c m w k par path m' w'} (h : Walk info c m w k par path m' w') :
    ∀ x ∈ path, ∀ st, BMap.find m x = some st → st.commitment ≠ c := by
  induction h with
  | same => simp
  | missing => simp
  | stop hf hc _ =>
    intro x hx st hst; simp at hx; subst hx; rw [hf] at hst; cases hst; exact hc
  | fresh hf _ => intro x hx st hst; simp at hx; subst hx; rw [hf] at hst; cases hst
  | @next m w k par st p path m' w' hf hc hn hp ht ih =>
    intro x hx st' hst'
    rcases List.mem_cons.1 hx with rfl | hx
    · rw [hf] at hst'; cases hst'; exact hc
    · by_cases hk : k = x
      · subst hk; rw [hf] at hst'; cases hst'; exact hc
      · exact ih x hx st' (by rw [BMap.find_insert, if_neg hk]; exact hst')

theorem Walk.path_nodup {info c m w k par path m' w'} (h : Walk info c m w k par path m' w') :
    path.Nodup := by
  induction h with
  | same => simp
  | missing => simp
  | stop => simp
  | fresh => simp
  | @next m w k par st p path m' w' hf hc hn hp ht ih =>
    refine List.nodup_cons.2 ⟨fun hk => ?_, ih⟩
    have := ht.path_before k hk { st with commitment := c, parent := if par.isSome then par else st.parent }
      (by simp [BMap.find_insert])
    exact this rfl

/-- Recorded accounts do not change during the walk. -/
theorem upd_insert {m : BMap SlotStatus} {k : Nat} {st : SlotStatus} (hf : BMap.find m k = some st)
    (c : Commitment) (par : Option Nat) (x : Nat) :
    upd (BMap.insert m k { st with commitment := c, parent := par }) x = upd m x := by
  unfold upd
  rw [BMap.find_insert]
  split
  · rename_i hk; subst hk; simp [hf]
  · rfl

theorem Walk.upd_eq {info c m w k par path m' w'} (h : Walk info c m w k par path m' w') :
    ∀ x, upd m' x = upd m x := by
  induction h with
  | same => intro x; rfl
  | missing => intro x; rfl
  | stop hf _ _ => intro x; exact upd_insert hf _ _ x
  | fresh hf _ =>
    intro x
    unfold upd
    rw [BMap.find_insert]
    split
    · rename_i hk; subst hk; simp [hf]
    · rfl
  | next hf _ _ _ _ ih => intro x; rw [ih x, upd_insert hf _ _ x]

theorem gather_congr {m n : BMap SlotStatus} (h : ∀ x, upd m x = upd n x) (path : List Nat)
    (w : Writable) : gather m path w = gather n path w := by
  unfold gather; simp only [h]

theorem Walk.gathered {info c m w k par path m' w'} (h : Walk info c m w k par path m' w') :
    w' = gather m path w := by
  induction h with
  | same => rfl
  | missing => rfl
  | stop hf _ _ => simp [gather, upd, hf]
  | fresh hf _ => simp [gather, upd, hf]
  | @next m w k par st p path m' w' hf hc hn hp ht ih =>
    rw [ih, gather_congr (fun x => upd_insert hf _ _ x)]
    simp [gather, upd, hf]

/-- Statuses after the walk: exactly the slots of the path were raised to `c`. -/
theorem Walk.status {info c m w k par path m' w'} (h : Walk info c m w k par path m' w') :
    ∀ x, (x ∉ path → BMap.find m' x = BMap.find m x) ∧
      (x ∈ path → ∃ st', BMap.find m' x = some st' ∧ st'.commitment = c) := by
  induction h with
  | same => intro x; simp
  | missing => intro x; simp
  | stop hf _ _ =>
    intro x; simp only [List.mem_singleton, BMap.find_insert]
    constructor
    · intro hx; rw [if_neg (fun h => hx h.symm)]
    · rintro rfl; exact ⟨_, if_pos rfl, rfl⟩
  | fresh hf _ =>
    intro x; simp only [List.mem_singleton, BMap.find_insert]
    constructor
    · intro hx; rw [if_neg (fun h => hx h.symm)]
    · rintro rfl; exact ⟨_, if_pos rfl, rfl⟩
  | @next m w k par st p path m' w' hf hc hn hp ht ih =>
    intro x
    constructor
    · intro hx
      rw [(ih x).1 (fun h => hx (List.mem_cons_of_mem _ h)), BMap.find_insert, if_neg]
      rintro rfl; simp at hx
    · intro hx
      by_cases hxp : x ∈ path
      · exact (ih x).2 hxp
      · rw [(ih x).1 hxp]
        rcases List.mem_cons.1 hx with rfl | h
        · exact ⟨_, by rw [BMap.find_insert, if_pos rfl], rfl⟩
        · exact absurd h hxp

/-! ## The collected accounts -/

theorem mem_addWritable (w : Writable) (k i : Nat) (e : Nat × Nat) :
    e ∈ addWritable w k i ↔ e ∈ w ∨ (e = (i, k) ∧ ∀ x ∈ w, x.1 ≠ i) := by
  unfold addWritable
  split
  · rename_i h
    simp only [List.any_eq_true, beq_iff_eq] at h
    obtain ⟨x, hx, hxi⟩ := h
    constructor
    · exact Or.inl
    · rintro (h | ⟨-, h⟩)
      · exact h
      · exact absurd hxi (h x hx)
  · rename_i h
    have h' : ∀ x ∈ w, x.1 ≠ i := by
      intro x hx hxi; apply h; simp only [List.any_eq_true, beq_iff_eq]; exact ⟨x, hx, hxi⟩
    simp only [List.mem_append, List.mem_singleton]
    constructor
    · rintro (h | h)
      · exact Or.inl h
      · exact Or.inr ⟨h, h'⟩
    · rintro (h | ⟨h, -⟩)
      · exact Or.inl h
      · exact Or.inr h

theorem nodup_addWritable {w : Writable} (h : (w.map Prod.fst).Nodup) (k i : Nat) :
    ((addWritable w k i).map Prod.fst).Nodup := by
  unfold addWritable
  split
  · exact h
  · rename_i hn
    rw [List.map_append, List.nodup_append]
    refine ⟨h, by simp, ?_⟩
    intro a ha b hb hab
    simp at hb; subst hb; subst hab
    obtain ⟨x, hx, hxa⟩ := List.mem_map.1 ha
    exact hn (by simp only [List.any_eq_true, beq_iff_eq]; exact ⟨x, hx, hxa⟩)

theorem mem_foldl_addWritable (k : Nat) (l : List Nat) : ∀ (w : Writable) (e : Nat × Nat),
    e ∈ l.foldl (fun w i => addWritable w k i) w ↔
      e ∈ w ∨ (e.2 = k ∧ e.1 ∈ l ∧ ∀ x ∈ w, x.1 ≠ e.1) := by
  induction l with
  | nil => intro w e; simp
  | cons i t ih =>
    intro w e
    rw [List.foldl_cons, ih]
    simp only [mem_addWritable, List.mem_cons]
    constructor
    · rintro ((h | ⟨rfl, h⟩) | ⟨h1, h2, h3⟩)
      · exact Or.inl h
      · exact Or.inr ⟨rfl, Or.inl rfl, h⟩
      · exact Or.inr ⟨h1, Or.inr h2, fun x hx => h3 x (Or.inl hx)⟩
    · rintro (h | ⟨h1, h2, h3⟩)
      · exact Or.inl (Or.inl h)
      · by_cases hi : e.1 = i
        · refine Or.inl (Or.inr ⟨?_, ?_⟩)
          · rw [← hi, ← h1]
          · rw [← hi]; exact h3
        · rcases h2 with h2 | h2
          · exact absurd h2 hi
          · refine Or.inr ⟨h1, h2, ?_⟩
            rintro x (hx | ⟨rfl, -⟩)
            · exact h3 x hx
            · exact fun h => hi h.symm

theorem nodup_foldl_addWritable (k : Nat) (l : List Nat) : ∀ (w : Writable),
    (w.map Prod.fst).Nodup → ((l.foldl (fun w i => addWritable w k i) w).map Prod.fst).Nodup := by
  induction l with
  | nil => intro w h; exact h
  | cons i t ih => intro w h; rw [List.foldl_cons]; exact ih _ (nodup_addWritable h k i)

theorem nodup_gather (m : BMap SlotStatus) (path : List Nat) : ∀ (w : Writable),
    (w.map Prod.fst).Nodup → ((gather m path w).map Prod.fst).Nodup := by
  induction path with
  | nil => intro w h; exact h
  | cons k t ih =>
    intro w h
    exact ih _ (nodup_foldl_addWritable k (upd m k) w h)

theorem mem_gather_sub {m : BMap SlotStatus} {path : List Nat} : ∀ {w : Writable} {e : Nat × Nat},
    e ∈ gather m path w → e ∈ w ∨ (e.2 ∈ path ∧ e.1 ∈ upd m e.2) := by
  induction path with
  | nil => intro w e h; exact Or.inl h
  | cons k t ih =>
    intro w e h
    rcases ih (w := (upd m k).foldl (fun w i => addWritable w k i) w) h with h | ⟨h1, h2⟩
    · rcases (mem_foldl_addWritable _ _ _ _).1 h with h | ⟨h1, h2, -⟩
      · exact Or.inl h
      · refine Or.inr ⟨by simp [h1], by rw [h1]; exact h2⟩
    · exact Or.inr ⟨List.mem_cons_of_mem _ h1, h2⟩

theorem gather_mono {m : BMap SlotStatus} {path : List Nat} : ∀ {w : Writable} {e : Nat × Nat},
    e ∈ w → e ∈ gather m path w := by
  induction path with
  | nil => intro w e h; exact h
  | cons k t ih =>
    intro w e h
    exact ih (w := (upd m k).foldl (fun w i => addWritable w k i) w)
      ((mem_foldl_addWritable _ _ _ _).2 (Or.inl h))

/-- Every recorded account of a slot on the path is collected, with some slot of the path. -/
theorem gather_covers {m : BMap SlotStatus} {path : List Nat} : ∀ {w : Writable} {k i : Nat},
    k ∈ path → i ∈ upd m k → ∃ k', (i, k') ∈ gather m path w := by
  induction path with
  | nil => intro w k i h; simp at h
  | cons x t ih =>
    intro w k i hk hi
    rcases List.mem_cons.1 hk with rfl | hk
    · by_cases hw : ∀ y ∈ w, y.1 ≠ i
      · exact ⟨k, gather_mono (path := t) ((mem_foldl_addWritable k _ w (i, k)).2 (Or.inr ⟨rfl, hi, hw⟩))⟩
      · obtain ⟨y, hy, hyi⟩ : ∃ y ∈ w, y.1 = i := by
          apply Classical.byContradiction; intro hcon; apply hw; intro y hy hyi; exact hcon ⟨y, hy, hyi⟩
        refine ⟨y.2, gather_mono (path := t) ((mem_foldl_addWritable k _ w (i, y.2)).2 (Or.inl ?_))⟩
        rw [← hyi]; exact hy
    · exact ih (w := (upd m x).foldl (fun w i => addWritable w x i) w) hk hi

/-- The slot collected for an account is the first one on the path that recorded it. -/
theorem gather_first {m : BMap SlotStatus} {path : List Nat} : ∀ {w : Writable} {k i : Nat},
    (w.map Prod.fst).Nodup → (∀ x ∈ w, x.1 ≠ i) → (i, k) ∈ gather m path w →
    ∃ p1 p2, path = p1 ++ k :: p2 ∧ ∀ x ∈ p1, i ∉ upd m x := by
  induction path with
  | nil => intro w k i _ hw h; exact absurd rfl (hw _ h)
  | cons x t ih =>
    intro w k i hn hw h
    by_cases hi : i ∈ upd m x
    · have hx : (i, x) ∈ (upd m x).foldl (fun w i => addWritable w x i) w :=
        (mem_foldl_addWritable _ _ _ _).2 (Or.inr ⟨rfl, hi, hw⟩)
      have h1 := gather_mono (m := m) (path := t) hx
      have hnd := nodup_gather m t _ (nodup_foldl_addWritable x (upd m x) w hn)
      have hk : k = x := by
        have h2 : (i, k) ∈ gather m t ((upd m x).foldl (fun w i => addWritable w x i) w) := h
        clear h
        generalize gather m t ((upd m x).foldl (fun w i => addWritable w x i) w) = g at *
        induction g with
        | nil => simp at h1
        | cons a g ih =>
          simp only [List.map_cons, List.nodup_cons, List.mem_map, not_exists, not_and] at hnd
          rcases List.mem_cons.1 h1 with h1 | h1 <;> rcases List.mem_cons.1 h2 with h2 | h2
          · rw [← h1] at h2; simp at h2; exact h2
          · exact absurd (by rw [← h1]) (hnd.1 _ h2)
          · exact absurd (by rw [← h2]) (hnd.1 _ h1)
          · exact ih h1 hnd.2 h2
      subst hk
      exact ⟨[], t, rfl, by simp⟩
    · have hw' : ∀ y ∈ (upd m x).foldl (fun w i => addWritable w x i) w, y.1 ≠ i := by
        intro y hy hyi
        rcases (mem_foldl_addWritable _ _ _ _).1 hy with h1 | ⟨-, h2, -⟩
        · exact hw y h1 hyi
        · rw [hyi] at h2; exact hi h2
      obtain ⟨p1, p2, hp, hq⟩ := ih (nodup_foldl_addWritable x (upd m x) w hn) hw' h
      refine ⟨x :: p1, p2, by rw [hp]; rfl, ?_⟩
      intro y hy
      rcases List.mem_cons.1 hy with rfl | hy
      · exact hi
      · exact hq y hy

/-! ## Promotion -/

/-- What promotion does to one tracked account: its states afterwards (`none`: removed). -/
def after (F : Filters) (c : Commitment) (e : ByCommitment) (slot : Nat) : Option ByCommitment :=
  match (e.promote slot c).2 with
  | some (a, some p) => if Removes F p a c then none else some (e.promote slot c).1
  | _ => some (e.promote slot c).1

/-- What promotion reports for one account. -/
def reported (c : Commitment) (e : ByCommitment) (slot : Nat) : List AccountData :=
  match (e.promote slot c).2 with
  | some (a, _) => [a]
  | none => []

theorem promote_dead (slot : Nat) (c : Commitment) : dead.promote slot c = (dead, none) := by
  cases c <;> simp [dead, promote, prune]

theorem setAt_self {s : Store} {i : Nat} {e : ByCommitment} (h : s.accounts[i]? = some e) :
    s.setAt i e = s := by
  unfold setAt
  have : s.accounts.set i e = s.accounts := by
    apply List.ext_getElem?
    intro j
    rw [List.getElem?_set]
    split
    · rename_i hij; subst hij
      obtain ⟨h1, h2⟩ := List.getElem?_eq_some_iff.1 h
      simp [h1, h2]
    · rfl
  rw [this]

theorem promoteOne_dead {s : Store} {F : Filters} {c : Commitment} {i slot : Nat}
    (h : s.accounts[i]? = some dead) : promoteOne F c s i slot = .ok (s, []) := by
  simp [promoteOne, h, promote_dead, setAt_self h]

/-- Owner index effect of a promotion. -/
def ownerPromote (F : Filters) (s : Store) (c : Commitment) (e : ByCommitment) (i slot : Nat) : Store :=
  match (e.promote slot c).2 with
  | some (a, some p) => ownerStep F s p a i c
  | _ => s

theorem promoteOne_live {s : Store} {F : Filters} {c : Commitment} {i slot : Nat} {pk : Pubkey}
    {e : ByCommitment} (h : s.accounts[i]? = some e) (ho : EntryOK pk e) :
    promoteOne F c s i slot = .ok
      ((match after F c e slot with
        | some e' => (ownerPromote F s c e i slot).setAt i e'
        | none => ((ownerPromote F s c e i slot).setAt i dead).dropKey pk), reported c e slot) := by
  unfold promoteOne
  simp only [h, Run.unwrap_some, Run.ok_bind, after, reported, ownerPromote]
  cases hr : (e.promote slot c).2 with
  | none => simp
  | some r =>
    obtain ⟨a, pr⟩ := r
    cases pr with
    | none => simp
    | some p =>
      have hpp := (promote_result e slot c a (some p)).1 hr
      have hpa : a.pubkey = pk := (ho.keys _ _ hpp.2.1).2
      have hpk : p.pubkey = a.pubkey := by
        rw [hpa]
        exact ho.get_pubkey (c := c) hpp.2.2.1.symm
      by_cases hoo : p.account.owner = a.account.owner
      · have hrem : Removes F p a c = false := by simp [Removes, hoo]
        have hst : ∀ s, ownerStep F s p a i c = s := by simp [ownerStep, hoo]
        simp [hoo, hrem, hst, updateOwner_eq F _ p a i c hpk]
      · cases hrem : Removes F p a c with
        | false =>
          simp [hoo, hrem, updateOwner_eq F _ p a i c hpk, ownerStep_setAt]
        | true =>
          simp [hoo, hrem, updateOwner_eq F _ p a i c hpk, ownerStep_setAt, hpa]
          simp [setAt, dropKey, dead, ByCommitment.delete]

/-- Account index `j` is listed under owner `o`. -/
def owns (s : Store) (o : Pubkey) (j : Nat) : Prop := j ∈ (s.byOwner o).getD []

theorem owns_addAccountOwner (s : Store) (i : Nat) (o o' : Pubkey) (j : Nat) :
    owns (s.addAccountOwner i o) o' j ↔ owns s o' j ∨ (j = i ∧ o' = o) := by
  unfold owns addAccountOwner
  simp only
  split
  · rename_i h; subst h; simp [mem_setInsert]; exact Or.comm
  · rename_i h; simp [h]

theorem owns_removeAccountOwner (s : Store) (i : Nat) (o o' : Pubkey) (j : Nat) :
    owns (s.removeAccountOwner i o) o' j ↔ owns s o' j ∧ ¬ (j = i ∧ o' = o) := by
  unfold owns removeAccountOwner
  simp only
  split
  · rename_i h; subst h
    cases s.byOwner o' <;> simp
  · rename_i h; simp [h]

/-- Whether an account is listed under `o` after its owner may have changed from `p` to `n`. -/
def ListedAfter (F : Filters) (c : Commitment) (p n : AccountData) (o : Pubkey) (was : Prop) : Prop :=
  if p.account.owner = n.account.owner then was
  else (was ∧ ¬ (c = .finalized ∧ o = p.account.owner)) ∨
    (isDeleted n = false ∧ F.satisfies n = true ∧ o = n.account.owner)

theorem owns_ownerStep (F : Filters) (s : Store) (p n : AccountData) (i : Nat) (c : Commitment)
    (o : Pubkey) (j : Nat) : owns (ownerStep F s p n i c) o j ↔
      if j = i then ListedAfter F c p n o (owns s o j) else owns s o j := by
  unfold ownerStep ListedAfter
  by_cases hj : j = i <;> by_cases ho : p.account.owner = n.account.owner <;>
    by_cases hc : c = .finalized <;> cases hd : isDeleted n <;> cases hs : F.satisfies n <;>
    simp [hj, ho, hc, owns_addAccountOwner, owns_removeAccountOwner]

/-- The same for the outcome of a promotion. -/
def ListedProm (F : Filters) (c : Commitment) (e : ByCommitment) (k : Nat) (o : Pubkey) (was : Prop) :
    Prop :=
  match (e.promote k c).2 with
  | some (a, some p) => ListedAfter F c p a o was
  | _ => was

theorem owns_ownerPromote (F : Filters) (s : Store) (c : Commitment) (e : ByCommitment) (i k : Nat)
    (o : Pubkey) (j : Nat) : owns (ownerPromote F s c e i k) o j ↔
      if j = i then ListedProm F c e k o (owns s o j) else owns s o j := by
  unfold ownerPromote ListedProm
  split
  · rw [owns_ownerStep]
  · split <;> rfl

@[simp] theorem ownerPromote_index (F : Filters) (s : Store) (c : Commitment) (e : ByCommitment)
    (i k : Nat) : (ownerPromote F s c e i k).index = s.index := by
  unfold ownerPromote; split <;> simp
@[simp] theorem ownerPromote_accounts (F : Filters) (s : Store) (c : Commitment) (e : ByCommitment)
    (i k : Nat) : (ownerPromote F s c e i k).accounts = s.accounts := by
  unfold ownerPromote; split <;> simp
@[simp] theorem ownerPromote_slots (F : Filters) (s : Store) (c : Commitment) (e : ByCommitment)
    (i k : Nat) : (ownerPromote F s c e i k).slots = s.slots := by
  unfold ownerPromote; split <;> simp

theorem inv_ownerPromote {s : Store} (h : Inv s) (F : Filters) (c : Commitment) (e : ByCommitment)
    {i : Nat} (hi : i < s.accounts.length) (k : Nat) : Inv (ownerPromote F s c e i k) := by
  unfold ownerPromote; split
  · exact inv_ownerStep h F _ _ hi _
  · exact h

theorem entryOK_after {pk : Pubkey} {F : Filters} {c : Commitment} {e e' : ByCommitment} {k : Nat}
    (h : EntryOK pk e) (ha : after F c e k = some e') : EntryOK pk e' := by
  have : e' = (e.promote k c).1 := by
    unfold after at ha
    split at ha
    · split at ha <;> simp_all
    · simp_all
  rw [this]; exact entryOK_promote h k c

/-- What happens to the account with index `i` and states `e` (of pubkey `pk`) when it is promoted. -/
def Promoted (F : Filters) (c : Commitment) (s' : Store) (pk : Pubkey) (i : Nat) (e : ByCommitment)
    (k : Nat) : Prop :=
  match after F c e k with
  | some e' => s'.index pk = some i ∧ s'.accounts[i]? = some e'
  | none => s'.index pk = none ∧ s'.accounts[i]? = some dead

/-- The promotion adds the account to the set of owner `o` (creating the set if needed). -/
def Adds (F : Filters) (c : Commitment) (e : ByCommitment) (k : Nat) (o : Pubkey) : Prop :=
  match (e.promote k c).2 with
  | some (a, some p) => p.account.owner ≠ a.account.owner ∧ isDeleted a = false ∧
      F.satisfies a = true ∧ o = a.account.owner
  | _ => False

theorem isSome_ownerStep (F : Filters) (s : Store) (p n : AccountData) (i : Nat) (c : Commitment)
    (o : Pubkey) : ((ownerStep F s p n i c).byOwner o).isSome = true ↔
      (s.byOwner o).isSome = true ∨ (p.account.owner ≠ n.account.owner ∧ isDeleted n = false ∧
        F.satisfies n = true ∧ o = n.account.owner) := by
  have hrem : ∀ (s : Store) q, ((s.removeAccountOwner i q).byOwner o).isSome = (s.byOwner o).isSome := by
    intro s q; unfold removeAccountOwner; simp only; split
    · rename_i h; subst h; simp
    · rfl
  have hadd : ∀ (s : Store) q, ((s.addAccountOwner i q).byOwner o).isSome = true ↔
      (s.byOwner o).isSome = true ∨ o = q := by
    intro s q; unfold addAccountOwner; simp only; split
    · rename_i h; simp [h]
    · rename_i h; simp [h]
  unfold ownerStep
  by_cases ho : p.account.owner = n.account.owner
  · simp [ho]
  · by_cases hc : c = .finalized <;> cases hd : isDeleted n <;> cases hs : F.satisfies n <;>
      simp [ho, hc, hrem, hadd]

theorem isSome_ownerPromote (F : Filters) (s : Store) (c : Commitment) (e : ByCommitment) (i k : Nat)
    (o : Pubkey) : ((ownerPromote F s c e i k).byOwner o).isSome = true ↔
      (s.byOwner o).isSome = true ∨ Adds F c e k o := by
  unfold ownerPromote Adds
  split
  · rw [isSome_ownerStep]
  · simp

/-- Effect of `promoteOne`. -/
theorem promoteOne_spec {s : Store} (h : Inv s) (F : Filters) (c : Commitment) (i k : Nat)
    (hi : i < s.accounts.length) :
    ∃ s' r e, s.accounts[i]? = some e ∧ promoteOne F c s i k = .ok (s', r) ∧ Inv s' ∧
      s'.slots = s.slots ∧ s'.accounts.length = s.accounts.length ∧ r = reported c e k ∧
      (∀ pk, s.index pk ≠ some i → s'.index pk = s.index pk) ∧
      (∀ j, j ≠ i → s'.accounts[j]? = s.accounts[j]?) ∧
      (∀ pk, s.index pk = some i → Promoted F c s' pk i e k) ∧
      (∀ o j, owns s' o j ↔ if j = i then ListedProm F c e k o (owns s o j) else owns s o j) ∧
      s'.accounts[i]? = some ((after F c e k).getD dead) ∧
      (∀ o, (s'.byOwner o).isSome = true ↔ (s.byOwner o).isSome = true ∨ Adds F c e k o) := by
  obtain ⟨e, he⟩ : ∃ e, s.accounts[i]? = some e := ⟨_, List.getElem?_eq_getElem hi⟩
  rcases h.own i e he with ⟨pk, hpk⟩ | hd
  · obtain ⟨e', he', hok⟩ := h.idx _ _ hpk
    rw [he] at he'; cases he'
    have hip := inv_ownerPromote h F c e hi k
    have huniq : ∀ pk', s.index pk' = some i → pk' = pk := fun pk' hp => h.inj hp hpk
    refine ⟨_, _, e, he, promoteOne_live he hok, ?_⟩
    cases ha : after F c e k with
    | some e' =>
      refine ⟨inv_setAt hip (by simpa using hpk) (entryOK_after hok ha), by simp, by simp, rfl, by simp, ?_, ?_, ?_, ?_, ?_⟩
      · intro j hj; simp [List.getElem?_set_ne (Ne.symm hj)]
      · intro pk' hp
        simp [Promoted, ha, hp, hi]
      · intro o j
        rw [← owns_ownerPromote]; rfl
      · simp [hi]
      · intro o; rw [← isSome_ownerPromote]; rfl
    | none =>
      refine ⟨inv_delete hip (by simpa using hpk), by simp, by simp, rfl, ?_, ?_, ?_, ?_, ?_, ?_⟩
      · intro pk' hp
        have hne : pk' ≠ pk := by rintro rfl; exact hp hpk
        simp [dropKey, hne]
      · intro j hj; simp [List.getElem?_set_ne (Ne.symm hj)]
      · intro pk' hp
        have := huniq pk' hp; subst this
        simp [Promoted, ha, dropKey, hi]
      · intro o j
        rw [← owns_ownerPromote]; rfl
      · simp [hi]
      · intro o; rw [← isSome_ownerPromote]; rfl
  · subst hd
    have hno : ∀ pk, s.index pk ≠ some i := by
      intro pk hp
      obtain ⟨e', he', hok⟩ := h.idx _ _ hp
      rw [he] at he'; cases he'
      exact hok.nonempty rfl
    refine ⟨s, [], dead, he, promoteOne_dead he, h, rfl, rfl, ?_, ?_, ?_, ?_, ?_, ?_, ?_⟩
    · simp [reported, promote_dead]
    · intro pk _; rfl
    · intro j _; rfl
    · intro pk hp; exact absurd hp (hno pk)
    · intro o j; simp [ListedProm, promote_dead]
    · simp [after, promote_dead, he]
    · intro o; simp [Adds, promote_dead]

/-- The states of an index, or the empty ones. -/
def at' (s : Store) (i : Nat) : ByCommitment := (s.accounts[i]?).getD dead

/-- Effect of the promotion loop on a list of distinct accounts. -/
theorem promoteAll_spec (F : Filters) (c : Commitment) : ∀ (w : Writable) (s : Store), Inv s →
    (w.map Prod.fst).Nodup → (∀ x ∈ w, x.1 < s.accounts.length) →
    ∃ s' r, promoteAll F c s w = .ok (s', r) ∧ Inv s' ∧
      s'.slots = s.slots ∧ s'.accounts.length = s.accounts.length ∧
      r = w.flatMap (fun x => reported c (s.at' x.1) x.2) ∧
      (∀ pk, (∀ x ∈ w, s.index pk ≠ some x.1) → s'.index pk = s.index pk) ∧
      (∀ j, (∀ x ∈ w, x.1 ≠ j) → s'.accounts[j]? = s.accounts[j]?) ∧
      (∀ pk x, x ∈ w → s.index pk = some x.1 → Promoted F c s' pk x.1 (s.at' x.1) x.2) ∧
      (∀ o j, (∀ x ∈ w, x.1 ≠ j) → (owns s' o j ↔ owns s o j)) ∧
      (∀ o x, x ∈ w → (owns s' o x.1 ↔ ListedProm F c (s.at' x.1) x.2 o (owns s o x.1))) ∧
      (∀ x ∈ w, s'.accounts[x.1]? = some ((after F c (s.at' x.1) x.2).getD dead)) ∧
      (∀ o, (s'.byOwner o).isSome = true ↔
        (s.byOwner o).isSome = true ∨ ∃ x ∈ w, Adds F c (s.at' x.1) x.2 o) := by
  intro w
  induction w with
  | nil =>
    intro s h _ _
    exact ⟨s, [], rfl, h, rfl, rfl, rfl, fun _ _ => rfl, fun _ _ => rfl, by simp, fun _ _ _ => Iff.rfl, by simp, by simp, by simp⟩
  | cons x w ih =>
    intro s h hn hl
    obtain ⟨i, k⟩ := x
    simp only [List.map_cons, List.nodup_cons, List.mem_map, not_exists, not_and] at hn
    have hi : i < s.accounts.length := hl (i, k) (by simp)
    obtain ⟨s1, r1, e, he, hr1, h1, hsl1, hlen1, hrr1, hidx1, hacc1, hp1, ho1, hai1, hos1⟩ :=
      promoteOne_spec h F c i k hi
    obtain ⟨s2, r2, hr2, h2, hsl2, hlen2, hrr2, hidx2, hacc2, hp2, ho2, hoo2, hai2, hos2⟩ :=
      ih s1 h1 hn.2 (by intro y hy; rw [hlen1]; exact hl y (by simp [hy]))
    have hne : ∀ y ∈ w, y.1 ≠ i := fun y hy h => hn.1 y hy h
    have hat : ∀ y ∈ w, s1.at' y.1 = s.at' y.1 := by
      intro y hy; unfold at'; rw [hacc1 _ (hne y hy)]
    have hae : s.at' i = e := by simp [at', he]
    -- pubkeys indexed by `y.1` keep their index in the first step
    have hkeep : ∀ pk y, y ∈ w → s.index pk = some y.1 → s1.index pk = some y.1 := by
      intro pk y hy hp
      rw [hidx1 pk]
      · exact hp
      · rw [hp]; intro hc; simp at hc; exact hne y hy hc
    refine ⟨s2, r1 ++ r2, ?_, h2, by rw [hsl2, hsl1], by rw [hlen2, hlen1], ?_, ?_, ?_, ?_, ?_, ?_, ?_, ?_⟩
    · simp [promoteAll, hr1, hr2]
    · rw [List.flatMap_cons, hrr2, hrr1, hae]
      congr 1
      rw [List.flatMap_def, List.flatMap_def]
      congr 1
      apply List.map_congr_left
      intro y hy; rw [hat y hy]
    · intro pk hpk
      have h3 := hidx1 pk (hpk (i, k) (by simp))
      rw [hidx2 pk, h3]
      intro y hy; rw [h3]; exact hpk y (by simp [hy])
    · intro j hj
      rw [hacc2 j (fun y hy => hj y (by simp [hy])), hacc1 j (Ne.symm (hj (i, k) (by simp)))]
    · intro pk y hy hp
      rcases List.mem_cons.1 hy with rfl | hy
      · simp only at hp ⊢
        have := hp1 pk hp
        rw [hae]
        unfold Promoted at this ⊢
        have ha2 : s2.accounts[i]? = s1.accounts[i]? := hacc2 i hne
        split
        · rename_i e' hae'
          simp only [hae'] at this
          rw [ha2]
          refine ⟨?_, this.2⟩
          rw [hidx2 pk]
          · exact this.1
          · intro y hy hc; rw [this.1] at hc; simp at hc; exact hne y hy hc.symm
        · rename_i hae'
          simp only [hae'] at this
          rw [ha2]
          refine ⟨?_, this.2⟩
          rw [hidx2 pk]
          · exact this.1
          · intro y hy hc; rw [this.1] at hc; simp at hc
      · rw [← hat y hy]
        exact hp2 pk y hy (hkeep pk y hy hp)
    · intro o j hj
      rw [ho2 o j (fun y hy => hj y (by simp [hy])), ho1 o j, if_neg (Ne.symm (hj (i, k) (by simp)))]
    · intro o y hy
      rcases List.mem_cons.1 hy with rfl | hy
      · rw [ho2 o i hne, ho1 o i, if_pos rfl, hae]
      · rw [hoo2 o y hy, hat y hy, ho1 o y.1, if_neg (hne y hy)]
    · intro y hy
      rcases List.mem_cons.1 hy with rfl | hy
      · rw [hacc2 i hne, hai1, hae]
      · rw [hai2 y hy, hat y hy]
    · intro o
      rw [hos2 o, hos1 o]
      simp only [List.mem_cons, exists_eq_or_imp, hae, or_assoc]
      refine or_congr_right (or_congr_right ?_)
      constructor
      · rintro ⟨y, hy, ha⟩; exact ⟨y, hy, by rw [← hat y hy]; exact ha⟩
      · rintro ⟨y, hy, ha⟩; exact ⟨y, hy, by rw [hat y hy]; exact ha⟩

end Store
end LAM
