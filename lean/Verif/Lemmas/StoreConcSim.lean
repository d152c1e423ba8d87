import Verif.Lemmas.StoreConcCalls
/-!
# Concurrent calls of the in-memory account store: stores that only differ in the positions of the accounts
-/
namespace LAM.Conc
open Store World ByCommitment Spec

/-! ## One account -/

/-- The account at `i` in one store is the account at `j` in the other, with the same owners. -/
def PairEq (s : Store) (i : Nat) (s' : Store) (j : Nat) : Prop :=
  s.accounts[i]? = s'.accounts[j]? ∧ ∀ o, owns s o i ↔ owns s' o j

theorem PairEq.refl (s : Store) (i : Nat) : PairEq s i s i := ⟨rfl, fun _ => .rfl⟩

theorem PairEq.symm {s s' : Store} {i j : Nat} (h : PairEq s i s' j) : PairEq s' j s i := ⟨h.1.symm, fun o => (h.2 o).symm⟩

theorem PairEq.trans {s s' s'' : Store} {i j k : Nat} (h : PairEq s i s' j) (h' : PairEq s' j s'' k) : PairEq s i s'' k :=
  ⟨h.1.trans h'.1, fun o => (h.2 o).trans (h'.2 o)⟩

theorem PairEq.lt {s s' : Store} {i j : Nat} (h : PairEq s i s' j) (hi : i < s.accounts.length) : j < s'.accounts.length := by
  have := h.1
  rw [List.getElem?_eq_getElem hi] at this
  exact (List.getElem?_eq_some_iff.1 this.symm).1

/-- `s2` is `s` but for the account at `i` and the index. -/
structure Frame (s : Store) (i : Nat) (s2 : Store) : Prop where
  slots : s2.slots = s.slots
  len : s2.accounts.length = s.accounts.length
  others : ∀ x, x ≠ i → PairEq s x s2 x

theorem Frame.refl (s : Store) (i : Nat) : Frame s i s := ⟨rfl, rfl, fun x _ => .refl s x⟩

theorem Frame.trans {s s2 s3 : Store} {i : Nat} (h : Frame s i s2) (h' : Frame s2 i s3) : Frame s i s3 :=
  ⟨h'.slots.trans h.slots, h'.len.trans h.len, fun x hx => (h.others x hx).trans (h'.others x hx)⟩

theorem frame_setAt (s : Store) (i : Nat) (e : ByCommitment) : Frame s i (s.setAt i e) := by
  refine ⟨rfl, by simp, fun x hx => ⟨?_, fun o => .rfl⟩⟩
  simp only [setAt_accounts, List.getElem?_set_ne (Ne.symm hx)]

theorem frame_add (s : Store) (i : Nat) (o : Pubkey) : Frame s i (s.addAccountOwner i o) := by
  refine ⟨rfl, rfl, fun x hx => ⟨rfl, fun o' => ?_⟩⟩
  rw [owns_addAccountOwner]; simp [hx]

theorem frame_remove (s : Store) (i : Nat) (o : Pubkey) : Frame s i (s.removeAccountOwner i o) := by
  refine ⟨rfl, rfl, fun x hx => ⟨rfl, fun o' => ?_⟩⟩
  rw [owns_removeAccountOwner]; simp [hx]

theorem frame_drop (s : Store) (i : Nat) (pk : Pubkey) : Frame s i (s.dropKey pk) :=
  ⟨rfl, rfl, fun _ _ => ⟨rfl, fun _ => .rfl⟩⟩

theorem pairEq_setAt {s s' : Store} {i j : Nat} (h : PairEq s i s' j) (e : ByCommitment) :
    PairEq (s.setAt i e) i (s'.setAt j e) j := by
  refine ⟨?_, h.2⟩
  have := h.1
  simp only [setAt_accounts, List.getElem?_set_self']
  rw [this]

theorem pairEq_add {s s' : Store} {i j : Nat} (h : PairEq s i s' j) (o : Pubkey) :
    PairEq (s.addAccountOwner i o) i (s'.addAccountOwner j o) j := by
  refine ⟨h.1, fun o' => ?_⟩
  rw [owns_addAccountOwner, owns_addAccountOwner, h.2]; simp

theorem pairEq_remove {s s' : Store} {i j : Nat} (h : PairEq s i s' j) (o : Pubkey) :
    PairEq (s.removeAccountOwner i o) i (s'.removeAccountOwner j o) j := by
  refine ⟨h.1, fun o' => ?_⟩
  rw [owns_removeAccountOwner, owns_removeAccountOwner, h.2]; simp

theorem pairEq_drop {s s' : Store} {i j : Nat} (h : PairEq s i s' j) (pk : Pubkey) :
    PairEq (s.dropKey pk) i (s'.dropKey pk) j := h

/-- Both stores have had the same keys removed from the index: none, or one. -/
def DropEq (P : Pubkey → Prop) (s s2 s' s2' : Store) : Prop :=
  (s2.index = s.index ∧ s2'.index = s'.index) ∨
    ∃ pk, P pk ∧ s2.index = (s.dropKey pk).index ∧ s2'.index = (s'.dropKey pk).index

theorem ownerDelete_local {F : Filters} {s s2 s' : Store} {p n : AccountData} {i j : Nat} {c : Commitment} {d : Bool}
    (h : PairEq s i s' j) (hr : updateOwnerDeleteIfNecessary F s p n i c = .ok (s2, d)) :
    ∃ s2', updateOwnerDeleteIfNecessary F s' p n j c = .ok (s2', d) ∧ PairEq s2 i s2' j ∧
      (s2.index = s.index ∧ s2'.index = s'.index) ∧ Frame s i s2 ∧ Frame s' j s2' := by
  unfold updateOwnerDeleteIfNecessary at hr ⊢
  have r1 := frame_remove s i p.account.owner
  have r2 := frame_remove s' j p.account.owner
  split
  · rename_i h0; rw [if_pos h0] at hr; cases hr
  · rename_i h0
    rw [if_neg h0] at hr
    split
    · rename_i h1
      rw [if_pos h1] at hr
      split
      · rename_i h2
        rw [if_pos h2] at hr
        split
        · rename_i h3
          rw [if_pos h3] at hr
          cases hr
          exact ⟨_, rfl, pairEq_remove h _, ⟨rfl, rfl⟩, r1, r2⟩
        · rename_i h3
          rw [if_neg h3] at hr
          split
          · rename_i h4
            rw [if_pos h4] at hr
            cases hr
            exact ⟨_, rfl, pairEq_add (pairEq_remove h _) _, ⟨rfl, rfl⟩, r1.trans (frame_add _ _ _), r2.trans (frame_add _ _ _)⟩
          · rename_i h4
            rw [if_neg h4] at hr
            cases hr
            exact ⟨_, rfl, pairEq_remove h _, ⟨rfl, rfl⟩, r1, r2⟩
      · rename_i h2
        rw [if_neg h2] at hr
        split
        · rename_i h4
          rw [if_pos h4] at hr
          cases hr
          exact ⟨_, rfl, pairEq_add h _, ⟨rfl, rfl⟩, frame_add _ _ _, frame_add _ _ _⟩
        · rename_i h4
          rw [if_neg h4] at hr
          cases hr
          exact ⟨_, rfl, h, ⟨rfl, rfl⟩, .refl _ _, .refl _ _⟩
    · rename_i h1
      rw [if_neg h1] at hr
      cases hr
      exact ⟨_, rfl, h, ⟨rfl, rfl⟩, .refl _ _, .refl _ _⟩

theorem updateOccupied_local {F : Filters} {s s2 s' : Store} {a : AccountData} {i j : Nat} {c : Commitment} {b : Bool}
    (h : PairEq s i s' j) (hr : updateOccupied F s a c i = .ok (s2, b)) :
    ∃ s2', updateOccupied F s' a c j = .ok (s2', b) ∧ PairEq s2 i s2' j ∧ DropEq (· = a.pubkey) s s2 s' s2' ∧
      Frame s i s2 ∧ Frame s' j s2' := by
  unfold updateOccupied at hr ⊢
  simp only [Run.bind_eq_ok] at hr
  obtain ⟨e, he, hr⟩ := hr
  have he' : s.accounts[i]? = some e := by
    cases hx : s.accounts[i]? with
    | none => rw [hx] at he; cases he
    | some x => rw [hx] at he; cases he; rfl
  have hj := h.1.symm.trans he'
  simp only [hj, Run.unwrap_some, Run.ok_bind]
  have h1 := pairEq_setAt h (e.update a c).1
  have f1 := frame_setAt s i (e.update a c).1
  have f2 := frame_setAt s' j (e.update a c).1
  cases hup : (e.update a c).2 with
  | false =>
    simp only [hup, Bool.false_eq_true, if_false, Run.pure_eq, Run.ok.injEq] at hr ⊢
    cases hr
    exact ⟨_, rfl, h1, .inl ⟨rfl, rfl⟩, f1, f2⟩
  | true =>
    simp only [hup, if_true] at hr ⊢
    cases hp : e.get c with
    | none =>
      simp only [hp, Run.pure_eq, Run.ok.injEq] at hr ⊢
      cases hr
      exact ⟨_, rfl, h1, .inl ⟨rfl, rfl⟩, f1, f2⟩
    | some p =>
      simp only [hp, Run.bind_eq_ok] at hr ⊢
      obtain ⟨⟨x, d⟩, hx, hr⟩ := hr
      obtain ⟨y, hy, h2, ⟨i1, i2⟩, f3, f4⟩ := ownerDelete_local h1 hx
      cases d with
      | false =>
        simp only [Bool.false_eq_true, if_false, Run.pure_eq, Run.ok.injEq] at hr
        cases hr
        refine ⟨y, ⟨(y, false), hy, rfl⟩, h2, .inl ⟨i1, i2⟩, f1.trans f3, f2.trans f4⟩
      | true =>
        simp only [if_true, Run.pure_eq, Run.ok.injEq] at hr
        cases hr
        refine ⟨_, ⟨(y, true), hy, rfl⟩, pairEq_drop (pairEq_setAt h2 _) _, .inr ⟨a.pubkey, rfl, ?_, ?_⟩,
          (f1.trans f3).trans ((frame_setAt _ _ _).trans (frame_drop _ _ _)),
          (f2.trans f4).trans ((frame_setAt _ _ _).trans (frame_drop _ _ _))⟩
        · simp only [dropKey, setAt]; rw [i1]; rfl
        · simp only [dropKey, setAt]; rw [i2]; rfl

theorem promoteOne_local {F : Filters} {s s2 s' : Store} {i j slot : Nat} {c : Commitment} {l : List AccountData}
    (h : PairEq s i s' j) (hr : promoteOne F c s i slot = .ok (s2, l)) :
    ∃ s2', promoteOne F c s' j slot = .ok (s2', l) ∧ PairEq s2 i s2' j ∧ DropEq (fun _ => True) s s2 s' s2' ∧
      Frame s i s2 ∧ Frame s' j s2' := by
  unfold promoteOne at hr ⊢
  simp only [Run.bind_eq_ok] at hr
  obtain ⟨e, he, hr⟩ := hr
  have he' : s.accounts[i]? = some e := by
    cases hx : s.accounts[i]? with
    | none => rw [hx] at he; cases he
    | some x => rw [hx] at he; cases he; rfl
  have hj := h.1.symm.trans he'
  simp only [hj, Run.unwrap_some, Run.ok_bind]
  have h1 := pairEq_setAt h (e.promote slot c).1
  have f1 := frame_setAt s i (e.promote slot c).1
  have f2 := frame_setAt s' j (e.promote slot c).1
  cases hp : (e.promote slot c).2 with
  | none =>
    simp only [hp, Run.pure_eq, Run.ok.injEq] at hr ⊢
    cases hr
    exact ⟨_, rfl, h1, .inl ⟨rfl, rfl⟩, f1, f2⟩
  | some q =>
    obtain ⟨a, q⟩ := q
    cases q with
    | none =>
      simp only [hp, Run.pure_eq, Run.ok.injEq] at hr ⊢
      cases hr
      exact ⟨_, rfl, h1, .inl ⟨rfl, rfl⟩, f1, f2⟩
    | some p =>
      simp only [hp] at hr ⊢
      by_cases ho : p.account.owner ≠ a.account.owner ∨ a.account.lamports = 0
      · rw [if_pos ho] at hr ⊢
        simp only [Run.bind_eq_ok] at hr ⊢
        obtain ⟨⟨x, d⟩, hx, hr⟩ := hr
        obtain ⟨y, hy, h2, ⟨i1, i2⟩, f3, f4⟩ := ownerDelete_local h1 hx
        cases d with
        | false =>
          simp only [Bool.false_eq_true, if_false, Run.pure_eq, Run.ok.injEq] at hr
          cases hr
          exact ⟨y, ⟨(y, false), hy, rfl⟩, h2, .inl ⟨i1, i2⟩, f1.trans f3, f2.trans f4⟩
        | true =>
          simp only [if_true, Run.pure_eq, Run.ok.injEq] at hr
          cases hr
          refine ⟨_, ⟨(y, true), hy, rfl⟩, pairEq_setAt (pairEq_drop h2 _) _, .inr ⟨a.pubkey, trivial, ?_, ?_⟩,
            (f1.trans f3).trans ((frame_drop _ _ _).trans (frame_setAt _ _ _)),
            (f2.trans f4).trans ((frame_drop _ _ _).trans (frame_setAt _ _ _))⟩
          · simp only [dropKey, setAt]; rw [i1]; rfl
          · simp only [dropKey, setAt]; rw [i2]; rfl
      · rw [if_neg ho] at hr ⊢
        simp only [Run.pure_eq, Run.ok.injEq] at hr ⊢
        cases hr
        exact ⟨_, rfl, h1, .inl ⟨rfl, rfl⟩, f1, f2⟩

/-! ## Slot statuses -/

/-- Positions that correspond to each other. -/
abbrev Pairing := Nat → Nat → Prop

/-- The same status, with corresponding accounts. -/
structure StEq (m : Pairing) (st st' : SlotStatus) : Prop where
  commitment : st.commitment = st'.commitment
  parent : st.parent = st'.parent
  there : ∀ i ∈ st.accountsUpdated, ∃ j ∈ st'.accountsUpdated, m i j
  back : ∀ j ∈ st'.accountsUpdated, ∃ i ∈ st.accountsUpdated, m i j

theorem StEq.mono {m m' : Pairing} {st st' : SlotStatus} (h : StEq m st st') (hm : ∀ i j, m i j → m' i j) : StEq m' st st' :=
  ⟨h.1, h.2, fun i hi => (h.3 i hi).imp fun _ hj => ⟨hj.1, hm _ _ hj.2⟩, fun j hj => (h.4 j hj).imp fun _ hi => ⟨hi.1, hm _ _ hi.2⟩⟩

/-- The same statuses, with corresponding accounts. -/
def SlotsEq (m : Pairing) : BMap SlotStatus → BMap SlotStatus → Prop
  | [], [] => True
  | x :: l, y :: l' => x.1 = y.1 ∧ StEq m x.2 y.2 ∧ SlotsEq m l l'
  | _, _ => False

theorem SlotsEq.mono {m m' : Pairing} (hm : ∀ i j, m i j → m' i j) : ∀ {l l' : BMap SlotStatus}, SlotsEq m l l' → SlotsEq m' l l'
  | [], [], _ => trivial
  | _ :: _, _ :: _, ⟨h1, h2, h3⟩ => ⟨h1, h2.mono hm, SlotsEq.mono hm h3⟩
  | [], _ :: _, h => h
  | _ :: _, [], h => h

theorem SlotsEq.length {m : Pairing} : ∀ {l l' : BMap SlotStatus}, SlotsEq m l l' → l.length = l'.length
  | [], [], _ => rfl
  | _ :: _, _ :: _, ⟨_, _, h3⟩ => by simp [SlotsEq.length h3]
  | [], _ :: _, h => h.elim
  | _ :: _, [], h => h.elim

theorem SlotsEq.find {m : Pairing} (k : Nat) : ∀ {l l' : BMap SlotStatus}, SlotsEq m l l' →
    (BMap.find l k = none ∧ BMap.find l' k = none) ∨
      ∃ st st', BMap.find l k = some st ∧ BMap.find l' k = some st' ∧ StEq m st st'
  | [], [], _ => .inl ⟨rfl, rfl⟩
  | (a, st) :: l, (b, st') :: l', ⟨h1, h2, h3⟩ => by
    simp only at h1 h2
    subst h1
    simp only [BMap.find]
    by_cases hk : a = k
    · simp only [hk, if_true]; exact .inr ⟨st, st', rfl, rfl, h2⟩
    · simp only [hk, if_false]; exact SlotsEq.find k h3
  | [], _ :: _, h => h.elim
  | _ :: _, [], h => h.elim

theorem SlotsEq.insert {m : Pairing} (k : Nat) {st st' : SlotStatus} (hst : StEq m st st') : ∀ {l l' : BMap SlotStatus},
    SlotsEq m l l' → SlotsEq m (BMap.insert l k st) (BMap.insert l' k st')
  | [], [], _ => ⟨rfl, hst, trivial⟩
  | (a, x) :: l, (b, y) :: l', ⟨h1, h2, h3⟩ => by
    simp only at h1 h2
    subst h1
    simp only [BMap.insert]
    by_cases hk : k < a
    · simp only [hk, if_true]; exact ⟨rfl, hst, rfl, h2, h3⟩
    · simp only [hk, if_false]
      by_cases hk' : k = a
      · simp only [hk', if_true]; exact ⟨rfl, hst, h3⟩
      · simp only [hk', if_false]; exact ⟨rfl, h2, SlotsEq.insert k hst h3⟩
  | [], _ :: _, h => h.elim
  | _ :: _, [], h => h.elim

theorem SlotsEq.dropWhile {m : Pairing} (k : Nat) : ∀ {l l' : BMap SlotStatus}, SlotsEq m l l' →
    SlotsEq m (l.dropWhile (fun e => e.1 < k)) (l'.dropWhile (fun e => e.1 < k))
  | [], [], _ => trivial
  | (a, x) :: l, (b, y) :: l', ⟨h1, h2, h3⟩ => by
    simp only at h1 h2
    subst h1
    simp only [List.dropWhile]
    by_cases hk : a < k
    · simp only [hk, decide_true]; exact SlotsEq.dropWhile k h3
    · simp only [hk, decide_false]; exact ⟨rfl, h2, h3⟩
  | [], _ :: _, h => h.elim
  | _ :: _, [], h => h.elim

theorem stEq_mark {m : Pairing} {st st' : SlotStatus} (h : StEq m st st') {i j : Nat} (hm : m i j) :
    StEq m { st with accountsUpdated := setInsert st.accountsUpdated i }
      { st' with accountsUpdated := setInsert st'.accountsUpdated j } := by
  refine ⟨h.1, h.2, fun x hx => ?_, fun y hy => ?_⟩
  · rcases (mem_setInsert _ _ _).1 hx with rfl | hx
    · exact ⟨j, (mem_setInsert _ _ _).2 (.inl rfl), hm⟩
    · obtain ⟨y, hy, hxy⟩ := h.there x hx
      exact ⟨y, (mem_setInsert _ _ _).2 (.inr hy), hxy⟩
  · rcases (mem_setInsert _ _ _).1 hy with rfl | hy
    · exact ⟨i, (mem_setInsert _ _ _).2 (.inl rfl), hm⟩
    · obtain ⟨x, hx, hxy⟩ := h.back y hy
      exact ⟨x, (mem_setInsert _ _ _).2 (.inr hx), hxy⟩

theorem slotsEq_add {m : Pairing} {s s' : Store} (h : SlotsEq m s.slots s'.slots) {i j : Nat} (hm : m i j) (k : Nat) (c : Commitment) :
    SlotsEq m (s.addIndexToSlot k i c).1.slots (s'.addIndexToSlot k j c).1.slots ∧
      (s.addIndexToSlot k i c).2 = (s'.addIndexToSlot k j c).2 := by
  have hst : StEq m ((BMap.find s.slots k).getD ⟨c, [], none⟩) ((BMap.find s'.slots k).getD ⟨c, [], none⟩) := by
    rcases h.find k with ⟨h1, h2⟩ | ⟨st, st', h1, h2, h3⟩
    · rw [h1, h2]; exact ⟨rfl, rfl, by simp, by simp⟩
    · rw [h1, h2]; exact h3
  cases c with
  | finalized => exact ⟨h.insert k hst, rfl⟩
  | processed => exact ⟨h.insert k (stEq_mark hst hm), hst.commitment⟩
  | confirmed => exact ⟨h.insert k (stEq_mark hst hm), hst.commitment⟩

/-! ## The walk over the slots -/

/-- The same accounts to write, in any order. -/
structure WEq (m : Pairing) (l l' : Writable) : Prop where
  there : ∀ x ∈ l, ∃ j, m x.1 j ∧ (j, x.2) ∈ l'
  back : ∀ y ∈ l', ∃ i, m i y.1 ∧ (i, y.2) ∈ l
  once : (l.map (·.1)).Nodup
  once' : (l'.map (·.1)).Nodup

theorem any_iff (l : Writable) (i : Nat) : l.any (fun e => e.1 == i) = true ↔ i ∈ l.map (·.1) := by
  simp

theorem mem_addWritable {l : Writable} {k i : Nat} {x : Nat × Nat} :
    x ∈ addWritable l k i ↔ x ∈ l ∨ (x = (i, k) ∧ i ∉ l.map (·.1)) := by
  unfold addWritable
  split
  · rename_i h; rw [any_iff] at h; simp only [h, not_true, and_false, or_false]
  · rename_i h; rw [any_iff] at h; simp only [List.mem_append, List.mem_singleton, h, not_false_iff, and_true]

theorem nodup_addWritable {l : Writable} (h : (l.map (·.1)).Nodup) (k i : Nat) : ((addWritable l k i).map (·.1)).Nodup := by
  unfold addWritable
  split
  · exact h
  · rename_i hn
    rw [any_iff] at hn
    rw [List.map_append, List.nodup_append]
    refine ⟨h, by simp, ?_⟩
    intro a ha b hb
    simp at hb
    subst hb
    rintro rfl
    exact hn ha

theorem mem_addAll {k : Nat} : ∀ {is : List Nat} {l : Writable} {x : Nat × Nat},
    x ∈ is.foldl (fun w i => addWritable w k i) l ↔ x ∈ l ∨ (x.2 = k ∧ x.1 ∈ is ∧ x.1 ∉ l.map (·.1)) := by
  intro is
  induction is with
  | nil => simp
  | cons i is ih =>
    intro l x
    rw [List.foldl_cons, ih, mem_addWritable]
    obtain ⟨a, b⟩ := x
    have hkeys : a ∈ (addWritable l k i).map (·.1) ↔ a ∈ l.map (·.1) ∨ a = i := by
      simp only [List.mem_map, mem_addWritable]
      constructor
      · rintro ⟨y, hy | ⟨hy, -⟩, rfl⟩
        · exact .inl ⟨y, hy, rfl⟩
        · subst hy; exact .inr rfl
      · rintro (⟨y, hy, rfl⟩ | rfl)
        · exact ⟨y, .inl hy, rfl⟩
        · by_cases ha : ∃ y ∈ l, y.1 = a
          · obtain ⟨y, hy, rfl⟩ := ha; exact ⟨y, .inl hy, rfl⟩
          · exact ⟨(a, k), .inr ⟨rfl, by simpa using ha⟩, rfl⟩
    simp only [hkeys, Prod.mk.injEq, List.mem_cons]
    by_cases h1 : (a, b) ∈ l
    · simp [h1]
    · by_cases h2 : a ∈ l.map (·.1)
      · simp only [h1, h2, true_or, not_true, and_false, or_false, false_or]
        constructor
        · rintro ⟨⟨rfl, rfl⟩, h⟩; exact absurd h2 h
        · exact False.elim
      · simp only [h1, h2, false_or, not_false_iff, and_true]
        constructor
        · rintro (⟨⟨rfl, rfl⟩, -⟩ | ⟨rfl, h, -⟩)
          · exact ⟨rfl, .inl rfl⟩
          · exact ⟨rfl, .inr h⟩
        · rintro ⟨rfl, h⟩
          by_cases hai : a = i
          · subst hai; exact .inl ⟨⟨rfl, rfl⟩, h2⟩
          · rcases h with h | h
            · exact absurd h hai
            · exact .inr ⟨rfl, h, hai⟩

theorem nodup_addAll {k : Nat} : ∀ {is : List Nat} {l : Writable}, (l.map (·.1)).Nodup →
    ((is.foldl (fun w i => addWritable w k i) l).map (·.1)).Nodup := by
  intro is
  induction is with
  | nil => intro l h; exact h
  | cons i is ih => intro l h; exact ih (nodup_addWritable h k i)

/-- No position corresponds to two others. -/
structure OneOne (m : Pairing) : Prop where
  left : ∀ {i j j'}, m i j → m i j' → j = j'
  right : ∀ {i i' j}, m i j → m i' j → i = i'

theorem WEq.add {m : Pairing} (ho : OneOne m) {l l' : Writable} (h : WEq m l l') {st st' : SlotStatus} (hst : StEq m st st') (k : Nat) :
    WEq m (st.accountsUpdated.foldl (fun w i => addWritable w k i) l) (st'.accountsUpdated.foldl (fun w i => addWritable w k i) l') := by
  have keys : ∀ {i j}, m i j → (i ∈ l.map (·.1) ↔ j ∈ l'.map (·.1)) := by
    intro i j hm
    simp only [List.mem_map]
    constructor
    · rintro ⟨x, hx, rfl⟩
      obtain ⟨j', hj, hx'⟩ := h.there x hx
      exact ⟨_, hx', ho.left hj hm⟩
    · rintro ⟨y, hy, rfl⟩
      obtain ⟨i', hi, hy'⟩ := h.back y hy
      exact ⟨_, hy', ho.right hi hm⟩
  refine ⟨fun x hx => ?_, fun y hy => ?_, nodup_addAll h.once, nodup_addAll h.once'⟩
  · rcases mem_addAll.1 hx with hx | ⟨h1, h2, h3⟩
    · obtain ⟨j, hj, hx'⟩ := h.there x hx
      exact ⟨j, hj, mem_addAll.2 (.inl hx')⟩
    · obtain ⟨j, hj, hm⟩ := hst.there _ h2
      exact ⟨j, hm, mem_addAll.2 (.inr ⟨h1, hj, fun h => h3 ((keys hm).2 h)⟩)⟩
  · rcases mem_addAll.1 hy with hy | ⟨h1, h2, h3⟩
    · obtain ⟨i, hi, hy'⟩ := h.back y hy
      exact ⟨i, hi, mem_addAll.2 (.inl hy')⟩
    · obtain ⟨i, hi, hm⟩ := hst.back _ h2
      exact ⟨i, hm, mem_addAll.2 (.inr ⟨h1, hi, fun h => h3 ((keys hm).1 h)⟩)⟩

theorem walk_local {m : Pairing} (ho : OneOne m) (info : SlotInfo) (c : Commitment) : ∀ (n : Nat) {l l' q : BMap SlotStatus}
    {wl wl' r : Writable} {k : Nat} {par : Option Nat}, SlotsEq m l l' → WEq m wl wl' → walk info c n l wl k par = .ok (q, r) →
    ∃ q' r', walk info c n l' wl' k par = .ok (q', r') ∧ SlotsEq m q q' ∧ WEq m r r' := by
  intro n
  induction n with
  | zero => intro l l' q wl wl' r k par _ _ h; cases h
  | succ n ih =>
    intro l l' q wl wl' r k par hl hw h
    simp only [walk] at h ⊢
    rcases hl.find k with ⟨h1, h2⟩ | ⟨st, st', h1, h2, h3⟩
    · simp only [h1, h2] at h ⊢
      by_cases hc : c = .confirmed ∨ c = .processed
      · rw [if_pos hc] at h ⊢
        cases h
        exact ⟨_, _, rfl, hl.insert k ⟨rfl, rfl, by simp, by simp⟩, hw⟩
      · rw [if_neg hc] at h ⊢
        cases h
        exact ⟨_, _, rfl, hl, hw⟩
    · simp only [h1, h2] at h ⊢
      rw [← h3.commitment, ← h3.parent]
      by_cases hsc : st.commitment = c
      · rw [if_pos hsc] at h ⊢
        cases h
        exact ⟨_, _, rfl, hl, hw⟩
      · rw [if_neg hsc] at h ⊢
        have hi : SlotsEq m (BMap.insert l k { st with commitment := c, parent := if par.isSome then par else st.parent })
            (BMap.insert l' k { st' with commitment := c, parent := if par.isSome then par else st.parent }) :=
          SlotsEq.insert (st := { st with commitment := c, parent := if par.isSome then par else st.parent })
            (st' := { st' with commitment := c, parent := if par.isSome then par else st.parent }) k ⟨rfl, rfl, h3.there, h3.back⟩ hl
        have hw' := hw.add ho h3 k
        by_cases hc : c = .confirmed ∨ c = .finalized
        · rw [if_pos hc] at h ⊢
          cases hp : (if par.isSome then par else st.parent) with
          | none =>
            simp only [hp] at h hi ⊢
            cases h
            exact ⟨_, _, rfl, hi, hw'⟩
          | some p =>
            simp only [hp] at h hi ⊢
            exact ih hi hw' h
        · rw [if_neg hc] at h ⊢
          cases h
          exact ⟨_, _, rfl, hi, hw'⟩

theorem dropOld_local {m : Pairing} {l l' : BMap SlotStatus} (h : SlotsEq m l l') (k : Nat) (c : Commitment) :
    SlotsEq m (dropOldSlots l k c) (dropOldSlots l' k c) := by
  unfold dropOldSlots
  split
  · exact h.dropWhile k
  · exact h

/-! ## Stores -/

/-- The pubkey is unknown to both stores, or known at corresponding positions. -/
def IdxEq (m : Pairing) (s s' : Store) (pk : Pubkey) : Prop :=
  (s.index pk = none ∧ s'.index pk = none) ∨ ∃ i j, m i j ∧ s.index pk = some i ∧ s'.index pk = some j

/-- The stores only differ in the positions of the accounts. -/
structure Sim (m : Pairing) (s s' : Store) : Prop where
  one : OneOne m
  lt : ∀ {i j}, m i j → i < s.accounts.length ∧ j < s'.accounts.length
  all : ∀ i, i < s.accounts.length → ∃ j, m i j
  all' : ∀ j, j < s'.accounts.length → ∃ i, m i j
  slots : SlotsEq m s.slots s'.slots
  idx : ∀ pk, IdxEq m s s' pk
  pair : ∀ {i j}, m i j → PairEq s i s' j

theorem IdxEq.congr {m : Pairing} {s s' s2 s2' : Store} {pk : Pubkey} (h : IdxEq m s s' pk) (h1 : s2.index pk = s.index pk)
    (h2 : s2'.index pk = s'.index pk) : IdxEq m s2 s2' pk := by
  unfold IdxEq; rw [h1, h2]; exact h

theorem IdxEq.drop {P : Pubkey → Prop} {m : Pairing} {s s' s2 s2' : Store} {pk : Pubkey} (h : IdxEq m s s' pk)
    (hd : DropEq P s s2 s' s2') : IdxEq m s2 s2' pk := by
  rcases hd with ⟨h1, h2⟩ | ⟨pk', -, h1, h2⟩
  · exact h.congr (by rw [h1]) (by rw [h2])
  · by_cases hp : pk = pk'
    · subst hp
      exact .inl ⟨by rw [h1]; simp [dropKey], by rw [h2]; simp [dropKey]⟩
    · exact h.congr (by rw [h1]; simp [dropKey, hp]) (by rw [h2]; simp [dropKey, hp])

theorem Sim.local {P : Pubkey → Prop} {m : Pairing} {s s' s2 s2' : Store} {i j : Nat} (h : Sim m s s') (hm : m i j)
    (hp : PairEq s2 i s2' j) (hd : DropEq P s s2 s' s2') (hf : Frame s i s2) (hf' : Frame s' j s2') : Sim m s2 s2' := by
  refine ⟨h.one, fun hxy => by rw [hf.len, hf'.len]; exact h.lt hxy, fun x hx => h.all x (by rw [← hf.len]; exact hx),
    fun y hy => h.all' y (by rw [← hf'.len]; exact hy), by rw [hf.slots, hf'.slots]; exact h.slots,
    fun pk => (h.idx pk).drop hd, ?_⟩
  intro x y hxy
  by_cases hx : x = i
  · subst hx; rw [h.one.left hxy hm]; exact hp
  · have hy : y ≠ j := by rintro rfl; exact hx (h.one.right hxy hm)
    exact ((hf.others x hx).symm.trans (h.pair hxy)).trans (hf'.others y hy)

/-- Corresponding positions, one after the other. -/
def Along (m : Pairing) : Writable → Writable → Prop
  | [], [] => True
  | x :: l, y :: l' => m x.1 y.1 ∧ x.2 = y.2 ∧ Along m l l'
  | _, _ => False

theorem promoteAll_sim {F : Filters} {c : Commitment} {m : Pairing} : ∀ {l l' : Writable} {s s' s2 : Store} {out : List AccountData},
    Along m l l' → Sim m s s' → promoteAll F c s l = .ok (s2, out) →
    ∃ s2', promoteAll F c s' l' = .ok (s2', out) ∧ Sim m s2 s2'
  | [], [], s, s', s2, out, _, hs, h => by
    simp only [promoteAll, Run.ok.injEq] at h; cases h; exact ⟨s', rfl, hs⟩
  | (i, k) :: l, (j, k') :: l', s, s', s2, out, ⟨h1, h2, h3⟩, hs, h => by
    simp only at h1 h2
    subst h2
    simp only [promoteAll, Run.bind_eq_ok] at h
    obtain ⟨⟨x, r⟩, hx, ⟨y, rs⟩, hy, h⟩ := h
    simp only [Run.pure_eq, Run.ok.injEq] at h
    cases h
    obtain ⟨x', hx', hp, hd, hf, hf'⟩ := promoteOne_local (hs.pair h1) hx
    obtain ⟨y', hy', hsim⟩ := promoteAll_sim h3 (hs.local h1 hp hd hf hf') hy
    exact ⟨y', by simp [promoteAll, hx', hy'], hsim⟩
  | [], _ :: _, _, _, _, _, h, _, _ => h.elim
  | _ :: _, [], _, _, _, _, h, _, _ => h.elim

theorem along_of {m : Pairing} : ∀ {l : Writable}, (∀ x ∈ l, ∃ j, m x.1 j) → ∃ l', Along m l l'
  | [], _ => ⟨[], trivial⟩
  | x :: l, h => by
    obtain ⟨j, hj⟩ := h x (by simp)
    obtain ⟨l', hl⟩ := along_of (l := l) (fun y hy => h y (List.mem_cons_of_mem _ hy))
    exact ⟨(j, x.2) :: l', hj, rfl, hl⟩

theorem Along.there {m : Pairing} : ∀ {l l' : Writable}, Along m l l' → ∀ x ∈ l, ∃ j, m x.1 j ∧ (j, x.2) ∈ l'
  | [], [], _, x, hx => by cases hx
  | x :: l, (j, k) :: l', ⟨h1, h2, h3⟩, z, hz => by
    rcases List.mem_cons.1 hz with rfl | hz
    · exact ⟨j, h1, by rw [h2]; simp⟩
    · obtain ⟨j', hj, hm⟩ := h3.there z hz
      exact ⟨j', hj, by simp [hm]⟩
  | [], _ :: _, h, _, _ => h.elim
  | _ :: _, [], h, _, _ => h.elim

theorem Along.back {m : Pairing} : ∀ {l l' : Writable}, Along m l l' → ∀ y ∈ l', ∃ i, m i y.1 ∧ (i, y.2) ∈ l
  | [], [], _, x, hx => by cases hx
  | (i, k) :: l, y :: l', ⟨h1, h2, h3⟩, z, hz => by
    rcases List.mem_cons.1 hz with rfl | hz
    · exact ⟨i, h1, by rw [← h2]; simp⟩
    · obtain ⟨i', hi, hm⟩ := h3.back z hz
      exact ⟨i', hi, by simp [hm]⟩
  | [], _ :: _, h, _, _ => h.elim
  | _ :: _, [], h, _, _ => h.elim

theorem Along.nodup {m : Pairing} (ho : OneOne m) : ∀ {l l' : Writable}, Along m l l' → (l.map (·.1)).Nodup → l'.Nodup
  | [], [], _, _ => by simp
  | (i, k) :: l, (j, k') :: l', ⟨h1, h2, h3⟩, hn => by
    simp only [List.map_cons, List.nodup_cons] at hn
    rw [List.nodup_cons]
    refine ⟨fun hj => hn.1 ?_, h3.nodup ho hn.2⟩
    obtain ⟨i', hi, hm⟩ := h3.back _ hj
    have := ho.right h1 hi
    subst this
    exact List.mem_map.2 ⟨_, hm, rfl⟩
  | [], _ :: _, h, _ => h.elim
  | _ :: _, [], h, _ => h.elim

theorem nodup_of_keys : ∀ {l : Writable}, (l.map (·.1)).Nodup → l.Nodup
  | [], _ => by simp
  | x :: l, h => by
    simp only [List.map_cons, List.nodup_cons] at h
    rw [List.nodup_cons]
    exact ⟨fun hx => h.1 (List.mem_map.2 ⟨x, hx, rfl⟩), nodup_of_keys h.2⟩

/-- A hash map with the same entries can be iterated in the corresponding order. -/
theorem order_along {m : Pairing} (ho : OneOne m) {l l' : Writable} (h : WEq m l l') (σ : Order) :
    ∃ σ' : Order, Along m (σ.arrange l) (σ'.arrange l') := by
  have hp := σ.perm l
  obtain ⟨r, hr⟩ : ∃ r, Along m (σ.arrange l) r :=
    along_of fun x hx => (h.there x (hp.mem_iff.1 hx)).imp fun _ h => h.1
  have hnr : r.Nodup := hr.nodup ho ((hp.map _).nodup_iff.2 h.once)
  have hnl : l'.Nodup := nodup_of_keys h.once'
  have hperm : r.Perm l' := by
    rw [List.perm_ext_iff_of_nodup hnr hnl]
    rintro ⟨j, k⟩
    constructor
    · intro hj
      obtain ⟨i, hi, hx⟩ := hr.back _ hj
      obtain ⟨j', hj', hy⟩ := h.there _ (hp.mem_iff.1 hx)
      rw [ho.left hj' hi] at hy
      exact hy
    · intro hj
      obtain ⟨i, hi, hx⟩ := h.back _ hj
      obtain ⟨j', hj', hy⟩ := hr.there _ (hp.mem_iff.2 hx)
      rw [ho.left hj' hi] at hy
      exact hy
  classical
  refine ⟨⟨fun w => if w = l' then r else w, fun w => ?_⟩, by simpa using hr⟩
  split
  · rename_i hw; rw [hw]; exact hperm
  · exact .refl _

/-- Slot notifications do not look at the positions of the accounts. -/
theorem process_sim {F : Filters} {σ : Order} {m : Pairing} {s s' s2 : Store} {info : SlotInfo} {c : Commitment}
    {out : List AccountData} (hs : Sim m s s') (h : s.processSlotData F σ info c = .ok (s2, out)) :
    ∃ σ' s2', s'.processSlotData F σ' info c = .ok (s2', out) ∧ Sim m s2 s2' := by
  simp only [processSlotData, Run.bind_eq_ok] at h
  obtain ⟨⟨q, l⟩, hw, h⟩ := h
  obtain ⟨q', l', hw', hq, hl⟩ := walk_local hs.one info c _ hs.slots (wl' := []) ⟨by simp, by simp, by simp, by simp⟩ hw
  obtain ⟨σ', hσ⟩ := order_along hs.one hl σ
  have hsim : Sim m { s with slots := dropOldSlots q info.slot c } { s' with slots := dropOldSlots q' info.slot c } :=
    ⟨hs.one, hs.lt, hs.all, hs.all', dropOld_local hq _ _, hs.idx, hs.pair⟩
  obtain ⟨s2', h2, h3⟩ := promoteAll_sim hσ hsim h
  refine ⟨σ', s2', ?_, h3⟩
  simp only [processSlotData, ← hs.slots.length, hw', Run.ok_bind, h2]

/-- Reads do not look at the positions of the accounts. -/
theorem Sim.getAccount {m : Pairing} {s s' : Store} (h : Sim m s s') (pk : Pubkey) (c : Commitment) :
    s.getAccount pk c = s'.getAccount pk c := by
  unfold Store.getAccount
  rcases h.idx pk with ⟨h1, h2⟩ | ⟨i, j, hm, h1, h2⟩
  · rw [h1, h2]
  · rw [h1, h2]; simp only [(h.pair hm).1]

/-! ## Owners are recorded for accounts that exist -/

/-- The sets of the owners have positions of accounts. -/
def OwnIn (s : Store) : Prop := ∀ o j, owns s o j → j < s.accounts.length

theorem OwnIn.frame {s s2 : Store} {i : Nat} (h : OwnIn s) (hf : Frame s i s2) (hi : i < s.accounts.length) : OwnIn s2 := by
  intro o j hj
  rw [hf.len]
  by_cases hji : j = i
  · rw [hji]; exact hi
  · exact h o j (((hf.others j hji).2 o).2 hj)

theorem ownIn_promoteAll {F : Filters} {c : Commitment} : ∀ {l : Writable} {s s2 : Store} {out : List AccountData}, OwnIn s →
    promoteAll F c s l = .ok (s2, out) → OwnIn s2
  | [], s, s2, out, hs, h => by simp only [promoteAll, Run.ok.injEq] at h; cases h; exact hs
  | (i, k) :: l, s, s2, out, hs, h => by
    simp only [promoteAll, Run.bind_eq_ok] at h
    obtain ⟨⟨x, r⟩, hx, ⟨y, rs⟩, hy, h⟩ := h
    simp only [Run.pure_eq, Run.ok.injEq] at h
    cases h
    obtain ⟨-, -, -, -, hf, -⟩ := promoteOne_local (PairEq.refl s i) hx
    refine ownIn_promoteAll (hs.frame hf ?_) hy
    simp only [promoteOne, Run.bind_eq_ok] at hx
    obtain ⟨e, he, -⟩ := hx
    cases hq : s.accounts[i]? with
    | none => rw [hq] at he; cases he
    | some q => exact (List.getElem?_eq_some_iff.1 hq).1

theorem ownIn_op {s s2 : Store} {op : Op} {r : Reply} (h : OwnIn s) (hr : opResult s op = .ok (s2, r)) : OwnIn s2 := by
  cases op with
  | slot F σ info c =>
    simp only [opResult, Run.bind_eq_ok, processSlotData] at hr
    obtain ⟨⟨x, out⟩, ⟨⟨q, l⟩, -, hx⟩, hr⟩ := hr
    simp only [Run.pure_eq, Run.ok.injEq] at hr
    cases hr
    exact ownIn_promoteAll (s := { s with slots := dropOldSlots q info.slot c }) h hx
  | update F a c =>
    simp only [opResult, Run.bind_eq_ok] at hr
    obtain ⟨⟨x, b⟩, hx, hr⟩ := hr
    simp only [Run.pure_eq, Run.ok.injEq] at hr
    cases hr
    unfold updateAccount at hx
    split at hx
    · cases hx; exact h
    · cases hi : s.index a.pubkey with
      | some i =>
        simp only [maybeUpdateSlotStatus, hi, addIndexToSlot_index] at hx
        have h1 : OwnIn (s.addIndexToSlot a.slot i c).1 := by
          intro o j hj
          unfold owns at hj
          rw [addIndexToSlot_byOwner] at hj
          rw [addIndexToSlot_accounts]
          exact h o j hj
        obtain ⟨-, -, -, -, hf, -⟩ := updateOccupied_local (PairEq.refl _ i) hx
        refine h1.frame hf ?_
        simp only [updateOccupied, Run.bind_eq_ok] at hx
        obtain ⟨e, he, -⟩ := hx
        cases hq : (s.addIndexToSlot a.slot i c).1.accounts[i]? with
        | none => rw [hq] at he; cases he
        | some q => exact (List.getElem?_eq_some_iff.1 hq).1
      | none =>
        simp only [maybeUpdateSlotStatus, hi, Run.ok.injEq, updateVacant] at hx
        split at hx
        · cases hx
          intro o j hj
          have hlen : ∀ (s1 : Store) (k n : Nat) (d : Commitment), (s1.addIndexToSlot k n d).1.accounts = s1.accounts := by simp
          have : owns (s.addAccountOwner s.accounts.length a.account.owner) o j := by
            unfold owns at hj ⊢
            simpa [addAccountOwner] using hj
          rw [owns_addAccountOwner] at this
          simp only [addIndexToSlot_accounts, addAccountOwner, List.length_append, List.length_cons, List.length_nil]
          rcases this with h2 | ⟨h2, -⟩
          · have := h o j h2; omega
          · omega
        · cases hx; exact h

theorem sim_refl {s : Store} (hi : ∀ pk i, s.index pk = some i → i < s.accounts.length)
    (hs : ∀ k st, (k, st) ∈ s.slots → ∀ i ∈ st.accountsUpdated, i < s.accounts.length) :
    Sim (fun i j => i = j ∧ i < s.accounts.length) s s := by
  refine ⟨⟨fun h h' => h.1.symm.trans h'.1, fun h h' => h.1.trans h'.1.symm⟩, fun h => ⟨h.2, h.1 ▸ h.2⟩, fun i hi => ⟨i, rfl, hi⟩,
    fun i hi => ⟨i, rfl, hi⟩, ?_, fun pk => ?_, fun h => h.1 ▸ .refl _ _⟩
  · generalize hn : s.accounts.length = n at hs ⊢
    generalize s.slots = l at hs ⊢
    induction l with
    | nil => trivial
    | cons x l ih =>
      refine ⟨rfl, ⟨rfl, rfl, fun i hi => ⟨i, hi, rfl, hs x.1 x.2 (by simp) i hi⟩, fun i hi => ⟨i, hi, rfl, hs x.1 x.2 (by simp) i hi⟩⟩,
        ih fun k st h => hs k st (by simp [h])⟩
  · cases h : s.index pk with
    | none => exact .inl ⟨h, h⟩
    | some i => exact .inr ⟨i, i, ⟨rfl, hi pk i h⟩, h, h⟩

end LAM.Conc
