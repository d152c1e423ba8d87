import Verif.Lemmas.Gpa
/-!
# Changing the stored form of account data commutes with the store

`g` changes accounts without touching pubkey, slot, write version, lamports and owner.
-/
namespace LAM
open Spec

/-- `g` keeps everything the store looks at. -/
structure Recoding (g : AccountData → AccountData) : Prop where
  pubkey : ∀ a, (g a).pubkey = a.pubkey
  slot : ∀ a, (g a).slot = a.slot
  wv : ∀ a, (g a).wv = a.wv
  lamports : ∀ a, (g a).account.lamports = a.account.lamports
  owner : ∀ a, (g a).account.owner = a.account.owner

/-- Apply a function to the value of a call. -/
def Run.map (f : α → β) : Run α → Run β
  | .ok a => .ok (f a)
  | .panic => .panic
  | .diverge => .diverge

@[simp] theorem Run.map_ok (f : α → β) (a : α) : Run.map f (.ok a) = .ok (f a) := rfl
@[simp] theorem Run.map_panic (f : α → β) : Run.map f .panic = .panic := rfl
@[simp] theorem Run.map_diverge (f : α → β) : Run.map f .diverge = .diverge := rfl

namespace BMap
/-- Apply `g` to the values. -/
def mapVal (g : α → α) (m : BMap α) : BMap α := m.map (fun e => (e.1, g e.2))

theorem find_mapVal (g : α → α) (m : BMap α) (k : Nat) : find (mapVal g m) k = (find m k).map g := by
  induction m with
  | nil => rfl
  | cons e m ih =>
    obtain ⟨j, v⟩ := e
    simp only [mapVal, List.map_cons, find]
    split
    · rfl
    · exact ih

theorem insert_mapVal (g : α → α) (m : BMap α) (k : Nat) (v : α) :
    insert (mapVal g m) k (g v) = mapVal g (insert m k v) := by
  induction m with
  | nil => rfl
  | cons e m ih =>
    obtain ⟨j, w⟩ := e
    simp only [mapVal, List.map_cons, insert]
    split
    · simp
    · split
      · simp
      · simp only [List.map_cons]; congr 1

theorem lastVal_mapVal (g : α → α) (m : BMap α) : lastVal (mapVal g m) = (lastVal m).map g := by
  simp [lastVal, mapVal, List.getLast?_map]
  try cases m.getLast? <;> rfl

end BMap

namespace ByCommitment

/-- Recode all states of one account. -/
def mapAcc (g : AccountData → AccountData) (e : ByCommitment) : ByCommitment :=
  ⟨BMap.mapVal g e.processed, e.confirmed.map g, e.finalized.map g⟩

theorem get_mapAcc (g : AccountData → AccountData) (e : ByCommitment) (c : Commitment) :
    (e.mapAcc g).get c = (e.get c).map g := by
  cases c with
  | processed =>
    simp only [ByCommitment.get, mapAcc, BMap.lastVal_mapVal]
    cases BMap.lastVal e.processed <;> simp
  | confirmed => rfl
  | finalized => rfl

variable {g : AccountData → AccountData} (hg : Recoding g)
include hg

theorem new_mapAcc (a : AccountData) (c : Commitment) : new (g a) c = (new a c).mapAcc g := by
  simp only [new, mapAcc, BMap.mapVal, hg.slot, List.map_cons, List.map_nil]
  congr 1 <;> split <;> rfl

theorem isNewer_mapAcc (x : Option AccountData) (a : AccountData) :
    isNewer (x.map g) (g a) = isNewer x a := by
  cases x <;> simp [isNewer, hg.slot, hg.wv]

theorem updateProcessed_mapAcc (m : BMap AccountData) (a : AccountData) :
    updateProcessed (BMap.mapVal g m) (g a) = (BMap.mapVal g (updateProcessed m a).1, (updateProcessed m a).2) := by
  unfold updateProcessed
  rw [hg.slot, BMap.find_mapVal]
  cases BMap.find m a.slot with
  | none => simp [BMap.insert_mapVal]
  | some p =>
    simp only [Option.map_some, hg.wv]
    split
    · simp [BMap.insert_mapVal]
    · rfl

theorem update_mapAcc (e : ByCommitment) (a : AccountData) (c : Commitment) :
    (e.mapAcc g).update (g a) c = ((e.update a c).1.mapAcc g, (e.update a c).2) := by
  have h1 : isNewer (e.mapAcc g).confirmed (g a) = isNewer e.confirmed a := isNewer_mapAcc hg _ _
  have h2 : isNewer (e.mapAcc g).finalized (g a) = isNewer e.finalized a := isNewer_mapAcc hg _ _
  have h3 : updateProcessed (e.mapAcc g).processed (g a) = (BMap.mapVal g (updateProcessed e.processed a).1, (updateProcessed e.processed a).2) :=
    updateProcessed_mapAcc hg _ _
  simp only [update, h1, h2, h3]
  cases c with
  | processed => rfl
  | confirmed => simp only; split <;> rfl
  | finalized =>
    simp only
    cases isNewer e.confirmed a <;> cases isNewer e.finalized a <;> rfl

omit hg in
theorem prune_mapAcc (k : Nat) (m : BMap AccountData) :
    prune k (BMap.mapVal g m) = BMap.mapVal g (prune k m) := by
  fun_induction prune k m with
  | case1 => rfl
  | case2 e => rfl
  | case3 e e' t h ih =>
    simp only [BMap.mapVal, List.map_cons] at ih ⊢
    simp only [prune, h, if_true]
    exact ih
  | case4 e e' t h =>
    simp only [BMap.mapVal, List.map_cons]
    simp only [prune, h, if_false]

theorem promote_mapAcc (e : ByCommitment) (k : Nat) (c : Commitment) :
    (e.mapAcc g).promote k c =
      ((e.promote k c).1.mapAcc g, (e.promote k c).2.map (fun x => (g x.1, x.2.map g))) := by
  unfold promote
  have h1 : BMap.find (e.mapAcc g).processed k = (BMap.find e.processed k).map g := BMap.find_mapVal _ _ _
  have h2 : prune k (e.mapAcc g).processed = BMap.mapVal g (prune k e.processed) := prune_mapAcc _ _
  rw [h1]
  cases hf : BMap.find e.processed k with
  | none =>
    simp only [Option.map_none]
    split
    · simp only [h2]; rfl
    · rfl
  | some a =>
    simp only [Option.map_some]
    cases c with
    | processed => rfl
    | confirmed =>
      obtain ⟨pr, cf, fi⟩ := e
      cases cf with
      | none => rfl
      | some p =>
        simp only [mapAcc, Option.map_some, hg.slot]
        split <;> rfl
    | finalized =>
      simp only [h2]
      obtain ⟨pr, cf, fi⟩ := e
      cases cf <;> cases fi <;> simp only [mapAcc, Option.map_none, Option.map_some, hg.slot] <;>
        (repeat' split) <;> simp_all

end ByCommitment

namespace Store

/-- Recode everything that is stored. -/
def mapAcc (g : AccountData → AccountData) (s : Store) : Store :=
  { s with accounts := s.accounts.map (ByCommitment.mapAcc g) }

variable {g : AccountData → AccountData} (hg : Recoding g)
include hg

theorem updateOwner_mapAcc (F : Filters) (hF : ∀ a, F.satisfies (g a) = F.satisfies a) (s : Store)
    (p n : AccountData) (i : Nat) (c : Commitment) :
    updateOwnerDeleteIfNecessary F (s.mapAcc g) (g p) (g n) i c =
      (updateOwnerDeleteIfNecessary F s p n i c).map (fun x => (x.1.mapAcc g, x.2)) := by
  unfold updateOwnerDeleteIfNecessary
  have hd : isDeleted (g n) = isDeleted n := by simp [isDeleted, hg.lamports]
  simp only [hg.pubkey, hg.owner, hF, hd]
  by_cases h1 : p.pubkey = n.pubkey <;> by_cases h2 : p.account.owner = n.account.owner <;>
    by_cases h3 : c = .finalized <;> cases h4 : isDeleted n <;>
    cases h5 : F.satisfies n <;> simp [h1, h2, h3] <;> (first | rfl | done)

omit hg in
theorem setAt_mapAcc (s : Store) (i : Nat) (e : ByCommitment) :
    (s.mapAcc g).setAt i (e.mapAcc g) = (s.setAt i e).mapAcc g := by
  simp [setAt, mapAcc, List.map_set]

omit hg in
theorem delete_mapAcc (e : ByCommitment) : (e.mapAcc g).delete = e.delete.mapAcc g := rfl

theorem updateOccupied_mapAcc (F : Filters) (hF : ∀ a, F.satisfies (g a) = F.satisfies a) (s : Store)
    (a : AccountData) (c : Commitment) (i : Nat) :
    updateOccupied F (s.mapAcc g) (g a) c i =
      (updateOccupied F s a c i).map (fun x => (x.1.mapAcc g, x.2)) := by
  unfold updateOccupied
  have h1 : (s.mapAcc g).accounts[i]? = (s.accounts[i]?).map (ByCommitment.mapAcc g) := by
    simp [mapAcc]
  rw [h1]
  cases s.accounts[i]? with
  | none => rfl
  | some e =>
    simp only [Option.map_some, Run.unwrap_some, Run.ok_bind, ByCommitment.get_mapAcc,
      ByCommitment.update_mapAcc hg, setAt_mapAcc]
    generalize e.update a c = u
    obtain ⟨e', up⟩ := u
    cases up with
    | false => rfl
    | true =>
      simp only [if_true]
      cases e.get c with
      | none => rfl
      | some p =>
        simp only [Option.map_some, updateOwner_mapAcc hg F hF]
        cases updateOwnerDeleteIfNecessary F (s.setAt i e') p a i c with
        | ok r =>
          obtain ⟨s2, del⟩ := r
          simp only [Run.map_ok, Run.ok_bind]
          cases del with
          | false => rfl
          | true =>
            simp only [if_true, delete_mapAcc, setAt_mapAcc, hg.pubkey]
            rfl
        | panic => rfl
        | diverge => rfl

theorem updateAccount_mapAcc (F : Filters) (hF : ∀ a, F.satisfies (g a) = F.satisfies a) (s : Store)
    (a : AccountData) (c : Commitment) :
    updateAccount F (s.mapAcc g) (g a) c =
      (updateAccount F s a c).map (fun x => (x.1.mapAcc g, x.2)) := by
  unfold updateAccount
  have hck : (s.mapAcc g).containsKey (g a).pubkey = s.containsKey a.pubkey := by rw [hg.pubkey]; rfl
  have hd : isDeleted (g a) = isDeleted a := by simp [isDeleted, hg.lamports]
  rw [hd, hF, hck]
  cases hcond : (!isDeleted a && !F.satisfies a && !s.containsKey a.pubkey) with
  | true => rfl
  | false =>
    simp only [Bool.false_eq_true, if_false]
    have hm : (s.mapAcc g).maybeUpdateSlotStatus (g a) c =
        ((s.maybeUpdateSlotStatus a c).1.mapAcc g, (s.maybeUpdateSlotStatus a c).2) := by
      unfold maybeUpdateSlotStatus
      rw [hg.pubkey, hg.slot]
      have : (s.mapAcc g).index = s.index := rfl
      rw [this]
      cases s.index a.pubkey with
      | none => rfl
      | some i => cases c <;> rfl
    rw [hm]
    generalize s.maybeUpdateSlotStatus a c = u
    obtain ⟨s1, c1⟩ := u
    simp only [hg.pubkey]
    have : (s1.mapAcc g).index = s1.index := rfl
    rw [this]
    cases s1.index a.pubkey with
    | some i => exact updateOccupied_mapAcc hg F hF s1 a c1 i
    | none =>
      simp only [Run.map_ok]
      congr 1
      unfold updateVacant
      rw [hF]
      split
      · have hl : (s1.mapAcc g).accounts ++ [ByCommitment.new (g a) c1] =
            (s1.accounts ++ [ByCommitment.new a c1]).map (ByCommitment.mapAcc g) := by
          simp [mapAcc, ByCommitment.new_mapAcc hg]
        simp only [hl, hg.owner, hg.slot, hg.pubkey, List.length_map]
        cases c1 <;> rfl
      · rfl

theorem promoteOne_mapAcc (F : Filters) (hF : ∀ a, F.satisfies (g a) = F.satisfies a) (s : Store)
    (c : Commitment) (i k : Nat) :
    promoteOne F c (s.mapAcc g) i k =
      (promoteOne F c s i k).map (fun x => (x.1.mapAcc g, x.2.map g)) := by
  unfold promoteOne
  have h1 : (s.mapAcc g).accounts[i]? = (s.accounts[i]?).map (ByCommitment.mapAcc g) := by
    simp [mapAcc]
  rw [h1]
  cases s.accounts[i]? with
  | none => rfl
  | some e =>
    simp only [Option.map_some, Run.unwrap_some, Run.ok_bind, ByCommitment.promote_mapAcc hg,
      setAt_mapAcc]
    generalize e.promote k c = u
    obtain ⟨e', r⟩ := u
    cases r with
    | none => rfl
    | some x =>
      obtain ⟨a, p⟩ := x
      cases p with
      | none => rfl
      | some p =>
        simp only [Option.map_some, hg.owner, hg.lamports]
        split
        · simp only [updateOwner_mapAcc hg F hF]
          cases updateOwnerDeleteIfNecessary F (s.setAt i e') p a i c with
          | ok r =>
            obtain ⟨s2, del⟩ := r
            simp only [Run.map_ok, Run.ok_bind]
            cases del with
            | false => rfl
            | true =>
              simp only [if_true, delete_mapAcc, hg.pubkey]
              have : (s2.mapAcc g).dropKey a.pubkey = (s2.dropKey a.pubkey).mapAcc g := rfl
              rw [this, setAt_mapAcc]; rfl
          | panic => rfl
          | diverge => rfl
        · rfl

theorem promoteAll_mapAcc (F : Filters) (hF : ∀ a, F.satisfies (g a) = F.satisfies a)
    (c : Commitment) (w : Writable) : ∀ (s : Store),
    promoteAll F c (s.mapAcc g) w =
      (promoteAll F c s w).map (fun x => (x.1.mapAcc g, x.2.map g)) := by
  induction w with
  | nil => intro s; rfl
  | cons x w ih =>
    intro s
    obtain ⟨i, k⟩ := x
    simp only [promoteAll, promoteOne_mapAcc hg F hF]
    cases promoteOne F c s i k with
    | ok r =>
      obtain ⟨s1, r1⟩ := r
      simp only [Run.map_ok, Run.ok_bind, ih]
      cases promoteAll F c s1 w with
      | ok r => simp
      | panic => rfl
      | diverge => rfl
    | panic => rfl
    | diverge => rfl

theorem processSlotData_mapAcc (F : Filters) (hF : ∀ a, F.satisfies (g a) = F.satisfies a) (σ : Order)
    (s : Store) (info : SlotInfo) (c : Commitment) :
    processSlotData F σ (s.mapAcc g) info c =
      (processSlotData F σ s info c).map (fun x => (x.1.mapAcc g, x.2.map g)) := by
  unfold processSlotData
  have : (s.mapAcc g).slots = s.slots := rfl
  rw [this]
  cases walk info c (s.slots.length + 1) s.slots [] info.slot (some info.parent) with
  | ok r =>
    obtain ⟨m, w⟩ := r
    simp only [Run.ok_bind]
    exact promoteAll_mapAcc hg F hF c (σ.arrange w) { s with slots := dropOldSlots m info.slot c }
  | panic => rfl
  | diverge => rfl

end Store

/-- The filters of a call. -/
def Op.filters : Op → Filters
  | .update F _ _ => F
  | .slot F _ _ _ => F

/-- Recode the submitted account. -/
def Op.mapAcc (g : AccountData → AccountData) : Op → Op
  | .update F a c => .update F (g a) c
  | .slot F σ info c => .slot F σ info c

namespace Store

theorem run_mapAcc {g : AccountData → AccountData} (hg : Recoding g) : ∀ (h : List Op) (s : Store),
    (∀ op ∈ h, ∀ a, op.filters.satisfies (g a) = op.filters.satisfies a) →
    (s.mapAcc g).run (h.map (Op.mapAcc g)) = (s.run h).map (mapAcc g) := by
  intro h
  induction h with
  | nil => intro s _; rfl
  | cons op h ih =>
    intro s hF
    have hstep : (s.mapAcc g).step (op.mapAcc g) = (s.step op).map (mapAcc g) := by
      cases op with
      | update F a c =>
        simp only [Op.mapAcc, step, updateAccount_mapAcc hg F (hF (.update F a c) (by simp)) s a c]
        cases updateAccount F s a c <;> rfl
      | slot F σ info c =>
        simp only [Op.mapAcc, step, processSlotData_mapAcc hg F (hF (.slot F σ info c) (by simp)) σ s info c]
        cases processSlotData F σ s info c <;> rfl
    simp only [List.map_cons, run, hstep]
    cases s.step op with
    | ok s1 => exact ih s1 (fun op hop => hF op (by simp [hop]))
    | panic => rfl
    | diverge => rfl

end Store

/-! ## Uncompressing -/

theorem recoding_plain (X : Codecs) : Recoding (plain X) := by
  refine ⟨?_, ?_, ?_, ?_, ?_⟩ <;> intro a <;> unfold plain <;> split <;> rfl

theorem contents_plain (X : Codecs) (a : AccountData) :
    contents X (plain X a).account.data = contents X a.account.data := by
  unfold plain
  split
  · rename_i d hd; rw [hd]; rfl
  · rfl

theorem plain_plain (X : Codecs) (a : AccountData) : plain X (plain X a) = plain X a := by
  cases hc : contents X a.account.data with
  | none =>
    have : plain X a = a := by simp [plain, hc]
    rw [this, this]
  | some d =>
    have hp : plain X a = { a with account := { a.account with data := .uncompressed d } } := by
      simp [plain, hc]
    rw [hp]
    simp [plain, contents]

/-- The simple filter store does not notice how data is stored. -/
theorem satisfies_plain (X : Codecs) (s : SimpleFilterStore) (a : AccountData) :
    s.satisfies X (plain X a) = s.satisfies X a := by
  unfold SimpleFilterStore.satisfies
  simp only [data_eq, contents_plain, (recoding_plain X).pubkey, (recoding_plain X).owner]

namespace ByCommitment

theorem filterState_plain (X : Codecs) (a : AccountData) (ha : Honest X a) (fs : List AccountFilterType) :
    (filterState X (plain X a) fs).map (Option.map (plain X)) =
      (filterState X a fs).map (Option.map (plain X)) := by
  obtain ⟨d, hd, hl⟩ := ha
  have hp : plain X a = withUncompressed a d := by simp [plain, hd, withUncompressed]
  have hs : sizesMatch (plain X a) fs = sizesMatch a fs := by
    unfold sizesMatch
    have : (plain X a).account.data.len = a.account.data.len := by rw [hp, hl]; rfl
    simp only [this]
  unfold filterState
  rw [hs]
  split
  · rfl
  split
  · simp [plain_plain]
  have hpd : (plain X a).account.data = .uncompressed d := by rw [hp]; rfl
  rw [hpd]
  simp only
  split
  · rename_i d' hd'
    have : d' = d := by rw [hd'] at hd; simp [contents] at hd; exact hd
    subst this
    cases Run.allM (fun f => f.allows X d') fs with
    | ok b => cases b <;> simp [plain_plain]
    | panic => rfl
    | diverge => rfl
  · rw [data_eq, hd]
    simp only [Run.unwrap_some, Run.ok_bind]
    cases Run.allM (fun f => f.allows X d) fs with
    | ok b =>
      cases b
      · rfl
      · simp [← hp, plain_plain]
    | panic => rfl
    | diverge => rfl

end ByCommitment

namespace Store

theorem gpaOne_plain (X : Codecs) (e : ByCommitment) (c : Commitment)
    (he : ∀ a, e.get c = some a → Honest X a) (p : Pubkey) (fs : Option (List AccountFilterType)) :
    (gpaOne X (e.mapAcc (plain X)) c p fs).map (List.map (plain X)) =
      (gpaOne X e c p fs).map (List.map (plain X)) := by
  have hg := recoding_plain X
  unfold gpaOne
  cases fs with
  | none =>
    simp only [ByCommitment.get_mapAcc]
    cases e.get c with
    | none => rfl
    | some a =>
      simp only [Option.map_some, hg.owner]
      split <;> simp [plain_plain]
  | some l =>
    simp only [ByCommitment.getFiltered, ByCommitment.get_mapAcc]
    cases hgt : e.get c with
    | none => rfl
    | some a =>
      simp only [Option.map_some]
      have h := ByCommitment.filterState_plain X a (he a hgt) l
      cases h1 : ByCommitment.filterState X (plain X a) l with
      | ok r1 =>
        cases h2 : ByCommitment.filterState X a l with
        | ok r2 =>
          rw [h1, h2] at h
          simp only [Run.map_ok, Run.ok.injEq] at h
          simp only [Run.ok_bind]
          cases r1 with
          | none =>
            cases r2 with
            | none => rfl
            | some b => simp at h
          | some b1 =>
            cases r2 with
            | none => simp at h
            | some b2 =>
              simp only [Option.map_some, Option.some.injEq] at h
              have e1 : b1.account.lamports = b2.account.lamports := by
                rw [← hg.lamports b1, h, hg.lamports]
              have e2 : b1.account.owner = b2.account.owner := by
                rw [← hg.owner b1, h, hg.owner]
              simp only [e1, e2]
              split <;> simp [h]
        | panic => rw [h1, h2] at h; cases h
        | diverge => rw [h1, h2] at h; cases h
      | panic =>
        cases h2 : ByCommitment.filterState X a l with
        | ok r2 => rw [h1, h2] at h; cases h
        | panic => rfl
        | diverge => rw [h1, h2] at h; cases h
      | diverge =>
        cases h2 : ByCommitment.filterState X a l with
        | ok r2 => rw [h1, h2] at h; cases h
        | panic => rw [h1, h2] at h; cases h
        | diverge => rfl

theorem gpaPass_plain (X : Codecs) (s : Store) (c : Commitment)
    (hs : ∀ (i : Nat) e a, s.accounts[i]? = some e → e.get c = some a → Honest X a) (p : Pubkey)
    (fs : Option (List AccountFilterType)) (l : List Nat) :
    (gpaPass X (s.mapAcc (plain X)) c p fs l).map (List.map (plain X)) =
      (gpaPass X s c p fs l).map (List.map (plain X)) := by
  induction l with
  | nil => rfl
  | cons i l ih =>
    have h1 : (s.mapAcc (plain X)).accounts[i]? = (s.accounts[i]?).map (ByCommitment.mapAcc (plain X)) := by
      simp [mapAcc]
    simp only [gpaPass, h1]
    cases hi : s.accounts[i]? with
    | none => rfl
    | some e =>
      simp only [Option.map_some, Run.unwrap_some, Run.ok_bind]
      have h := gpaOne_plain X e c (fun a ha => hs i e a hi ha) p fs
      cases h2 : gpaOne X (e.mapAcc (plain X)) c p fs <;> cases h3 : gpaOne X e c p fs <;>
        rw [h2, h3] at h <;> first | rfl | cases h | skip
      rename_i x y
      simp only [Run.map_ok, Run.ok.injEq] at h
      simp only [Run.ok_bind]
      cases h4 : gpaPass X (s.mapAcc (plain X)) c p fs l <;> cases h5 : gpaPass X s c p fs l <;>
        rw [h4, h5] at ih <;> first | rfl | cases ih | skip
      rename_i u v
      simp only [Run.map_ok, Run.ok.injEq] at ih
      simp [h, ih]

end Store
end LAM
