import Verif.Lemmas.StoreConcCalls
/-!
# Concurrent calls of the in-memory account store: the store when no writing call is executed
-/
namespace LAM.Conc
open Store World ByCommitment Spec

/-- The sets are kept in order. -/
structure Ordered (s : Store) : Prop where
  owners : ∀ o l, s.byOwner o = some l → SSorted natLt l
  slots : ∀ k st, BMap.find s.slots k = some st → SSorted natLt st.accountsUpdated

theorem Ordered.congr {s s' : Store} (h : Ordered s) (h1 : s'.byOwner = s.byOwner) (h2 : s'.slots = s.slots) : Ordered s' :=
  ⟨by rw [h1]; exact h.owners, by rw [h2]; exact h.slots⟩

theorem ordered_addIndexToSlot {s : Store} (h : Ordered s) (i k : Nat) (c : Commitment) : Ordered (s.addIndexToSlot k i c).1 := by
  refine ⟨by simpa using h.owners, ?_⟩
  intro k' st hst
  rw [find_addIndexToSlot] at hst
  split at hst
  · have hb : SSorted natLt ((BMap.find s.slots k).getD ⟨c, [], none⟩).accountsUpdated := by
      cases hf : BMap.find s.slots k with
      | none => simp [SSorted]
      | some x => simpa using h.slots _ _ hf
    simp only [Option.some.injEq] at hst
    subst hst
    split
    · exact hb
    · exact sorted_setInsert hb _
  · exact h.slots _ _ hst

theorem ordered_addAccountOwner {s : Store} (h : Ordered s) (i : Nat) (o : Pubkey) : Ordered (s.addAccountOwner i o) := by
  refine ⟨?_, h.slots⟩
  intro o' l hl
  simp only [addAccountOwner] at hl
  split at hl
  · have hb : SSorted natLt ((s.byOwner o).getD []) := by
      cases hf : s.byOwner o with
      | none => simp [SSorted]
      | some l => simpa using h.owners _ _ hf
    simp at hl; subst hl
    exact sorted_setInsert hb _
  · exact h.owners _ _ hl

theorem ordered_removeAccountOwner {s : Store} (h : Ordered s) (i : Nat) (o : Pubkey) : Ordered (s.removeAccountOwner i o) := by
  refine ⟨?_, h.slots⟩
  intro o' l hl
  simp only [removeAccountOwner] at hl
  split at hl
  · cases hf : s.byOwner o with
    | none => simp [hf] at hl
    | some l' =>
      simp [hf] at hl
      subst hl
      exact List.Pairwise.filter _ (h.owners _ _ hf)
  · exact h.owners _ _ hl

theorem ordered_own {w : World} (h : Ordered w.st) (i : Nat) (a : AccountData) : Ordered (own w i a) := by
  unfold own; split
  · exact ordered_addAccountOwner h _ _
  · exact h

theorem ordered_walk {s : Store} (hr : Ranges s) (h : Ordered s) {info : SlotInfo} {c : Commitment} {m : BMap SlotStatus}
    {l : Writable} (hw : walk info c (s.slots.length + 1) s.slots [] info.slot (some info.parent) = .ok (m, l)) :
    Ordered { s with slots := dropOldSlots m info.slot c } := by
  obtain ⟨path, hW⟩ := walk_rel _ _ _ _ _ _ _ hw
  have hsm := hW.sorted hr.sorted
  refine ⟨h.owners, ?_⟩
  intro k st hst
  simp only at hst
  rw [find_dropOldSlots hsm] at hst
  split at hst
  · simp at hst
  · have hu := hW.upd_eq k
    have hu' : st.accountsUpdated = Store.upd s.slots k := by rw [← hu]; simp [Store.upd, hst]
    rw [hu']
    unfold Store.upd
    cases hf : BMap.find s.slots k with
    | none => simp [SSorted]
    | some x => simpa using h.slots _ _ hf

theorem ordered_step {E : Env} {key : Nat → Pubkey} {w w' : World} (hg : Good E key w) (hs : Step E w w') (h : Ordered w.st) :
    Ordered w'.st := by
  cases hs
  case upSlot => exact ordered_addIndexToSlot h _ _ _
  case upNewSlot => exact ordered_addIndexToSlot h _ _ _
  case upNewOwn => exact ordered_addAccountOwner h _ _
  case upUnown => exact ordered_removeAccountOwner h _ _
  case prUnown => exact ordered_removeAccountOwner h _ _
  case upOwn => exact ordered_own h _ _
  case prOwn => exact ordered_own h _ _
  case prWalk t info c slots wl l hp hw hl => exact ordered_walk hg.ranges h hw
  case upWrite => unfold doWrite; repeat' split
                  all_goals exact h.congr rfl rfl
  case prPromote => unfold doPromote; repeat' split
                    all_goals exact h.congr rfl rfl
  case geRead => unfold doRead; split <;> exact h
  case gpVisit => unfold doVisit; repeat' split
                  all_goals exact h
  case gpRetry => unfold doVisit; repeat' split
                  all_goals exact h
  all_goals exact h.congr rfl rfl

theorem reachable_ordered {E : Env} {w : World} (h : Reachable E w) : Ordered w.st := by
  obtain ⟨F, h⟩ := h
  have hr : ∀ {w}, Steps E (World.init F) w → Reachable E w := fun h => ⟨F, h⟩
  generalize hw0 : World.init F = w0 at h hr
  induction h with
  | refl => subst hw0; exact ⟨by simp [World.init, Store.empty], by simp [World.init, Store.empty]⟩
  | tail hst hs ih =>
    obtain ⟨-, key, hg⟩ := reachable_good (hr hst)
    exact ordered_step hg hs ih

/-- When no writing call is executed, the store is in order, whatever calls were made at the same time before. -/
theorem reachable_inv {E : Env} {w : World} (hr : Reachable E w) (hq : NoWriter w) : Inv w.st := by
  obtain ⟨-, key, hg⟩ := reachable_good hr
  have ho := reachable_ordered hr
  have hm := noWriter_of hr hq
  refine ⟨fun pk i hi => (hg.idx pk i hi).2, ?_, fun o l hl => ⟨ho.owners o l hl, hg.ranges.owners o l hl⟩, hg.ranges.sorted,
    fun k st hk => ⟨ho.slots k st hk, hg.ranges.slots k st hk⟩⟩
  intro i e he
  rcases hg.own i e he with h | h | ⟨t, h⟩ | ⟨t, h⟩
  · exact .inr h
  · exact .inl ⟨_, h⟩
  · have := hm t; cases hp : w.pc t <;> rw [hp] at h this <;> simp [Pc.making, Pc.modifies] at h this
  · have := hm t; cases hp : w.pc t <;> rw [hp] at h this <;> simp [Pc.clearing, Pc.modifies] at h this

end LAM.Conc
