import Verif.Lemmas.StoreConcGpa
/-!
# Concurrent calls of the in-memory account store: `get_program_accounts` returns no pubkey twice
-/
namespace LAM.Conc
open Store World Spec

/-- The account at `i` is not in the index and will not be again. -/
def Retired (key : Nat → Pubkey) (w : World) (i : Nat) : Prop :=
  w.st.index (key i) ≠ some i ∧ ∀ t, (w.pc t).making ≠ some i

/-- An index that is new in the map was being made. -/
theorem step_index_new {E : Env} {w w' : World} (h : Step E w w') (pk : Pubkey) (i : Nat) (hi : w'.st.index pk = some i) :
    w.st.index pk = some i ∨ ∃ t, (w.pc t).making = some i := by
  have same : w'.st.index = w.st.index → w.st.index pk = some i ∨ ∃ t, (w.pc t).making = some i := fun h => .inl (by rw [← h]; exact hi)
  cases h
  case upDrop t a j hp =>
    simp only [ret_st, dropKey, setAt_index] at hi
    split at hi
    · cases hi
    · exact .inl hi
  case prDrop t c j a l out hp hf =>
    simp only [go_st, dropKey] at hi
    split at hi
    · cases hi
    · exact .inl hi
  case upInsert t a j hp =>
    simp only [ret_st] at hi
    split at hi
    · cases hi; exact .inr ⟨t, by rw [hp]; rfl⟩
    · exact .inl hi
  case upWrite => apply same; unfold doWrite; (repeat' split) <;> rfl
  case prPromote => apply same; unfold doPromote; (repeat' split) <;> rfl
  case geRead => apply same; unfold doRead; split <;> rfl
  case gpVisit => apply same; unfold doVisit; (repeat' split) <;> rfl
  case gpRetry => apply same; unfold doVisit; (repeat' split) <;> rfl
  all_goals exact same (by simp)

theorem Retired.step {E : Env} {key key' : Nat → Pubkey} {w w' : World} (hs : Step E w w') {i : Nat}
    (hi : i < w.st.accounts.length) (hk : key' i = key i) (h : Retired key w i) : Retired key' w' i := by
  refine ⟨fun h' => ?_, step_making hs hi h.2⟩
  rw [hk] at h'
  rcases step_index_new hs _ _ h' with h1 | ⟨t, h1⟩
  · exact h.1 h1
  · exact h.2 t h1

/-- No owner's set holds an index twice. -/
def SetsNodup (s : Store) : Prop := ∀ p l, s.byOwner p = some l → SSorted natLt l

theorem SetsNodup.add {s : Store} (h : SetsNodup s) (i : Nat) (o : Pubkey) : SetsNodup (s.addAccountOwner i o) := by
  intro p l hl
  simp only [addAccountOwner] at hl
  split at hl
  · cases hl
    refine sorted_setInsert ?_ i
    cases hb : s.byOwner o with
    | none => exact List.Pairwise.nil
    | some l => exact h o l hb
  · exact h p l hl

theorem SetsNodup.remove {s : Store} (h : SetsNodup s) (i : Nat) (o : Pubkey) : SetsNodup (s.removeAccountOwner i o) := by
  intro p l hl
  simp only [removeAccountOwner] at hl
  split at hl
  · cases hb : s.byOwner o with
    | none => rw [hb] at hl; cases hl
    | some l' =>
      rw [hb] at hl
      cases hl
      exact List.Pairwise.filter _ (h o l' hb)
  · exact h p l hl

theorem setsNodup_step {E : Env} {w w' : World} (hs : Step E w w') (h : SetsNodup w.st) : SetsNodup w'.st := by
  have same : w'.st.byOwner = w.st.byOwner → SetsNodup w'.st := fun e p l hl => h p l (by rw [← e]; exact hl)
  cases hs
  case upNewOwn => exact h.add _ _
  case upUnown => exact h.remove _ _
  case prUnown => exact h.remove _ _
  case upOwn => simp only [ret_st, own]; split; exact h.add _ _; exact h
  case prOwn => simp only [go_st, own]; split; exact h.add _ _; exact h
  case upWrite => apply same; unfold doWrite; (repeat' split) <;> rfl
  case prPromote => apply same; unfold doPromote; (repeat' split) <;> rfl
  case geRead => apply same; unfold doRead; split <;> rfl
  case gpVisit => apply same; unfold doVisit; (repeat' split) <;> rfl
  case gpRetry => apply same; unfold doVisit; (repeat' split) <;> rfl
  all_goals exact same (by simp [dropKey, setAt])

/-- What has been found so far, `out`, has no pubkey twice, and the accounts still to be visited, `is`, add none a second time. -/
structure Once (key : Nat → Pubkey) (w : World) (is : List Nat) (out : List AccountData) : Prop where
  todo : is.Nodup
  found : (out.map (·.pubkey)).Nodup
  rest : ∀ i ∈ is, ∀ b ∈ out, key i = b.pubkey → Retired key w i

def PcOnce (key : Nat → Pubkey) (w : World) : Pc → Prop
  | .gpScan _ _ _ l retry out => Once key w (retry ++ l) out
  | .gpRetry _ _ _ l out => Once key w l out
  | _ => True

theorem Once.step {E : Env} {key key' : Nat → Pubkey} {w w' : World} {is : List Nat} {out : List AccountData} (h : Once key w is out)
    (hs : Step E w w') (hi : ∀ i ∈ is, i < w.st.accounts.length) (hk : ∀ i < w.st.accounts.length, key' i = key i) :
    Once key' w' is out :=
  ⟨h.todo, h.found, fun i hm b hb e => (h.rest i hm b hb (by rw [← hk i (hi i hm)]; exact e)).step hs (hi i hm) (hk i (hi i hm))⟩

theorem PcOnce.step {E : Env} {key key' : Nat → Pubkey} {w w' : World} {p : Pc} (h : PcOnce key w p)
    (hs : Step E w w') (hp : PcOK E key w.st w.log p) (hk : ∀ i < w.st.accounts.length, key' i = key i) : PcOnce key' w' p := by
  cases p with
  | gpScan p fs c l retry out =>
    refine Once.step h hs (fun i hi => ?_) hk
    rcases List.mem_append.1 hi with hi | hi
    · exact hp.2.1 i hi
    · exact hp.1 i hi
  | gpRetry p fs c l out => exact Once.step h hs hp.1 hk
  | _ => trivial

/-- A visit to a free account. -/
theorem Once.visit {E : Env} {key : Nat → Pubkey} {w : World} (hx : Excl E w) (hg : Good E key w) {i : Nat} {is js : List Nat}
    {out part : List AccountData} (h : Once key w js out) (hj : js.Perm (i :: is)) (hf : w.AccountFree i) {e : ByCommitment}
    (he : w.st.accounts[i]? = some e) {c : Commitment} {p : Pubkey} {fs : Option (List AccountFilterType)}
    (hgo : gpaOne E.codecs e c p fs = .ok part) : Once key w is (out ++ part) := by
  have hnd : (i :: is).Nodup := hj.nodup_iff.1 h.todo
  have old : ∀ j ∈ is, ∀ b ∈ out, key j = b.pubkey → Retired key w j := fun j hm => h.rest j (hj.mem_iff.2 (by simp [hm]))
  cases hp : part with
  | nil => exact ⟨hnd.of_cons, by simpa using h.found, by simpa using old⟩
  | cons b rest =>
    rw [hp] at hgo
    obtain ⟨hone, a, ha, hsame, -⟩ := gpaOne_sound hgo (List.mem_cons_self ..)
    cases hone
    have hek : b.pubkey = key i ∧ e ≠ dead := by
      rcases hg.entry i e he with rfl | ⟨h1, -⟩
      · cases c <;> simp [dead, ByCommitment.get, BMap.lastVal] at ha
      · exact ⟨by rw [hsame.pubkey, h1.get_pubkey ha], fun hd => entryOK_dead (hd ▸ h1)⟩
    have live : w.st.index (key i) = some i ∨ ∃ t, (w.pc t).making = some i := by
      rcases hg.own i e he with h1 | h1 | h1 | ⟨y, h1⟩
      · exact (hek.2 h1).elim
      · exact .inl h1
      · exact .inr h1
      · refine (hf y ?_).elim
        cases hq : w.pc y <;> rw [hq] at h1 <;> simp only [Pc.clearing, Option.some.injEq, reduceCtorEq] at h1
        subst h1; rfl
    refine ⟨hnd.of_cons, ?_, ?_⟩
    · rw [List.map_append, List.nodup_append]
      refine ⟨h.found, by simp, ?_⟩
      intro pk hpk pk' hpk'
      simp only [List.map_cons, List.map_nil, List.mem_singleton] at hpk'
      subst hpk'
      rintro rfl
      obtain ⟨b', hb', hbe⟩ := List.mem_map.1 hpk
      have := h.rest i (hj.mem_iff.2 (by simp)) b' hb' (by rw [hbe, hek.1])
      rcases live with h1 | ⟨t, h1⟩
      · exact this.1 h1
      · exact this.2 t h1
    · intro j hm b' hb' hkj
      rcases List.mem_append.1 hb' with hb' | hb'
      · exact old j hm b' hb' hkj
      simp only [List.mem_singleton] at hb'
      subst hb'
      have hij : j ≠ i := by rintro rfl; exact (List.nodup_cons.1 hnd).1 hm
      rw [hek.1] at hkj
      rcases live with h1 | ⟨t, h1⟩
      · refine ⟨by rw [hkj, h1]; simpa using Ne.symm hij, fun y hy => ?_⟩
        have hpy := hg.pcs y
        cases hq : w.pc y <;> rw [hq] at hy hpy <;> simp only [Pc.making, Option.some.injEq, reduceCtorEq] at hy <;>
          simp only [PcOK] at hpy <;> subst hy <;> rw [← hpy.2.2.1, hkj, h1] at hpy <;> simp at hpy
      · have hpt := hg.pcs t
        obtain ⟨pk, hsh, hnone, hpk⟩ : ∃ pk, (w.pc t).shard = some pk ∧ w.st.index pk = none ∧ key i = pk := by
          cases hq : w.pc t <;> rw [hq] at h1 hpt <;> simp only [Pc.making, Option.some.injEq, reduceCtorEq] at h1 <;>
            simp only [PcOK] at hpt <;> subst h1 <;> exact ⟨_, rfl, hpt.2.1, hpt.2.2.1⟩
        refine ⟨by rw [hkj, hpk, hnone]; simp, fun y hy => ?_⟩
        have hpy := hg.pcs y
        obtain ⟨pk', hsh', hpk'⟩ : ∃ pk', (w.pc y).shard = some pk' ∧ key j = pk' := by
          cases hq : w.pc y <;> rw [hq] at hy hpy <;> simp only [Pc.making, Option.some.injEq, reduceCtorEq] at hy <;>
            simp only [PcOK] at hpy <;> subst hy <;> exact ⟨_, rfl, hpy.2.2.1⟩
        have hty := hx.shard t y pk pk' hsh hsh' (by rw [← hpk, ← hpk', hkj])
        subst hty
        rw [h1] at hy
        exact hij (Option.some.inj hy).symm

/-- Answers without a pubkey that comes twice. -/
def LogOnce (log : List (Nat × Event)) : Prop :=
  ∀ t l, (t, Event.ret (.accounts (.ok l))) ∈ log → (l.map (·.pubkey)).Nodup

theorem once_step {E : Env} {key key' : Nat → Pubkey} {w w' : World} (hs : Step E w w') (hx : Excl E w) (hg : Good E key w)
    (hk : ∀ i < w.st.accounts.length, key' i = key i) (hn : SetsNodup w.st) (hl : LogOnce w.log)
    (h : ∀ t, PcOnce key w (w.pc t)) : LogOnce w'.log ∧ ∀ t, PcOnce key' w' (w'.pc t) := by
  have keep := hs
  have stay : ∀ t, PcOnce key' w' (w.pc t) := fun t => (h t).step keep (hg.pcs t) hk
  have move : ∀ x q, w'.pc = upd w.pc x q → PcOnce key' w' q → ∀ t, PcOnce key' w' (w'.pc t) := by
    intro x q hq hp t
    rw [hq]
    by_cases ht : t = x
    · subst ht; rw [upd_self]; exact hp
    · rw [upd_other ht]; exact stay t
  have snoc : ∀ x r, (∀ l, r = Event.ret (.accounts (.ok l)) → (l.map (·.pubkey)).Nodup) → LogOnce (w.log ++ [(x, r)]) := by
    intro x r hr t l hm
    rcases List.mem_append.1 hm with hm | hm
    · exact hl t l hm
    · simp only [List.mem_singleton, Prod.mk.injEq] at hm
      exact hr l hm.2.symm
  have visit : ∀ {x p fs c i} {next : List AccountData → Pc} {is js : List Nat} {out : List AccountData},
      w' = doVisit E w x p fs c i next → Once key w js out → js.Perm (i :: is) → w.AccountFree i →
      (∀ i ∈ is, i < w.st.accounts.length) → (∀ part, Once key' w' is (out ++ part) → PcOnce key' w' (next part)) →
      LogOnce w'.log ∧ ∀ t, PcOnce key' w' (w'.pc t) := by
    intro x p fs c i next is js out hw ho hj hf hlt hnext
    have bad : w' = w.ret x w.st .panicked → LogOnce w'.log ∧ ∀ t, PcOnce key' w' (w'.pc t) := by
      intro e
      refine ⟨?_, move x .idle (by rw [e]; rfl) trivial⟩
      rw [e, ret_log]
      exact snoc _ _ (by simp)
    cases he : w.st.accounts[i]? with
    | none => exact bad (by rw [hw]; simp only [doVisit, he])
    | some e =>
      cases hgo : gpaOne E.codecs e c p fs with
      | ok part =>
        have hw' : w' = w.go x w.st (next part) := by rw [hw]; simp only [doVisit, he, hgo]
        refine ⟨by rw [hw']; exact hl, move x (next part) (by rw [hw']; rfl) (hnext part ?_)⟩
        exact (ho.visit hx hg hj hf he hgo).step keep hlt hk
      | _ => exact bad (by rw [hw]; simp only [doVisit, he, hgo])
  cases hs
  case env => exact ⟨hl, stay⟩
  case call t k hp => exact ⟨snoc _ _ (by simp), move t _ rfl (by cases k <;> trivial)⟩
  case upWrite t a c i hp =>
    refine ⟨?_, ?_⟩
    · unfold doWrite; (repeat' split) <;> first | exact hl | exact snoc _ _ (by simp)
    · rcases doWrite_pc w t a c i with ⟨_, _, e⟩ | ⟨_, _, _, e⟩ | ⟨_, e⟩ <;> exact move t _ (congrArg World.pc e) trivial
  case prPromote t c i slot l out hp =>
    refine ⟨?_, ?_⟩
    · unfold doPromote; (repeat' split) <;> first | exact hl | exact snoc _ _ (by simp)
    · rcases doPromote_pc w t c i slot l out with ⟨_, _, e⟩ | ⟨_, _, e⟩ | ⟨_, _, _, _, e⟩ | ⟨_, _, e⟩ <;>
        exact move t _ (congrArg World.pc e) trivial
  case geRead t pk c i hp hf =>
    refine ⟨?_, ?_⟩
    · unfold doRead; (repeat' split) <;> exact snoc _ _ (by simp)
    · obtain ⟨_, e⟩ := doRead_pc w t c i
      exact move t _ (congrArg World.pc e) trivial
  case upUnown t a prev i hp => exact ⟨hl, move t _ rfl (by split <;> trivial)⟩
  case prUnown t c i a prev l out hp => exact ⟨hl, move t _ rfl (by split <;> trivial)⟩
  case gpVisit t p fs c i l retry out hp hf =>
    have ho := h t
    have hpt := hg.pcs t
    rw [hp] at ho hpt
    exact visit rfl ho (is := retry ++ l) List.perm_middle hf (fun j hj => by
      rcases List.mem_append.1 hj with hj | hj
      · exact hpt.2.1 j hj
      · exact hpt.1 j (by simp [hj])) (fun part hh => hh)
  case gpRetry t p fs c i l out hp hf =>
    have ho := h t
    have hpt := hg.pcs t
    rw [hp] at ho hpt
    exact visit rfl ho (is := l) (.refl _) hf (fun j hj => hpt.1 j (by simp [hj])) (fun part hh => hh)
  case gpSet t p fs c hp =>
    refine ⟨hl, move t _ rfl ⟨?_, by simp, by simp⟩⟩
    cases hb : w.st.byOwner p with
    | none => simp
    | some l => simpa using nodup_of_sorted (hn p l hb)
  case gpBusy t p fs c i l retry out hp =>
    have ho := stay t
    rw [hp] at ho
    have hperm : (retry ++ [i] ++ l).Perm (retry ++ i :: l) := by simp
    exact ⟨hl, move t _ rfl ⟨hperm.nodup_iff.2 ho.todo, ho.found, fun j hj => ho.rest j (hperm.mem_iff.1 hj)⟩⟩
  case gpAgain t p fs c retry out hp =>
    have ho := stay t
    rw [hp] at ho
    exact ⟨hl, move t _ rfl (by simpa [PcOnce] using ho)⟩
  case gpReturn t p fs c out hp =>
    have ho := h t
    rw [hp] at ho
    refine ⟨snoc _ _ (fun l hl => ?_), move t _ rfl trivial⟩
    cases hl
    exact ho.found
  all_goals first
    | exact ⟨hl, move _ _ rfl trivial⟩
    | exact ⟨snoc _ _ (by simp), move _ _ rfl trivial⟩

theorem reachable_once {E : Env} {w : World} (h : Reachable E w) : LogOnce w.log := by
  obtain ⟨F, h⟩ := h
  suffices Excl E w ∧ ∃ key, Good E key w ∧ SetsNodup w.st ∧ LogOnce w.log ∧ ∀ t, PcOnce key w (w.pc t) from
    this.2.elim fun _ h => h.2.2.1
  induction h with
  | refl => exact ⟨excl_init E F, _, good_init E F, fun p l h => (by cases h), fun t l h => (by cases h), fun t => trivial⟩
  | tail _ hs ih =>
    obtain ⟨hx, key, hg, hn, hl, ho⟩ := ih
    obtain ⟨key', hk, hg'⟩ := good_step hs hx hg
    obtain ⟨hl', ho'⟩ := once_step hs hx hg hk hn hl ho
    exact ⟨excl_step hs hx, key', hg', setsNodup_step hs hn, hl', ho'⟩

end LAM.Conc
