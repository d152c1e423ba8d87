import Verif.Spec.StoreConcListed
import Verif.Lemmas.StoreConcTaken
import Verif.Lemmas.StoreConcCount
/-!
# Concurrent calls of the in-memory account store: accounts that stay with their owner stay listed
-/
namespace LAM.Conc
open Store World ByCommitment Spec

variable {pk p : Pubkey}

/-- The thread does not move the account to another owner, and has listed it if it is adding it. -/
def Pc.keeps (pk p : Pubkey) (s : Store) : Pc → Prop
  | .upUnown a _ _ | .upOwn a _ | .upDrop a _ => a.pubkey ≠ pk
  | .prUnown _ _ a _ _ _ | .prOwn _ _ a _ _ | .prDrop _ _ a _ _ | .prClear _ _ a _ _ => a.pubkey ≠ pk
  | .upNewSlot a _ i | .upInsert a i => a.pubkey = pk → owns s p i
  | _ => True

/-- The account is listed under its owner if it is tracked. -/
structure StaysListed (pk p : Pubkey) (w : World) : Prop where
  idx : ∀ i, w.st.index pk = some i → owns w.st p i
  pcs : ∀ t, (w.pc t).keeps pk p w.st

/-- Steps that do not touch where the account is tracked and listed. -/
theorem listed_pc {E : Env} {key : Nat → Pubkey} {w w' : World} {t : Nat} {q : Pc} (hg : Good E key w) (h : StaysListed pk p w)
    (hpc : w'.pc = upd w.pc t q) (hq : q.keeps pk p w'.st) (hi : w'.st.index pk = w.st.index pk)
    (ho : ∀ i, key i = pk → owns w.st p i → owns w'.st p i) : StaysListed pk p w' := by
  refine ⟨fun i hx => ?_, fun x => ?_⟩
  · rw [hi] at hx
    exact ho i (hg.idx _ _ hx).1 (h.idx i hx)
  · rw [hpc]; simp only [upd]; split
    · exact hq
    · have h1 := h.pcs x
      have h2 := hg.pcs x
      cases hx : w.pc x <;> rw [hx] at h1 h2 <;> first
        | trivial
        | exact h1
        | (intro e; exact ho _ (h2.2.2.1.trans e) (h1 e))

theorem doWrite_keeps {E : Env} {key : Nat → Pubkey} {w : World} (hg : Good E key w) (ho : OwnedBy pk p w.log) {t : Nat} {a : AccountData}
    {c : Commitment} {i : Nat} (hp : w.pc t = .upWrite a c i) :
    ∃ q, (doWrite w t a c i).pc = upd w.pc t q ∧ q.keeps pk p (doWrite w t a c i).st := by
  have hpt := hg.pcs t
  rw [hp] at hpt
  obtain ⟨hs, hi⟩ := hpt
  obtain ⟨hk, e, he, hok⟩ := hg.idx _ _ hi
  have hall : AllSt (Submitted w.log) e := by
    rcases hg.entry i e he with rfl | ⟨-, h⟩
    · exact absurd hok entryOK_dead
    · exact h
  unfold doWrite
  rw [he]
  simp only
  split
  · split
    · exact ⟨_, rfl, trivial⟩
    · rename_i prev hprev
      have hsub : Submitted w.log prev := hall.get hok hprev
      split
      · exact ⟨_, rfl, trivial⟩
      · rename_i hpk
        split
        · rename_i hown
          have : a.pubkey ≠ pk := by
            intro e
            exact hown ((ho prev hsub ((Decidable.not_not.1 hpk).trans e)).trans (ho a hs e).symm)
          split
          · exact ⟨_, rfl, this⟩
          · exact ⟨_, rfl, this⟩
        · exact ⟨_, rfl, trivial⟩
  · exact ⟨_, rfl, trivial⟩

theorem doPromote_keeps {E : Env} {key : Nat → Pubkey} {w : World} (hg : Good E key w) (ho : OwnedBy pk p w.log) (t : Nat) (c : Commitment)
    (i slot : Nat) (l : Writable) (out : List AccountData) :
    ∃ q, (doPromote w t c i slot l out).pc = upd w.pc t q ∧ q.keeps pk p (doPromote w t c i slot l out).st := by
  unfold doPromote
  split
  · exact ⟨_, rfl, trivial⟩
  · rename_i e he
    simp only
    split
    · exact ⟨_, rfl, trivial⟩
    · exact ⟨_, rfl, trivial⟩
    · rename_i a prev hr
      split
      · split
        · exact ⟨_, rfl, trivial⟩
        · rename_i hpk
          split
          · rename_i hown
            have : a.pubkey ≠ pk := by
              intro e'
              obtain ⟨-, hf, hpr, -⟩ := (promote_result _ _ _ _ _).1 hr
              rcases hg.entry i e he with rfl | ⟨h1, h2⟩
              · rw [promote_dead] at hr; cases hr
              · exact hown ((ho prev (h2.get h1 hpr.symm) ((Decidable.not_not.1 hpk).trans e')).trans (ho a (h2.1 _ _ hf) e').symm)
            split
            · exact ⟨_, rfl, this⟩
            · exact ⟨_, rfl, this⟩
          · exact ⟨_, rfl, trivial⟩
      · exact ⟨_, rfl, trivial⟩

theorem doWrite_byOwner (w : World) (t : Nat) (a : AccountData) (c : Commitment) (i : Nat) :
    (doWrite w t a c i).st.byOwner = w.st.byOwner := by
  unfold doWrite; split
  · rfl
  · simp only; repeat' split
    all_goals rfl

theorem doPromote_byOwner (w : World) (t : Nat) (c : Commitment) (i slot : Nat) (l : Writable) (out : List AccountData) :
    (doPromote w t c i slot l out).st.byOwner = w.st.byOwner := by
  unfold doPromote; split
  · rfl
  · simp only; repeat' split
    all_goals rfl

theorem owns_congr {s s' : Store} (h : s'.byOwner = s.byOwner) {i : Nat} (ho : owns s p i) : owns s' p i := by
  unfold owns at ho ⊢; rw [h]; exact ho

theorem owns_own {w : World} {i j : Nat} {a : AccountData} (h : owns w.st p j) : owns (own w i a) p j := by
  unfold own; split
  · exact (owns_addAccountOwner ..).2 (.inl h)
  · exact h

theorem listed_step {E : Env} {key : Nat → Pubkey} {w w' : World} (hs : Step E w w') (hg : Good E key w) (ho : OwnedBy pk p w.log)
    (h : StaysListed pk p w) : StaysListed pk p w' := by
  have go : ∀ {t : Nat} {s : Store} {q : Pc}, s.index = w.st.index → (∀ i, key i = pk → owns w.st p i → owns s p i) → q.keeps pk p s →
      StaysListed pk p (w.go t s q) := fun {t s q} hi hk hq => listed_pc hg h (go_pc ..) hq (by rw [go_st, hi]) hk
  have ret : ∀ {t : Nat} {s : Store} {r : Reply}, s.index = w.st.index → (∀ i, key i = pk → owns w.st p i → owns s p i) →
      StaysListed pk p (w.ret t s r) := fun {t s r} hi hk => listed_pc (q := .idle) hg h (ret_pc ..) trivial (by rw [ret_st, hi]) hk
  have same : ∀ t q, w.pc t = q → q.keeps pk p w.st := fun t q hq => hq ▸ h.pcs t
  cases hs
  case env => exact ⟨h.idx, h.pcs⟩
  case call t k hp => exact listed_pc hg h rfl (by cases k <;> trivial) rfl (fun _ _ h => h)
  case upWrite t a c i hp =>
    obtain ⟨q, h1, h2⟩ := doWrite_keeps hg ho hp
    exact listed_pc hg h h1 h2 (by rw [doWrite_index]) (fun _ _ => owns_congr (doWrite_byOwner ..))
  case prPromote t c i slot l out hp =>
    obtain ⟨q, h1, h2⟩ := doPromote_keeps hg ho t c i slot l out
    exact listed_pc hg h h1 h2 (by rw [doPromote_index]) (fun _ _ => owns_congr (doPromote_byOwner ..))
  case upUnown t a prev i hp =>
    have hk := same t _ hp
    have hpt := hg.pcs t
    rw [hp] at hpt
    refine go (by simp) (fun j hj hoj => (owns_removeAccountOwner ..).2 ⟨hoj, fun ⟨e, _⟩ => ?_⟩) (by split <;> exact hk)
    subst e
    exact hk ((hg.idx _ _ hpt.2).1.symm.trans hj)
  case prUnown t c i a prev l out hp =>
    have hk := same t _ hp
    have hpt := hg.pcs t
    rw [hp] at hpt
    refine go (by simp) (fun j hj hoj => (owns_removeAccountOwner ..).2 ⟨hoj, fun ⟨e, _⟩ => ?_⟩) (by split <;> exact hk)
    subst e
    exact hk (hpt.2.1.trans hj)
  case upOwn t a i hp => exact ret (own_index ..) (fun _ _ => owns_own)
  case prOwn t c i a l out hp => exact go (own_index ..) (fun _ _ => owns_own) trivial
  case upDrop t a i hp =>
    have hk := same t _ hp
    refine listed_pc (q := .idle) hg h (ret_pc ..) trivial ?_ (fun _ _ h => h)
    simp only [ret_st, dropKey, setAt]
    exact if_neg (fun e => hk e.symm)
  case prDrop t c i a l out hp _ =>
    have hk := same t _ hp
    refine listed_pc hg h (go_pc ..) hk ?_ (fun _ _ h => h)
    simp only [go_st, dropKey]
    exact if_neg (fun e => hk e.symm)
  case upPush t a c hp _ => exact go rfl (fun _ _ h => h) trivial
  case upNewOwn t a c i hp =>
    have hpt := hg.pcs t
    rw [hp] at hpt
    refine go (by simp) (fun j _ hoj => (owns_addAccountOwner ..).2 (.inl hoj)) ?_
    intro e
    exact (owns_addAccountOwner ..).2 (.inr ⟨rfl, (ho a hpt.1 e).symm⟩)
  case upNewSlot t a c i hp =>
    have hk := same t _ hp
    exact go (addIndexToSlot_index ..) (fun _ _ => owns_congr (by simp)) (fun e => owns_congr (by simp) (hk e))
  case upSlot t a c i hp => exact go (addIndexToSlot_index ..) (fun _ _ => owns_congr (by simp)) trivial
  case upInsert t a i hp =>
    have hk := same t _ hp
    refine ⟨fun j hj => ?_, fun x => ?_⟩
    · simp only [ret_st] at hj ⊢
      split at hj
      · rename_i e
        simp only [Option.some.injEq] at hj
        subst hj
        exact hk e.symm
      · exact h.idx j hj
    · rw [ret_pc]; simp only [upd]; split
      · trivial
      · have := h.pcs x
        cases hx : w.pc x <;> rw [hx] at this <;> exact this
  case geRead t _ c i hp _ =>
    obtain ⟨r, hr⟩ := doRead_pc w t c i
    rw [hr]; exact ret rfl (fun _ _ h => h)
  case gpVisit t p fs c i l retry out hp _ =>
    rcases doVisit_pc E w t p fs c i (fun r => .gpScan p fs c l retry (out ++ r)) with ⟨r, hr⟩ | ⟨r, hr⟩
    · rw [hr]; exact ret rfl (fun _ _ h => h)
    · rw [hr]; exact go rfl (fun _ _ h => h) trivial
  case gpRetry t p fs c i l out hp _ =>
    rcases doVisit_pc E w t p fs c i (fun r => .gpRetry p fs c l (out ++ r)) with ⟨r, hr⟩ | ⟨r, hr⟩
    · rw [hr]; exact ret rfl (fun _ _ h => h)
    · rw [hr]; exact go rfl (fun _ _ h => h) trivial
  all_goals first
    | exact go rfl (fun _ _ h => h) trivial
    | exact ret rfl (fun _ _ h => h)

theorem OwnedBy.before {E : Env} {w w' : World} (h : OwnedBy pk p w'.log) (hr : Reachable E w) (hs : Steps E w w') : OwnedBy pk p w.log := by
  obtain ⟨l, hl⟩ := steps_log hr hs
  exact fun a ha => h a (ha.mono fun e he => by rw [hl]; exact List.mem_append_left _ he)

theorem reachable_listed {E : Env} {w : World} (h : Reachable E w) (ho : OwnedBy pk p w.log) : StaysListed pk p w := by
  obtain ⟨F, h⟩ := h
  induction h with
  | refl => exact ⟨fun i h => by simp [World.init, Store.empty] at h, fun t => trivial⟩
  | tail hs' hs ih =>
    have hr : Reachable E _ := ⟨F, hs'⟩
    obtain ⟨-, key, hg⟩ := reachable_good hr
    have ho' := ho.before hr (.tail (.refl _) hs)
    exact listed_step hs hg ho' (ih ho')

/-- The account stays tracked, and where it is. -/
theorem listed_index {E : Env} {key : Nat → Pubkey} {w w' : World} (hs : Step E w w') (hg : Good E key w) (h : StaysListed pk p w) {i : Nat}
    (hi : w.st.index pk = some i) : w'.st.index pk = some i := by
  have same : ∀ t q, w.pc t = q → q.keeps pk p w.st := fun t q hq => hq ▸ h.pcs t
  cases hs
  case upWrite t a c i hp => rw [doWrite_index]; exact hi
  case prPromote t c i slot l out hp => rw [doPromote_index]; exact hi
  case geRead t _ c i hp _ => obtain ⟨r, hr⟩ := doRead_pc w t c i; rw [hr]; exact hi
  case gpVisit t p fs c i l retry out hp _ =>
    rcases doVisit_pc E w t p fs c i (fun r => .gpScan p fs c l retry (out ++ r)) with ⟨r, hr⟩ | ⟨r, hr⟩ <;> rw [hr] <;> exact hi
  case gpRetry t p fs c i l out hp _ =>
    rcases doVisit_pc E w t p fs c i (fun r => .gpRetry p fs c l (out ++ r)) with ⟨r, hr⟩ | ⟨r, hr⟩ <;> rw [hr] <;> exact hi
  case upDrop t a j hp =>
    have hk := same t _ hp
    simp only [ret_st, dropKey, setAt]
    rw [if_neg (fun e => hk e.symm)]; exact hi
  case prDrop t c j a l out hp _ =>
    have hk := same t _ hp
    simp only [go_st, dropKey]
    rw [if_neg (fun e => hk e.symm)]; exact hi
  case upInsert t a j hp =>
    have hpt := hg.pcs t
    rw [hp] at hpt
    simp only [ret_st]
    split
    · rename_i e
      have hn := hpt.2.1
      rw [← e, hi] at hn
      exact absurd hn (by simp)
    · exact hi
  all_goals simp [hi]

theorem listed_stays {E : Env} {w w' : World} (hr : Reachable E w) (hs : Steps E w w') (ho : OwnedBy pk p w'.log) {i : Nat}
    (hi : w.st.index pk = some i) : w'.st.index pk = some i := by
  induction hs with
  | refl => exact hi
  | tail hs' hs ih =>
    have hr' := Steps.reachable hr hs'
    obtain ⟨-, key, hg⟩ := reachable_good hr'
    have ho' := ho.before hr' (.tail (.refl _) hs)
    exact listed_index hs hg (reachable_listed hr' ho') (ih ho')

/-- An update that returns true leaves the account tracked. -/
theorem updated_tracked {E : Env} {w w' : World} {t : Nat} {a : AccountData} {c : Commitment} (hr : Reachable E w) (hs : Step E w w')
    (hc : LastCall w.log t (.update a c)) (hl : w'.log = w.log ++ [(t, .ret (.updated true))]) (ho : OwnedBy a.pubkey p w.log) :
    ∃ i, w'.st.index a.pubkey = some i := by
  obtain ⟨-, key, hg⟩ := reachable_good hr
  have hlog := reachable_log hr
  have hlist := reachable_listed hr ho
  have mine : ∀ x q, w.pc x = q → x = t → ∀ b, (∀ k, q.serves k → ∃ d, k = .update b d) → q ≠ .idle → b = a := by
    rintro x q hq rfl b hb hne
    obtain ⟨k, hk, hc'⟩ := lastCall_serves hlog hq hne
    obtain ⟨d, rfl⟩ := hb k hk
    have h1 := lastOf_lastCall hc
    rw [lastOf_lastCall hc'] at h1
    cases h1; rfl
  have nogo : ∀ {x : Nat} {s : Store} {q : Pc}, w' = w.go x s q → ∃ i, w'.st.index a.pubkey = some i := fun h => by
    subst h; simp at hl
  have noret : ∀ {x : Nat} {s : Store} {r : Reply}, w' = w.ret x s r → r ≠ .updated true → ∃ i, w'.st.index a.pubkey = some i :=
    fun h hne => by subst h; simp [World.ret, hne] at hl
  cases hs
  case env => simp at hl
  case call y k hp => simp at hl
  case upWrite x b d i hp =>
    have hi := doWrite_index w x b d i
    have hpt := hg.pcs x
    rw [hp] at hpt
    rcases doWrite_pc w x b d i with ⟨_, _, h⟩ | ⟨_, _, _, h⟩ | ⟨_, h⟩
    · rw [h] at hl
      simp [World.ret] at hl
      have := mine x _ hp hl.1 b (fun k h => h) (by simp)
      subst this
      rw [hi]; exact ⟨i, hpt.2⟩
    · exact nogo h
    · exact nogo h
  case upOwn x b i hp =>
    simp [World.ret] at hl
    have := mine x _ hp hl b (fun k h => h) (by simp)
    subst this
    have := hlist.pcs x
    rw [hp] at this
    exact absurd rfl this
  case upDrop x b i hp =>
    simp [World.ret] at hl
    have := mine x _ hp hl b (fun k h => h) (by simp)
    subst this
    have := hlist.pcs x
    rw [hp] at this
    exact absurd rfl this
  case upInsert x b i hp =>
    simp [World.ret] at hl
    have := mine x _ hp hl b (fun k h => h) (by simp)
    subst this
    exact ⟨i, by simp⟩
  case prPromote x c i slot l out hp =>
    unfold doPromote at hl ⊢; repeat' split at hl
    all_goals simp [World.ret] at hl
  case geRead x pk c i hp _ =>
    have h : ∃ o, doRead w x c i = w.ret x w.st o ∧ o ≠ .updated true := by
      unfold doRead; split
      · exact ⟨_, rfl, by simp⟩
      · exact ⟨_, rfl, by simp⟩
    obtain ⟨o, h, ho⟩ := h
    exact noret h ho
  case gpVisit x p fs c i l retry out hp _ =>
    unfold doVisit at hl ⊢; repeat' split at hl
    all_goals simp [World.ret] at hl
  case gpRetry x p fs c i l out hp _ =>
    unfold doVisit at hl ⊢; repeat' split at hl
    all_goals simp [World.ret] at hl
  all_goals first
    | exact nogo rfl
    | exact noret rfl (by simp)

end LAM.Conc
