import Verif.Lemmas.StoreConcRest
import Verif.Lemmas.StoreConcLinRun
import Verif.Lemmas.Visible
import Verif.Spec.StoreConcWait
/-!
# Concurrent calls of the in-memory account store: states that wait for their slot to be confirmed
-/
namespace LAM.Conc
open Store World ByCommitment Spec

/-- The account at `i` is recorded for the slot. -/
def Noted (k : Nat) (s : Store) (i : Nat) : Prop := ∃ r, BMap.find s.slots k = some r ∧ i ∈ r.accountsUpdated

/-- What is known about a thread with respect to slot `k`. -/
def Heard (k : Nat) (s : Store) : Pc → Prop
  | .upCheck a c | .upLookup a c | .upPush a c | .upNewOwn a c _ | .upNewSlot a c _ => a.slot = k → c = .processed
  | .upSlot a c i => (a.slot = k → c = .processed) ∧ ∀ j, s.index a.pubkey = some j → j = i
  | .upEntry a c => a.slot = k → c = .processed ∧ ∀ i, s.index a.pubkey = some i → Noted k s i
  | .upStore a c i | .upAccount a c i | .upWrite a c i => a.slot = k → c = .processed ∧ Noted k s i
  | .upInsert a i => a.slot = k → Noted k s i
  | .prWalk info c => (info.slot < k ∧ info.parent < k) ∨ (k ≤ info.slot ∧ c = .processed)
  | .prStore c l | .prNext c l _ | .prUnown c _ _ _ l _ | .prOwn c _ _ l _ | .prDrop c _ _ l _ | .prClear c _ _ l _ =>
    c = .processed ∨ ∀ x ∈ l, x.2 < k
  | .prPromote c _ x l _ => c = .processed ∨ (x < k ∧ ∀ x ∈ l, x.2 < k)
  | _ => True

/-- The slot is open, its ancestors come before it, and what is stored for it is recorded. -/
structure Wait (k : Nat) (w : World) : Prop where
  opened : ∀ r, BMap.find w.st.slots k = some r → r.commitment = .processed
  parents : ∀ x r p, BMap.find w.st.slots x = some r → x < k → r.parent = some p → p < k
  early : ∀ (i : Nat) e a, w.st.accounts[i]? = some e → e.confirmed = some a → a.slot ≠ k
  noted : ∀ pk i e a, w.st.index pk = some i → w.st.accounts[i]? = some e → BMap.find e.processed k = some a → Noted k w.st i
  pcs : ∀ t, Heard k w.st (w.pc t)

/-! ## The walk -/

theorem foldl_addWritable_mem (slot : Nat) : ∀ (is : List Nat) (w : Writable) (x : Nat × Nat),
    x ∈ is.foldl (fun w i => addWritable w slot i) w → x ∈ w ∨ x.2 = slot := by
  intro is
  induction is with
  | nil => exact fun w x h => .inl h
  | cons i is ih =>
    intro w x h
    rcases ih _ x h with h | h
    · simp only [addWritable] at h
      split at h
      · exact .inl h
      · rcases List.mem_append.1 h with h | h
        · exact .inl h
        · simp at h; subst h; exact .inr rfl
    · exact .inr h

/-- Slots before `k` have parents before `k`. -/
def Sloped (k : Nat) (m : BMap SlotStatus) : Prop := ∀ x r p, BMap.find m x = some r → x < k → r.parent = some p → p < k

theorem sloped_insert {k : Nat} {m : BMap SlotStatus} (h : Sloped k m) {x : Nat} {r : SlotStatus}
    (hr : x < k → ∀ p, r.parent = some p → p < k) : Sloped k (BMap.insert m x r) := by
  intro x' r' p hf hx hp
  rw [BMap.find_insert] at hf
  split at hf
  · rename_i he; subst he; simp at hf; subst hf; exact hr hx p hp
  · exact h x' r' p hf hx hp

theorem walk_below {info : SlotInfo} {c : Commitment} {k : Nat} (hi : info.parent < k) : ∀ (fuel : Nat) (slots : BMap SlotStatus)
    (w : Writable) (slot : Nat) (parent : Option Nat) (m : BMap SlotStatus) (l : Writable),
    walk info c fuel slots w slot parent = .ok (m, l) → slot < k → (∀ p, parent = some p → p < k) → Sloped k slots →
    (∀ x ∈ w, x.2 < k) → BMap.find m k = BMap.find slots k ∧ Sloped k m ∧ ∀ x ∈ l, x.2 < k := by
  intro fuel
  induction fuel with
  | zero => intro slots w slot parent m l h; simp [walk] at h
  | succ fuel ih =>
    intro slots w slot parent m l h hs hp hl hw
    have hne : slot ≠ k := by omega
    simp only [walk] at h
    split at h
    · rename_i st hf
      split at h
      · cases h; exact ⟨rfl, hl, hw⟩
      · have hpar : ∀ p, (if parent.isSome = true then parent else st.parent) = some p → p < k := by
          intro p h
          split at h
          · exact hp p h
          · exact hl _ _ _ hf hs h
        have hl' := sloped_insert (x := slot) (r := { st with commitment := c, parent := if parent.isSome = true then parent else st.parent })
          hl (fun _ => hpar)
        have hw' : ∀ x ∈ st.accountsUpdated.foldl (fun w i => addWritable w slot i) w, x.2 < k := by
          intro x hx
          rcases foldl_addWritable_mem _ _ _ _ hx with hx | hx
          · exact hw x hx
          · omega
        have hf' : ∀ r, BMap.find (BMap.insert slots slot r) k = BMap.find slots k := by
          intro r; rw [BMap.find_insert, if_neg hne]
        split at h
        · split at h
          · rename_i p hpe
            obtain ⟨h1, h2, h3⟩ := ih _ _ _ _ _ _ h (hpar p hpe) (by simp) hl' hw'
            exact ⟨h1.trans (hf' _), h2, h3⟩
          · cases h; exact ⟨hf' _, hl', hw'⟩
        · cases h; exact ⟨hf' _, hl', hw'⟩
    · split at h
      · cases h
        refine ⟨by rw [BMap.find_insert, if_neg hne], sloped_insert hl (fun _ p hp => ?_), hw⟩
        simp at hp; omega
      · cases h; exact ⟨rfl, hl, hw⟩

theorem walk_processed {info : SlotInfo} {k fuel : Nat} {slots m : BMap SlotStatus} {w l : Writable} {slot : Nat}
    {parent : Option Nat} (h : walk info .processed fuel slots w slot parent = .ok (m, l)) (hs : k ≤ slot) (hl : Sloped k slots)
    (ho : ∀ r, BMap.find slots k = some r → r.commitment = .processed) :
    (BMap.find m k = BMap.find slots k ∨ (BMap.find slots k = none ∧ ∃ r, BMap.find m k = some r ∧ r.commitment = .processed)) ∧
      Sloped k m := by
  cases fuel with
  | zero => simp [walk] at h
  | succ fuel =>
    simp only [walk] at h
    split at h
    · rename_i st hf
      split at h
      · cases h; exact ⟨.inl rfl, hl⟩
      · rename_i hne
        have hsk : slot ≠ k := by rintro rfl; exact hne (ho _ hf)
        simp only [reduceCtorEq, or_self, if_false] at h
        cases h
        exact ⟨.inl (by rw [BMap.find_insert, if_neg hsk]), sloped_insert hl (fun h => by omega)⟩
    · rename_i hf
      simp only [reduceCtorEq, or_true, if_true] at h
      cases h
      refine ⟨?_, sloped_insert hl (fun h => by omega)⟩
      by_cases hsk : slot = k
      · subst hsk; exact .inr ⟨hf, _, by rw [BMap.find_insert, if_pos rfl], rfl⟩
      · exact .inl (by rw [BMap.find_insert, if_neg hsk])

/-! ## Steps -/

theorem Heard.mono {k : Nat} {s s' : Store} {p : Pc} (h : Heard k s p) (hn : ∀ i, Noted k s i → Noted k s' i)
    (hi : ∀ pk i, p.subject = some pk → s'.index pk = some i → s.index pk = some i) : Heard k s' p := by
  cases p <;> simp only [Heard, Pc.subject, Option.some.injEq, reduceCtorEq, false_implies, implies_true] at h hi ⊢
  case upSlot => exact ⟨h.1, fun j hj => h.2 j (hi _ _ rfl hj)⟩
  case upEntry => exact fun hk => ⟨(h hk).1, fun i h' => hn i ((h hk).2 i (hi _ _ rfl h'))⟩
  case upStore | upAccount | upWrite => exact fun hk => ⟨(h hk).1, hn _ (h hk).2⟩
  case upInsert => exact fun hk => hn _ (h hk)
  all_goals exact h

/-- A step of thread `t` that only forgets indexes. -/
theorem wait_of {k : Nat} {w w' : World} {t : Nat} (h : Wait k w) (hpc : ∀ x, x ≠ t → w'.pc x = w.pc x)
    (hp : Heard k w'.st (w'.pc t)) (hs : ∀ r, BMap.find w'.st.slots k = some r → r.commitment = .processed)
    (hl : Sloped k w'.st.slots) (hn : ∀ i, Noted k w.st i → Noted k w'.st i)
    (hi : ∀ pk i, w'.st.index pk = some i → w.st.index pk = some i)
    (he : ∀ (i : Nat) e a, w'.st.accounts[i]? = some e → e.confirmed = some a → a.slot ≠ k)
    (ha : ∀ pk i e a, w'.st.index pk = some i → w'.st.accounts[i]? = some e → BMap.find e.processed k = some a →
      Noted k w'.st i) : Wait k w' := by
  refine ⟨hs, hl, he, ha, fun x => ?_⟩
  by_cases hx : x = t
  · subst hx; exact hp
  · rw [hpc x hx]; exact (h.pcs x).mono hn (fun pk i _ => hi pk i)

/-- A step that leaves slots, index and accounts alone. -/
theorem wait_same {k : Nat} {w w' : World} {t : Nat} (h : Wait k w) (hpc : ∀ x, x ≠ t → w'.pc x = w.pc x)
    (h1 : w'.st.slots = w.st.slots) (h2 : w'.st.index = w.st.index) (h3 : w'.st.accounts = w.st.accounts)
    (hp : Heard k w.st (w'.pc t)) : Wait k w' := by
  have hn : ∀ i, Noted k w.st i ↔ Noted k w'.st i := by intro i; unfold Noted; rw [h1]
  refine wait_of h hpc (hp.mono (fun i => (hn i).1) (fun pk i _ h => by rw [← h2]; exact h)) (by rw [h1]; exact h.opened)
    (by rw [h1]; exact h.parents) (fun i => (hn i).1) (fun pk i h => by rw [← h2]; exact h) (by rw [h3]; exact h.early) ?_
  intro pk i e a
  rw [h2, h3]
  exact fun h4 h5 h6 => (hn i).1 (h.noted pk i e a h4 h5 h6)

/-- A step that stores another entry at `i`. -/
theorem wait_setAt {k : Nat} {w w' : World} {t i : Nat} {e e' : ByCommitment} (h : Wait k w) (hpc : ∀ x, x ≠ t → w'.pc x = w.pc x)
    (h1 : w'.st.slots = w.st.slots) (h2 : ∀ pk i, w'.st.index pk = some i → w.st.index pk = some i)
    (h3 : w'.st.accounts = w.st.accounts.set i e') (he : w.st.accounts[i]? = some e)
    (hc : ∀ a, e'.confirmed = some a → e.confirmed = some a ∨ a.slot ≠ k)
    (hp : ∀ a, BMap.find e'.processed k = some a → BMap.find e.processed k ≠ none ∨ Noted k w.st i)
    (hh : Heard k w.st (w'.pc t)) : Wait k w' := by
  have hn : ∀ i, Noted k w.st i ↔ Noted k w'.st i := by intro i; unfold Noted; rw [h1]
  have hil : i < w.st.accounts.length := (List.getElem?_eq_some_iff.1 he).1
  refine wait_of h hpc (hh.mono (fun i => (hn i).1) (fun pk i _ => h2 pk i)) (by rw [h1]; exact h.opened)
    (by rw [h1]; exact h.parents) (fun i => (hn i).1) h2 ?_ ?_
  · intro j x a hj hx
    rw [h3] at hj
    by_cases hij : i = j
    · subst hij
      rw [List.getElem?_set_self hil] at hj
      cases hj
      rcases hc a hx with h' | h'
      · exact h.early _ _ _ he h'
      · exact h'
    · rw [List.getElem?_set_ne hij] at hj
      exact h.early _ _ _ hj hx
  · intro pk j x a hk hj hx
    rw [h3] at hj
    refine (hn j).1 ?_
    by_cases hij : i = j
    · subst hij
      rw [List.getElem?_set_self hil] at hj
      cases hj
      rcases hp a hx with h' | h'
      · cases hf : BMap.find e.processed k with
        | none => exact absurd hf h'
        | some b => exact h.noted pk i e b (h2 _ _ hk) he hf
      · exact h'
    · rw [List.getElem?_set_ne hij] at hj
      exact h.noted pk j x a (h2 _ _ hk) hj hx

theorem noted_add {k : Nat} {s : Store} {slot i : Nat} {c : Commitment} {j : Nat} (h : Noted k s j) :
    Noted k (s.addIndexToSlot slot i c).1 j := by
  obtain ⟨r, hr, hj⟩ := h
  unfold Noted
  rw [find_addIndexToSlot]
  split
  · rename_i hk
    subst hk
    refine ⟨_, rfl, ?_⟩
    rw [hr]
    simp only [Option.getD_some]
    split
    · exact hj
    · exact (mem_setInsert _ _ _).2 (.inr hj)
  · exact ⟨r, hr, hj⟩

theorem noted_self {k : Nat} {s : Store} {i : Nat} {c : Commitment} (hc : c = .processed) : Noted k (s.addIndexToSlot k i c).1 i := by
  subst hc
  unfold Noted
  rw [find_addIndexToSlot, if_pos rfl]
  refine ⟨_, rfl, ?_⟩
  simp only [reduceCtorEq, if_false]
  exact (mem_setInsert _ _ _).2 (.inl rfl)

/-- A step that records an account for a slot. -/
theorem wait_add {k : Nat} {w : World} {t slot i : Nat} {c : Commitment} {p : Pc} (h : Wait k w) (hc : slot = k → c = .processed)
    (hp : Heard k (w.st.addIndexToSlot slot i c).1 p) : Wait k (w.go t (w.st.addIndexToSlot slot i c).1 p) := by
  refine wait_of (t := t) h (fun x hx => by rw [go_pc, upd_other hx]) (by rw [go_pc, upd_self]; exact hp) ?_ ?_
    (fun i => noted_add) (by simp) (by simpa using h.early) ?_
  · intro r hr
    simp only [go_st] at hr
    rw [find_addIndexToSlot] at hr
    split at hr
    · rename_i hk
      subst hk
      have := hc rfl
      subst this
      simp only [reduceCtorEq, if_false, Option.some.injEq] at hr
      subst hr
      cases hf : BMap.find w.st.slots slot with
      | none => rfl
      | some st => exact h.opened st hf
    · exact h.opened r hr
  · intro x r p hr hx hpar
    simp only [go_st] at hr
    rw [find_addIndexToSlot] at hr
    split at hr
    · rename_i hk
      subst hk
      simp only [Option.some.injEq] at hr
      have : ((BMap.find w.st.slots slot).getD ⟨c, [], none⟩).parent = some p := by
        rw [← hpar, ← hr]; split <;> rfl
      cases hf : BMap.find w.st.slots slot with
      | none => rw [hf] at this; simp at this
      | some st => rw [hf] at this; exact h.parents _ _ _ hf hx this
    · exact h.parents _ _ _ hr hx hpar
  · intro pk j e a hj he ha
    simp only [go_st, addIndexToSlot_index, addIndexToSlot_accounts] at hj he
    exact noted_add (h.noted pk j e a hj he ha)

theorem doWrite_shape (w : World) (t : Nat) (a : AccountData) (c : Commitment) (i : Nat) {e : ByCommitment}
    (he : w.st.accounts[i]? = some e) : (doWrite w t a c i).st = w.st.setAt i (e.update a c).1 ∧
      (∀ x, x ≠ t → (doWrite w t a c i).pc x = w.pc x) ∧ ((doWrite w t a c i).pc t = .idle ∨
        (∃ prev, (doWrite w t a c i).pc t = .upUnown a prev i) ∨ (doWrite w t a c i).pc t = .upOwn a i) := by
  unfold doWrite
  rw [he]
  simp only
  repeat' split
  all_goals
    refine ⟨rfl, fun x hx => by first | rw [ret_pc, upd_other hx] | rw [go_pc, upd_other hx], ?_⟩
    first | rw [ret_pc, upd_self] | rw [go_pc, upd_self]
    simp

theorem doPromote_shape (w : World) (t : Nat) (c : Commitment) (i slot : Nat) (l : Writable) (out : List AccountData) {e : ByCommitment}
    (he : w.st.accounts[i]? = some e) : (doPromote w t c i slot l out).st = w.st.setAt i (e.promote slot c).1 ∧
      (∀ x, x ≠ t → (doPromote w t c i slot l out).pc x = w.pc x) ∧ ((doPromote w t c i slot l out).pc t = .idle ∨
        (∃ out', (doPromote w t c i slot l out).pc t = .prNext c l out') ∨
        (∃ a prev, (doPromote w t c i slot l out).pc t = .prUnown c i a prev l out) ∨
        ∃ a, (doPromote w t c i slot l out).pc t = .prOwn c i a l out) := by
  unfold doPromote
  rw [he]
  simp only
  repeat' split
  all_goals
    refine ⟨by simp [*], fun x hx => by first | rw [ret_pc, upd_other hx] | rw [go_pc, upd_other hx], ?_⟩
    first | rw [ret_pc, upd_self] | rw [go_pc, upd_self]
    simp

/-- No other thread updates the account that thread `t` updates. -/
def OwnSubject (w : World) (t : Nat) : Prop := ∀ t' pk, t' ≠ t → (w.pc t).subject = some pk → (w.pc t').subject ≠ some pk

theorem ownSubject_of {E : Env} {w : World} (hr : Reachable E w) (h : ApartUpdates w) (t : Nat) : OwnSubject w t := by
  intro t' pk hne ht ht'
  have hlog := reachable_log hr
  obtain ⟨k, hk, hc⟩ := hlog.opened t (by intro h; rw [h] at ht; cases ht)
  obtain ⟨k', hk', hc'⟩ := hlog.opened t' (by intro h; rw [h] at ht'; cases ht')
  have upd : ∀ {p : Pc} {k : Call}, p.subject = some pk → p.serves k → ∃ a c, k = .update a c ∧ a.pubkey = pk := by
    intro p k hp hs
    cases p <;> simp only [Pc.subject, reduceCtorEq, Option.some.injEq] at hp <;>
      (obtain ⟨c, rfl⟩ := hs; exact ⟨_, c, rfl, hp⟩)
  obtain ⟨a, c, rfl, ha⟩ := upd ht hk
  obtain ⟨a', c', rfl, ha'⟩ := upd ht' hk'
  exact h t' t a' a c' c hne hc' hc (by rw [ha, ha'])

theorem wait_step {E : Env} {key : Nat → Pubkey} {k : Nat} {w w' : World} (hg : Good E key w) (hs : Step E w w')
    (hown : ∀ t, OwnSubject w t) (ha : Awaits k w'.log) (h : Wait k w) : Wait k w' := by
  have oth : ∀ {t x : Nat} {p : Pc}, x ≠ t → upd w.pc t p x = w.pc x := fun hx => upd_other hx
  cases hs
  case env => exact ⟨h.opened, h.parents, h.early, h.noted, h.pcs⟩
  case call t q hp =>
    refine wait_same (t := t) h (fun x hx => oth hx) rfl rfl rfl ?_
    simp only [upd_self]
    have hm : (t, Event.call q) ∈ w.log ++ [(t, Event.call q)] := List.mem_append_right _ (List.mem_singleton.2 rfl)
    cases q with
    | update a c => exact ha.updated t a c hm
    | process info c => exact ha.notified t info c hm
    | get => trivial
    | gpa => trivial
  case upWrite t a c i hp =>
    have hpt := h.pcs t
    have hgt := hg.pcs t
    rw [hp] at hpt hgt
    obtain ⟨-, e, he, -⟩ := hg.idx _ _ hgt.2
    obtain ⟨h1, h2, h3⟩ := doWrite_shape w t a c i he
    have hh : Heard k w.st ((doWrite w t a c i).pc t) := by
      rcases h3 with h3 | ⟨_, h3⟩ | h3 <;> rw [h3] <;> trivial
    refine wait_setAt (t := t) h h2 (by rw [h1]; rfl) (by rw [h1]; exact fun _ _ h => h) (by rw [h1]; rfl) he ?_ ?_ hh
    · intro b hb
      rw [update_confirmed] at hb
      by_cases hc : c = .processed
      · rw [if_pos hc] at hb; exact .inl hb
      · rw [if_neg hc] at hb
        split at hb
        · cases hb; exact .inr (fun hk => hc (hpt hk).1)
        · exact .inl hb
    · intro b hb
      rw [update_processed, find_updateProcessed] at hb
      by_cases hk : a.slot = k
      · exact .inr (hpt hk).2
      · rw [if_neg hk] at hb; exact .inl (by rw [hb]; simp)
  case prPromote t c i slot l out hp =>
    have hpt := h.pcs t
    have hgt := hg.pcs t
    rw [hp] at hpt hgt
    obtain ⟨e, he⟩ : ∃ e, w.st.accounts[i]? = some e := ⟨_, List.getElem?_eq_getElem hgt.1⟩
    obtain ⟨h1, h2, h3⟩ := doPromote_shape w t c i slot l out he
    have hh : Heard k w.st ((doPromote w t c i slot l out).pc t) := by
      have hl : c = .processed ∨ ∀ x ∈ l, x.2 < k := hpt.imp id (·.2)
      rcases h3 with h3 | ⟨_, h3⟩ | ⟨_, _, h3⟩ | ⟨_, h3⟩ <;> rw [h3]
      · trivial
      all_goals exact hl
    have hsub : ∀ b, BMap.find (e.promote slot c).1.processed k = some b → BMap.find e.processed k ≠ none := by
      intro b hb
      rw [promote_processed_map] at hb
      split at hb
      · rcases hg.entry i e he with hd | ⟨hok, -⟩
        · subst hd; simp [dead, prune] at hb
        · rw [find_prune_some hok.sorted hb]; simp
      · rw [hb]; simp
    refine wait_setAt (t := t) h h2 (by rw [h1]; rfl) (by rw [h1]; exact fun _ _ h => h) (by rw [h1]; rfl) he ?_
      (fun b hb => .inl (hsub b hb)) hh
    intro b hb
    rw [promote_confirmed] at hb
    split at hb
    · exact .inl hb
    · rename_i x hf
      rcases hpt with hc | ⟨hlt, -⟩
      · rw [if_pos hc] at hb; exact .inl hb
      · have hx : x.slot ≠ k := by
          rcases hg.entry i e he with hd | ⟨hok, -⟩
          · subst hd; simp [dead] at hf
          · have := (hok.keys _ _ hf).1; omega
        split at hb
        · exact .inl hb
        · split at hb
          · rename_i y hy
            split at hb
            · cases hb; exact .inr hx
            · exact .inl (by rw [hy, hb])
          · cases hb; exact .inr hx
  case upDrop t a i hp =>
    have hgt := hg.pcs t
    rw [hp] at hgt
    obtain ⟨-, e, he, -⟩ := hg.idx _ _ hgt.2
    refine wait_setAt (t := t) (i := i) (e := e) (e' := ⟨[], none, none⟩) h (fun x hx => oth hx) rfl ?_ rfl he (by simp) (by simp)
      (by rw [ret_pc, upd_self]; trivial)
    intro pk j hj
    simp only [ret_st, dropKey, setAt] at hj
    split at hj
    · cases hj
    · exact hj
  case prDrop t c i a l out hp hf =>
    have hpt := h.pcs t
    rw [hp] at hpt
    refine wait_of (t := t) h (fun x hx => oth hx) (by rw [go_pc, upd_self]; exact hpt) h.opened h.parents (fun _ h => h) ?_ h.early ?_
    · intro pk j hj
      simp only [go_st, dropKey] at hj
      split at hj
      · cases hj
      · exact hj
    · intro pk j e b hj he hb
      simp only [go_st, dropKey] at hj
      split at hj
      · cases hj
      · exact h.noted pk j e b hj he hb
  case prClear t c i a l out hp =>
    have hpt := h.pcs t
    have hgt := hg.pcs t
    rw [hp] at hpt hgt
    exact wait_setAt (t := t) (i := i) (e' := ⟨[], none, none⟩) h (fun x hx => oth hx) rfl (fun _ _ h => h) rfl
      (List.getElem?_eq_getElem hgt.1) (by simp) (by simp) (by rw [go_pc, upd_self]; exact hpt)
  case upPush t a c hp _ =>
    have hpt := h.pcs t
    rw [hp] at hpt
    refine wait_of (t := t) h (fun x hx => oth hx) (by rw [go_pc, upd_self]; exact hpt) h.opened h.parents (fun _ h => h)
      (fun _ _ h => h) ?_ ?_
    · intro i e b he hb
      simp only [go_st] at he
      by_cases hi : i < w.st.accounts.length
      · rw [List.getElem?_append_left hi] at he
        exact h.early i e b he hb
      · rw [List.getElem?_append_right (by omega)] at he
        have : e = ByCommitment.new a c := by
          cases hx : i - w.st.accounts.length with
          | zero => rw [hx] at he; simpa using he.symm
          | succ n => rw [hx] at he; simp at he
        subst this
        simp only [new] at hb
        split at hb
        · rename_i hc
          cases hb
          intro hk
          rw [hpt hk] at hc; simp at hc
        · cases hb
    · intro pk i e b hi he hb
      simp only [go_st] at he hi
      rw [List.getElem?_append_left (hg.lt hi)] at he
      exact h.noted pk i e b hi he hb
  case upInsert t a i hp =>
    have hpt := h.pcs t
    have hgt := hg.pcs t
    rw [hp] at hpt hgt
    obtain ⟨-, -, -, e0, he0, hok0, hall0⟩ := hgt
    refine ⟨h.opened, h.parents, h.early, ?_, fun x => ?_⟩
    · intro pk j e b hj he hb
      simp only [ret_st] at hj he
      split at hj
      · cases hj
        rw [he0] at he
        cases he
        have : b = a := hall0.1 _ _ hb
        subst this
        exact hpt ((hok0.keys _ _ hb).1)
      · exact h.noted pk j e b hj he hb
    · rw [ret_pc]
      by_cases hx : x = t
      · subst hx; rw [upd_self]; trivial
      · rw [oth hx]
        refine (h.pcs x).mono (fun _ h => h) fun pk j hs hj => ?_
        simp only [ret_st] at hj
        split at hj
        · rename_i he
          subst he
          exact absurd hs (hown t x _ hx (by rw [hp]; rfl))
        · exact hj
  case upSlot t a c i hp =>
    have hpt := h.pcs t
    rw [hp] at hpt
    refine wait_add h hpt.1 fun hk => ⟨?_, fun j hj => ?_⟩
    · subst hk
      have := hpt.1 rfl
      subst this
      simp only [addIndexToSlot]
      cases hf : BMap.find w.st.slots a.slot with
      | none => rfl
      | some st => exact h.opened st hf
    · rw [addIndexToSlot_index] at hj
      rw [hpt.2 j hj, hk]
      exact noted_self (hpt.1 hk)
  case upNewSlot t a c i hp =>
    have hpt := h.pcs t
    rw [hp] at hpt
    exact wait_add h hpt fun hk => by rw [hk]; exact noted_self (hpt hk)
  case prWalk t info c slots wl l hp hw hl =>
    have hpt := h.pcs t
    rw [hp] at hpt
    have hsm : BMap.Sorted slots := by
      obtain ⟨path, hW⟩ := walk_rel _ _ _ _ _ _ _ hw
      exact hW.sorted hg.ranges.sorted
    have hfind : ∀ x r, BMap.find (dropOldSlots slots info.slot c) x = some r → BMap.find slots x = some r := by
      intro x r hr
      rw [find_dropOldSlots hsm] at hr
      split at hr
      · cases hr
      · exact hr
    rcases hpt with ⟨h1, h2⟩ | ⟨h1, rfl⟩
    · obtain ⟨h3, h4, h5⟩ := walk_below h2 _ _ _ _ _ _ _ hw h1 (by simpa using h2) h.parents (by simp)
      have hk : BMap.find (dropOldSlots slots info.slot c) k = BMap.find w.st.slots k := by
        rw [find_dropOldSlots hsm, if_neg (by omega), h3]
      have hn : ∀ i, Noted k w.st i → Noted k (w.go t { w.st with slots := dropOldSlots slots info.slot c } (.prStore c l)).st i := by
        intro i ⟨r, hr, hi⟩
        exact ⟨r, by simp only [go_st]; rw [hk]; exact hr, hi⟩
      refine wait_of (t := t) h (fun x hx => oth hx) (by rw [go_pc, upd_self]; exact .inr fun x hx => h5 x (hl.mem_iff.1 hx))
        (by simp only [go_st]; rw [hk]; exact h.opened) (fun x r p hr => h4 x r p (hfind x r hr)) hn (fun _ _ h => h) h.early ?_
      exact fun pk i e b hi he hb => hn i (h.noted pk i e b hi he hb)
    · obtain ⟨h3, h4⟩ := walk_processed hw h1 h.parents h.opened
      have hn : ∀ i, Noted k w.st i →
          Noted k (w.go t { w.st with slots := dropOldSlots slots info.slot .processed } (.prStore .processed l)).st i := by
        intro i ⟨r, hr, hi⟩
        refine ⟨r, ?_, hi⟩
        simp only [go_st, dropOldSlots, reduceCtorEq, if_false]
        rcases h3 with h3 | ⟨h3, -⟩
        · rw [h3]; exact hr
        · rw [hr] at h3; cases h3
      refine wait_of (t := t) h (fun x hx => oth hx) (by rw [go_pc, upd_self]; exact .inl rfl) ?_
        (fun x r p hr => h4 x r p (hfind x r hr)) hn (fun _ _ h => h) h.early ?_
      · intro r hr
        have hr := hfind k r hr
        rcases h3 with h3 | ⟨-, r', h3, h5⟩
        · rw [h3] at hr; exact h.opened r hr
        · rw [h3] at hr; cases hr; exact h5
      · exact fun pk i e b hi he hb => hn i (h.noted pk i e b hi he hb)
  case upKnown t a c i hp hf hi =>
    have hpt := h.pcs t
    rw [hp] at hpt
    refine wait_same (t := t) h (fun x hx => oth hx) rfl rfl rfl ?_
    rw [go_pc, upd_self]
    exact ⟨hpt, fun j hj => by rw [hi] at hj; cases hj; rfl⟩
  case upUnknown t a c hp hf hi =>
    have hpt := h.pcs t
    rw [hp] at hpt
    refine wait_same (t := t) h (fun x hx => oth hx) rfl rfl rfl ?_
    rw [go_pc, upd_self]
    exact fun hk => ⟨hpt hk, fun j hj => by rw [hi] at hj; cases hj⟩
  case upOccupied t a c i hp hf hi =>
    have hpt := h.pcs t
    rw [hp] at hpt
    refine wait_same (t := t) h (fun x hx => oth hx) rfl rfl rfl ?_
    rw [go_pc, upd_self]
    exact fun hk => ⟨(hpt hk).1, (hpt hk).2 i hi⟩
  case upVacant t a c hp hf hi hs =>
    have hpt := h.pcs t
    rw [hp] at hpt
    refine wait_same (t := t) h (fun x hx => oth hx) rfl rfl rfl ?_
    rw [go_pc, upd_self]
    exact fun hk => (hpt hk).1
  case geRead t pk c i hp hf =>
    obtain ⟨r, hr⟩ := doRead_pc w t c i
    rw [hr]
    exact wait_same (t := t) h (fun x hx => oth hx) rfl rfl rfl (by rw [ret_pc, upd_self]; trivial)
  case gpVisit t p fs c i l retry out hp hf =>
    rcases doVisit_pc E w t p fs c i (fun r => .gpScan p fs c l retry (out ++ r)) with ⟨r, hr⟩ | ⟨r, hr⟩ <;> rw [hr]
    · exact wait_same (t := t) h (fun x hx => oth hx) rfl rfl rfl (by rw [ret_pc, upd_self]; trivial)
    · exact wait_same (t := t) h (fun x hx => oth hx) rfl rfl rfl (by rw [go_pc, upd_self]; trivial)
  case gpRetry t p fs c i l out hp hf =>
    rcases doVisit_pc E w t p fs c i (fun r => .gpRetry p fs c l (out ++ r)) with ⟨r, hr⟩ | ⟨r, hr⟩ <;> rw [hr]
    · exact wait_same (t := t) h (fun x hx => oth hx) rfl rfl rfl (by rw [ret_pc, upd_self]; trivial)
    · exact wait_same (t := t) h (fun x hx => oth hx) rfl rfl rfl (by rw [go_pc, upd_self]; trivial)
  case upUnown t a prev i hp =>
    exact wait_same (t := t) h (fun x hx => oth hx) rfl rfl rfl (by rw [go_pc, upd_self]; split <;> trivial)
  case prUnown t c i a prev l out hp =>
    have hpt := h.pcs t
    rw [hp] at hpt
    exact wait_same (t := t) h (fun x hx => oth hx) rfl rfl rfl (by rw [go_pc, upd_self]; split <;> exact hpt)
  case upOwn t a i hp =>
    exact wait_same (t := t) h (fun x hx => oth hx) (by simp) (by simp) (by simp) (by rw [ret_pc, upd_self]; trivial)
  case prOwn t c i a l out hp =>
    have hpt := h.pcs t
    rw [hp] at hpt
    exact wait_same (t := t) h (fun x hx => oth hx) (by simp) (by simp) (by simp) (by rw [go_pc, upd_self]; exact hpt)
  case prNext t c i slot l out hp hf =>
    have hpt := h.pcs t
    rw [hp] at hpt
    refine wait_same (t := t) h (fun x hx => oth hx) rfl rfl rfl ?_
    rw [go_pc, upd_self]
    exact hpt.imp id fun h => ⟨h (i, slot) List.mem_cons_self, fun x hx => h x (List.mem_cons_of_mem _ hx)⟩
  case upNewOwn t a c i hp =>
    have hpt := h.pcs t
    rw [hp] at hpt
    exact wait_same (t := t) h (fun x hx => oth hx) rfl rfl rfl (by rw [go_pc, upd_self]; exact hpt)
  case upTake t a c hp hf hc =>
    have hpt := h.pcs t
    rw [hp] at hpt
    exact wait_same (t := t) h (fun x hx => oth hx) rfl rfl rfl (by rw [go_pc, upd_self]; exact hpt)
  case upStore t a c i hp hr =>
    have hpt := h.pcs t
    rw [hp] at hpt
    exact wait_same (t := t) h (fun x hx => oth hx) rfl rfl rfl (by rw [go_pc, upd_self]; exact hpt)
  case upAccount t a c i hp hf =>
    have hpt := h.pcs t
    rw [hp] at hpt
    exact wait_same (t := t) h (fun x hx => oth hx) rfl rfl rfl (by rw [go_pc, upd_self]; exact hpt)
  case prStore t c l hp hr =>
    have hpt := h.pcs t
    rw [hp] at hpt
    exact wait_same (t := t) h (fun x hx => oth hx) rfl rfl rfl (by rw [go_pc, upd_self]; exact hpt)
  all_goals first
    | exact wait_same h (fun x hx => oth hx) rfl rfl rfl (by rw [go_pc, upd_self]; trivial)
    | exact wait_same h (fun x hx => oth hx) rfl rfl rfl (by rw [ret_pc, upd_self]; trivial)

theorem ApartSteps.steps {E : Env} {w w' : World} (h : ApartSteps E w w') : Steps E w w' := by
  induction h with
  | refl => exact .refl _
  | tail _ hs _ ih => exact .tail ih hs

theorem wait_init (k : Nat) (F : Filters) : Wait k (World.init F) := by
  refine ⟨?_, ?_, ?_, ?_, fun t => trivial⟩ <;> simp [World.init, Store.empty]

theorem Awaits.mono {k : Nat} {log log' : List (Nat × Event)} (h : Awaits k log') (hl : ∀ e ∈ log, e ∈ log') : Awaits k log :=
  ⟨fun t a c hm => h.updated t a c (hl _ hm), fun t info c hm => h.notified t info c (hl _ hm)⟩

theorem apart_wait {E : Env} {k : Nat} {F : Filters} {w : World} (h : ApartSteps E (World.init F) w) (ha : Awaits k w.log) :
    Wait k w := by
  have hr : ∀ {w}, ApartSteps E (World.init F) w → Reachable E w := fun h => ⟨F, h.steps⟩
  have h0 : ApartUpdates (World.init F) := by
    rintro t t' a a' c c' - ⟨pre, mid, h, -⟩; simp [World.init] at h
  have hw0 := wait_init k F
  generalize World.init F = w0 at h hr h0 hw0
  have hlast : ∀ {w}, ApartSteps E w0 w → ApartUpdates w := by
    intro w h
    cases h with
    | refl => exact h0
    | tail _ _ h => exact h
  induction h with
  | refl => exact hw0
  | @tail w w' hst hs hap ih =>
    obtain ⟨-, key, hg⟩ := reachable_good (hr hst)
    obtain ⟨l, hl⟩ := steps_log (hr hst) (.tail (.refl _) hs)
    exact wait_step hg hs (ownSubject_of (hr hst) (hlast hst)) ha (ih (ha.mono fun e he => by rw [hl]; exact List.mem_append_left _ he))

/-! ## The notification -/

/-- Confirming a slot that is not confirmed yet shows the state that waits for it. -/
theorem confirm_noted {s s' : Store} {F : Filters} {σ : Order} {info : SlotInfo} {r : List AccountData} {pk : Pubkey} {i : Nat}
    {e : ByCommitment} {a : AccountData} (hi : Inv s) (hx : s.index pk = some i) (he : s.accounts[i]? = some e)
    (ha : BMap.find e.processed info.slot = some a) (hc : ∀ b, e.confirmed = some b → b.slot < a.slot)
    (ho : ∀ r, BMap.find s.slots info.slot = some r → r.commitment = .processed) (hn : Noted info.slot s i)
    (hp : s.processSlotData F σ info .confirmed = .ok (s', r)) : ∃ e', s'.view pk = some e' ∧ e'.confirmed = some a := by
  obtain ⟨s2, r2, hp2, path, m', w, hcase⟩ := processSlot_case hi F σ info .confirmed
  rw [hp] at hp2
  cases hp2
  obtain ⟨st, hf, hmem⟩ := hn
  have hst := ho st hf
  obtain ⟨t, hpath⟩ : ∃ t, path = info.slot :: t := by
    have hw := hcase.walk
    cases hw with
    | same hf' hc' => rw [hf] at hf'; cases hf'; rw [hst] at hc'; cases hc'
    | stop => exact ⟨[], rfl⟩
    | next => exact ⟨_, rfl⟩
    | fresh hf' => rw [hf] at hf'; cases hf'
    | missing hf' => rw [hf] at hf'; cases hf'
  have hiu : i ∈ Store.upd s.slots info.slot := mem_upd.2 ⟨st, hf, hmem⟩
  have only : ∀ k, (i, k) ∈ w → k = info.slot := by
    intro k hk
    rw [hcase.gathered] at hk
    obtain ⟨p1, p2, hpp, hq⟩ := gather_first (m := s.slots) (path := path) (w := []) (by simp) (by simp) hk
    cases p1 with
    | nil => rw [hpath] at hpp; simp at hpp; exact hpp.1.symm
    | cons y p1 =>
      rw [hpath] at hpp; simp at hpp
      exact absurd hiu (hq info.slot (by simp [hpp.1]))
  obtain ⟨k0, hk0⟩ := gather_covers (m := s.slots) (path := path) (w := []) (k := info.slot) (i := i) (by rw [hpath]; simp) hiu
  rw [← hcase.gathered] at hk0
  rcases hcase.view hi pk with ⟨h0, -⟩ | ⟨i2, e2, h0, h2, -, -, hcs⟩
  · rw [hx] at h0; cases h0
  rw [hx] at h0; cases h0
  have hv : s.view pk = some e := by simp only [Store.view, hx, he]
  rw [hv] at h2; cases h2
  obtain ⟨k, hk, hv', -⟩ : ∃ k, (i, k) ∈ w ∧ s'.view pk = after F .confirmed e k ∧
      (s'.index pk = some i ∨ (s'.index pk = none ∧ after F .confirmed e k = none)) := by
    rcases hcs with ⟨hno, -⟩ | h
    · exact absurd hk0 (hno _)
    · exact h
  rw [only k hk] at hv'
  have hafter : after F .confirmed e info.slot = some (e.promote info.slot .confirmed).1 := by
    unfold after
    split
    · rw [if_neg]; simp [Removes]
    · rfl
  refine ⟨_, hv'.trans hafter, ?_⟩
  rw [promote_confirmed, ha]
  simp only [reduceCtorEq, if_false]
  cases hb : e.confirmed with
  | none => rfl
  | some b => simp only; rw [if_pos (hc b hb)]

/-! ## Schedules -/

/-- A schedule in which `P` holds after every move. -/
def always (P : World → Bool) (E : Env) (n : Nat) (w : World) : List Move → Bool
  | [] => true
  | m :: ms => match move E n w m with
    | some w' => P w' && always P E n w' ms
    | none => false

/-- Among the first `n` threads, those in updates update different accounts. -/
def apartNow (n : Nat) (w : World) : Bool :=
  (List.range n).all fun t => (List.range n).all fun t' => t == t' ||
    match (w.pc t).subject, (w.pc t').subject with
    | some pk, some pk' => pk != pk'
    | _, _ => true

/-- Among the first `n` threads, at most one is in a writing call. -/
def soleNow (n : Nat) (w : World) : Bool :=
  (List.range n).all fun t => (List.range n).all fun t' => t == t' || !(w.pc t).modifies || !(w.pc t').modifies

theorem within_call {E : Env} {n : Nat} {w : World} (hr : Reachable E w) (hw : Within n w) {t : Nat} {k : Call}
    (hc : LastCall w.log t k) : t < n := by
  apply Classical.byContradiction; intro hn
  have hs := reachable_open hr t k hc
  rw [hw t (by omega)] at hs; exact hs

theorem apartNow_spec {E : Env} {n : Nat} {w : World} (hr : Reachable E w) (hw : Within n w) (h : apartNow n w = true) :
    ApartUpdates w := by
  intro t t' a a' c c' hne hc hc'
  simp only [apartNow, List.all_eq_true, List.mem_range] at h
  have h := h t (within_call hr hw hc) t' (within_call hr hw hc')
  rw [serves_subject (reachable_open hr _ _ hc), serves_subject (reachable_open hr _ _ hc')] at h
  simpa [hne] using h

theorem soleNow_spec {E : Env} {n : Nat} {w : World} (hr : Reachable E w) (hw : Within n w) (h : soleNow n w = true) : OneCall w := by
  intro t t' k k' hc hc' hk hk'
  simp only [soleNow, List.all_eq_true, List.mem_range] at h
  have h := h t (within_call hr hw hc) t' (within_call hr hw hc')
  rw [serves_modifies (reachable_open hr _ _ hc), hk, serves_modifies (reachable_open hr _ _ hc'), hk'] at h
  simpa using h

theorem ApartSteps.head {E : Env} {w w1 w' : World} (hs : Step E w w1) (hc : ApartUpdates w1) (h : ApartSteps E w1 w') :
    ApartSteps E w w' := by
  induction h with
  | refl => exact .tail (.refl _) hs hc
  | tail _ hs' hc' ih => exact .tail ih hs' hc'

theorem schedule_apart {E : Env} {n : Nat} {ms : List Move} : ∀ {w w' : World}, Reachable E w → Within n w →
    schedule E n w ms = some w' → always (apartNow n) E n w ms = true → ApartSteps E w w' := by
  induction ms with
  | nil => intro w w' _ _ h _; cases h; exact .refl _
  | cons m ms ih =>
    intro w w' hr hw h hl
    simp only [schedule] at h
    simp only [always] at hl
    split at h
    · rename_i w1 h1
      rw [h1] at hl
      simp only [Bool.and_eq_true] at hl
      obtain ⟨hs, hw1⟩ := move_sound hw h1
      have hr1 := Steps.reachable hr (.tail (.refl _) hs)
      exact .head hs (apartNow_spec hr1 hw1 hl.1) (ih hr1 hw1 h hl.2)
    · cases h

theorem schedule_sole {E : Env} {n : Nat} {ms : List Move} : ∀ {w w' : World}, Reachable E w → Within n w →
    schedule E n w ms = some w' → always (soleNow n) E n w ms = true → ∃ Fs, SingleWriter E Fs w w' := by
  induction ms with
  | nil => intro w w' _ _ h _; cases h; exact ⟨[], .refl _⟩
  | cons m ms ih =>
    intro w w' hr hw h hl
    simp only [schedule] at h
    simp only [always] at hl
    split at h
    · rename_i w1 h1
      rw [h1] at hl
      simp only [Bool.and_eq_true] at hl
      obtain ⟨hs, hw1⟩ := move_sound hw h1
      have hr1 := Steps.reachable hr (.tail (.refl _) hs)
      obtain ⟨Fs, h2⟩ := ih hr1 hw1 h hl.2
      exact ⟨_, .head hs (soleNow_spec hr1 hw1 hl.1) (.inl (move_filters h1)) h2⟩
    · cases h

theorem played_within {E : Env} {n : Nat} {F : Filters} (ms : List Move) : Within n (played E n F ms) := by
  unfold played
  cases h : schedule E n (World.init F) ms with
  | none => exact fun _ _ => rfl
  | some w => exact (schedule_sound (within_init n F) h).2

theorem played_apart {E : Env} {n : Nat} {F : Filters} {ms : List Move} (h : (schedule E n (World.init F) ms).isSome = true)
    (hl : always (apartNow n) E n (World.init F) ms = true) : ApartSteps E (World.init F) (played E n F ms) := by
  unfold played
  cases h1 : schedule E n (World.init F) ms with
  | none => rw [h1] at h; cases h
  | some w => exact schedule_apart ⟨F, .refl _⟩ (within_init n F) h1 hl

/-- The schedule goes on with only one writing call at a time. -/
theorem played_sole {E : Env} {n : Nat} {F : Filters} {ms ms' : List Move}
    (h : (schedule E n (World.init F) (ms ++ ms')).isSome = true)
    (hl : always (soleNow n) E n (played E n F ms) ms' = true) :
    ∃ Fs, SingleWriter E Fs (played E n F ms) (played E n F (ms ++ ms')) := by
  have h1 := schedule_prefix h
  obtain ⟨w, hw⟩ := Option.isSome_iff_exists.1 h1
  obtain ⟨w', hw'⟩ := Option.isSome_iff_exists.1 h
  have e1 : played E n F ms = w := by unfold played; rw [hw]; rfl
  have e2 : played E n F (ms ++ ms') = w' := by unfold played; rw [hw']; rfl
  rw [e1] at hl ⊢
  rw [e2]
  rw [schedule_append, hw] at hw'
  obtain ⟨h3, h4⟩ := schedule_sound (within_init n F) hw
  exact schedule_sole ⟨F, h3⟩ h4 hw' hl

theorem played_noWriter {E : Env} {F : Filters} {ms : List Move} (h0 : ((played E 2 F ms).pc 0).modifies = false)
    (h1 : ((played E 2 F ms).pc 1).modifies = false) : NoWriter (played E 2 F ms) := by
  refine (noWriter_iff (played_reachable ..)).2 fun t => ?_
  match t with
  | 0 => exact h0
  | 1 => exact h1
  | t + 2 => rw [played_within ms (t + 2) (by omega)]; rfl

end LAM.Conc
