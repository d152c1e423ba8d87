import Verif.Spec.StoreConcTime
import Verif.Lemmas.StoreConcWait
/-!
# Concurrent calls of the in-memory account store: states do not go back
-/
namespace LAM.Conc
open Store World ByCommitment Spec

theorem older_asymm {a b : AccountData} (h : Older a b) : ¬ Older b a := by simp only [Older] at *; omega

theorem notOlder_trans {a b c : AccountData} (h : ¬ Older b a) (h' : ¬ Older c b) : ¬ Older c a := by
  simp only [Older] at *; omega

/-- What `e` has, `e'` has, or something newer. -/
def Grown (e e' : ByCommitment) : Prop := ∀ c a, e.get c = some a → ∃ a', e'.get c = some a' ∧ ¬ Older a' a

theorem Grown.refl (e : ByCommitment) : Grown e e := fun _ a h => ⟨a, h, Older.irrefl a⟩

theorem Grown.trans {e e' e'' : ByCommitment} (h : Grown e e') (h' : Grown e' e'') : Grown e e'' := by
  intro c a ha
  obtain ⟨b, hb, h1⟩ := h c a ha
  obtain ⟨d, hd, h2⟩ := h' c b hb
  exact ⟨d, hd, notOlder_trans h1 h2⟩

theorem grown_update {e : ByCommitment} {a : AccountData} (ho : EntryOK a.pubkey e) (c : Commitment) : Grown e (e.update a c).1 := by
  intro d b hb
  cases d with
  | processed =>
    rw [(entryOK_update ho c).get_processed, update_processed]
    rw [ho.get_processed] at hb
    refine ⟨_, last_updateProcessed ho.sorted (fun k b hb => (ho.keys k b hb).1) hb a, ?_⟩
    split
    · rename_i h; exact older_asymm h
    · exact Older.irrefl b
  | confirmed =>
    simp only [ByCommitment.get] at hb ⊢
    rw [update_confirmed, hb]
    split
    · exact ⟨b, rfl, Older.irrefl b⟩
    · split
      · rename_i hn; exact ⟨a, rfl, older_asymm ((isNewer_some b a).1 hn)⟩
      · exact ⟨b, rfl, Older.irrefl b⟩
  | finalized =>
    simp only [ByCommitment.get] at hb ⊢
    rw [update_finalized, hb]
    split
    · rename_i hn; exact ⟨a, rfl, older_asymm ((isNewer_some b a).1 hn.2)⟩
    · exact ⟨b, rfl, Older.irrefl b⟩

theorem grown_promote {pk : Pubkey} {e : ByCommitment} (ho : EntryOK pk e) (k : Nat) (c : Commitment) : Grown e (e.promote k c).1 := by
  intro d b hb
  cases d with
  | processed =>
    rw [(entryOK_promote ho k c).get_processed, promote_processed_map]
    rw [ho.get_processed] at hb
    split
    · rw [last_prune]; exact ⟨b, hb, Older.irrefl b⟩
    · exact ⟨b, hb, Older.irrefl b⟩
  | confirmed =>
    simp only [ByCommitment.get] at hb ⊢
    rw [promote_confirmed, hb]
    split
    · exact ⟨b, rfl, Older.irrefl b⟩
    · split
      · exact ⟨b, rfl, Older.irrefl b⟩
      · simp only
        split
        · rename_i a _ _ hn; exact ⟨a, rfl, older_asymm (.inl hn)⟩
        · exact ⟨b, rfl, Older.irrefl b⟩
  | finalized =>
    simp only [ByCommitment.get] at hb ⊢
    rw [promote_finalized, hb]
    split
    · exact ⟨b, rfl, Older.irrefl b⟩
    · split
      · simp only
        split
        · rename_i a _ _ hn; exact ⟨a, rfl, older_asymm (.inl hn)⟩
        · exact ⟨b, rfl, Older.irrefl b⟩
      · exact ⟨b, rfl, Older.irrefl b⟩

/-- The update is contained in the entry: at processed, and at every commitment if it was finalized. -/
def Holds (a : AccountData) (c : Commitment) (e : ByCommitment) : Prop :=
  ∀ d, d = .processed ∨ c = .finalized → ∃ b, e.get d = some b ∧ ¬ Older b a

theorem Holds.grown {a : AccountData} {c : Commitment} {e e' : ByCommitment} (h : Holds a c e) (hg : Grown e e') : Holds a c e' := by
  intro d hd
  obtain ⟨b, hb, h1⟩ := h d hd
  obtain ⟨b', hb', h2⟩ := hg d b hb
  exact ⟨b', hb', notOlder_trans h1 h2⟩

theorem holds_update {e : ByCommitment} {a : AccountData} (ho : EntryOK a.pubkey e) {c c' : Commitment}
    (hc : c = .finalized → c' = .finalized) : Holds a c (e.update a c').1 := by
  intro d hd
  cases d with
  | processed =>
    rw [(entryOK_update ho c').get_processed, update_processed]
    obtain ⟨p, hp, -⟩ := ho.last
    refine ⟨_, last_updateProcessed ho.sorted (fun k b hb => (ho.keys k b hb).1) hp a, ?_⟩
    split
    · exact Older.irrefl a
    · assumption
  | confirmed =>
    obtain rfl := hc (by simpa using hd)
    simp only [ByCommitment.get]
    rw [update_confirmed]
    rw [if_neg (by simp)]
    cases h : e.confirmed with
    | none => exact ⟨a, by simp [isNewer], Older.irrefl a⟩
    | some x =>
      split
      · exact ⟨a, rfl, Older.irrefl a⟩
      · rename_i hn; exact ⟨x, rfl, fun h => hn ((isNewer_some x a).2 h)⟩
  | finalized =>
    obtain rfl := hc (by simpa using hd)
    simp only [ByCommitment.get]
    rw [update_finalized]
    cases h : e.finalized with
    | none => exact ⟨a, by simp [isNewer], Older.irrefl a⟩
    | some x =>
      split
      · exact ⟨a, rfl, Older.irrefl a⟩
      · rename_i hn; exact ⟨x, rfl, fun h => hn ⟨rfl, (isNewer_some x a).2 h⟩⟩

theorem holds_new {a : AccountData} {c c' : Commitment} (hc : c = .finalized → c' = .finalized) : Holds a c (new a c') := by
  intro d hd
  refine ⟨a, ?_, Older.irrefl a⟩
  rcases hd with rfl | hd
  · cases c' <;> rfl
  · rw [hc hd]; cases d <;> rfl

/-! ## Entries -/

theorem setAt_getElem (s : Store) (i : Nat) (e : ByCommitment) (j : Nat) :
    (s.setAt i e).accounts[j]? = if i = j ∧ j < s.accounts.length then some e else s.accounts[j]? := by
  simp only [Store.setAt, List.getElem?_set]
  by_cases h : i = j
  · subst h
    by_cases hl : i < s.accounts.length
    · simp [hl]
    · simp [hl]
  · simp [h]

/-- An entry that belongs to an account only grows. -/
theorem entry_step {E : Env} {key : Nat → Pubkey} {w w' : World} (hg : Good E key w) (hs : Step E w w') {i : Nat} {e : ByCommitment}
    (he : w.st.accounts[i]? = some e)
    (hk : (∃ pk, w.st.index pk = some i ∧ w'.st.index pk ≠ none) ∨ ∃ t, (w.pc t).making = some i) :
    ∃ e', w'.st.accounts[i]? = some e' ∧ Grown e e' := by
  have same : w'.st.accounts = w.st.accounts → ∃ e', w'.st.accounts[i]? = some e' ∧ Grown e e' := fun h => ⟨e, by rw [h]; exact he, .refl e⟩
  have hok : EntryOK (key i) e := by
    rcases hk with ⟨pk, h, -⟩ | ⟨t, h⟩
    · obtain ⟨h1, e', he', h2⟩ := hg.idx pk i h
      rw [he] at he'; cases he'; rw [h1]; exact h2
    · have := hg.pcs t
      cases hp : w.pc t <;> rw [hp] at h this <;> simp only [Pc.making, reduceCtorEq, Option.some.injEq] at h <;> subst h
      all_goals
        obtain ⟨-, -, h1, e', he', h2, -⟩ := this
        rw [he] at he'; cases he'; rw [h1]; exact h2
  have set : ∀ {j : Nat} {e' : ByCommitment}, w'.st.accounts = (w.st.setAt j e').accounts → (j = i → Grown e e') →
      ∃ e', w'.st.accounts[i]? = some e' ∧ Grown e e' := by
    intro j e' h hgr
    rw [h, setAt_getElem]
    split
    · rename_i hj; exact ⟨e', rfl, hgr hj.1⟩
    · exact ⟨e, he, .refl e⟩
  -- the entry of an account that is in the index
  have hidx : ∀ {pk : Pubkey}, w.st.index pk = some i → w.st.index pk = some i ∧ ∃ pk, w.st.index pk = some i ∧ w'.st.index pk ≠ none := by
    intro pk h
    refine ⟨h, ?_⟩
    rcases hk with hk | ⟨t, ht⟩
    · exact hk
    · exact absurd ht (no_maker hg h t)
  cases hs
  case upWrite t a c j hp =>
    have hgt := hg.pcs t
    rw [hp] at hgt
    obtain ⟨hkj, ej, hej, hokj⟩ := hg.idx _ _ hgt.2
    obtain ⟨h1, -⟩ := doWrite_shape w t a c j hej
    refine set (by rw [h1]) ?_
    rintro rfl
    rw [he] at hej; cases hej
    exact grown_update hokj c
  case prPromote t c j slot l out hp =>
    have hgt := hg.pcs t
    rw [hp] at hgt
    obtain ⟨ej, hej⟩ : ∃ e, w.st.accounts[j]? = some e := ⟨_, List.getElem?_eq_getElem hgt.1⟩
    obtain ⟨h1, -⟩ := doPromote_shape w t c j slot l out hej
    refine set (by rw [h1]) ?_
    rintro rfl
    rw [he] at hej; cases hej
    exact grown_promote hok slot c
  case upDrop t a j hp =>
    have hgt := hg.pcs t
    rw [hp] at hgt
    refine set rfl ?_
    rintro rfl
    obtain ⟨-, pk, h1, h2⟩ := hidx hgt.2
    obtain rfl : pk = a.pubkey := by rw [← (hg.idx _ _ h1).1, ← (hg.idx _ _ hgt.2).1]
    simp [dropKey] at h2
  case prClear t c j a l out hp =>
    have hgt := hg.pcs t
    rw [hp] at hgt
    refine set rfl ?_
    rintro rfl
    rcases hk with ⟨pk, h1, -⟩ | ⟨x, hx⟩
    · rw [← (hg.idx _ _ h1).1] at h1; exact absurd h1 hgt.2.1
    · exact absurd (by rw [hp]; rfl) (hg.apart x t j hx)
  case upPush t a c hp hn =>
    refine ⟨e, ?_, .refl e⟩
    simp only [go_st]
    rw [List.getElem?_append_left (List.getElem?_eq_some_iff.1 he).1]; exact he
  case upOwn => exact same (by unfold own; split <;> rfl)
  case prOwn => exact same (by unfold own; split <;> rfl)
  case geRead => exact same (by unfold doRead; split <;> rfl)
  case gpVisit => exact same (by unfold doVisit; (repeat' split) <;> rfl)
  case gpRetry => exact same (by unfold doVisit; (repeat' split) <;> rfl)
  all_goals exact same (by simp [Store.removeAccountOwner, Store.addAccountOwner, Store.dropKey])

/-! ## Executions -/

/-- The account is at `i` and its state has grown from `e`. -/
theorem trace_grown {E : Env} {w1 w : World} {vs : List World} {pk : Pubkey} (hr : Reachable E w1) (h : Trace E w1 vs w)
    (ht : TrackedIn pk vs) {i : Nat} {e : ByCommitment} (hi : w1.st.index pk = some i) (he : w1.st.accounts[i]? = some e) :
    w.st.index pk = some i ∧ ∃ e', w.st.accounts[i]? = some e' ∧ Grown e e' := by
  induction h with
  | refl => exact ⟨hi, e, he, .refl e⟩
  | @tail vs w w' h hs ih =>
    obtain ⟨h1, e', h2, h3⟩ := ih (fun v hv => ht v (by simp [hv]))
    obtain ⟨-, key, hg⟩ := reachable_good (Steps.reachable hr h.steps)
    have hn : w'.st.index pk ≠ none := by
      have := ht w' (by simp)
      simp only [containsKey] at this
      exact fun h => by rw [h] at this; cases this
    obtain ⟨e'', h4, h5⟩ := entry_step hg hs h2 (.inl ⟨pk, h1, hn⟩)
    exact ⟨(step_index hs hg pk i h1).resolve_right hn, e'', h4, h3.trans h5⟩

theorem Trace.append {E : Env} {w1 w2 w3 : World} {vs us : List World} (h : Trace E w1 vs w2) {w2' : World} (hs : Step E w2 w2')
    (h' : Trace E w2' us w3) : Trace E w1 (vs ++ us) w3 := by
  induction h' with
  | refl => exact .tail h hs
  | tail _ hs' ih => rw [← List.append_assoc]; exact .tail ih hs'

/-- From a state of the execution on. -/
theorem Trace.from {E : Env} {w1 w v : World} {vs : List World} (h : Trace E w1 vs w) (hv : v ∈ vs) :
    ∃ us, Trace E v us w ∧ (∀ u ∈ us, u ∈ vs) := by
  induction h with
  | refl => simp at hv; subst hv; exact ⟨_, .refl, fun _ h => h⟩
  | @tail vs w w' h hs ih =>
    rw [List.mem_append] at hv
    rcases hv with hv | hv
    · obtain ⟨us, h1, h2⟩ := ih hv
      refine ⟨us ++ [w'], .tail h1 hs, fun u hu => ?_⟩
      rw [List.mem_append] at hu ⊢
      exact hu.imp (h2 u) id
    · simp at hv; subst hv; exact ⟨_, .refl, by simp⟩

/-- Up to a state of the execution. -/
theorem Trace.upto {E : Env} {w1 w v : World} {vs : List World} (h : Trace E w1 vs w) (hv : v ∈ vs) :
    ∃ us, Trace E w1 us v ∧ (∀ u ∈ us, u ∈ vs) := by
  induction h with
  | refl => simp at hv; subst hv; exact ⟨_, .refl, fun _ h => h⟩
  | @tail vs w w' h hs ih =>
    rw [List.mem_append] at hv
    rcases hv with hv | hv
    · obtain ⟨us, h1, h2⟩ := ih hv
      exact ⟨us, h1, fun u hu => by simp [h2 u hu]⟩
    · simp at hv; subst hv; exact ⟨_, .tail h hs, fun _ h => h⟩

theorem tracked_entry {E : Env} {w : World} {pk : Pubkey} (hr : Reachable E w) (ht : w.st.containsKey pk = true) :
    ∃ i e, w.st.index pk = some i ∧ w.st.accounts[i]? = some e ∧ EntryOK pk e := by
  obtain ⟨-, key, hg⟩ := reachable_good hr
  simp only [containsKey] at ht
  obtain ⟨i, hi⟩ := Option.isSome_iff_exists.1 ht
  obtain ⟨-, e, he, ho⟩ := hg.idx pk i hi
  exact ⟨i, e, hi, he, ho⟩

/-! ## Updates -/

/-- What a thread that executes this update has in hand. -/
def Doing (a : AccountData) (c : Commitment) (s : Store) : Pc → Prop
  | .upCheck a' c' | .upLookup a' c' | .upEntry a' c' | .upPush a' c' | .upSlot a' c' _ | .upStore a' c' _ | .upAccount a' c' _
  | .upWrite a' c' _ => a' = a ∧ (c = .finalized → c' = .finalized)
  | .upUnown a' _ i | .upOwn a' i | .upNewOwn a' _ i | .upNewSlot a' _ i | .upInsert a' i =>
    a' = a ∧ ∃ e, s.accounts[i]? = some e ∧ Holds a c e
  | .upDrop a' _ => a' = a
  | _ => False

/-- The account is tracked, and its entry contains the update. -/
def Contained (a : AccountData) (c : Commitment) (s : Store) : Prop :=
  s.containsKey a.pubkey = true → ∃ i e, s.index a.pubkey = some i ∧ s.accounts[i]? = some e ∧ Holds a c e

theorem contained_none {a : AccountData} {c : Commitment} {s : Store} (h : s.index a.pubkey = none) : Contained a c s := by
  intro ht; simp [containsKey, h] at ht

/-- A step while an update is executed. -/
theorem doing_step {E : Env} {key key' : Nat → Pubkey} {w w' : World} (hs : Step E w w') (hg : Good E key w) (hg' : Good E key' w')
    {t : Nat} {a : AccountData} {c : Commitment} (h : Doing a c w.st (w.pc t)) :
    Doing a c w'.st (w'.pc t) ∨ ∃ r, w'.log = w.log ++ [(t, .ret r)] ∧ Contained a c w'.st := by
  by_cases hsame : w'.pc t = w.pc t
  · left
    have hgt := hg.pcs t
    have hgt' := hg'.pcs t
    rw [hsame] at hgt' ⊢
    have keep : ∀ {i}, ((∃ pk, w.st.index pk = some i ∧ w'.st.index pk ≠ none) ∨ ∃ t, (w.pc t).making = some i) →
        (∃ e, w.st.accounts[i]? = some e ∧ Holds a c e) → ∃ e, w'.st.accounts[i]? = some e ∧ Holds a c e := by
      rintro i hk ⟨e, he, hh⟩
      obtain ⟨e', he', hgr⟩ := entry_step hg hs he hk
      exact ⟨e', he', hh.grown hgr⟩
    cases hq : w.pc t <;> rw [hq] at h hgt hgt' <;> first
      | exact h
      | exact ⟨h.1, keep (.inl ⟨_, hgt.2, by rw [hgt'.2]; simp⟩) h.2⟩
      | exact ⟨h.1, keep (.inr ⟨t, by rw [hq]; rfl⟩) h.2⟩
  have here : ∀ {x : Nat} {q : Pc}, w'.pc = upd w.pc x q → x = t := by
    intro x q hq
    apply Classical.byContradiction
    intro hx
    exact hsame (by rw [hq, upd_other (Ne.symm hx)])
  have hgt := hg.pcs t
  cases hs
  case env => exact (hsame rfl).elim
  case call x k hp => obtain rfl := here rfl; rw [hp] at h; exact h.elim
  case upSkip x a' c' hp hf hc =>
    obtain rfl := here rfl; rw [hp] at h; obtain ⟨rfl, -⟩ := h
    refine .inr ⟨_, rfl, contained_none ?_⟩
    simp only [Bool.and_eq_true, containsKey, Bool.not_eq_true', Option.isSome_eq_false_iff, Option.isNone_iff_eq_none] at hc
    exact hc.2
  case upTake x a' c' hp hf hc => obtain rfl := here rfl; rw [hp] at h; left; rw [go_pc, upd_self]; exact h
  case upKnown x a' c' i hp hf hc => obtain rfl := here rfl; rw [hp] at h; left; rw [go_pc, upd_self]; exact h
  case upUnknown x a' c' hp hf hc => obtain rfl := here rfl; rw [hp] at h; left; rw [go_pc, upd_self]; exact h
  case upSlot x a' c' i hp =>
    obtain rfl := here rfl; rw [hp] at h; left; rw [go_pc, upd_self]
    refine ⟨h.1, fun hc => ?_⟩
    rw [h.2 hc]; rfl
  case upOccupied x a' c' i hp hf hc => obtain rfl := here rfl; rw [hp] at h; left; rw [go_pc, upd_self]; exact h
  case upVacant x a' c' hp hf hc hs => obtain rfl := here rfl; rw [hp] at h; left; rw [go_pc, upd_self]; exact h
  case upIgnore x a' c' hp hf hc hs =>
    obtain rfl := here rfl; rw [hp] at h; obtain ⟨rfl, -⟩ := h
    exact .inr ⟨_, rfl, contained_none hc⟩
  case upStore x a' c' i hp hc => obtain rfl := here rfl; rw [hp] at h; left; rw [go_pc, upd_self]; exact h
  case upAccount x a' c' i hp hc => obtain rfl := here rfl; rw [hp] at h; left; rw [go_pc, upd_self]; exact h
  case upWrite x a' c' i hp =>
    have hx : x = t := by
      rcases doWrite_pc w x a' c' i with ⟨_, _, e⟩ | ⟨_, _, _, e⟩ | ⟨_, e⟩
      all_goals exact here (by rw [e]; rfl)
    subst hx
    rw [hp] at h hgt
    obtain ⟨rfl, hc⟩ := h
    obtain ⟨-, e, he, ho⟩ := hg.idx _ _ hgt.2
    obtain ⟨h1, -, h3⟩ := doWrite_shape w x a' c' i he
    have hlt : i < w.st.accounts.length := (List.getElem?_eq_some_iff.1 he).1
    have hent : (doWrite w x a' c' i).st.accounts[i]? = some (e.update a' c').1 := by rw [h1, setAt_getElem, if_pos ⟨rfl, hlt⟩]
    have hh : Holds a' c (e.update a' c').1 := holds_update ho hc
    rcases doWrite_pc w x a' c' i with ⟨s, r, e1⟩ | ⟨s, prev, -, e1⟩ | ⟨s, e1⟩
    · refine .inr ⟨r, by rw [e1]; rfl, fun _ => ⟨i, _, ?_, hent, hh⟩⟩
      rw [h1]; exact hgt.2
    · left; rw [e1] at hent ⊢; rw [go_pc, upd_self]; exact ⟨rfl, _, hent, hh⟩
    · left; rw [e1] at hent ⊢; rw [go_pc, upd_self]; exact ⟨rfl, _, hent, hh⟩
  case upUnown x a' prev i hp =>
    obtain rfl := here rfl; rw [hp] at h; left; rw [go_pc, upd_self]
    split
    · exact h.1
    · exact h
  case upOwn x a' i hp =>
    obtain rfl := here rfl; rw [hp] at h hgt
    obtain ⟨rfl, e, he, hh⟩ := h
    refine .inr ⟨_, rfl, fun _ => ⟨i, e, ?_, ?_, hh⟩⟩
    · rw [ret_st]; unfold own; split <;> exact hgt.2
    · rw [ret_st]; unfold own; split <;> exact he
  case upDrop x a' i hp =>
    obtain rfl := here rfl; rw [hp] at h
    cases h
    exact .inr ⟨_, rfl, contained_none (by simp [dropKey])⟩
  case upPush x a' c' hp hn =>
    obtain rfl := here rfl; rw [hp] at h; obtain ⟨rfl, hc⟩ := h
    left; rw [go_pc, upd_self]
    exact ⟨rfl, _, by simp only [go_st]; exact List.getElem?_concat_length, holds_new hc⟩
  case upNewOwn x a' c' i hp => obtain rfl := here rfl; rw [hp] at h; left; rw [go_pc, upd_self]; exact h
  case upNewSlot x a' c' i hp =>
    obtain rfl := here rfl; rw [hp] at h; left; rw [go_pc, upd_self]
    exact ⟨h.1, by simpa using h.2⟩
  case upInsert x a' i hp =>
    obtain rfl := here rfl; rw [hp] at h
    obtain ⟨rfl, e, he, hh⟩ := h
    exact .inr ⟨_, rfl, fun _ => ⟨i, e, by simp, he, hh⟩⟩
  case prPromote x c' i slot l out hp =>
    rcases doPromote_pc w x c' i slot l out with ⟨_, _, e⟩ | ⟨_, _, e⟩ | ⟨_, _, _, _, e⟩ | ⟨_, _, e⟩
    all_goals (obtain rfl := here (by rw [e]; rfl); rw [hp] at h; exact h.elim)
  case geRead x pk c' i hp hf =>
    obtain ⟨_, e⟩ := doRead_pc w x c' i
    obtain rfl := here (by rw [e]; rfl); rw [hp] at h; exact h.elim
  case gpVisit x p fs c' i l retry out hp hf =>
    rcases doVisit_pc E w x p fs c' i (fun r => .gpScan p fs c' l retry (out ++ r)) with ⟨_, e⟩ | ⟨_, e⟩
    all_goals (obtain rfl := here (by rw [e]; rfl); rw [hp] at h; exact h.elim)
  case gpRetry x p fs c' i l out hp hf =>
    rcases doVisit_pc E w x p fs c' i (fun r => .gpRetry p fs c' l (out ++ r)) with ⟨_, e⟩ | ⟨_, e⟩
    all_goals (obtain rfl := here (by rw [e]; rfl); rw [hp] at h; exact h.elim)
  all_goals
    first
    | (obtain rfl := here rfl; rename_i hp; rw [hp] at h; exact h.elim)
    | (obtain rfl := here rfl; rename_i hp _; rw [hp] at h; exact h.elim)
    | (obtain rfl := here rfl; rename_i hp _ _; rw [hp] at h; exact h.elim)
    | (obtain rfl := here rfl; rename_i hp _ _ _; rw [hp] at h; exact h.elim)

/-- An update from its beginning to its end. -/
theorem update_during {E : Env} {t : Nat} {a : AccountData} {c : Commitment} {w0 w' : World} {vs : List World} {r : Reply}
    (hr : Reachable E w0) (h : During E t (.update a c) w0 vs r w') : Contained a c w'.st := by
  obtain ⟨w1, w, hcall, hl1, h, hn, hret, hl⟩ := h
  have hr1 : Reachable E w1 := Steps.reachable hr (.tail (.refl _) hcall)
  have hp1 : w1.pc t = .upCheck a c := by
    obtain ⟨-, key, hg⟩ := reachable_good hr
    rcases logStep hcall hg with ⟨h, -, -⟩ | ⟨x, k, h, hp⟩ | ⟨x, r, h, -, -, -⟩
    · rw [h] at hl1; simpa using congrArg List.length hl1
    · rw [h] at hl1; simp at hl1; obtain ⟨rfl, rfl⟩ := hl1; rw [hp, upd_self]; rfl
    · rw [h] at hl1; simp at hl1
  have main : ∀ {us v}, Trace E w1 us v → (∀ l, v.log = w1.log ++ l → ∀ e ∈ l, e.1 ≠ t) → Doing a c v.st (v.pc t) := by
    intro us v hv
    induction hv with
    | refl => intro _; rw [hp1]; exact ⟨rfl, id⟩
    | @tail us v v' hv hs ih =>
      intro hn
      obtain ⟨l, hlv⟩ := steps_log hr1 hv.steps
      have hrv := Steps.reachable hr1 hv.steps
      obtain ⟨m, hm⟩ := steps_log hrv (.tail (.refl _) hs)
      have hnv : ∀ l, v.log = w1.log ++ l → ∀ e ∈ l, e.1 ≠ t := by
        intro l hl e he
        exact hn (l ++ m) (by rw [hm, hl, List.append_assoc]) e (by simp [he])
      obtain ⟨-, key, hg⟩ := reachable_good hrv
      obtain ⟨-, key', hg'⟩ := reachable_good (Steps.reachable hrv (.tail (.refl _) hs))
      rcases doing_step hs hg hg' (ih hnv) with h | ⟨r, h, -⟩
      · exact h
      · exact (hn (l ++ [(t, .ret r)]) (by rw [h, hlv, List.append_assoc]) (t, .ret r) (by simp) rfl).elim
  have hrw := Steps.reachable hr1 h.steps
  obtain ⟨-, key, hg⟩ := reachable_good hrw
  obtain ⟨-, key', hg'⟩ := reachable_good (Steps.reachable hrw (.tail (.refl _) hret))
  rcases doing_step hret hg hg' (main h hn) with hq | ⟨r', h', hq⟩
  · exfalso
    rcases logStep hret hg with ⟨e, -, -⟩ | ⟨x, k, e, -⟩ | ⟨x, r', e, hp, -, -⟩
    · rw [e] at hl; simpa using congrArg List.length hl
    · rw [e] at hl; simp at hl
    · rw [e] at hl; simp at hl; obtain ⟨rfl, -⟩ := hl; rw [hp, upd_self] at hq; exact hq
  · exact hq

/-! ## Schedules -/

/-- A call in a schedule, from its beginning to its end. -/
theorem during_played {E : Env} {n : Nat} {F : Filters} {pre mid : List Move} {t : Nat} {k : Call} {m : Move} {r : Reply}
    (l : List (Nat × Event)) (h : (schedule E n (World.init F) (pre ++ [.call t k] ++ mid ++ [m])).isSome = true)
    (h0 : (played E n F (pre ++ [.call t k])).log = (played E n F pre).log ++ [(t, .call k)])
    (h1 : (played E n F (pre ++ [.call t k] ++ mid)).log = (played E n F (pre ++ [.call t k])).log ++ l) (hn : ∀ e ∈ l, e.1 ≠ t)
    (h2 : (played E n F (pre ++ [.call t k] ++ mid ++ [m])).log = (played E n F (pre ++ [.call t k] ++ mid)).log ++ [(t, .ret r)]) :
    During E t k (played E n F pre) (moments E n F (pre ++ [.call t k]) mid) r (played E n F (pre ++ [.call t k] ++ mid ++ [m])) := by
  refine ⟨_, _, played_step (schedule_prefix (schedule_prefix h)), h0, trace_played (schedule_prefix h), fun l' hl' => ?_,
    played_step h, h2⟩
  rw [h1, List.append_cancel_left_eq] at hl'
  exact hl' ▸ hn

theorem tracked_of {pk : Pubkey} {vs : List World} (h : vs.all (fun v => v.st.containsKey pk) = true) : TrackedIn pk vs := by
  intro v hv; exact List.all_eq_true.1 h v hv

end LAM.Conc
