import Verif.Spec.StoreConcSettled
import Verif.Lemmas.StoreConcTime
import Verif.Lemmas.Lineage
/-!
# Concurrent calls of the in-memory account store: which slots are considered confirmed and finalized
-/
namespace LAM.Conc
open Store World ByCommitment Spec

variable {F : Filters}

theorem told_update {log : List (Nat × Event)} {t : Nat} {a : AccountData} {c : Commitment} (h : (t, .call (.update a c)) ∈ log) :
    .update F a c ∈ told F log := List.mem_filterMap.2 ⟨_, h, rfl⟩

theorem told_process {log : List (Nat × Event)} {t : Nat} {info : SlotInfo} {c : Commitment}
    (h : (t, .call (.process info c)) ∈ log) : .slot F .asIs info c ∈ told F log := List.mem_filterMap.2 ⟨_, h, rfl⟩

theorem told_mono {log log' : List (Nat × Event)} (h : ∀ e ∈ log, e ∈ log') : ∀ op ∈ told F log, op ∈ told F log' := by
  intro op hop
  obtain ⟨e, he, h1⟩ := List.mem_filterMap.1 hop
  exact List.mem_filterMap.2 ⟨e, h e he, h1⟩

/-- The slot may be considered to have this commitment. -/
def Due (F : Filters) (log : List (Nat × Event)) (k : Nat) (c : Commitment) : Prop :=
  (c ≠ .processed → Settled .confirmed (told F log) k) ∧
  (c = .finalized → ∃ x, Reported .finalized (told F log) x ∧ Linked (told F log) x k)

/-- The slot may be recorded as the child of this one. -/
def Link (F : Filters) (log : List (Nat × Event)) (k p : Nat) : Prop :=
  Announced (told F log) k p ∨ ∃ G σ info, Op.slot G σ info .confirmed ∈ told F log ∧ info.parent = p ∧
    Linked (told F log) info.slot k

theorem Due.mono {log log' : List (Nat × Event)} {k : Nat} {c : Commitment} (h : Due F log k c) (hl : ∀ e ∈ log, e ∈ log') :
    Due F log' k c := by
  refine ⟨fun hc => (h.1 hc).mono (told_mono hl), fun hc => ?_⟩
  obtain ⟨x, h1, h2⟩ := h.2 hc
  exact ⟨x, h1.mono (told_mono hl), h2.mono (told_mono hl)⟩

theorem Link.mono {log log' : List (Nat × Event)} {k p : Nat} (h : Link F log k p) (hl : ∀ e ∈ log, e ∈ log') :
    Link F log' k p := by
  rcases h with h | ⟨G, σ, info, h1, h2, h3⟩
  · exact .inl (h.mono (told_mono hl))
  · exact .inr ⟨G, σ, info, told_mono hl _ h1, h2, h3.mono (told_mono hl)⟩

theorem Due.lower {log : List (Nat × Event)} {k : Nat} {c : Commitment} (h : Due F log k c) (hc : c ≠ .processed) :
    Due F log k .confirmed := ⟨fun _ => h.1 hc, fun h => by cases h⟩

private theorem confirmed_le {c : Commitment} (h : c ≠ .processed) : Commitment.confirmed ≤ c := by
  cases c
  · exact absurd rfl h
  · decide
  · decide

theorem due_update {log : List (Nat × Event)} {t : Nat} {a : AccountData} {c : Commitment} (h : (t, .call (.update a c)) ∈ log) :
    Due F log a.slot c :=
  ⟨fun hc => .reported (.inr ⟨F, a, c, told_update h, rfl, confirmed_le hc⟩),
   fun hc => ⟨a.slot, .inr ⟨F, a, c, told_update h, rfl, by subst hc; decide⟩, .refl⟩⟩

/-- States are shown for commitments that their slots may be considered to have. -/
def EntryDue (F : Filters) (log : List (Nat × Event)) (e : ByCommitment) : Prop :=
  (∀ a, e.confirmed = some a → Due F log a.slot .confirmed) ∧ (∀ a, e.finalized = some a → Due F log a.slot .finalized)

theorem EntryDue.mono {log log' : List (Nat × Event)} {e : ByCommitment} (h : EntryDue F log e) (hl : ∀ e ∈ log, e ∈ log') :
    EntryDue F log' e := ⟨fun a ha => (h.1 a ha).mono hl, fun a ha => (h.2 a ha).mono hl⟩

theorem entryDue_dead {log : List (Nat × Event)} : EntryDue F log dead := ⟨by simp [dead], by simp [dead]⟩

theorem entryDue_new {log : List (Nat × Event)} {a : AccountData} {c : Commitment} (h : Due F log a.slot c) :
    EntryDue F log (ByCommitment.new a c) := by
  refine ⟨fun b hb => ?_, fun b hb => ?_⟩
  · simp only [ByCommitment.new] at hb
    split at hb
    · rename_i hc
      simp at hb; subst hb
      exact h.lower (by rcases hc with rfl | rfl <;> simp)
    · simp at hb
  · simp only [ByCommitment.new] at hb
    split at hb
    · rename_i hc
      simp at hb; subst hb
      rw [← hc]; exact h
    · simp at hb

theorem entryDue_update {log : List (Nat × Event)} {e : ByCommitment} {a : AccountData} {c : Commitment} (he : EntryDue F log e)
    (h : Due F log a.slot c) : EntryDue F log (e.update a c).1 := by
  refine ⟨fun b hb => ?_, fun b hb => ?_⟩
  · rw [update_confirmed] at hb
    split at hb
    · exact he.1 b hb
    · rename_i hc
      split at hb
      · simp at hb; subst hb; exact h.lower hc
      · exact he.1 b hb
  · rw [update_finalized] at hb
    split at hb
    · rename_i hc; simp at hb; subst hb; rw [← hc.1]; exact h
    · exact he.2 b hb

theorem entryDue_promote {log : List (Nat × Event)} {pk : Pubkey} {e : ByCommitment} {k : Nat} {c : Commitment}
    (ho : EntryOK pk e) (he : EntryDue F log e) (h : Due F log k c) : EntryDue F log (e.promote k c).1 := by
  refine ⟨fun b hb => ?_, fun b hb => ?_⟩
  · rw [promote_confirmed] at hb
    cases hf : BMap.find e.processed k with
    | none => rw [hf] at hb; exact he.1 b hb
    | some x =>
      have hxk := (ho.keys _ _ hf).1
      rw [hf] at hb
      simp only at hb
      split at hb
      · exact he.1 b hb
      · rename_i hc
        split at hb
        · rename_i y hy
          split at hb
          · simp at hb; subst hb; rw [hxk]; exact h.lower hc
          · exact he.1 b (by rw [hy]; exact hb)
        · simp at hb; subst hb; rw [hxk]; exact h.lower hc
  · rw [promote_finalized] at hb
    cases hf : BMap.find e.processed k with
    | none => rw [hf] at hb; exact he.2 b hb
    | some x =>
      have hxk := (ho.keys _ _ hf).1
      rw [hf] at hb
      simp only at hb
      split at hb
      · rename_i hc
        subst hc
        split at hb
        · rename_i y hy
          split at hb
          · simp at hb; subst hb; rw [hxk]; exact h
          · exact he.2 b (by rw [hy]; exact hb)
        · simp at hb; subst hb; rw [hxk]; exact h
      · exact he.2 b hb

/-- What a thread has in hand. -/
def PcDue (F : Filters) (log : List (Nat × Event)) : Pc → Prop
  | .upCheck a c | .upLookup a c | .upSlot a c _ | .upEntry a c | .upStore a c _ | .upAccount a c _ | .upWrite a c _ | .upPush a c
  | .upNewOwn a c _ | .upNewSlot a c _ => Due F log a.slot c
  | .prWalk info c => ∃ t, (t, Event.call (.process info c)) ∈ log
  | .prStore c l => ∀ x ∈ l, Due F log x.2 c
  | .prNext c l out => (∀ x ∈ l, Due F log x.2 c) ∧ ∀ a ∈ out, Due F log a.slot c
  | .prPromote c _ slot l out => Due F log slot c ∧ (∀ x ∈ l, Due F log x.2 c) ∧ ∀ a ∈ out, Due F log a.slot c
  | .prUnown c _ a _ l out | .prOwn c _ a l out | .prDrop c _ a l out | .prClear c _ a l out =>
    Due F log a.slot c ∧ (∀ x ∈ l, Due F log x.2 c) ∧ ∀ a ∈ out, Due F log a.slot c
  | _ => True

theorem PcDue.mono {log log' : List (Nat × Event)} {p : Pc} (h : PcDue F log p) (hl : ∀ e ∈ log, e ∈ log') : PcDue F log' p := by
  have d : ∀ {k c}, Due F log k c → Due F log' k c := fun h => h.mono hl
  cases p <;> first
    | exact trivial
    | exact d h
    | exact h.imp fun t ht => hl _ ht
    | exact fun x hx => d (h x hx)
    | exact ⟨fun x hx => d (h.1 x hx), fun x hx => d (h.2 x hx)⟩
    | exact ⟨d h.1, fun x hx => d (h.2.1 x hx), fun x hx => d (h.2.2 x hx)⟩

/-- What is known about slots, accounts and threads. -/
structure Traced (F : Filters) (w : World) : Prop where
  slots : ∀ k st, BMap.find w.st.slots k = some st → Due F w.log k st.commitment
  links : ∀ k st p, BMap.find w.st.slots k = some st → st.parent = some p → Link F w.log k p
  entries : ∀ (i : Nat) e, w.st.accounts[i]? = some e → EntryDue F w.log e
  pcs : ∀ t, PcDue F w.log (w.pc t)

theorem traced_pcs {w w' : World} {t : Nat} {p : Pc} (h : ∀ t, PcDue F w.log (w.pc t)) (hpc : w'.pc = upd w.pc t p)
    (hl : ∀ e ∈ w.log, e ∈ w'.log) (hp : PcDue F w'.log p) : ∀ t, PcDue F w'.log (w'.pc t) := by
  intro x
  rw [hpc]
  by_cases hx : x = t
  · subst hx; rw [upd_self]; exact hp
  · rw [upd_other hx]; exact (h x).mono hl

/-- Steps that leave slots and accounts alone. -/
theorem traced_same {w w' : World} {t : Nat} {p : Pc} (h : Traced F w) (hpc : w'.pc = upd w.pc t p)
    (hs : w'.st.slots = w.st.slots) (ha : w'.st.accounts = w.st.accounts) (hl : ∀ e ∈ w.log, e ∈ w'.log) (hp : PcDue F w'.log p) :
    Traced F w' :=
  ⟨by rw [hs]; exact fun k st hk => (h.slots k st hk).mono hl,
   by rw [hs]; exact fun k st p hk hp => (h.links k st p hk hp).mono hl,
   by rw [ha]; exact fun i e he => (h.entries i e he).mono hl, traced_pcs h.pcs hpc hl hp⟩

/-- Steps that write one account. -/
theorem traced_setAt {w w' : World} {t : Nat} {p : Pc} {i : Nat} {e : ByCommitment} (h : Traced F w) (hpc : w'.pc = upd w.pc t p)
    (hs : w'.st.slots = w.st.slots) (ha : w'.st.accounts = (w.st.setAt i e).accounts) (hl : ∀ e ∈ w.log, e ∈ w'.log)
    (he : EntryDue F w'.log e) (hp : PcDue F w'.log p) : Traced F w' := by
  refine ⟨by rw [hs]; exact fun k st hk => (h.slots k st hk).mono hl,
    by rw [hs]; exact fun k st p hk hp => (h.links k st p hk hp).mono hl, ?_, traced_pcs h.pcs hpc hl hp⟩
  intro j e' he'
  rw [ha, setAt_getElem] at he'
  split at he'
  · cases he'; exact he
  · exact (h.entries j e' he').mono hl

/-- The status of a slot after an account was added to it. -/
theorem status_addIndexToSlot {s : Store} {k i : Nat} {c : Commitment} {j : Nat} {st' : SlotStatus}
    (hf : BMap.find (s.addIndexToSlot k i c).1.slots j = some st') :
    (∃ st, BMap.find s.slots j = some st ∧ st'.commitment = st.commitment ∧ st'.parent = st.parent) ∨
    (j = k ∧ st'.commitment = c ∧ st'.parent = none) := by
  rw [find_addIndexToSlot] at hf
  split at hf
  · rename_i hk; subst hk
    simp only [Option.some.injEq] at hf
    cases hfs : BMap.find s.slots k with
    | none =>
      right
      rw [hfs] at hf; subst hf
      refine ⟨rfl, ?_, ?_⟩ <;> split <;> rfl
    | some st =>
      left
      rw [hfs] at hf; subst hf
      refine ⟨st, rfl, ?_, ?_⟩ <;> split <;> rfl
  · exact .inl ⟨st', hf, rfl, rfl⟩

theorem due_effective {w : World} (h : Traced F w) {k i : Nat} {c : Commitment} (hd : Due F w.log k c) :
    Due F w.log k (w.st.addIndexToSlot k i c).2 := by
  have : ∀ d, (w.st.addIndexToSlot k i c).2 = d → Due F w.log k d := by
    intro d he
    cases c <;> simp only [addIndexToSlot] at he
    case finalized => subst he; exact hd
    all_goals
      cases hf : BMap.find w.st.slots k with
      | none => rw [hf] at he; simp at he; subst he; exact hd
      | some st => rw [hf] at he; simp at he; subst he; exact h.slots k st hf
  exact this _ rfl

/-- Adding an account to a slot. -/
theorem traced_slot {w w' : World} {t : Nat} {p : Pc} {k i : Nat} {c : Commitment} (h : Traced F w) (hpc : w'.pc = upd w.pc t p)
    (hs : w'.st.slots = (w.st.addIndexToSlot k i c).1.slots) (ha : w'.st.accounts = w.st.accounts) (hl : w'.log = w.log)
    (hd : Due F w.log k c) (hp : PcDue F w.log p) : Traced F w' := by
  refine ⟨?_, ?_, by rw [ha, hl]; exact h.entries, traced_pcs h.pcs hpc (by rw [hl]; exact fun _ h => h) (by rw [hl]; exact hp)⟩
  · intro j st' hj
    rw [hl]
    rw [hs] at hj
    rcases status_addIndexToSlot hj with ⟨st, h1, h2, -⟩ | ⟨rfl, h1, -⟩
    · rw [h2]; exact h.slots j st h1
    · rw [h1]; exact hd
  · intro j st' p hj hp
    rw [hl]
    rw [hs] at hj
    rcases status_addIndexToSlot hj with ⟨st, h1, -, h2⟩ | ⟨-, -, h1⟩
    · exact h.links j st p h1 (by rw [← h2]; exact hp)
    · rw [h1] at hp; cases hp

/-- The walk of `process_slot_data`. -/
theorem traced_walk {w : World} {t : Nat} {info : SlotInfo} {c : Commitment} {m : BMap SlotStatus} {wl l : Writable}
    (h : Traced F w) (hr : Ranges w.st) (hp : w.pc t = .prWalk info c)
    (hw : walk info c (w.st.slots.length + 1) w.st.slots [] info.slot (some info.parent) = .ok (m, wl)) (hl : l.Perm wl) :
    Traced F (w.go t { w.st with slots := dropOldSlots m info.slot c } (.prStore c l)) := by
  obtain ⟨path, hW⟩ := walk_rel _ _ _ _ _ _ _ hw
  have hsm := hW.sorted hr.sorted
  have hpt := h.pcs t
  rw [hp] at hpt
  obtain ⟨x, hx⟩ := hpt
  have hop : .slot F .asIs info c ∈ told F w.log := told_process hx
  have hann : Announced (told F w.log) info.slot info.parent := ⟨F, _, info, c, hop, rfl, rfl⟩
  have headC : c ≠ .processed → Settled .confirmed (told F w.log) info.slot := fun hcp =>
    .reported (.inl ⟨F, _, info, c, hop, rfl, confirmed_le hcp⟩)
  have settleLink : ∀ k, Linked (told F w.log) info.slot k → Settled .confirmed (told F w.log) info.slot →
      Settled .confirmed (told F w.log) k := by
    intro k hl hs0
    generalize info.slot = x at hl hs0
    induction hl with
    | refl => exact hs0
    | announced _ ha ih => exact .ancestor (ih hs0) ha
    | madeUp _ hm _ _ _ => exact .ancestor (.reported (Or.inl ⟨_, _, _, _, hm, rfl, by decide⟩)) ⟨_, _, _, _, hm, rfl, rfl⟩
  obtain ⟨hpath, hlinks⟩ := hW.linked (A := Link F w.log)
    (R := fun k => Linked (told F w.log) info.slot k ∧ (c = .processed → k = info.slot) ∧
      (c ≠ .processed → Settled .confirmed (told F w.log) k))
    h.links (by intro p hp; simp at hp; subst hp; exact .inl hann) ⟨.refl, fun _ => rfl, headC⟩
    (by
      rintro hcp k p ⟨hR, -, -⟩ hA
      have hl : Linked (told F w.log) info.slot p := by
        rcases hA with hA | ⟨F', σ', info', hm, hp, hl⟩
        · exact .announced hR hA
        · rw [← hp]; exact .madeUp hR hm hl
      exact ⟨hl, fun h => absurd h hcp, fun _ => settleLink p hl (headC hcp)⟩)
    (by
      rintro hnf k - ⟨hR, hpr, -⟩
      cases c with
      | processed => left; rw [hpr rfl]; exact hann
      | confirmed => right; exact ⟨F, _, info, hop, rfl, hR⟩
      | finalized => exact absurd rfl hnf)
  have due : ∀ k ∈ path, Due F w.log k c := fun k hk =>
    ⟨(hpath k hk).2.2, fun hc => ⟨info.slot, .inl ⟨F, _, info, c, hop, rfl, by subst hc; decide⟩, (hpath k hk).1⟩⟩
  refine ⟨?_, ?_, h.entries, traced_pcs h.pcs (go_pc _ _ _ _) (fun _ h => h) ?_⟩
  · intro k st hf
    simp only [go_st] at hf
    rw [find_dropOldSlots hsm] at hf
    split at hf
    · simp at hf
    · by_cases hk : k ∈ path
      · obtain ⟨st2, h1, h2⟩ := (hW.status k).2 hk
        rw [hf] at h1; cases h1
        rw [h2]; exact due k hk
      · exact h.slots k st (by rw [← (hW.status k).1 hk]; exact hf)
  · intro k st p hf hp
    simp only [go_st] at hf
    rw [find_dropOldSlots hsm] at hf
    split at hf
    · simp at hf
    · exact hlinks k st p hf hp
  · intro y hy
    have hy' := hl.mem_iff.1 hy
    rw [hW.gathered] at hy'
    rcases mem_gather_sub hy' with hy' | ⟨hy', -⟩
    · simp at hy'
    · exact due _ hy'

/-- `doWrite` and `doPromote` with what they do to the accounts. -/
theorem traced_doWrite {w : World} {t : Nat} {a : AccountData} {c : Commitment} {i : Nat} {e : ByCommitment} (h : Traced F w)
    (hp : w.pc t = .upWrite a c i) (he : w.st.accounts[i]? = some e) : Traced F (doWrite w t a c i) := by
  have hpt := h.pcs t
  rw [hp] at hpt
  have hd : EntryDue F w.log (e.update a c).1 := entryDue_update (h.entries i e he) hpt
  have r : ∀ {r}, ∀ x ∈ w.log, x ∈ (w.ret t (w.st.setAt i (e.update a c).1) r).log := fun x hx => by simp [hx]
  unfold doWrite
  rw [he]
  simp only
  repeat' split
  all_goals first
    | exact traced_setAt (p := .idle) h rfl rfl rfl r (hd.mono r) trivial
    | exact traced_setAt h rfl rfl rfl (fun _ h => h) hd trivial

theorem traced_doPromote {w : World} {t : Nat} {c : Commitment} {i slot : Nat} {l : Writable} {out : List AccountData}
    {pk : Pubkey} {e : ByCommitment} (h : Traced F w) (hp : w.pc t = .prPromote c i slot l out) (he : w.st.accounts[i]? = some e)
    (ho : e = dead ∨ EntryOK pk e) : Traced F (doPromote w t c i slot l out) := by
  have hpt := h.pcs t
  rw [hp] at hpt
  obtain ⟨h1, h2, h3⟩ := hpt
  have hd : EntryDue F w.log (e.promote slot c).1 := by
    rcases ho with rfl | ho
    · rw [promote_dead]; exact entryDue_dead
    · exact entryDue_promote ho (h.entries i e he) h1
  have r : ∀ {r}, ∀ x ∈ w.log, x ∈ (w.ret t (w.st.setAt i (e.promote slot c).1) r).log := fun x hx => by simp [hx]
  have hres : ∀ a prev, (e.promote slot c).2 = some (a, prev) → Due F w.log a.slot c := by
    intro a prev hq
    rcases ho with rfl | ho
    · rw [promote_dead] at hq; simp at hq
    · obtain ⟨-, hf, -⟩ := (promote_result _ _ _ _ _).1 hq
      rw [(ho.keys _ _ hf).1]; exact h1
  have hout : ∀ a prev, (e.promote slot c).2 = some (a, prev) → ∀ b ∈ out ++ [a], Due F w.log b.slot c := by
    intro a prev hq b hb
    rw [List.mem_append] at hb
    rcases hb with hb | hb
    · exact h3 b hb
    · simp at hb; subst hb; exact hres _ _ hq
  unfold doPromote
  rw [he]
  simp only
  cases hq : (e.promote slot c).2 with
  | none => simp only; exact traced_setAt h rfl rfl rfl (fun _ h => h) hd ⟨h2, h3⟩
  | some q =>
    obtain ⟨a, prev⟩ := q
    have h4 := hres a prev hq
    have h5 := hout a prev hq
    cases prev with
    | none => simp only; exact traced_setAt h rfl rfl rfl (fun _ h => h) hd ⟨h2, h5⟩
    | some prev =>
      simp only
      repeat' split
      all_goals first
        | exact traced_setAt (p := .idle) h rfl rfl rfl r (hd.mono r) trivial
        | exact traced_setAt h rfl rfl rfl (fun _ h => h) hd ⟨h4, h2, h3⟩
        | exact traced_setAt h rfl rfl rfl (fun _ h => h) hd ⟨h2, h5⟩

theorem traced_step {E : Env} {key : Nat → Pubkey} {w w' : World} (hs : Step E w w') (hg : Good E key w) (h : Traced F w) :
    Traced F w' := by
  have hpt : ∀ {t : Nat} {q : Pc}, w.pc t = q → PcDue F w.log q := fun {t q} hq => hq ▸ h.pcs t
  have rl : ∀ {t : Nat} {s : Store} {r : Reply}, ∀ x ∈ w.log, x ∈ (w.ret t s r).log := fun x hx => by simp [hx]
  have idle : ∀ {t : Nat} {s : Store} {r : Reply}, s.slots = w.st.slots → s.accounts = w.st.accounts → Traced F (w.ret t s r) :=
    fun h1 h2 => traced_same (p := .idle) h rfl h1 h2 rl trivial
  have go : ∀ {t : Nat} {s : Store} {p : Pc}, s.slots = w.st.slots → s.accounts = w.st.accounts → PcDue F w.log p →
      Traced F (w.go t s p) := fun h1 h2 hp => traced_same h rfl h1 h2 (fun _ h => h) hp
  cases hs
  case env => exact ⟨h.slots, h.links, h.entries, h.pcs⟩
  case call t k hp =>
    have hl : ∀ x ∈ w.log, x ∈ w.log ++ [(t, Event.call k)] := fun x hx => by simp [hx]
    refine traced_same h rfl rfl rfl hl ?_
    cases k with
    | update a c => exact due_update (t := t) (by simp)
    | process info c => exact ⟨t, by simp⟩
    | get => trivial
    | gpa => trivial
  case upSkip => exact idle rfl rfl
  case upTake t a c hp _ _ => exact go rfl rfl (by have := hpt hp; exact this)
  case upKnown t a c i hp _ _ => exact go rfl rfl (by have := hpt hp; exact this)
  case upUnknown t a c hp _ _ => exact go rfl rfl (by have := hpt hp; exact this)
  case upSlot t a c i hp =>
    have hd : Due F w.log a.slot c := hpt hp
    exact traced_slot h rfl rfl (by simp) rfl hd (due_effective h hd)
  case upOccupied t a c i hp _ _ => exact go rfl rfl (by have := hpt hp; exact this)
  case upVacant t a c hp _ _ _ => exact go rfl rfl (by have := hpt hp; exact this)
  case upIgnore => exact idle rfl rfl
  case upStore t a c i hp _ => exact go rfl rfl (by have := hpt hp; exact this)
  case upAccount t a c i hp _ => exact go rfl rfl (by have := hpt hp; exact this)
  case upWrite t a c i hp =>
    have hgt := hg.pcs t
    rw [hp] at hgt
    obtain ⟨-, e, he, -⟩ := hg.idx _ _ hgt.2
    exact traced_doWrite h hp he
  case upUnown t a prev i hp =>
    refine go ?_ ?_ ?_
    · unfold removeAccountOwner; rfl
    · unfold removeAccountOwner; rfl
    · split <;> trivial
  case upOwn t a i hp => exact idle (own_slots _ _ _) (own_accounts _ _ _)
  case upDrop t a i hp => exact traced_setAt (p := .idle) h rfl rfl rfl rl entryDue_dead trivial
  case upPush t a c hp hn =>
    have hd : Due F w.log a.slot c := hpt hp
    refine ⟨h.slots, h.links, ?_, traced_pcs h.pcs (go_pc _ _ _ _) (fun _ h => h) hd⟩
    intro j e he
    simp only [go_st] at he
    rw [List.getElem?_append] at he
    split at he
    · exact h.entries j e he
    · have := List.mem_of_getElem? he
      simp at this; subst this
      exact entryDue_new hd
  case upNewOwn t a c i hp => exact go rfl rfl (by have := hpt hp; exact this)
  case upNewSlot t a c i hp =>
    have hd : Due F w.log a.slot c := hpt hp
    exact traced_slot h rfl rfl (by simp) rfl hd trivial
  case upInsert t a i hp => exact idle rfl rfl
  case prWalk t info c slots wl l hp hw hl => exact traced_walk h hg.ranges hp hw hl
  case prEndless => exact idle rfl rfl
  case prStore t c l hp _ => exact go rfl rfl ⟨by have := hpt hp; exact this, by simp⟩
  case prReturn => exact idle rfl rfl
  case prNext t c i slot l out hp _ =>
    obtain ⟨h1, h2⟩ := hpt hp
    exact go rfl rfl ⟨h1 (i, slot) (by simp), fun x hx => h1 x (by simp [hx]), h2⟩
  case prPromote t c i slot l out hp =>
    have hgt := hg.pcs t
    rw [hp] at hgt
    obtain ⟨e, he⟩ : ∃ e, w.st.accounts[i]? = some e := ⟨_, List.getElem?_eq_getElem hgt.1⟩
    exact traced_doPromote h hp he ((hg.entry i e he).imp id And.left)
  case prUnown t c i a prev l out hp =>
    have := hpt hp
    refine go rfl rfl ?_
    split <;> exact this
  case prOwn t c i a l out hp =>
    obtain ⟨h1, h2, h3⟩ := hpt hp
    refine go (own_slots _ _ _) (own_accounts _ _ _) ⟨h2, fun b hb => ?_⟩
    rw [List.mem_append] at hb
    rcases hb with hb | hb
    · exact h3 b hb
    · simp at hb; subst hb; exact h1
  case prDrop t c i a l out hp _ => exact go rfl rfl (by have := hpt hp; exact this)
  case prClear t c i a l out hp =>
    obtain ⟨h1, h2, h3⟩ := hpt hp
    refine traced_setAt h rfl rfl rfl (fun _ h => h) entryDue_dead ⟨h2, fun b hb => ?_⟩
    rw [List.mem_append] at hb
    rcases hb with hb | hb
    · exact h3 b hb
    · simp at hb; subst hb; exact h1
  case geFound => exact go rfl rfl trivial
  case geNone => exact idle rfl rfl
  case geStore => exact go rfl rfl trivial
  case geRead t pk c i hp _ =>
    obtain ⟨r, hr⟩ := doRead_pc w t c i
    rw [hr]; exact idle rfl rfl
  case gpRefused => exact idle rfl rfl
  case gpContains => exact go rfl rfl trivial
  case gpNone => exact idle rfl rfl
  case gpOwner => exact go rfl rfl trivial
  case gpStore => exact go rfl rfl trivial
  case gpSet => exact go rfl rfl trivial
  case gpVisit t p fs c i l retry out hp _ =>
    rcases doVisit_pc E w t p fs c i (fun r => .gpScan p fs c l retry (out ++ r)) with ⟨r, hr⟩ | ⟨r, hr⟩
    · rw [hr]; exact idle rfl rfl
    · rw [hr]; exact go rfl rfl trivial
  case gpBusy => exact go rfl rfl trivial
  case gpAgain => exact go rfl rfl trivial
  case gpRetry t p fs c i l out hp _ =>
    rcases doVisit_pc E w t p fs c i (fun r => .gpRetry p fs c l (out ++ r)) with ⟨r, hr⟩ | ⟨r, hr⟩
    · rw [hr]; exact idle rfl rfl
    · rw [hr]; exact go rfl rfl trivial
  case gpReturn => exact idle rfl rfl

theorem reachable_traced {E : Env} {w : World} (h : Reachable E w) : Traced F w := by
  obtain ⟨G, h⟩ := h
  have hr : ∀ {w}, Steps E (World.init G) w → Reachable E w := fun h => ⟨G, h⟩
  generalize hw0 : World.init G = w0 at h hr
  induction h with
  | refl => subst hw0; exact ⟨by simp [World.init, Store.empty], by simp [World.init, Store.empty], by simp [World.init, Store.empty],
      fun _ => trivial⟩
  | tail hst hs ih =>
    obtain ⟨-, key, hg⟩ := reachable_good (hr hst)
    exact traced_step hs hg ih

/-! ## The answers of calls -/

/-- What a notification reports was in its hands at the end. -/
theorem reported_from {E : Env} {w w' : World} {t : Nat} {l : List AccountData} (hs : Step E w w')
    (hl : w'.log = w.log ++ [(t, .ret (.reported l))]) : ∃ c, w.pc t = .prNext c [] l := by
  cases hs
  case prReturn x c out hp =>
    simp at hl; obtain ⟨rfl, rfl⟩ := hl; exact ⟨c, hp⟩
  case upWrite x a c i hp =>
    exfalso
    unfold doWrite at hl
    repeat' (split at hl)
    all_goals simp at hl
  case prPromote x c i slot l' out hp =>
    exfalso
    unfold doPromote at hl
    repeat' (split at hl)
    all_goals simp at hl
  case geRead x pk c i hp _ =>
    exfalso
    unfold doRead at hl
    split at hl <;> simp at hl
  case gpVisit x p fs c i l' retry out hp _ =>
    exfalso
    unfold doVisit at hl
    repeat' (split at hl)
    all_goals simp at hl
  case gpRetry x p fs c i l' out hp _ =>
    exfalso
    unfold doVisit at hl
    repeat' (split at hl)
    all_goals simp at hl
  all_goals (exfalso; simp at hl)

theorem lastCall_during {w0log log : List (Nat × Event)} {t : Nat} {k k' : Call} (h : LastCall log t k')
    (h0 : ∃ l, log = w0log ++ (t, .call k) :: l ∧ ∀ e ∈ l, e.1 ≠ t) : k' = k := by
  obtain ⟨pre, mid, h1, h2⟩ := h
  obtain ⟨l, h3, h4⟩ := h0
  rw [h1] at h3
  rcases List.append_eq_append_iff.1 h3 with ⟨m, h5, h6⟩ | ⟨m, h5, h6⟩
  · cases m with
    | nil => simp at h6; exact h6.1
    | cons x m =>
      simp at h6
      exact absurd rfl (h2 (t, .call k) (by rw [h6.2]; simp))
  · cases m with
    | nil => simp at h6; exact h6.1.symm
    | cons x m =>
      simp at h6
      exact absurd rfl (h4 (t, .call k') (by rw [h6.2]; simp))

end LAM.Conc
