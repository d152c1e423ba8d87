import Verif.Lemmas.StoreConc
import Verif.Spec.StoreConc
import Verif.Lemmas.Steps
import Verif.Lemmas.Gpa
/-!
# Concurrent calls of the in-memory account store: what every interleaving keeps
-/
namespace LAM.Conc
open Store World ByCommitment Spec

/-! ## Locks exclude each other -/

/-- No two threads hold the same shard, or write-lock the same account. -/
structure Excl (E : Env) (w : World) : Prop where
  shard : ∀ t t' pk pk', (w.pc t).shard = some pk → (w.pc t').shard = some pk' → E.shardOf pk = E.shardOf pk' → t = t'
  account : ∀ t t' i, (w.pc t).writes = some i → (w.pc t').writes = some i → t = t'

/-- What a thread holds after a step it held before, or it was free. -/
theorem step_locks {E : Env} {w w' : World} (h : Step E w w') : w'.pc = w.pc ∨ ∃ t p, w'.pc = upd w.pc t p ∧
    (∀ pk, p.shard = some pk → (w.pc t).shard = some pk ∨ w.ShardFree E pk) ∧
    (∀ i, p.writes = some i → (w.pc t).writes = some i ∨ w.AccountFree i) := by
  cases h
  case env => exact .inl rfl
  case call t k hp => refine .inr ⟨t, _, rfl, ?_, ?_⟩ <;> cases k <;> simp [Call.start, Pc.shard, Pc.writes]
  case upWrite t a c i hp =>
    rcases doWrite_pc w t a c i with ⟨_, _, h⟩ | ⟨_, _, _, h⟩ | ⟨_, h⟩ <;>
      exact .inr ⟨t, _, congrArg World.pc h, by simp [hp, Pc.shard], by simp [hp, Pc.writes]⟩
  case prPromote t c i slot l out hp =>
    rcases doPromote_pc w t c i slot l out with ⟨_, _, h⟩ | ⟨_, _, h⟩ | ⟨_, _, _, _, h⟩ | ⟨_, _, h⟩ <;>
      exact .inr ⟨t, _, congrArg World.pc h, by simp [Pc.shard], by simp [hp, Pc.writes]⟩
  case geRead t _ c i hp _ =>
    obtain ⟨_, h⟩ := doRead_pc w t c i
    exact .inr ⟨t, _, congrArg World.pc h, by simp [Pc.shard], by simp [Pc.writes]⟩
  case gpVisit t p fs c i l retry out hp _ =>
    rcases doVisit_pc E w t p fs c i (fun r => .gpScan p fs c l retry (out ++ r)) with ⟨_, h⟩ | ⟨_, h⟩ <;>
      exact .inr ⟨t, _, congrArg World.pc h, by simp [Pc.shard], by simp [Pc.writes]⟩
  case gpRetry t p fs c i l out hp _ =>
    rcases doVisit_pc E w t p fs c i (fun r => .gpRetry p fs c l (out ++ r)) with ⟨_, h⟩ | ⟨_, h⟩ <;>
      exact .inr ⟨t, _, congrArg World.pc h, by simp [Pc.shard], by simp [Pc.writes]⟩
  case upUnown t a prev i hp =>
    refine .inr ⟨t, _, rfl, ?_, ?_⟩ <;> split <;> simp [hp, Pc.shard, Pc.writes]
  case prUnown t c i a prev l out hp =>
    refine .inr ⟨t, _, rfl, ?_, ?_⟩ <;> split <;> simp [hp, Pc.shard, Pc.writes]
  case upOccupied t a c i hp hf hi => exact .inr ⟨t, _, rfl, by simpa [Pc.shard] using .inr hf, by simp [Pc.writes]⟩
  case upVacant t a c hp hf hi hs => exact .inr ⟨t, _, rfl, by simpa [Pc.shard] using .inr hf, by simp [Pc.writes]⟩
  case upAccount t a c i hp hf => exact .inr ⟨t, _, rfl, by simp [hp, Pc.shard], by simpa [Pc.writes] using .inr hf⟩
  case prNext t c i slot l out hp hf => exact .inr ⟨t, _, rfl, by simp [Pc.shard], by simpa [Pc.writes] using .inr hf⟩
  all_goals exact .inr ⟨_, _, rfl, by simp [*, Pc.shard], by simp [*, Pc.writes]⟩

theorem excl_step {E : Env} {w w' : World} (h : Step E w w') (hx : Excl E w) : Excl E w' := by
  rcases step_locks h with h | ⟨t, p, h, h1, h2⟩
  · refine ⟨?_, ?_⟩ <;> rw [h]
    · exact hx.shard
    · exact hx.account
  · refine ⟨fun x y pk pk' hxp hyp hs => ?_, fun x y i hxp hyp => ?_⟩ <;> rw [h] at hxp hyp <;>
      by_cases hxt : x = t <;> by_cases hyt : y = t
    · rw [hxt, hyt]
    · subst hxt
      rw [upd_self] at hxp; rw [upd_other hyt] at hyp
      rcases h1 _ hxp with h' | h'
      · exact hx.shard x y pk pk' h' hyp hs
      · exact absurd hs.symm (h' y pk' hyp)
    · subst hyt
      rw [upd_self] at hyp; rw [upd_other hxt] at hxp
      rcases h1 _ hyp with h' | h'
      · exact hx.shard x y pk pk' hxp h' hs
      · exact absurd hs (h' x pk hxp)
    · rw [upd_other hxt] at hxp; rw [upd_other hyt] at hyp
      exact hx.shard x y pk pk' hxp hyp hs
    · rw [hxt, hyt]
    · subst hxt
      rw [upd_self] at hxp; rw [upd_other hyt] at hyp
      rcases h2 _ hxp with h' | h'
      · exact hx.account x y i h' hyp
      · exact absurd hyp (h' y)
    · subst hyt
      rw [upd_self] at hyp; rw [upd_other hxt] at hxp
      rcases h2 _ hyp with h' | h'
      · exact hx.account x y i hxp h'
      · exact absurd hxp (h' x)
    · rw [upd_other hxt] at hxp; rw [upd_other hyt] at hyp
      exact hx.account x y i hxp hyp

theorem excl_init (E : Env) (F : Filters) : Excl E (World.init F) := by
  refine ⟨?_, ?_⟩ <;> simp [World.init, Pc.shard, Pc.writes]

/-! ## States in an entry -/

/-- All states of an entry have the property. -/
def AllSt (P : AccountData → Prop) (e : ByCommitment) : Prop :=
  (∀ k a, BMap.find e.processed k = some a → P a) ∧ (∀ a, e.confirmed = some a → P a) ∧ (∀ a, e.finalized = some a → P a)

theorem AllSt.mono {P Q : AccountData → Prop} {e : ByCommitment} (h : AllSt P e) (hq : ∀ a, P a → Q a) : AllSt Q e :=
  ⟨fun k a ha => hq a (h.1 k a ha), fun a ha => hq a (h.2.1 a ha), fun a ha => hq a (h.2.2 a ha)⟩

theorem AllSt.get {P : AccountData → Prop} {pk : Pubkey} {e : ByCommitment} (h : AllSt P e) (ho : EntryOK pk e) {c : Commitment}
    {a : AccountData} (ha : e.get c = some a) : P a := by
  cases c with
  | processed =>
    rw [ho.get_processed] at ha
    obtain ⟨p, hp, -, hpf, -⟩ := ho.last
    rw [hp] at ha; cases ha
    exact h.1 _ _ hpf
  | confirmed => exact h.2.1 a ha
  | finalized => exact h.2.2 a ha

theorem allSt_new {P : AccountData → Prop} {a : AccountData} (h : P a) (c : Commitment) : AllSt P (new a c) := by
  refine ⟨fun k b hb => ?_, fun b hb => ?_, fun b hb => ?_⟩
  · simp only [new, BMap.find] at hb; split at hb <;> simp_all
  · simp only [new] at hb; split at hb <;> simp_all
  · simp only [new] at hb; split at hb <;> simp_all

theorem allSt_update {P : AccountData → Prop} {e : ByCommitment} {a : AccountData} (h : AllSt P e) (ha : P a) (c : Commitment) :
    AllSt P (e.update a c).1 := by
  refine ⟨fun k b hb => ?_, fun b hb => ?_, fun b hb => ?_⟩
  · rw [update_processed, find_updateProcessed] at hb
    split at hb
    · split at hb
      · rename_i q hq
        split at hb <;> simp at hb <;> subst hb
        · exact ha
        · exact h.1 _ _ hq
      · simp at hb; subst hb; exact ha
    · exact h.1 _ _ hb
  · rw [update_confirmed] at hb
    split at hb
    · exact h.2.1 b hb
    · split at hb
      · simp at hb; subst hb; exact ha
      · exact h.2.1 b hb
  · rw [update_finalized] at hb
    split at hb
    · simp at hb; subst hb; exact ha
    · exact h.2.2 b hb

theorem allSt_promote {P : AccountData → Prop} {pk : Pubkey} {e : ByCommitment} (h : AllSt P e) (ho : EntryOK pk e) (slot : Nat)
    (c : Commitment) : AllSt P (e.promote slot c).1 := by
  refine ⟨fun k b hb => ?_, fun b hb => ?_, fun b hb => ?_⟩
  · rw [promote_processed_map] at hb
    split at hb
    · exact h.1 _ _ (find_prune_some ho.sorted hb)
    · exact h.1 _ _ hb
  · rw [promote_confirmed] at hb
    split at hb
    · exact h.2.1 b hb
    · rename_i a ha
      split at hb
      · exact h.2.1 b hb
      · split at hb
        · rename_i x hx
          split at hb <;> simp at hb <;> subst hb
          · exact h.1 _ _ ha
          · exact h.2.1 _ hx
        · simp at hb; subst hb; exact h.1 _ _ ha
  · rw [promote_finalized] at hb
    split at hb
    · exact h.2.2 b hb
    · rename_i a ha
      split at hb
      · split at hb
        · rename_i x hx
          split at hb <;> simp at hb <;> subst hb
          · exact h.1 _ _ ha
          · exact h.2.2 _ hx
        · simp at hb; subst hb; exact h.1 _ _ ha
      · exact h.2.2 b hb

/-- An entry with a single state has nothing to be replaced by a promotion. -/
theorem promote_only {pk : Pubkey} {e : ByCommitment} {b : AccountData} (h : AllSt (· = b) e) (ho : EntryOK pk e) (slot : Nat)
    (c : Commitment) (a p : AccountData) : (e.promote slot c).2 ≠ some (a, some p) := by
  intro hr
  obtain ⟨-, hf, hp, hlt⟩ := (promote_result _ _ _ _ _).1 hr
  have h1 := h.1 _ _ hf
  have h2 := h.get ho hp.symm
  have := hlt p rfl
  simp only at h1 h2
  subst h1 h2
  omega

theorem entryOK_dead {pk : Pubkey} : ¬ EntryOK pk dead := fun h => h.nonempty rfl

/-! ## The invariant -/

theorem Submitted.mono {log log' : List (Nat × Event)} {a : AccountData} (h : Submitted log a) (hl : ∀ e ∈ log, e ∈ log') :
    Submitted log' a := by
  obtain ⟨t, c, h⟩ := h; exact ⟨t, c, hl _ h⟩

/-- The account the thread has pushed and not yet inserted in the index. -/
def Pc.making : Pc → Option Nat
  | .upNewOwn _ _ i | .upNewSlot _ _ i | .upInsert _ i => some i
  | _ => none

/-- The account the thread has removed from the index and not yet deleted. -/
def Pc.clearing : Pc → Option Nat
  | .prClear _ i .. => some i
  | _ => none

/-- Indexes that are in range. -/
def InRange (s : Store) (l : Writable) : Prop := ∀ x ∈ l, x.1 < s.accounts.length

/-- What a thread can have found for `get_program_accounts`. -/
def Found (E : Env) (log : List (Nat × Event)) (p : Pubkey) (fs : Option (List AccountFilterType)) (b : AccountData) : Prop :=
  ∃ a, Submitted log a ∧ SameAccount E.codecs a b ∧ Selected E.codecs fs a ∧ a.account.owner = p

/-- What is known about the local variables of a thread. -/
def PcOK (E : Env) (key : Nat → Pubkey) (s : Store) (log : List (Nat × Event)) : Pc → Prop
  | .idle => True
  | .upCheck a _ | .upLookup a _ | .upEntry a _ => Submitted log a
  | .upSlot a _ i => Submitted log a ∧ i < s.accounts.length
  | .upStore a _ i | .upAccount a _ i | .upWrite a _ i | .upUnown a _ i | .upOwn a i | .upDrop a i =>
    Submitted log a ∧ s.index a.pubkey = some i
  | .upPush a _ => Submitted log a ∧ s.index a.pubkey = none
  | .upNewOwn a _ i | .upNewSlot a _ i | .upInsert a i => Submitted log a ∧ s.index a.pubkey = none ∧ key i = a.pubkey ∧
    ∃ e, s.accounts[i]? = some e ∧ EntryOK a.pubkey e ∧ AllSt (· = a) e
  | .prWalk .. => True
  | .prStore _ l => InRange s l
  | .prNext _ l out => InRange s l ∧ ∀ a ∈ out, Submitted log a
  | .prPromote _ i _ l out => i < s.accounts.length ∧ InRange s l ∧ ∀ a ∈ out, Submitted log a
  | .prUnown _ i a _ l out | .prOwn _ i a l out | .prDrop _ i a l out => s.index (key i) = some i ∧ a.pubkey = key i ∧
    Submitted log a ∧ InRange s l ∧ ∀ a ∈ out, Submitted log a
  | .prClear _ i a l out => i < s.accounts.length ∧ s.index (key i) ≠ some i ∧ a.pubkey = key i ∧
    Submitted log a ∧ InRange s l ∧ ∀ a ∈ out, Submitted log a
  | .geLookup .. => True
  | .geStore pk _ i | .geRead pk _ i => i < s.accounts.length ∧ key i = pk
  | .gpContains .. | .gpOwner .. | .gpStore .. | .gpSet .. => True
  | .gpScan p fs _ l retry out => (∀ i ∈ l, i < s.accounts.length) ∧ (∀ i ∈ retry, i < s.accounts.length) ∧
    ∀ b ∈ out, Found E log p fs b
  | .gpRetry p fs _ l out => (∀ i ∈ l, i < s.accounts.length) ∧ ∀ b ∈ out, Found E log p fs b

/-- Recorded indexes are in range. -/
structure Ranges (s : Store) : Prop where
  owners : ∀ o l, s.byOwner o = some l → ∀ i ∈ l, i < s.accounts.length
  sorted : BMap.Sorted s.slots
  slots : ∀ k st, BMap.find s.slots k = some st → ∀ i ∈ st.accountsUpdated, i < s.accounts.length

/-- The invariant; `key` says which pubkey an index was made for. -/
structure Good (E : Env) (key : Nat → Pubkey) (w : World) : Prop where
  idx : ∀ pk i, w.st.index pk = some i → key i = pk ∧ ∃ e, w.st.accounts[i]? = some e ∧ EntryOK pk e
  entry : ∀ (i : Nat) e, w.st.accounts[i]? = some e → e = dead ∨ (EntryOK (key i) e ∧ AllSt (Submitted w.log) e)
  own : ∀ (i : Nat) e, w.st.accounts[i]? = some e → e = dead ∨ w.st.index (key i) = some i ∨
    (∃ t, (w.pc t).making = some i) ∨ (∃ t, (w.pc t).clearing = some i)
  apart : ∀ t t' i, (w.pc t).making = some i → (w.pc t').clearing ≠ some i
  ranges : Ranges w.st
  pcs : ∀ t, PcOK E key w.st w.log (w.pc t)

theorem Good.lt {E : Env} {key : Nat → Pubkey} {w : World} (h : Good E key w) {pk : Pubkey} {i : Nat}
    (hi : w.st.index pk = some i) : i < w.st.accounts.length := by
  obtain ⟨-, e, he, -⟩ := h.idx pk i hi
  exact (List.getElem?_eq_some_iff.1 he).1

theorem Found.mono {E : Env} {log log' : List (Nat × Event)} {p : Pubkey} {fs : Option (List AccountFilterType)} {b : AccountData}
    (h : Found E log p fs b) (hl : ∀ e ∈ log, e ∈ log') : Found E log' p fs b := by
  obtain ⟨a, h1, h2⟩ := h; exact ⟨a, h1.mono hl, h2⟩

/-- `PcOK` only depends on the index and the accounts, and on the log monotonically. -/
theorem PcOK.congr {E : Env} {key : Nat → Pubkey} {s s' : Store} {log log' : List (Nat × Event)} {p : Pc}
    (h : PcOK E key s log p) (hi : s'.index = s.index) (ha : s'.accounts = s.accounts) (hl : ∀ e ∈ log, e ∈ log') :
    PcOK E key s' log' p := by
  have sub : ∀ {a}, Submitted log a → Submitted log' a := fun h => h.mono hl
  have fnd : ∀ {p fs b}, Found E log p fs b → Found E log' p fs b := fun h => h.mono hl
  cases p <;> simp only [PcOK, InRange, hi, ha] at h ⊢ <;> grind

/-- Steps that leave index and accounts alone. -/
theorem good_same {E : Env} {key : Nat → Pubkey} {w w' : World} {t : Nat} {p : Pc} (h : Good E key w)
    (hpc : w'.pc = upd w.pc t p) (hi : w'.st.index = w.st.index) (ha : w'.st.accounts = w.st.accounts)
    (hl : ∀ e ∈ w.log, e ∈ w'.log) (hr : Ranges w'.st) (hok : PcOK E key w.st w'.log p)
    (hm : p.making = (w.pc t).making) (hc : p.clearing = (w.pc t).clearing) : Good E key w' := by
  have mk : ∀ x, (w'.pc x).making = (w.pc x).making := by
    intro x; rw [hpc]; by_cases hx : x = t
    · subst hx; rw [upd_self, hm]
    · rw [upd_other hx]
  have cl : ∀ x, (w'.pc x).clearing = (w.pc x).clearing := by
    intro x; rw [hpc]; by_cases hx : x = t
    · subst hx; rw [upd_self, hc]
    · rw [upd_other hx]
  refine ⟨?_, ?_, ?_, ?_, hr, ?_⟩
  · rw [hi, ha]; exact h.idx
  · intro i e he
    rw [ha] at he
    rcases h.entry i e he with h1 | ⟨h1, h2⟩
    · exact .inl h1
    · exact .inr ⟨h1, h2.mono fun a hs => hs.mono hl⟩
  · intro i e he
    rw [ha] at he
    simp only [hi, mk, cl]
    exact h.own i e he
  · intro x y i hx; rw [mk] at hx; rw [cl]; exact h.apart x y i hx
  · intro x
    rw [hpc]
    by_cases hx : x = t
    · subst hx; rw [upd_self]; exact hok.congr hi ha (fun _ h => h)
    · rw [upd_other hx]; exact (h.pcs x).congr hi ha hl

/-! ## Ranges -/

theorem ranges_addIndexToSlot {s : Store} (h : Ranges s) {i : Nat} (hi : i < s.accounts.length) (k : Nat)
    (c : Commitment) : Ranges (s.addIndexToSlot k i c).1 := by
  refine ⟨by simpa using h.owners, ?_, ?_⟩
  · cases c <;> exact BMap.sorted_insert h.sorted _ _
  · intro k' st hst
    rw [find_addIndexToSlot] at hst
    simp only [addIndexToSlot_accounts]
    split at hst
    · have hb : ∀ j ∈ ((BMap.find s.slots k).getD ⟨c, [], none⟩).accountsUpdated, j < s.accounts.length := by
        cases hf : BMap.find s.slots k with
        | none => simp
        | some x => simpa using h.slots _ _ hf
      simp only [Option.some.injEq] at hst
      subst hst
      split
      · exact hb
      · intro j hj
        rcases (mem_setInsert _ _ _).1 hj with rfl | hj
        · exact hi
        · exact hb j hj
    · exact h.slots _ _ hst

theorem ranges_addAccountOwner {s : Store} (h : Ranges s) {i : Nat} (hi : i < s.accounts.length)
    (o : Pubkey) : Ranges (s.addAccountOwner i o) := by
  refine ⟨?_, h.sorted, h.slots⟩
  intro o' l hl
  simp only [addAccountOwner] at hl
  split at hl
  · have hb : ∀ j ∈ (s.byOwner o).getD [], j < s.accounts.length := by
      cases hf : s.byOwner o with
      | none => simp
      | some l => simpa using h.owners _ _ hf
    simp at hl; subst hl
    intro j hj
    rcases (mem_setInsert _ _ _).1 hj with rfl | hj
    · exact hi
    · exact hb j hj
  · exact h.owners _ _ hl

theorem ranges_removeAccountOwner {s : Store} (h : Ranges s) (i : Nat) (o : Pubkey) :
    Ranges (s.removeAccountOwner i o) := by
  refine ⟨?_, h.sorted, h.slots⟩
  intro o' l hl
  simp only [removeAccountOwner] at hl
  split at hl
  · cases hf : s.byOwner o with
    | none => simp [hf] at hl
    | some l' =>
      simp [hf] at hl
      subst hl
      exact fun j hj => h.owners _ _ hf j (List.mem_filter.1 hj).1
  · exact h.owners _ _ hl

/-- Ranges only depend on the number of accounts. -/
theorem Ranges.congr {s s' : Store} (h : Ranges s) (ho : s'.byOwner = s.byOwner) (hs : s'.slots = s.slots)
    (hl : s.accounts.length ≤ s'.accounts.length) : Ranges s' := by
  refine ⟨?_, by rw [hs]; exact h.sorted, ?_⟩
  · rw [ho]; intro o l hol i hi; exact Nat.lt_of_lt_of_le (h.owners o l hol i hi) hl
  · rw [hs]; intro k st hk i hi; exact Nat.lt_of_lt_of_le (h.slots k st hk i hi) hl

theorem ranges_own {w : World} (h : Ranges w.st) {i : Nat} (hi : i < w.st.accounts.length) (a : AccountData) :
    Ranges (own w i a) := by
  unfold own; split
  · exact ranges_addAccountOwner h hi _
  · exact h

@[simp] theorem own_index (w : World) (i : Nat) (a : AccountData) : (own w i a).index = w.st.index := by
  unfold own; split <;> rfl
@[simp] theorem own_accounts (w : World) (i : Nat) (a : AccountData) : (own w i a).accounts = w.st.accounts := by
  unfold own; split <;> rfl
@[simp] theorem own_slots (w : World) (i : Nat) (a : AccountData) : (own w i a).slots = w.st.slots := by
  unfold own; split <;> rfl

theorem upd_lt' {s : Store} (h : Ranges s) {k i : Nat} (hi : i ∈ Store.upd s.slots k) : i < s.accounts.length := by
  unfold Store.upd at hi
  cases hf : BMap.find s.slots k with
  | none => simp [hf] at hi
  | some st => simp [hf] at hi; exact h.slots _ _ hf _ hi

theorem ranges_walk {s : Store} (h : Ranges s) {info : SlotInfo} {c : Commitment} {m : BMap SlotStatus} {l : Writable}
    (hw : walk info c (s.slots.length + 1) s.slots [] info.slot (some info.parent) = .ok (m, l)) :
    Ranges { s with slots := dropOldSlots m info.slot c } ∧ InRange s l := by
  obtain ⟨path, hW⟩ := walk_rel _ _ _ _ _ _ _ hw
  have hsm := hW.sorted h.sorted
  refine ⟨⟨h.owners, sorted_dropOldSlots hsm _ _, ?_⟩, ?_⟩
  · intro k st hst
    simp only at hst
    rw [find_dropOldSlots hsm] at hst
    split at hst
    · simp at hst
    · have hu := hW.upd_eq k
      have hu' : st.accountsUpdated = Store.upd s.slots k := by rw [← hu]; simp [Store.upd, hst]
      rw [hu']
      exact fun i hi => upd_lt' h hi
  · intro x hx
    rw [hW.gathered] at hx
    rcases mem_gather_sub hx with hx | hx
    · simp at hx
    · exact upd_lt' h hx.2

theorem walk_ends {s : Store} (h : Ranges s) (info : SlotInfo) (c : Commitment) : ∃ r,
    walk info c (s.slots.length + 1) s.slots [] info.slot (some info.parent) = .ok r := by
  obtain ⟨m, l, h⟩ := walk_ok (info := info) (c := c) (s.slots.length + 1) s.slots []
    info.slot (some info.parent) h.sorted (by have := pending_le c s.slots; omega)
  exact ⟨_, h⟩

/-! ## Steps that change the index or the accounts -/

/-- `PcOK` when the entry at `i` changes. -/
theorem PcOK.setAt {E : Env} {key : Nat → Pubkey} {s : Store} {log log' : List (Nat × Event)} {p : Pc} {i : Nat}
    {e e' : ByCommitment} (h : PcOK E key s log p) (hl : ∀ e ∈ log, e ∈ log') (he : s.accounts[i]? = some e)
    (hmk : ∀ b, p.making = some i → AllSt (· = b) e → EntryOK b.pubkey e → s.index b.pubkey = none → key i = b.pubkey →
      AllSt (· = b) e' ∧ EntryOK b.pubkey e') : PcOK E key (s.setAt i e') log' p := by
  have sub : ∀ {a}, Submitted log a → Submitted log' a := fun h => h.mono hl
  have fnd : ∀ {p fs b}, Found E log p fs b → Found E log' p fs b := fun h => h.mono hl
  have hlt := (List.getElem?_eq_some_iff.1 he).1
  have mk : ∀ a j, p.making = some j →
      (∃ x, s.accounts[j]? = some x ∧ EntryOK a.pubkey x ∧ AllSt (· = a) x) → s.index a.pubkey = none → key j = a.pubkey →
      ∃ x, (s.accounts.set i e')[j]? = some x ∧ EntryOK a.pubkey x ∧ AllSt (· = a) x := by
    intro a j hj ⟨x, hx, h1, h2⟩ hn hk
    by_cases hij : i = j
    · subst hij
      rw [he] at hx; cases hx
      obtain ⟨h3, h4⟩ := hmk a hj h2 h1 hn hk
      exact ⟨e', by simp [hlt], h4, h3⟩
    · exact ⟨x, by rw [List.getElem?_set_ne hij]; exact hx, h1, h2⟩
  cases p <;> simp only [PcOK, InRange, setAt_index, setAt_accounts, List.length_set, Pc.making] at h mk ⊢ <;> grind

/-- An entry is rewritten in place. -/
theorem good_setAt {E : Env} {key : Nat → Pubkey} {w w' : World} {t : Nat} {p : Pc} {i : Nat} {e e' : ByCommitment}
    (h : Good E key w) (hpc : w'.pc = upd w.pc t p) (hst : w'.st = w.st.setAt i e')
    (hl : ∀ e ∈ w.log, e ∈ w'.log) (he : w.st.accounts[i]? = some e)
    (hd : e = dead → e' = dead)
    (hok : EntryOK (key i) e → AllSt (Submitted w.log) e → EntryOK (key i) e' ∧ AllSt (Submitted w'.log) e')
    (hmk : ∀ b, AllSt (· = b) e → EntryOK b.pubkey e → w.st.index b.pubkey = none → key i = b.pubkey → AllSt (· = b) e')
    (hp : PcOK E key (w.st.setAt i e') w'.log p)
    (hm : p.making = (w.pc t).making) (hc : p.clearing = (w.pc t).clearing) : Good E key w' := by
  have hlt := (List.getElem?_eq_some_iff.1 he).1
  have mk : ∀ x, (w'.pc x).making = (w.pc x).making := by
    intro x; rw [hpc]; by_cases hx : x = t
    · subst hx; rw [upd_self, hm]
    · rw [upd_other hx]
  have cl : ∀ x, (w'.pc x).clearing = (w.pc x).clearing := by
    intro x; rw [hpc]; by_cases hx : x = t
    · subst hx; rw [upd_self, hc]
    · rw [upd_other hx]
  have acc : ∀ j, w'.st.accounts[j]? = if i = j then some e' else w.st.accounts[j]? := by
    intro j
    rw [hst, setAt_accounts, List.getElem?_set]
    split
    · simp
    · rfl
  have hi : w'.st.index = w.st.index := by rw [hst]; rfl
  refine ⟨?_, ?_, ?_, ?_, ?_, ?_⟩
  · intro pk j hj
    rw [hi] at hj
    obtain ⟨h1, x, hx, hxo⟩ := h.idx pk j hj
    refine ⟨h1, ?_⟩
    rw [acc]
    by_cases hij : i = j
    · subst hij
      rw [he] at hx; cases hx
      rw [if_pos rfl]
      rcases h.entry i e he with hd' | ⟨h2, h3⟩
      · exact absurd hxo (by rw [hd']; exact entryOK_dead)
      · exact ⟨e', rfl, h1 ▸ (hok h2 h3).1⟩
    · rw [if_neg hij]; exact ⟨x, hx, hxo⟩
  · intro j x hx
    rw [acc] at hx
    split at hx
    · rename_i hij; subst hij; cases hx
      rcases h.entry i e he with hd' | ⟨h2, h3⟩
      · exact .inl (hd hd')
      · exact .inr (hok h2 h3)
    · rcases h.entry j x hx with h1 | ⟨h1, h2⟩
      · exact .inl h1
      · exact .inr ⟨h1, h2.mono fun a hs => hs.mono hl⟩
  · intro j x hx
    simp only [hi, mk, cl]
    rw [acc] at hx
    split at hx
    · rename_i hij; subst hij; cases hx
      rcases h.own i e he with h1 | h1
      · exact .inl (hd h1)
      · exact .inr h1
    · exact h.own j x hx
  · intro x y j hx; rw [mk] at hx; rw [cl]; exact h.apart x y j hx
  · rw [hst]; exact h.ranges.congr rfl rfl (by simp)
  · intro x
    rw [hpc, hst]
    by_cases hx : x = t
    · subst hx; rw [upd_self]; exact hp
    · rw [upd_other hx]
      refine (h.pcs x).setAt hl he ?_
      intro b hmk' h1 h2 h3 h4
      refine ⟨hmk b h1 h2 h3 h4, ?_⟩
      rcases h.entry i e he with hd' | ⟨h5, h6⟩
      · exact absurd h2 (by rw [hd']; exact entryOK_dead)
      · exact h4 ▸ (hok h5 h6).1

/-- Which pubkeys and indexes the thread relies on in the index. -/
theorem PcOK.index {E : Env} {key : Nat → Pubkey} {s : Store} {log log' : List (Nat × Event)} {p : Pc}
    {f : Pubkey → Option Nat} (h : PcOK E key s log p) (hl : ∀ e ∈ log, e ∈ log')
    (h1 : ∀ pk, p.shard = some pk → f pk = s.index pk)
    (h2 : ∀ i, p.writes = some i → p.shard = none → s.index (key i) = some i → f (key i) = some i)
    (h3 : ∀ i, p.clearing = some i → s.index (key i) ≠ some i → f (key i) ≠ some i) :
    PcOK E key { s with index := f } log' p := by
  have sub : ∀ {a}, Submitted log a → Submitted log' a := fun h => h.mono hl
  have fnd : ∀ {p fs b}, Found E log p fs b → Found E log' p fs b := fun h => h.mono hl
  cases p <;> simp only [PcOK, InRange, Pc.shard, Pc.writes, Pc.clearing] at h h1 h2 h3 ⊢ <;> grind

/-- An account leaves the index: by an update that also deletes it, or by a notification. -/
theorem good_upDrop {E : Env} {key : Nat → Pubkey} {w : World} {t : Nat} {a : AccountData} {i : Nat} (h : Good E key w)
    (hx : Excl E w) (hp : w.pc t = .upDrop a i) (r : Reply) :
    Good E key (w.ret t ((w.st.setAt i dead).dropKey a.pubkey) r) := by
  have hpt := h.pcs t
  rw [hp] at hpt
  obtain ⟨hs, hi⟩ := hpt
  obtain ⟨hk, e, he, ho⟩ := h.idx _ _ hi
  have hlt := h.lt hi
  have hl : ∀ e ∈ w.log, e ∈ w.log ++ [(t, Event.ret r)] := fun e h => List.mem_append_left _ h
  have mk : ∀ x, ((upd w.pc t .idle) x).making = (w.pc x).making := by
    intro x; by_cases hx : x = t
    · subst hx; rw [upd_self, hp]; rfl
    · rw [upd_other hx]
  have cl : ∀ x, ((upd w.pc t .idle) x).clearing = (w.pc x).clearing := by
    intro x; by_cases hx : x = t
    · subst hx; rw [upd_self, hp]; rfl
    · rw [upd_other hx]
  have acc : ∀ j, (w.st.accounts.set i dead)[j]? = if i = j then some dead else w.st.accounts[j]? := by
    intro j
    rw [List.getElem?_set]
    split
    · simp
    · rfl
  refine ⟨?_, ?_, ?_, ?_, ?_, ?_⟩
  · intro pk j hj
    simp only [ret_st, dropKey, setAt_index, setAt_accounts] at hj ⊢
    split at hj
    · simp at hj
    · rename_i hne
      obtain ⟨h1, x, hx, hxo⟩ := h.idx pk j hj
      refine ⟨h1, x, ?_, hxo⟩
      rw [acc, if_neg]
      · exact hx
      · rintro rfl; exact hne (by rw [← h1, hk])
  · intro j x hx
    simp only [ret_st, ret_log, dropKey_accounts, setAt_accounts, acc] at hx ⊢
    split at hx
    · cases hx; exact .inl rfl
    · rcases h.entry j x hx with h1 | ⟨h1, h2⟩
      · exact .inl h1
      · exact .inr ⟨h1, h2.mono fun a hs => hs.mono hl⟩
  · intro j x hx
    simp only [ret_st, ret_pc, dropKey_accounts, setAt_accounts, acc, mk, cl] at hx ⊢
    split at hx
    · cases hx; exact .inl rfl
    · rename_i hij
      rcases h.own j x hx with h1 | h1 | h1
      · exact .inl h1
      · refine .inr (.inl ?_)
        simp only [dropKey, setAt_index]
        rw [if_neg]
        · exact h1
        · intro hkj; rw [hkj, hi] at h1; cases h1; exact hij rfl
      · exact .inr (.inr h1)
  · intro x y j hx; simp only [ret_pc, mk, cl] at hx ⊢; exact h.apart x y j hx
  · exact h.ranges.congr rfl rfl (by simp)
  · intro x
    simp only [ret_pc, ret_st, ret_log]
    by_cases hxt : x = t
    · subst hxt; rw [upd_self]; trivial
    · rw [upd_other hxt]
      have h1 : PcOK E key (w.st.setAt i dead) (w.log ++ [(t, Event.ret r)]) (w.pc x) := by
        refine (h.pcs x).setAt hl he ?_
        intro b _ _ _ hn hkb
        rw [← hkb, hk, hi] at hn; cases hn
      refine h1.index (fun _ h => h) ?_ ?_ ?_
      · intro pk hpk
        simp only [setAt_index]
        rw [if_neg]
        rintro rfl
        exact hxt (hx.shard x t _ _ hpk (by rw [hp]; rfl) rfl)
      · intro j hj _ hkj
        simp only [setAt_index] at hkj ⊢
        rw [if_neg]
        · exact hkj
        · intro hkk
          rw [hkk, hi] at hkj; cases hkj
          exact hxt (hx.account x t i hj (by rw [hp]; rfl))
      · intro j _ hkj
        simp only [setAt_index] at hkj ⊢
        split
        · simp
        · exact hkj

theorem good_prDrop {E : Env} {key : Nat → Pubkey} {w : World} {t : Nat} {c : Commitment} {i : Nat} {a : AccountData}
    {l : Writable} {out : List AccountData} (h : Good E key w) (hx : Excl E w) (hp : w.pc t = .prDrop c i a l out)
    (hf : w.ShardFree E a.pubkey) : Good E key (w.go t (w.st.dropKey a.pubkey) (.prClear c i a l out)) := by
  have hpt := h.pcs t
  rw [hp] at hpt
  obtain ⟨hi, hak, hs, hr, ho⟩ := hpt
  have mk : ∀ x, ((upd w.pc t (.prClear c i a l out)) x).making = (w.pc x).making := by
    intro x; by_cases hx : x = t
    · subst hx; rw [upd_self, hp]; rfl
    · rw [upd_other hx]
  have cl : ∀ x j, (w.pc x).clearing = some j → ((upd w.pc t (.prClear c i a l out)) x).clearing = some j := by
    intro x j hj; by_cases hx : x = t
    · subst hx; rw [hp] at hj; simp [Pc.clearing] at hj
    · rw [upd_other hx]; exact hj
  refine ⟨?_, h.entry, ?_, ?_, ?_, ?_⟩
  · intro pk j hj
    simp only [go_st, dropKey] at hj ⊢
    split at hj
    · simp at hj
    · exact h.idx pk j hj
  · intro j x hx
    simp only [go_st, go_pc, dropKey_accounts, mk] at hx ⊢
    rcases h.own j x hx with h1 | h1 | h1 | ⟨y, h1⟩
    · exact .inl h1
    · by_cases hij : j = i
      · subst hij
        exact .inr (.inr (.inr ⟨t, by rw [upd_self]; rfl⟩))
      · refine .inr (.inl ?_)
        simp only [dropKey]
        rw [if_neg]
        · exact h1
        · intro hkj; rw [hkj, hak, hi] at h1; cases h1; exact hij rfl
    · exact .inr (.inr (.inl h1))
    · exact .inr (.inr (.inr ⟨y, cl y j h1⟩))
  · intro x y j hxj hyj
    simp only [go_pc, mk] at hxj hyj
    by_cases hyt : y = t
    · subst hyt
      rw [upd_self] at hyj
      simp only [Pc.clearing, Option.some.injEq] at hyj
      subst hyj
      have hpx := h.pcs x
      cases hq : w.pc x <;> rw [hq] at hxj hpx <;> simp only [Pc.making, Option.some.injEq, reduceCtorEq] at hxj <;>
        simp only [PcOK] at hpx <;> subst hxj <;> rw [← hpx.2.2.1, hi] at hpx <;> simp at hpx
    · rw [upd_other hyt] at hyj; exact h.apart x y j hxj hyj
  · exact h.ranges.congr rfl rfl (by simp)
  · intro x
    simp only [go_pc, go_st, go_log]
    by_cases hxt : x = t
    · subst hxt; rw [upd_self]
      refine ⟨h.lt hi, ?_, hak, hs, hr, ho⟩
      simp [dropKey, hak]
    · rw [upd_other hxt]
      refine (h.pcs x).index (fun _ h => h) ?_ ?_ ?_
      · intro pk hpk
        rw [if_neg]
        rintro rfl
        exact hf x _ hpk rfl
      · intro j hj _ hkj
        rw [if_neg]
        · exact hkj
        · intro hkk
          rw [hkk, hak, hi] at hkj; cases hkj
          exact hxt (hx.account x t i hj (by rw [hp]; rfl))
      · intro j _ hkj
        split
        · simp
        · exact hkj

theorem good_prClear {E : Env} {key : Nat → Pubkey} {w : World} {t : Nat} {c : Commitment} {i : Nat} {a : AccountData}
    {l : Writable} {out : List AccountData} (h : Good E key w) (hp : w.pc t = .prClear c i a l out) :
    Good E key (w.go t (w.st.setAt i dead) (.prNext c l (out ++ [a]))) := by
  have hpt := h.pcs t
  rw [hp] at hpt
  obtain ⟨hlt, hni, hak, hs, hr, ho⟩ := hpt
  have mk : ∀ x, ((upd w.pc t (.prNext c l (out ++ [a]))) x).making = (w.pc x).making := by
    intro x; by_cases hx : x = t
    · subst hx; rw [upd_self, hp]; rfl
    · rw [upd_other hx]
  have cl : ∀ x j, ((upd w.pc t (.prNext c l (out ++ [a]))) x).clearing = some j → (w.pc x).clearing = some j := by
    intro x j hj; by_cases hx : x = t
    · subst hx; rw [upd_self] at hj; simp [Pc.clearing] at hj
    · rw [upd_other hx] at hj; exact hj
  have cl' : ∀ x j, j ≠ i → (w.pc x).clearing = some j → ((upd w.pc t (.prNext c l (out ++ [a]))) x).clearing = some j := by
    intro x j hji hj; by_cases hx : x = t
    · subst hx; rw [hp] at hj; simp [Pc.clearing] at hj; exact absurd hj.symm hji
    · rw [upd_other hx]; exact hj
  have acc : ∀ j, (w.st.accounts.set i dead)[j]? = if i = j then some dead else w.st.accounts[j]? := by
    intro j
    rw [List.getElem?_set]
    split
    · simp
    · rfl
  refine ⟨?_, ?_, ?_, ?_, ?_, ?_⟩
  · intro pk j hj
    simp only [go_st, setAt_index, setAt_accounts, acc] at hj ⊢
    obtain ⟨h1, x, hx, hxo⟩ := h.idx pk j hj
    refine ⟨h1, x, ?_, hxo⟩
    rw [if_neg]
    · exact hx
    · rintro rfl; exact hni (by rw [h1]; exact hj)
  · intro j x hx
    simp only [go_st, go_log, setAt_accounts, acc] at hx ⊢
    split at hx
    · cases hx; exact .inl rfl
    · exact h.entry j x hx
  · intro j x hx
    simp only [go_st, go_pc, setAt_accounts, acc, mk, setAt_index] at hx ⊢
    split at hx
    · cases hx; exact .inl rfl
    · rename_i hij
      rcases h.own j x hx with h1 | h1 | h1 | ⟨y, h1⟩
      · exact .inl h1
      · exact .inr (.inl h1)
      · exact .inr (.inr (.inl h1))
      · exact .inr (.inr (.inr ⟨y, cl' y j (fun h => hij h.symm) h1⟩))
  · intro x y j hx hy
    simp only [go_pc, mk] at hx hy
    exact h.apart x y j hx (cl y j hy)
  · exact h.ranges.congr rfl rfl (by simp)
  · intro x
    simp only [go_pc, go_st, go_log]
    by_cases hxt : x = t
    · subst hxt; rw [upd_self]
      refine ⟨?_, ?_⟩
      · intro y hy; simpa using hr y hy
      · intro b hb
        rcases List.mem_append.1 hb with hb | hb
        · exact ho b hb
        · simp at hb; subst hb; exact hs
    · rw [upd_other hxt]
      have hne : (w.pc x).making ≠ some i := fun hm => h.apart x t i hm (by rw [hp]; rfl)
      exact (h.pcs x).setAt (fun _ h => h) (List.getElem?_eq_getElem hlt) (fun b hm => absurd hm hne)

theorem good_upPush {E : Env} {key : Nat → Pubkey} {w : World} {t : Nat} {a : AccountData} {c : Commitment}
    (h : Good E key w) (hp : w.pc t = .upPush a c) :
    Good E (fun i => if i = w.st.accounts.length then a.pubkey else key i)
      (w.go t { w.st with accounts := w.st.accounts ++ [ByCommitment.new a c] } (.upNewOwn a c w.st.accounts.length)) := by
  have hpt := h.pcs t
  rw [hp] at hpt
  obtain ⟨hs, hn⟩ := hpt
  have key' : ∀ j, j < w.st.accounts.length → (if j = w.st.accounts.length then a.pubkey else key j) = key j := by
    intro j hj; rw [if_neg (by omega)]
  have acc : ∀ (j : Nat) x, (w.st.accounts ++ [ByCommitment.new a c])[j]? = some x →
      (w.st.accounts[j]? = some x ∧ j < w.st.accounts.length) ∨ (j = w.st.accounts.length ∧ x = ByCommitment.new a c) := by
    intro j x hx
    by_cases hj : j < w.st.accounts.length
    · rw [List.getElem?_append_left hj] at hx; exact .inl ⟨hx, hj⟩
    · rw [List.getElem?_append_right (by omega)] at hx
      by_cases hj' : j = w.st.accounts.length
      · subst hj'; simp at hx; exact .inr ⟨rfl, hx.symm⟩
      · rw [List.getElem?_eq_none (by simp; omega)] at hx; cases hx
  refine ⟨?_, ?_, ?_, ?_, ?_, ?_⟩
  · intro pk j hj
    simp only [go_st] at hj ⊢
    obtain ⟨h1, x, hx, hxo⟩ := h.idx pk j hj
    have hlt := (List.getElem?_eq_some_iff.1 hx).1
    exact ⟨by rw [key' j hlt]; exact h1, x, by rw [List.getElem?_append_left hlt]; exact hx, hxo⟩
  · intro j x hx
    simp only [go_st, go_log] at hx ⊢
    rcases acc j x hx with ⟨hx, hj⟩ | ⟨rfl, rfl⟩
    · rw [key' j hj]; exact h.entry j x hx
    · rw [if_pos rfl]; exact .inr ⟨entryOK_new a c, allSt_new hs c⟩
  · intro j x hx
    simp only [go_st, go_pc] at hx ⊢
    rcases acc j x hx with ⟨hx, hj⟩ | ⟨rfl, rfl⟩
    · rw [key' j hj]
      rcases h.own j x hx with h1 | h1 | ⟨y, h1⟩ | ⟨y, h1⟩
      · exact .inl h1
      · exact .inr (.inl h1)
      · have hyt : y ≠ t := by rintro rfl; rw [hp] at h1; simp [Pc.making] at h1
        exact .inr (.inr (.inl ⟨y, by rw [upd_other hyt]; exact h1⟩))
      · have hyt : y ≠ t := by rintro rfl; rw [hp] at h1; simp [Pc.clearing] at h1
        exact .inr (.inr (.inr ⟨y, by rw [upd_other hyt]; exact h1⟩))
    · exact .inr (.inr (.inl ⟨t, by rw [upd_self]; rfl⟩))
  · intro x y j hx hy
    simp only [go_pc] at hx hy
    have hyt : y ≠ t := by rintro rfl; rw [upd_self] at hy; simp [Pc.clearing] at hy
    rw [upd_other hyt] at hy
    by_cases hxt : x = t
    · subst hxt
      rw [upd_self] at hx
      simp only [Pc.making, Option.some.injEq] at hx
      subst hx
      have hpy := h.pcs y
      cases hq : w.pc y <;> rw [hq] at hy hpy <;> simp only [Pc.clearing, Option.some.injEq, reduceCtorEq] at hy
      simp only [PcOK] at hpy
      omega
    · rw [upd_other hxt] at hx; exact h.apart x y j hx hy
  · exact h.ranges.congr rfl rfl (by simp)
  · intro x
    simp only [go_pc, go_st, go_log]
    by_cases hxt : x = t
    · subst hxt; rw [upd_self]
      exact ⟨hs, hn, by simp, _, by simp, entryOK_new a c, allSt_new (P := (· = a)) rfl c⟩
    · rw [upd_other hxt]
      have hpx := h.pcs x
      have lt : ∀ j, w.st.index (key j) = some j → j < w.st.accounts.length := fun j hj => h.lt hj
      have lt' : ∀ (j : Nat) y, w.st.accounts[j]? = some y →
          j < w.st.accounts.length ∧ (w.st.accounts ++ [ByCommitment.new a c])[j]? = some y := by
        intro j y hy
        have := (List.getElem?_eq_some_iff.1 hy).1
        exact ⟨this, by rw [List.getElem?_append_left this]; exact hy⟩
      cases hq : w.pc x <;> rw [hq] at hpx <;>
        simp only [PcOK, InRange, List.length_append, List.length_singleton] at hpx ⊢ <;> grind

theorem good_upInsert {E : Env} {key : Nat → Pubkey} {w : World} {t : Nat} {a : AccountData} {i : Nat} (h : Good E key w)
    (hx : Excl E w) (hp : w.pc t = .upInsert a i) (r : Reply) :
    Good E key (w.ret t { w.st with index := fun k => if k = a.pubkey then some i else w.st.index k } r) := by
  have hpt := h.pcs t
  rw [hp] at hpt
  obtain ⟨hs, hn, hk, e, he, ho, hall⟩ := hpt
  have hl : ∀ e ∈ w.log, e ∈ w.log ++ [(t, Event.ret r)] := fun e h => List.mem_append_left _ h
  have cl : ∀ x, ((upd w.pc t .idle) x).clearing = (w.pc x).clearing := by
    intro x; by_cases hx : x = t
    · subst hx; rw [upd_self, hp]; rfl
    · rw [upd_other hx]
  refine ⟨?_, ?_, ?_, ?_, ?_, ?_⟩
  · intro pk j hj
    simp only [ret_st] at hj ⊢
    split at hj
    · rename_i hpk; cases hj; subst hpk; exact ⟨hk, e, he, ho⟩
    · exact h.idx pk j hj
  · intro j x hx
    simp only [ret_st, ret_log] at hx ⊢
    rcases h.entry j x hx with h1 | ⟨h1, h2⟩
    · exact .inl h1
    · exact .inr ⟨h1, h2.mono fun a hs => hs.mono hl⟩
  · intro j x hx
    simp only [ret_st, ret_pc, cl] at hx ⊢
    by_cases hji : j = i
    · subst hji; exact .inr (.inl (by rw [if_pos hk]))
    · rcases h.own j x hx with h1 | h1 | ⟨y, h1⟩ | h1
      · exact .inl h1
      · refine .inr (.inl ?_)
        rw [if_neg]
        · exact h1
        · intro hkj; rw [hkj, hn] at h1; cases h1
      · have hyt : y ≠ t := by
          rintro rfl; rw [hp] at h1; simp only [Pc.making, Option.some.injEq] at h1; exact hji h1.symm
        exact .inr (.inr (.inl ⟨y, by rw [upd_other hyt]; exact h1⟩))
      · exact .inr (.inr (.inr h1))
  · intro x y j hx
    simp only [ret_pc, cl] at hx ⊢
    have hxt : x ≠ t := by rintro rfl; rw [upd_self] at hx; simp [Pc.making] at hx
    rw [upd_other hxt] at hx
    exact h.apart x y j hx
  · exact h.ranges.congr rfl rfl (by simp)
  · intro x
    simp only [ret_pc, ret_st, ret_log]
    by_cases hxt : x = t
    · subst hxt; rw [upd_self]; trivial
    · rw [upd_other hxt]
      refine (h.pcs x).index hl ?_ ?_ ?_
      · intro pk hpk
        rw [if_neg]
        rintro rfl
        exact hxt (hx.shard x t _ _ hpk (by rw [hp]; rfl) rfl)
      · intro j hj _ hkj
        rw [if_neg]
        · exact hkj
        · intro hkk; rw [hkk, hn] at hkj; cases hkj
      · intro j hj hkj
        split
        · rintro hij; cases hij
          exact h.apart t x i (by rw [hp]; rfl) hj
        · exact hkj

theorem good_doWrite {E : Env} {key : Nat → Pubkey} {w : World} {t : Nat} {a : AccountData} {c : Commitment} {i : Nat}
    (h : Good E key w) (hp : w.pc t = .upWrite a c i) : Good E key (doWrite w t a c i) := by
  have hpt := h.pcs t
  rw [hp] at hpt
  obtain ⟨hs, hi⟩ := hpt
  obtain ⟨hk, e, he, ho⟩ := h.idx _ _ hi
  have done : ∀ p r, p = .idle ∨ (∃ prev, p = .upUnown a prev i) ∨ p = .upOwn a i →
      ∀ w', w'.pc = upd w.pc t p → w'.st = w.st.setAt i (e.update a c).1 → w'.log = w.log ++ r → Good E key w' := by
    intro p r hq w' hpc hst hlog
    have hl : ∀ e ∈ w.log, e ∈ w'.log := by rw [hlog]; exact fun e h => List.mem_append_left _ h
    refine good_setAt h hpc hst hl he ?_ ?_ ?_ ?_ ?_ ?_
    · rintro rfl; exact absurd ho entryOK_dead
    · intro h1 h2
      rw [hk] at h1 ⊢
      exact ⟨entryOK_update h1 c, allSt_update (h2.mono fun a hs => hs.mono hl) (hs.mono hl) c⟩
    · intro b _ _ hn hkb; rw [← hkb, hk, hi] at hn; cases hn
    · rcases hq with rfl | ⟨prev, rfl⟩ | rfl
      · trivial
      · exact ⟨hs.mono hl, hi⟩
      · exact ⟨hs.mono hl, hi⟩
    · rcases hq with rfl | ⟨prev, rfl⟩ | rfl <;> rw [hp] <;> rfl
    · rcases hq with rfl | ⟨prev, rfl⟩ | rfl <;> rw [hp] <;> rfl
  unfold doWrite
  rw [he]
  simp only
  split
  · split
    · exact done .idle _ (.inl rfl) _ rfl rfl rfl
    · split
      · exact done .idle _ (.inl rfl) _ rfl rfl rfl
      · split
        · split
          · exact done _ [] (.inr (.inl ⟨_, rfl⟩)) _ rfl rfl (by simp)
          · exact done _ [] (.inr (.inr rfl)) _ rfl rfl (by simp)
        · exact done .idle _ (.inl rfl) _ rfl rfl rfl
  · exact done .idle _ (.inl rfl) _ rfl rfl rfl

theorem good_doPromote {E : Env} {key : Nat → Pubkey} {w : World} {t : Nat} {c : Commitment} {i slot : Nat} {l : Writable}
    {out : List AccountData} (h : Good E key w) (hx : Excl E w) (hp : w.pc t = .prPromote c i slot l out) :
    Good E key (doPromote w t c i slot l out) := by
  have hpt := h.pcs t
  rw [hp] at hpt
  obtain ⟨hlt, hr, hout⟩ := hpt
  have he := List.getElem?_eq_getElem hlt
  generalize w.st.accounts[i] = e at he
  have done : ∀ p r w', w'.pc = upd w.pc t p → w'.st = w.st.setAt i (e.promote slot c).1 → w'.log = w.log ++ r →
      PcOK E key (w.st.setAt i (e.promote slot c).1) w.log p → p.making = none → p.clearing = none → Good E key w' := by
    intro p r w' hpc hst hlog hok hm hc
    have hl : ∀ e ∈ w.log, e ∈ w'.log := by rw [hlog]; exact fun e h => List.mem_append_left _ h
    refine good_setAt h hpc hst hl he ?_ ?_ ?_ (hok.congr rfl rfl hl) ?_ ?_
    · rintro rfl; rw [promote_dead]
    · intro h1 h2
      exact ⟨entryOK_promote h1 slot c, (allSt_promote h2 h1 slot c).mono fun a hs => hs.mono hl⟩
    · intro b h1 h2 _ _; exact allSt_promote h1 h2 slot c
    · rw [hm, hp]; rfl
    · rw [hc, hp]; rfl
  have hr' : InRange (w.st.setAt i (e.promote slot c).1) l := fun y hy => by simpa using hr y hy
  have hres : ∀ a prev, (e.promote slot c).2 = some (a, prev) → EntryOK (key i) e ∧ a.pubkey = key i ∧ Submitted w.log a := by
    intro a prev ha
    rcases h.entry i e he with rfl | ⟨h1, h2⟩
    · rw [promote_dead] at ha; cases ha
    · obtain ⟨-, hf, -⟩ := (promote_result _ _ _ _ _).1 ha
      exact ⟨h1, (h1.keys _ _ hf).2, h2.1 _ _ hf⟩
  have hres' : ∀ a prev, (e.promote slot c).2 = some (a, some prev) → w.st.index (key i) = some i := by
    intro a prev ha
    rcases h.own i e he with rfl | h1 | ⟨y, h1⟩ | ⟨y, h1⟩
    · rw [promote_dead] at ha; cases ha
    · exact h1
    · exfalso
      have hpy := h.pcs y
      cases hq : w.pc y <;> rw [hq] at h1 hpy <;> simp only [Pc.making, Option.some.injEq, reduceCtorEq] at h1 <;>
        simp only [PcOK] at hpy <;> subst h1 <;> obtain ⟨-, -, -, e', he', ho, hall⟩ := hpy <;>
        rw [he] at he' <;> cases he' <;> exact promote_only hall ho slot c a prev ha
    · exfalso
      have : y = t := hx.account y t i
        (by cases hq : w.pc y <;> rw [hq] at h1 <;> simp only [Pc.clearing, Option.some.injEq, reduceCtorEq] at h1; subst h1; rfl)
        (by rw [hp]; rfl)
      subst this
      rw [hp] at h1; cases h1
  have hpush : ∀ a, Submitted w.log a → ∀ b ∈ out ++ [a], Submitted w.log b := by
    intro a ha b hb
    rcases List.mem_append.1 hb with hb | hb
    · exact hout b hb
    · simp at hb; subst hb; exact ha
  unfold doPromote
  rw [he]
  simp only
  split
  · exact done _ [] _ rfl rfl (by simp) ⟨hr', hout⟩ rfl rfl
  · rename_i a ha
    exact done _ [] _ rfl rfl (by simp) ⟨hr', hpush a (hres a _ ha).2.2⟩ rfl rfl
  · rename_i a prev ha
    obtain ⟨h1, h2, h3⟩ := hres a _ ha
    have h4 := hres' a _ ha
    split
    · split
      · exact done .idle _ _ rfl rfl rfl trivial rfl rfl
      · split
        · split
          · exact done _ [] _ rfl rfl (by simp) ⟨h4, h2, h3, hr', hout⟩ rfl rfl
          · exact done _ [] _ rfl rfl (by simp) ⟨h4, h2, h3, hr', hout⟩ rfl rfl
        · exact done _ [] _ rfl rfl (by simp) ⟨hr', hpush a h3⟩ rfl rfl
    · exact done _ [] _ rfl rfl (by simp) ⟨hr', hpush a h3⟩ rfl rfl

/-- What an account contributes was submitted. -/
theorem found_of_entry {E : Env} {key : Nat → Pubkey} {w : World} (h : Good E key w) {i : Nat} {e : ByCommitment}
    (he : w.st.accounts[i]? = some e) {c : Commitment} {p : Pubkey} {fs : Option (List AccountFilterType)} {r : List AccountData}
    (hr : gpaOne E.codecs e c p fs = .ok r) : ∀ b ∈ r, Found E w.log p fs b := by
  intro b hb
  obtain ⟨-, a, ha, h1, h2, h3, -⟩ := gpaOne_sound hr hb
  rcases h.entry i e he with rfl | ⟨h4, h5⟩
  · cases c <;> simp [dead, ByCommitment.get, BMap.lastVal] at ha
  · exact ⟨a, h5.get h4 ha, h1, h2, h3⟩

theorem good_doVisit {E : Env} {key : Nat → Pubkey} {w : World} {t : Nat} {p : Pubkey} {fs : Option (List AccountFilterType)}
    {c : Commitment} {i : Nat} {next : List AccountData → Pc} (h : Good E key w)
    (hm : (w.pc t).making = none) (hc : (w.pc t).clearing = none)
    (hn : ∀ r, (∀ b ∈ r, Found E w.log p fs b) →
      PcOK E key w.st w.log (next r) ∧ (next r).making = none ∧ (next r).clearing = none) :
    Good E key (doVisit E w t p fs c i next) := by
  unfold doVisit
  split
  · exact good_same h rfl rfl rfl (fun e h => List.mem_append_left _ h) h.ranges trivial hm.symm hc.symm
  · rename_i e he
    split
    · rename_i r hr
      obtain ⟨h1, h2, h3⟩ := hn r (found_of_entry h he hr)
      exact good_same h rfl rfl rfl (fun _ h => h) h.ranges h1 (h2.trans hm.symm) (h3.trans hc.symm)
    · exact good_same h rfl rfl rfl (fun e h => List.mem_append_left _ h) h.ranges trivial hm.symm hc.symm

/-- The invariant is kept; indexes stay those of the pubkeys they were made for. -/
theorem good_step {E : Env} {key : Nat → Pubkey} {w w' : World} (h : Step E w w') (hx : Excl E w) (hg : Good E key w) :
    ∃ key', (∀ i < w.st.accounts.length, key' i = key i) ∧ Good E key' w' := by
  have app : ∀ {t : Nat} {r : Event}, ∀ e ∈ w.log, e ∈ w.log ++ [(t, r)] := fun e h => List.mem_append_left _ h
  cases h
  case env => exact ⟨key, fun _ _ => rfl, ⟨hg.idx, hg.entry, hg.own, hg.apart, hg.ranges, hg.pcs⟩⟩
  case call t k hp =>
    refine ⟨key, fun _ _ => rfl, good_same hg rfl rfl rfl app hg.ranges ?_ ?_ ?_⟩ <;> cases k <;> simp [Call.start, PcOK, hp, Pc.making, Pc.clearing]
    exact ⟨t, _, List.mem_append_right _ (List.mem_singleton.2 rfl)⟩
  case upWrite t a c i hp => exact ⟨key, fun _ _ => rfl, good_doWrite hg hp⟩
  case prPromote t c i slot l out hp => exact ⟨key, fun _ _ => rfl, good_doPromote hg hx hp⟩
  case upDrop t a i hp => exact ⟨key, fun _ _ => rfl, good_upDrop hg hx hp _⟩
  case prDrop t c i a l out hp hf => exact ⟨key, fun _ _ => rfl, good_prDrop hg hx hp hf⟩
  case prClear t c i a l out hp => exact ⟨key, fun _ _ => rfl, good_prClear hg hp⟩
  case upPush t a c hp _ => exact ⟨_, fun i hi => if_neg (by omega), good_upPush hg hp⟩
  case upInsert t a i hp => exact ⟨key, fun _ _ => rfl, good_upInsert hg hx hp _⟩
  case geRead t pk c i hp hf =>
    have hpt := hg.pcs t
    rw [hp] at hpt
    unfold doRead
    split
    · exact ⟨key, fun _ _ => rfl, good_same hg rfl rfl rfl app hg.ranges trivial (by rw [hp]; rfl) (by rw [hp]; rfl)⟩
    · exact ⟨key, fun _ _ => rfl, good_same hg rfl rfl rfl app hg.ranges trivial (by rw [hp]; rfl) (by rw [hp]; rfl)⟩
  case gpVisit t p fs c i l retry out hp hf =>
    have hpt := hg.pcs t
    rw [hp] at hpt
    refine ⟨key, fun _ _ => rfl, good_doVisit hg (by rw [hp]; rfl) (by rw [hp]; rfl) fun r hr => ⟨⟨?_, hpt.2.1, ?_⟩, rfl, rfl⟩⟩
    · exact fun j hj => hpt.1 j (List.mem_cons_of_mem _ hj)
    · intro b hb
      rcases List.mem_append.1 hb with hb | hb
      · exact hpt.2.2 b hb
      · exact hr b hb
  case gpRetry t p fs c i l out hp hf =>
    have hpt := hg.pcs t
    rw [hp] at hpt
    refine ⟨key, fun _ _ => rfl, good_doVisit hg (by rw [hp]; rfl) (by rw [hp]; rfl) fun r hr => ⟨⟨?_, ?_⟩, rfl, rfl⟩⟩
    · exact fun j hj => hpt.1 j (List.mem_cons_of_mem _ hj)
    · intro b hb
      rcases List.mem_append.1 hb with hb | hb
      · exact hpt.2 b hb
      · exact hr b hb
  case upSlot t a c i hp =>
    have hpt := hg.pcs t
    rw [hp] at hpt
    exact ⟨key, fun _ _ => rfl, good_same hg rfl (by simp) (by simp) (fun _ h => h) (ranges_addIndexToSlot hg.ranges hpt.2 _ _)
      hpt.1 (by rw [hp]; rfl) (by rw [hp]; rfl)⟩
  case upNewSlot t a c i hp =>
    have hpt := hg.pcs t
    rw [hp] at hpt
    obtain ⟨-, -, -, e, he, -⟩ := id hpt
    exact ⟨key, fun _ _ => rfl, good_same hg rfl (by simp) (by simp) (fun _ h => h)
      (ranges_addIndexToSlot hg.ranges (List.getElem?_eq_some_iff.1 he).1 _ _) hpt (by rw [hp]; rfl) (by rw [hp]; rfl)⟩
  case upNewOwn t a c i hp =>
    have hpt := hg.pcs t
    rw [hp] at hpt
    obtain ⟨-, -, -, e, he, -⟩ := id hpt
    exact ⟨key, fun _ _ => rfl, good_same hg rfl (by simp) (by simp) (fun _ h => h)
      (ranges_addAccountOwner hg.ranges (List.getElem?_eq_some_iff.1 he).1 _) hpt (by rw [hp]; rfl) (by rw [hp]; rfl)⟩
  case upUnown t a prev i hp =>
    have hpt := hg.pcs t
    rw [hp] at hpt
    refine ⟨key, fun _ _ => rfl, good_same hg rfl (by simp) (by simp) (fun _ h => h) (ranges_removeAccountOwner hg.ranges _ _) ?_ ?_ ?_⟩
    · split <;> exact hpt
    · rw [hp]; split <;> rfl
    · rw [hp]; split <;> rfl
  case prUnown t c i a prev l out hp =>
    have hpt := hg.pcs t
    rw [hp] at hpt
    refine ⟨key, fun _ _ => rfl, good_same hg rfl (by simp) (by simp) (fun _ h => h) (ranges_removeAccountOwner hg.ranges _ _) ?_ ?_ ?_⟩
    · split <;> exact hpt
    · rw [hp]; split <;> rfl
    · rw [hp]; split <;> rfl
  case upOwn t a i hp =>
    have hpt := hg.pcs t
    rw [hp] at hpt
    exact ⟨key, fun _ _ => rfl, good_same hg rfl (by simp) (by simp) app (ranges_own hg.ranges (hg.lt hpt.2) _) trivial
      (by rw [hp]; rfl) (by rw [hp]; rfl)⟩
  case prOwn t c i a l out hp =>
    have hpt := hg.pcs t
    rw [hp] at hpt
    refine ⟨key, fun _ _ => rfl, good_same hg rfl (by simp) (by simp) (fun _ h => h) (ranges_own hg.ranges (hg.lt hpt.1) _) ⟨hpt.2.2.2.1, ?_⟩
      (by rw [hp]; rfl) (by rw [hp]; rfl)⟩
    intro b hb
    rcases List.mem_append.1 hb with hb | hb
    · exact hpt.2.2.2.2 b hb
    · simp at hb; subst hb; exact hpt.2.2.1
  case prWalk t info c slots wl l hp hw hl =>
    obtain ⟨h1, h2⟩ := ranges_walk hg.ranges hw
    exact ⟨key, fun _ _ => rfl, good_same hg rfl rfl rfl (fun _ h => h) h1 (fun y hy => h2 y (hl.mem_iff.1 hy)) (by rw [hp]; rfl) (by rw [hp]; rfl)⟩
  case upKnown t a c i hp hf hi =>
    have hpt := hg.pcs t
    rw [hp] at hpt
    exact ⟨key, fun _ _ => rfl, good_same hg rfl rfl rfl (fun _ h => h) hg.ranges ⟨hpt, hg.lt hi⟩ (by rw [hp]; rfl) (by rw [hp]; rfl)⟩
  case upOccupied t a c i hp hf hi =>
    have hpt := hg.pcs t
    rw [hp] at hpt
    exact ⟨key, fun _ _ => rfl, good_same hg rfl rfl rfl (fun _ h => h) hg.ranges ⟨hpt, hi⟩ (by rw [hp]; rfl) (by rw [hp]; rfl)⟩
  case upVacant t a c hp hf hi hs =>
    have hpt := hg.pcs t
    rw [hp] at hpt
    exact ⟨key, fun _ _ => rfl, good_same hg rfl rfl rfl (fun _ h => h) hg.ranges ⟨hpt, hi⟩ (by rw [hp]; rfl) (by rw [hp]; rfl)⟩
  case geFound t pk c i hp hf hi =>
    exact ⟨key, fun _ _ => rfl, good_same hg rfl rfl rfl (fun _ h => h) hg.ranges ⟨hg.lt hi, (hg.idx _ _ hi).1⟩ (by rw [hp]; rfl) (by rw [hp]; rfl)⟩
  case prStore t c l hp hr =>
    have hpt := hg.pcs t
    rw [hp] at hpt
    exact ⟨key, fun _ _ => rfl, good_same hg rfl rfl rfl (fun _ h => h) hg.ranges ⟨hpt, by simp⟩ (by rw [hp]; rfl) (by rw [hp]; rfl)⟩
  case prNext t c i slot l out hp hf =>
    have hpt := hg.pcs t
    rw [hp] at hpt
    exact ⟨key, fun _ _ => rfl, good_same hg rfl rfl rfl (fun _ h => h) hg.ranges
      ⟨hpt.1 (i, slot) List.mem_cons_self, fun y hy => hpt.1 y (List.mem_cons_of_mem _ hy), hpt.2⟩ (by rw [hp]; rfl) (by rw [hp]; rfl)⟩
  case gpSet t p fs c hp =>
    refine ⟨key, fun _ _ => rfl, good_same hg rfl rfl rfl (fun _ h => h) hg.ranges ⟨?_, by simp, by simp⟩ (by rw [hp]; rfl) (by rw [hp]; rfl)⟩
    intro i hi
    cases hb : w.st.byOwner p with
    | none => simp [hb] at hi
    | some l => simp [hb] at hi; exact hg.ranges.owners p l hb i hi
  case gpBusy t p fs c i l retry out hp =>
    have hpt := hg.pcs t
    rw [hp] at hpt
    refine ⟨key, fun _ _ => rfl, good_same hg rfl rfl rfl (fun _ h => h) hg.ranges
      ⟨fun j hj => hpt.1 j (List.mem_cons_of_mem _ hj), ?_, hpt.2.2⟩ (by rw [hp]; rfl) (by rw [hp]; rfl)⟩
    intro j hj
    rcases List.mem_append.1 hj with hj | hj
    · exact hpt.2.1 j hj
    · simp at hj; subst hj; exact hpt.1 j List.mem_cons_self
  case gpAgain t p fs c retry out hp =>
    have hpt := hg.pcs t
    rw [hp] at hpt
    exact ⟨key, fun _ _ => rfl, good_same hg rfl rfl rfl (fun _ h => h) hg.ranges hpt.2 (by rw [hp]; rfl) (by rw [hp]; rfl)⟩
  case upTake t a c hp hf hc =>
    have hpt := hg.pcs t
    rw [hp] at hpt
    exact ⟨key, fun _ _ => rfl, good_same hg rfl rfl rfl (fun _ h => h) hg.ranges hpt (by rw [hp]; rfl) (by rw [hp]; rfl)⟩
  case upUnknown t a c hp hf hc =>
    have hpt := hg.pcs t
    rw [hp] at hpt
    exact ⟨key, fun _ _ => rfl, good_same hg rfl rfl rfl (fun _ h => h) hg.ranges hpt (by rw [hp]; rfl) (by rw [hp]; rfl)⟩
  case upStore t a c i hp hr =>
    have hpt := hg.pcs t
    rw [hp] at hpt
    exact ⟨key, fun _ _ => rfl, good_same hg rfl rfl rfl (fun _ h => h) hg.ranges hpt (by rw [hp]; rfl) (by rw [hp]; rfl)⟩
  case upAccount t a c i hp hf =>
    have hpt := hg.pcs t
    rw [hp] at hpt
    exact ⟨key, fun _ _ => rfl, good_same hg rfl rfl rfl (fun _ h => h) hg.ranges hpt (by rw [hp]; rfl) (by rw [hp]; rfl)⟩
  case geStore t pk c i hp hr =>
    have hpt := hg.pcs t
    rw [hp] at hpt
    exact ⟨key, fun _ _ => rfl, good_same hg rfl rfl rfl (fun _ h => h) hg.ranges hpt (by rw [hp]; rfl) (by rw [hp]; rfl)⟩
  all_goals first
    | exact ⟨key, fun _ _ => rfl, good_same hg rfl rfl rfl app hg.ranges trivial (by simp only [*]; rfl) (by simp only [*]; rfl)⟩
    | exact ⟨key, fun _ _ => rfl, good_same hg rfl rfl rfl (fun _ h => h) hg.ranges trivial (by simp only [*]; rfl) (by simp only [*]; rfl)⟩

theorem good_init (E : Env) (F : Filters) : Good E (fun _ => Pubkey.default) (World.init F) := by
  refine ⟨?_, ?_, ?_, ?_, ⟨?_, ?_, ?_⟩, ?_⟩ <;>
    simp [World.init, Store.empty, Pc.making, BMap.Sorted, PcOK]

theorem reachable_good {E : Env} {w : World} (h : Reachable E w) : Excl E w ∧ ∃ key, Good E key w := by
  obtain ⟨F, h⟩ := h
  induction h with
  | refl => exact ⟨excl_init E F, _, good_init E F⟩
  | tail _ hs ih =>
    obtain ⟨hx, key, hg⟩ := ih
    obtain ⟨key', -, hg'⟩ := good_step hs hx hg
    exact ⟨excl_step hs hx, key', hg'⟩

end LAM.Conc
