import Verif.Spec.StoreConcMemory
import Verif.Lemmas.StoreConcTaken
/-!
# Concurrent calls of the in-memory account store: how many entries it keeps
-/
namespace LAM.Conc
open Store World ByCommitment Spec

/-! ## Entries and updates -/

/-- The call can still add an entry. -/
def Pc.adds : Pc → Nat
  | .upCheck .. | .upLookup .. | .upSlot .. | .upEntry .. | .upPush .. => 1
  | _ => 0

theorem doWrite_length (w : World) (t : Nat) (a : AccountData) (c : Commitment) (i : Nat) :
    (doWrite w t a c i).st.accounts.length = w.st.accounts.length := by
  unfold doWrite; split
  · rfl
  · simp only; repeat' split
    all_goals simp [setAt]

theorem doPromote_length (w : World) (t : Nat) (c : Commitment) (i slot : Nat) (l : Writable) (out : List AccountData) :
    (doPromote w t c i slot l out).st.accounts.length = w.st.accounts.length := by
  unfold doPromote; split
  · rfl
  · simp only; repeat' split
    all_goals simp [setAt]

theorem submissions_grow (log : List (Nat × Event)) (e : Nat × Event) : submissions (fun _ => true) log ≤
    submissions (fun _ => true) (log ++ [e]) := by
  simp [submissions]

/-- What a step adds was announced, or is an update that is made. -/
theorem step_adds {E : Env} {w w' : World} (h : Step E w w') : (w'.pc = w.pc ∧ w'.st = w.st ∧ w'.log = w.log) ∨
    ∃ t p, w'.pc = upd w.pc t p ∧ w'.st.accounts.length + p.adds + submissions (fun _ => true) w.log ≤
      w.st.accounts.length + (w.pc t).adds + submissions (fun _ => true) w'.log := by
  have go : ∀ t s p, s.accounts.length + p.adds ≤ w.st.accounts.length + (w.pc t).adds →
      ∃ t' p', (w.go t s p).pc = upd w.pc t' p' ∧ (w.go t s p).st.accounts.length + p'.adds + submissions (fun _ => true) w.log ≤
        w.st.accounts.length + (w.pc t').adds + submissions (fun _ => true) (w.go t s p).log :=
    fun t s p h => ⟨t, p, rfl, by simp only [go_st, go_log]; omega⟩
  have ret : ∀ t s r, s.accounts.length = w.st.accounts.length →
      ∃ t' p', (w.ret t s r).pc = upd w.pc t' p' ∧ (w.ret t s r).st.accounts.length + p'.adds + submissions (fun _ => true) w.log ≤
        w.st.accounts.length + (w.pc t').adds + submissions (fun _ => true) (w.ret t s r).log :=
    fun t s r h => ⟨t, .idle, rfl, by
      have := submissions_grow w.log (t, .ret r)
      simp only [ret_st, ret_log, Pc.adds]; omega⟩
  cases h
  case env => exact .inl ⟨rfl, rfl, rfl⟩
  case call t k hp =>
    refine .inr ⟨t, _, rfl, ?_⟩
    have := submissions_grow w.log (t, .call k)
    simp only
    cases k with
    | update a c => simp [Call.start, Pc.adds, submissions]; omega
    | _ => simp only [Call.start, Pc.adds]; omega
  case upWrite t a c i hp =>
    refine .inr ?_
    have hlen := doWrite_length w t a c i
    rcases doWrite_pc w t a c i with ⟨_, _, h⟩ | ⟨_, _, _, h⟩ | ⟨_, h⟩ <;> rw [h] at hlen ⊢
    · exact ret _ _ _ hlen
    · exact go _ _ _ (by simp only [go_st] at hlen; simp [Pc.adds, hp, hlen])
    · exact go _ _ _ (by simp only [go_st] at hlen; simp [Pc.adds, hp, hlen])
  case prPromote t c i slot l out hp =>
    refine .inr ?_
    have hlen := doPromote_length w t c i slot l out
    rcases doPromote_pc w t c i slot l out with ⟨_, _, h⟩ | ⟨_, _, h⟩ | ⟨_, _, _, _, h⟩ | ⟨_, _, h⟩ <;> rw [h] at hlen ⊢
    · exact ret _ _ _ hlen
    all_goals exact go _ _ _ (by simp only [go_st] at hlen; simp [Pc.adds, hp, hlen])
  case geRead t _ c i hp _ =>
    obtain ⟨_, h⟩ := doRead_pc w t c i
    rw [h]; exact .inr (ret _ _ _ rfl)
  case gpVisit t p fs c i l retry out hp _ =>
    rcases doVisit_pc E w t p fs c i (fun r => .gpScan p fs c l retry (out ++ r)) with ⟨_, h⟩ | ⟨_, h⟩ <;> rw [h]
    · exact .inr (ret _ _ _ rfl)
    · exact .inr (go _ _ _ (by simp [Pc.adds]))
  case gpRetry t p fs c i l out hp _ =>
    rcases doVisit_pc E w t p fs c i (fun r => .gpRetry p fs c l (out ++ r)) with ⟨_, h⟩ | ⟨_, h⟩ <;> rw [h]
    · exact .inr (ret _ _ _ rfl)
    · exact .inr (go _ _ _ (by simp [Pc.adds]))
  case upUnown t a prev i hp => refine .inr (go _ _ _ ?_); split <;> simp [Pc.adds]
  case prUnown t c i a prev l out hp => refine .inr (go _ _ _ ?_); split <;> simp [Pc.adds]
  case upDrop t a i hp => exact .inr (ret _ _ _ (by simp [dropKey, setAt]))
  case upOwn t a i hp => exact .inr (ret _ _ _ (by simp))
  all_goals first
    | exact .inr (ret _ _ _ rfl)
    | exact .inr (go _ _ _ (by simp [Pc.adds, *, setAt, dropKey]))

theorem total_mono (f : Pc → Nat) (pc : Nat → Pc) {m n : Nat} (h : m ≤ n) : total f pc m ≤ total f pc n := by
  induction h with
  | refl => exact Nat.le_refl _
  | step _ ih => exact Nat.le_trans ih (by simp [total])

theorem reachable_entries {E : Env} {w : World} (h : Reachable E w) (n : Nat) :
    w.st.accounts.length + total Pc.adds w.pc n ≤ submissions (fun _ => true) w.log := by
  obtain ⟨F, h⟩ := h
  induction h generalizing n with
  | refl =>
    have : total Pc.adds (World.init F).pc n = 0 := by
      induction n with
      | zero => rfl
      | succ n ih => simp only [total, ih]; rfl
    rw [this]; simp [World.init, Store.empty]
  | @tail w w' _ hs ih =>
    rcases step_adds hs with ⟨h1, h2, h3⟩ | ⟨t, p, h1, h2⟩
    · rw [h1, h2, h3]; exact ih n
    · have hm := total_mono Pc.adds w'.pc (Nat.le_max_left n (t + 1))
      have hu := total_upd Pc.adds w.pc t p (max n (t + 1)) (by omega)
      have := ih (max n (t + 1))
      rw [← h1] at hu
      omega

/-! ## Entries and accounts -/

/-- Things that are told apart by members of `ks` are no more than those. -/
theorem pigeon_rel {α β : Type} [DecidableEq β] {R : α → β → Prop} (hR : ∀ i j x, R i x → R j x → i = j) : ∀ (l : List α) (ks : List β),
    l.Nodup → (∀ i ∈ l, ∃ x ∈ ks, R i x) → l.length ≤ ks.length := by
  intro l
  induction l with
  | nil => simp
  | cons i l ih =>
    intro ks hn hm
    rw [List.nodup_cons] at hn
    obtain ⟨x, hx, hix⟩ := hm i (by simp)
    have h1 := ih (ks.erase x) hn.2 (by
      intro j hj
      obtain ⟨y, hy, hjy⟩ := hm j (by simp [hj])
      refine ⟨y, (List.mem_erase_of_ne ?_).2 hy, hjy⟩
      rintro rfl
      have := hR _ _ _ hjy hix
      subst this
      exact hn.1 hj)
    rw [List.length_erase_of_mem hx] at h1
    have := List.length_pos_of_mem hx
    simp only [List.length_cons]
    omega

/-- The account the thread has pushed and not yet inserted in the index. -/
def Pc.makes : Pc → Option Pubkey
  | .upNewOwn a _ _ | .upNewSlot a _ _ | .upInsert a _ => some a.pubkey
  | _ => none

/-- The account the thread has removed from the index, whose entry it has not yet deleted. -/
def Pc.clears : Pc → Option Pubkey
  | .prClear _ _ a _ _ => some a.pubkey
  | _ => none

/-- While an entry is being deleted, no other one of its account is there or about to be: the notification has `accounts_store`
read-locked. -/
structure OneEntry (w : World) : Prop where
  index : ∀ t pk, (w.pc t).clears = some pk → w.st.index pk = none
  makes : ∀ t t' pk, (w.pc t).clears = some pk → (w.pc t').makes ≠ some pk
  clears : ∀ t t' pk, (w.pc t).clears = some pk → (w.pc t').clears = some pk → t = t'

/-- Steps after which no thread makes or clears an account that did not before. -/
theorem oneEntry_pc {w w' : World} {t : Nat} {p : Pc} (h : OneEntry w) (hpc : w'.pc = upd w.pc t p)
    (hm : ∀ pk, p.makes = some pk → (w.pc t).makes = some pk) (hc : ∀ pk, p.clears = some pk → (w.pc t).clears = some pk)
    (hi : ∀ pk x, (w.pc x).clears = some pk → w.st.index pk = none → w'.st.index pk = none) : OneEntry w' := by
  have mk : ∀ x pk, (w'.pc x).makes = some pk → (w.pc x).makes = some pk := by
    intro x pk hx
    rw [hpc] at hx
    simp only [upd] at hx
    split at hx
    · rename_i e; subst e; exact hm pk hx
    · exact hx
  have cl : ∀ x pk, (w'.pc x).clears = some pk → (w.pc x).clears = some pk := by
    intro x pk hx
    rw [hpc] at hx
    simp only [upd] at hx
    split at hx
    · rename_i e; subst e; exact hc pk hx
    · exact hx
  exact ⟨fun x pk hx => hi pk x (cl x pk hx) (h.index x pk (cl x pk hx)), fun x y pk hx hy => h.makes x y pk (cl x pk hx) (mk y pk hy),
    fun x y pk hx hy => h.clears x y pk (cl x pk hx) (cl y pk hy)⟩

theorem makes_index {E : Env} {key : Nat → Pubkey} {w : World} (hg : Good E key w) {t : Nat} {pk : Pubkey} (h : (w.pc t).makes = some pk) :
    w.st.index pk = none := by
  have hp := hg.pcs t
  cases hq : w.pc t <;> rw [hq] at h hp <;> simp only [Pc.makes, Option.some.injEq, reduceCtorEq] at h <;>
    simp only [PcOK] at hp <;> subst h <;> exact hp.2.1

theorem clears_reads {p : Pc} {pk : Pubkey} (h : p.clears = some pk) : p.reads = true := by
  cases p <;> first
    | rfl
    | cases h

theorem oneEntry_step {E : Env} {key : Nat → Pubkey} {w w' : World} (hs : Step E w w') (hg : Good E key w) (h : OneEntry w) : OneEntry w' := by
  have go : ∀ {t : Nat} {s : Store} {p : Pc}, (∀ pk, w.st.index pk = none → s.index pk = none) → p.makes = (w.pc t).makes ∨ p.makes = none →
      p.clears = none → OneEntry (w.go t s p) := fun {t s p} hi hm hc =>
    oneEntry_pc h (go_pc ..) (fun pk hp => by rcases hm with hm | hm <;> rw [hm] at hp <;> first | exact hp | cases hp)
      (fun pk hp => by rw [hc] at hp; cases hp) (fun pk x _ hx => hi pk hx)
  have ret : ∀ {t : Nat} {s : Store} {r : Reply}, (∀ pk, w.st.index pk = none → s.index pk = none) → OneEntry (w.ret t s r) :=
    fun {t s r} hi => oneEntry_pc (p := .idle) h (ret_pc ..) (fun pk hp => by cases hp) (fun pk hp => by cases hp) (fun pk x _ hx => hi pk hx)
  cases hs
  case env => exact ⟨h.index, h.makes, h.clears⟩
  case call t k hp =>
    exact oneEntry_pc h rfl (by cases k <;> simp [Call.start, Pc.makes]) (by cases k <;> simp [Call.start, Pc.clears]) (fun _ _ _ h => h)
  case upWrite t a c i hp =>
    have hi := doWrite_index w t a c i
    rcases doWrite_pc w t a c i with ⟨_, _, h⟩ | ⟨_, _, _, h⟩ | ⟨_, h⟩ <;> rw [h] at hi ⊢
    · exact ret (fun pk hx => by simp only [ret_st] at hi; rw [hi]; exact hx)
    all_goals exact go (fun pk hx => by simp only [go_st] at hi; rw [hi]; exact hx) (.inr rfl) rfl
  case prPromote t c i slot l out hp =>
    have hi := doPromote_index w t c i slot l out
    rcases doPromote_pc w t c i slot l out with ⟨_, _, h⟩ | ⟨_, _, h⟩ | ⟨_, _, _, _, h⟩ | ⟨_, _, h⟩ <;> rw [h] at hi ⊢
    · exact ret (fun pk hx => by simp only [ret_st] at hi; rw [hi]; exact hx)
    all_goals exact go (fun pk hx => by simp only [go_st] at hi; rw [hi]; exact hx) (.inr rfl) rfl
  case geRead t pk c i hp _ =>
    obtain ⟨r, hr⟩ := doRead_pc w t c i
    rw [hr]; exact ret (fun _ h => h)
  case gpVisit t p fs c i l retry out hp _ =>
    rcases doVisit_pc E w t p fs c i (fun r => .gpScan p fs c l retry (out ++ r)) with ⟨r, hr⟩ | ⟨r, hr⟩
    · rw [hr]; exact ret (fun _ h => h)
    · rw [hr]; exact go (fun _ h => h) (.inr rfl) rfl
  case gpRetry t p fs c i l out hp _ =>
    rcases doVisit_pc E w t p fs c i (fun r => .gpRetry p fs c l (out ++ r)) with ⟨r, hr⟩ | ⟨r, hr⟩
    · rw [hr]; exact ret (fun _ h => h)
    · rw [hr]; exact go (fun _ h => h) (.inr rfl) rfl
  case upUnown t a prev i hp => exact go (by simp) (.inr (by split <;> rfl)) (by split <;> rfl)
  case prUnown t c i a prev l out hp => exact go (by simp) (.inr (by split <;> rfl)) (by split <;> rfl)
  case upOwn t a i hp => exact ret (by simp)
  case prOwn t c i a l out hp => exact go (by simp) (.inr rfl) rfl
  case upDrop t a i hp => exact ret (fun pk hx => by simp only [dropKey, setAt]; split <;> first | rfl | exact hx)
  case upSlot t a c i hp => exact go (by simp) (.inr rfl) rfl
  case upNewSlot t a c i hp => exact go (by simp) (.inl (by rw [hp]; rfl)) rfl
  case upNewOwn t a c i hp => exact go (by simp) (.inl (by rw [hp]; rfl)) rfl
  case upInsert t a i hp =>
    refine oneEntry_pc (p := .idle) h (ret_pc ..) (fun pk hp => by cases hp) (fun pk hp => by cases hp) (fun pk x hc hx => ?_)
    simp only [ret_st]
    split
    · rename_i e
      subst e
      exact absurd (by rw [hp]; rfl) (h.makes x t _ hc)
    · exact hx
  case upPush t a c hp hn =>
    have no : ∀ x pk, ((w.go t { w.st with accounts := w.st.accounts ++ [ByCommitment.new a c] }
        (.upNewOwn a c w.st.accounts.length)).pc x).clears ≠ some pk := by
      intro x pk hx
      rw [go_pc] at hx
      simp only [upd] at hx
      split at hx
      · cases hx
      · have := clears_reads hx
        rw [hn x] at this; cases this
    exact ⟨fun x pk hx => absurd hx (no x pk), fun x y pk hx => absurd hx (no x pk), fun x y pk hx => absurd hx (no x pk)⟩
  case prDrop t c i a l out hp hf =>
    have hpt := hg.pcs t
    rw [hp] at hpt
    obtain ⟨hi, hk, -⟩ := hpt
    rw [← hk] at hi
    have cl : ∀ x pk, x ≠ t → ((w.go t (w.st.dropKey a.pubkey) (.prClear c i a l out)).pc x).clears = some pk →
        (w.pc x).clears = some pk ∧ pk ≠ a.pubkey := by
      intro x pk hx hc
      rw [go_pc, upd_other hx] at hc
      refine ⟨hc, ?_⟩
      rintro rfl
      have := h.index x _ hc
      rw [hi] at this; cases this
    have mk : ∀ x pk, ((w.go t (w.st.dropKey a.pubkey) (.prClear c i a l out)).pc x).makes = some pk →
        (w.pc x).makes = some pk ∧ pk ≠ a.pubkey := by
      intro x pk hm
      rw [go_pc] at hm
      simp only [upd] at hm
      split at hm
      · cases hm
      · refine ⟨hm, ?_⟩
        rintro rfl
        have := makes_index hg hm
        rw [hi] at this; cases this
    have me : ∀ pk, ((w.go t (w.st.dropKey a.pubkey) (.prClear c i a l out)).pc t).clears = some pk → pk = a.pubkey := by
      intro pk hc
      rw [go_pc, upd_self] at hc
      simpa [Pc.clears, eq_comm] using hc
    refine ⟨fun x pk hx => ?_, fun x y pk hx hy => ?_, fun x y pk hx hy => ?_⟩
    · simp only [go_st, dropKey]
      split
      · rfl
      · by_cases e : x = t
        · subst e; rename_i hne; exact absurd (me pk hx) hne
        · exact h.index x pk (cl x pk e hx).1
    · obtain ⟨h1, h2⟩ := mk y pk hy
      by_cases e : x = t
      · subst e; exact h2 (me pk hx)
      · exact h.makes x y pk (cl x pk e hx).1 h1
    · by_cases e : x = t <;> by_cases e' : y = t
      · rw [e, e']
      · subst e; exact absurd (me pk hx) (cl y pk e' hy).2
      · subst e'; exact absurd (me pk hy) (cl x pk e hx).2
      · exact h.clears x y pk (cl x pk e hx).1 (cl y pk e' hy).1
  all_goals first
    | exact go (fun _ h => h) (.inr rfl) rfl
    | exact ret (fun _ h => h)

theorem reachable_oneEntry {E : Env} {w : World} (h : Reachable E w) : OneEntry w := by
  obtain ⟨F, h⟩ := h
  induction h with
  | refl => exact ⟨fun t pk h => (by cases h), fun t t' pk h => (by cases h), fun t t' pk h => (by cases h)⟩
  | tail hs' hs ih =>
    obtain ⟨-, key, hg⟩ := reachable_good ⟨F, hs'⟩
    exact oneEntry_step hs hg ih

/-- Why there is an entry with a state: the account is tracked or about to be, or the entry is about to be deleted. -/
def Because (key : Nat → Pubkey) (w : World) (i : Nat) (pk : Pubkey) : Prop :=
  key i = pk ∧ (w.st.index pk = some i ∨ (∃ t, (w.pc t).making = some i) ∨ ∃ t, (w.pc t).clearing = some i)

theorem making_facts {E : Env} {key : Nat → Pubkey} {w : World} (hg : Good E key w) {t i : Nat} (h : (w.pc t).making = some i) :
    (w.pc t).shard = some (key i) ∧ w.st.index (key i) = none ∧ (w.pc t).makes = some (key i) := by
  have hp := hg.pcs t
  cases hq : w.pc t <;> rw [hq] at h hp <;> simp only [Pc.making, Option.some.injEq, reduceCtorEq] at h <;>
    simp only [PcOK] at hp <;> subst h <;> obtain ⟨-, h1, h2, -⟩ := hp <;> rw [h2] <;> exact ⟨rfl, h1, rfl⟩

theorem clearing_facts {E : Env} {key : Nat → Pubkey} {w : World} (hg : Good E key w) {t i : Nat} (h : (w.pc t).clearing = some i) :
    (w.pc t).clears = some (key i) := by
  have hp := hg.pcs t
  cases hq : w.pc t <;> rw [hq] at h hp <;> simp only [Pc.clearing, Option.some.injEq, reduceCtorEq] at h
  simp only [PcOK] at hp
  subst h
  rw [← hp.2.2.1]; rfl

theorem because_apart {E : Env} {key : Nat → Pubkey} {w : World} (hg : Good E key w) (hx : Excl E w) (ha : OneEntry w) (i j : Nat) (pk : Pubkey)
    (hi : Because key w i pk) (hj : Because key w j pk) : i = j := by
  obtain ⟨rfl, hi⟩ := hi
  obtain ⟨hk, hj⟩ := hj
  rcases hi with hi | ⟨t, hi⟩ | ⟨t, hi⟩ <;> rcases hj with hj | ⟨t', hj⟩ | ⟨t', hj⟩
  · rw [hi] at hj; simpa using hj
  · have := (making_facts hg hj).2.1
    rw [hk, hi] at this; cases this
  · have := ha.index _ _ (clearing_facts hg hj)
    rw [hk, hi] at this; cases this
  · have := (making_facts hg hi).2.1
    rw [hj] at this; cases this
  · have ht := hx.shard t t' _ _ (making_facts hg hi).1 (making_facts hg hj).1 (by rw [hk])
    subst ht
    rw [hi] at hj; simpa using hj
  · exact absurd (hk ▸ (making_facts hg hi).2.2) (ha.makes _ t _ (clearing_facts hg hj))
  · have := ha.index _ _ (clearing_facts hg hi)
    rw [hj] at this; cases this
  · exact absurd (hk ▸ (making_facts hg hj).2.2) (ha.makes _ t' _ (clearing_facts hg hi))
  · have ht := ha.clears t t' _ (clearing_facts hg hi) (hk ▸ clearing_facts hg hj)
    subst ht
    rw [hi] at hj; simpa using hj

theorem live_because {E : Env} {key : Nat → Pubkey} {w : World} (hg : Good E key w) {keys : List Pubkey} (hk : AmongKeys keys w.log)
    {i : Nat} {e : ByCommitment} (he : w.st.accounts[i]? = some e) (hv : e ≠ dead) : ∃ pk ∈ keys, Because key w i pk := by
  refine ⟨key i, ?_, rfl, (hg.own i e he).resolve_left hv⟩
  rcases hg.entry i e he with h | ⟨h1, h2⟩
  · exact absurd h hv
  · obtain ⟨p, -, hp, hf, -⟩ := h1.last
    exact hp ▸ hk p (h2.1 _ _ hf)

theorem hasState_key {E : Env} {key : Nat → Pubkey} {w : World} (hg : Good E key w) {i : Nat} {e : ByCommitment} {pk : Pubkey}
    (he : w.st.accounts[i]? = some e) (h : HasState pk e) : key i = pk ∧ e ≠ dead := by
  obtain ⟨a, h, rfl⟩ := h
  rcases hg.entry i e he with rfl | ⟨h1, -⟩
  · simp [dead] at h
  · refine ⟨?_, fun hd => absurd h1 (hd ▸ entryOK_dead)⟩
    rcases h with ⟨k, h⟩ | h | h
    · exact (h1.keys _ _ h).2.symm
    · exact (h1.conf _ h).1.symm
    · exact (h1.fin _ h).1.symm

theorem one_entry {E : Env} {w : World} (hr : Reachable E w) {pk : Pubkey} {i j : Nat} {e e' : ByCommitment}
    (he : w.st.accounts[i]? = some e) (he' : w.st.accounts[j]? = some e') (h : HasState pk e) (h' : HasState pk e') : i = j := by
  obtain ⟨hx, key, hg⟩ := reachable_good hr
  obtain ⟨h1, h2⟩ := hasState_key hg he h
  obtain ⟨h3, h4⟩ := hasState_key hg he' h'
  exact because_apart hg hx (reachable_oneEntry hr) i j pk ⟨h1, h1 ▸ (hg.own i e he).resolve_left h2⟩
    ⟨h3, h3 ▸ (hg.own j e' he').resolve_left h4⟩

theorem live_le {E : Env} {w : World} (hr : Reachable E w) {keys : List Pubkey} (hk : AmongKeys keys w.log) :
    (w.st.accounts.filter (fun e => ¬ Vacated e)).length ≤ keys.length := by
  obtain ⟨hx, key, hg⟩ := reachable_good hr
  have hlen : (w.st.accounts.filter (fun e => ¬ Vacated e)).length =
      ((List.range w.st.accounts.length).filter (fun i => ¬ Vacated ((w.st.accounts[i]?).getD dead))).length := by
    rw [← List.countP_eq_length_filter, ← List.countP_eq_length_filter]
    have hmap : w.st.accounts = (List.range w.st.accounts.length).map (fun i => (w.st.accounts[i]?).getD dead) := by
      apply List.ext_getElem
      · simp
      · intro i h1 h2; simp [List.getElem?_eq_getElem h1]
    have h1 : w.st.accounts.countP (fun e => ¬ Vacated e) =
        ((List.range w.st.accounts.length).map (fun i => (w.st.accounts[i]?).getD dead)).countP (fun e => ¬ Vacated e) := by
      rw [← hmap]
    rw [h1, List.countP_map]
    rfl
  rw [hlen]
  refine pigeon_rel (because_apart hg hx (reachable_oneEntry hr)) _ keys (List.Pairwise.filter _ List.nodup_range) ?_
  intro i hi
  rw [List.mem_filter, List.mem_range] at hi
  obtain ⟨h1, h2⟩ := hi
  have he : w.st.accounts[i]? = some w.st.accounts[i] := List.getElem?_eq_getElem h1
  refine live_because hg hk he ?_
  rw [he] at h2
  intro hd
  simp [hd, Vacated, dead] at h2

/-! ## Nothing leaves -/

/-- A thread that is about to delete nothing. -/
def Pc.stays : Pc → Prop
  | .upDrop .. | .prDrop .. | .prClear .. => False
  | _ => True

/-- No entry is without a state, and none is about to be. -/
structure Stays (w : World) : Prop where
  live : ∀ e ∈ w.st.accounts, e ≠ dead
  pcs : ∀ t, (w.pc t).stays

theorem stays_pc {w w' : World} {t : Nat} {p : Pc} (h : Stays w) (hpc : w'.pc = upd w.pc t p) (hp : p.stays)
    (ha : ∀ e ∈ w'.st.accounts, e ∈ w.st.accounts ∨ e ≠ dead) : Stays w' := by
  refine ⟨fun e he => ?_, fun x => ?_⟩
  · rcases ha e he with h' | h'
    · exact h.live e h'
    · exact h'
  · rw [hpc]; simp only [upd]; split
    · exact hp
    · exact h.pcs x

theorem mem_setAt {s : Store} {i : Nat} {e e' : ByCommitment} (h : e ∈ (s.setAt i e').accounts) : e ∈ s.accounts ∨ e = e' := by
  simp only [setAt] at h
  exact List.mem_or_eq_of_mem_set h

theorem doWrite_stays {E : Env} {key : Nat → Pubkey} {w : World} (hg : Good E key w) (h : Stays w) {t : Nat} {a : AccountData} {c : Commitment}
    {i : Nat} (hp : w.pc t = .upWrite a c i) : Stays (doWrite w t a c i) := by
  have hpt := hg.pcs t
  rw [hp] at hpt
  obtain ⟨-, hi⟩ := hpt
  obtain ⟨hk, e, he, ho⟩ := hg.idx _ _ hi
  have hne : (e.update a c).1 ≠ dead := by
    intro hd
    exact absurd (entryOK_update ho c) (hd ▸ entryOK_dead)
  have mem : ∀ x ∈ (w.st.setAt i (e.update a c).1).accounts, x ∈ w.st.accounts ∨ x ≠ dead := fun x hx =>
    (mem_setAt hx).imp id (by rintro rfl; exact hne)
  unfold doWrite
  rw [he]
  simp only
  repeat' split
  all_goals exact stays_pc h rfl trivial mem

theorem doPromote_stays {E : Env} {key : Nat → Pubkey} {w : World} (hg : Good E key w) (h : Stays w) {t : Nat} {c : Commitment}
    {i slot : Nat} {l : Writable} {out : List AccountData} : Stays (doPromote w t c i slot l out) := by
  unfold doPromote
  split
  · exact stays_pc (p := .idle) h rfl trivial (fun x hx => .inl hx)
  · rename_i e he
    have hne : (e.promote slot c).1 ≠ dead := by
      intro hd
      rcases hg.entry i e he with rfl | ⟨h1, -⟩
      · exact h.live _ (List.mem_of_getElem? he) rfl
      · exact absurd (entryOK_promote h1 slot c) (hd ▸ entryOK_dead)
    have mem : ∀ x ∈ (w.st.setAt i (e.promote slot c).1).accounts, x ∈ w.st.accounts ∨ x ≠ dead := fun x hx =>
      (mem_setAt hx).imp id (by rintro rfl; exact hne)
    simp only
    repeat' split
    all_goals exact stays_pc h rfl trivial mem

theorem stays_step {E : Env} {key : Nat → Pubkey} {w w' : World} (hs : Step E w w') (hg : Good E key w)
    (hn : ∀ a, Submitted w.log a → a.account.lamports ≠ 0 ∧ w.filters.satisfies a = true) (h : Stays w) : Stays w' := by
  have go : ∀ {t : Nat} {s : Store} {p : Pc}, s.accounts = w.st.accounts → p.stays → Stays (w.go t s p) := fun {t s p} ha hp =>
    stays_pc h (go_pc ..) hp (fun x hx => .inl (by rw [go_st, ha] at hx; exact hx))
  have ret : ∀ {t : Nat} {s : Store} {r : Reply}, s.accounts = w.st.accounts → Stays (w.ret t s r) := fun {t s r} ha =>
    stays_pc (p := .idle) h (ret_pc ..) trivial (fun x hx => .inl (by rw [ret_st, ha] at hx; exact hx))
  have keep : ∀ a, Submitted w.log a → (isDeleted a || !w.filters.satisfies a) = false := fun a ha => by
    obtain ⟨h1, h2⟩ := hn a ha
    simp [isDeleted, h1, h2]
  cases hs
  case env => exact ⟨h.live, h.pcs⟩
  case call t k hp => exact stays_pc h rfl (by cases k <;> trivial) (fun x hx => .inl hx)
  case upWrite t a c i hp => exact doWrite_stays hg h hp
  case prPromote t c i slot l out hp => exact doPromote_stays hg h
  case upUnown t a prev i hp =>
    have := hg.pcs t
    rw [hp] at this
    rw [keep a this.1]
    exact go (by simp) trivial
  case prUnown t c i a prev l out hp =>
    have := hg.pcs t
    rw [hp] at this
    rw [keep a this.2.2.1]
    exact go (by simp) trivial
  case upDrop t a i hp => have := h.pcs t; rw [hp] at this; exact this.elim
  case prDrop t c i a l out hp _ => have := h.pcs t; rw [hp] at this; exact this.elim
  case prClear t c i a l out hp => have := h.pcs t; rw [hp] at this; exact this.elim
  case upOwn t a i hp => exact ret (own_accounts ..)
  case prOwn t c i a l out hp => exact go (own_accounts ..) trivial
  case upPush t a c hp _ =>
    refine stays_pc h (go_pc ..) trivial (fun x hx => ?_)
    rcases List.mem_append.1 hx with hx | hx
    · exact .inl hx
    · simp at hx; subst hx; right; simp [ByCommitment.new, dead]
  case upSlot t a c i hp => exact go (by simp) trivial
  case upNewSlot t a c i hp => exact go (by simp) trivial
  case upNewOwn t a c i hp => exact go (by simp) trivial
  case geRead t pk c i hp _ =>
    obtain ⟨r, hr⟩ := doRead_pc w t c i
    rw [hr]; exact ret rfl
  case gpVisit t p fs c i l retry out hp _ =>
    rcases doVisit_pc E w t p fs c i (fun r => .gpScan p fs c l retry (out ++ r)) with ⟨r, hr⟩ | ⟨r, hr⟩
    · rw [hr]; exact ret rfl
    · rw [hr]; exact go rfl trivial
  case gpRetry t p fs c i l out hp _ =>
    rcases doVisit_pc E w t p fs c i (fun r => .gpRetry p fs c l (out ++ r)) with ⟨r, hr⟩ | ⟨r, hr⟩
    · rw [hr]; exact ret rfl
    · rw [hr]; exact go rfl trivial
  all_goals first
    | exact go rfl trivial
    | exact ret rfl

theorem trace_stays {E : Env} {F : Filters} {w : World} {vs : List World} (h : Trace E (World.init F) vs w) (hn : NoneLeave vs) :
    Stays w := by
  induction h with
  | refl => exact ⟨by simp [World.init, Store.empty], fun t => trivial⟩
  | tail hst hs ih =>
    obtain ⟨-, key, hg⟩ := reachable_good (Steps.reachable ⟨F, .refl _⟩ hst.steps)
    exact stays_step hs hg (hn _ (by simp [hst.last])) (ih (fun v hv => hn v (by simp [hv])))

theorem all_le {E : Env} {F : Filters} {w : World} {vs : List World} (h : Trace E (World.init F) vs w) (hn : NoneLeave vs)
    {keys : List Pubkey} (hk : AmongKeys keys w.log) : w.st.accounts.length ≤ keys.length := by
  have hr : Reachable E w := ⟨F, h.steps⟩
  have hst := trace_stays h hn
  obtain ⟨hx, key, hg⟩ := reachable_good hr
  have := pigeon_rel (because_apart hg hx (reachable_oneEntry hr)) (List.range w.st.accounts.length) keys List.nodup_range (by
    intro i hi
    rw [List.mem_range] at hi
    have he : w.st.accounts[i]? = some w.st.accounts[i] := List.getElem?_eq_getElem hi
    exact live_because hg hk he (hst.live _ (List.mem_of_getElem? he)))
  simpa using this

end LAM.Conc
