import Verif.Model.StoreConc
/-!
# Concurrent calls of the in-memory account store: which calls can go on
-/
namespace LAM.Conc
open Store World

/-! ## One thread moves at a time -/

@[simp] theorem upd_self (f : Nat → Pc) (t : Nat) (p : Pc) : upd f t p t = p := by simp [upd]
theorem upd_other {f : Nat → Pc} {t x : Nat} {p : Pc} (h : x ≠ t) : upd f t p x = f x := by simp [upd, h]

@[simp] theorem go_pc (w : World) (t : Nat) (s : Store) (p : Pc) : (w.go t s p).pc = upd w.pc t p := rfl
@[simp] theorem ret_pc (w : World) (t : Nat) (s : Store) (r : Reply) : (w.ret t s r).pc = upd w.pc t .idle := rfl
@[simp] theorem go_st (w : World) (t : Nat) (s : Store) (p : Pc) : (w.go t s p).st = s := rfl
@[simp] theorem ret_st (w : World) (t : Nat) (s : Store) (r : Reply) : (w.ret t s r).st = s := rfl
@[simp] theorem go_log (w : World) (t : Nat) (s : Store) (p : Pc) : (w.go t s p).log = w.log := rfl
@[simp] theorem ret_log (w : World) (t : Nat) (s : Store) (r : Reply) : (w.ret t s r).log = w.log ++ [(t, .ret r)] := rfl
@[simp] theorem go_filters (w : World) (t : Nat) (s : Store) (p : Pc) : (w.go t s p).filters = w.filters := rfl
@[simp] theorem ret_filters (w : World) (t : Nat) (s : Store) (r : Reply) : (w.ret t s r).filters = w.filters := rfl

/-- Where `doWrite` can go. -/
theorem doWrite_pc (w : World) (t : Nat) (a : AccountData) (c : Commitment) (i : Nat) :
    (∃ s r, doWrite w t a c i = w.ret t s r) ∨
    (∃ s prev, c = .finalized ∧ doWrite w t a c i = w.go t s (.upUnown a prev i)) ∨
    (∃ s, doWrite w t a c i = w.go t s (.upOwn a i)) := by
  unfold doWrite
  repeat' split
  all_goals first
    | exact .inl ⟨_, _, rfl⟩
    | (rename_i h; exact .inr (.inl ⟨_, _, h, rfl⟩))
    | exact .inr (.inr ⟨_, rfl⟩)

/-- Where `doPromote` can go. -/
theorem doPromote_pc (w : World) (t : Nat) (c : Commitment) (i slot : Nat) (l : Writable) (out : List AccountData) :
    (∃ s r, doPromote w t c i slot l out = w.ret t s r) ∨
    (∃ s out', doPromote w t c i slot l out = w.go t s (.prNext c l out')) ∨
    (∃ s a prev, c = .finalized ∧ doPromote w t c i slot l out = w.go t s (.prUnown c i a prev l out)) ∨
    (∃ s a, doPromote w t c i slot l out = w.go t s (.prOwn c i a l out)) := by
  unfold doPromote
  repeat' split
  all_goals first
    | exact .inl ⟨_, _, rfl⟩
    | exact .inr (.inl ⟨_, _, rfl⟩)
    | (rename_i h; exact .inr (.inr (.inl ⟨_, _, _, h, rfl⟩)))
    | exact .inr (.inr (.inr ⟨_, _, rfl⟩))

theorem doRead_pc (w : World) (t : Nat) (c : Commitment) (i : Nat) : ∃ r, doRead w t c i = w.ret t w.st r := by
  unfold doRead; split <;> exact ⟨_, rfl⟩

theorem doVisit_pc (E : Env) (w : World) (t : Nat) (p : Pubkey) (fs : Option (List AccountFilterType)) (c : Commitment) (i : Nat)
    (next : List AccountData → Pc) :
    (∃ r, doVisit E w t p fs c i next = w.ret t w.st r) ∨ (∃ r, doVisit E w t p fs c i next = w.go t w.st (next r)) := by
  unfold doVisit; repeat' split
  all_goals first | exact .inl ⟨_, rfl⟩ | exact .inr ⟨_, rfl⟩

/-- A step moves at most one thread, and only if the lock it waits for is free. -/
theorem step_guard {E : Env} {w w' : World} (h : Step E w w') : w'.pc = w.pc ∨ ∃ t p, w'.pc = upd w.pc t p ∧
    (∀ a c i, w.pc t = .upAccount a c i → w.AccountFree i) ∧
    (∀ c i a l out, w.pc t = .prDrop c i a l out → w.ShardFree E a.pubkey) := by
  have other : ∀ {t p q}, w.pc t = q → (∀ a c i, q ≠ .upAccount a c i) → (∀ c i a l out, q ≠ .prDrop c i a l out) →
      w'.pc = upd w.pc t p → w'.pc = w.pc ∨ ∃ t p, w'.pc = upd w.pc t p ∧
      (∀ a c i, w.pc t = .upAccount a c i → w.AccountFree i) ∧
      (∀ c i a l out, w.pc t = .prDrop c i a l out → w.ShardFree E a.pubkey) := by
    intro t p q hq h1 h2 h
    exact .inr ⟨t, p, h, fun a c i e => absurd (hq.symm.trans e) (h1 a c i), fun c i a l out e => absurd (hq.symm.trans e) (h2 c i a l out)⟩
  cases h
  case env => exact .inl rfl
  case upAccount t a c i hp hf =>
    refine .inr ⟨t, _, rfl, fun a' c' i' e => ?_, fun c i a l out e => ?_⟩ <;> rw [hp] at e <;> cases e
    exact hf
  case prDrop t c i a l out hp hf =>
    refine .inr ⟨t, _, rfl, fun a' c' i' e => ?_, fun c i a l out e => ?_⟩ <;> rw [hp] at e <;> cases e
    exact hf
  case upWrite t a c i hp =>
    rcases doWrite_pc w t a c i with ⟨_, _, h⟩ | ⟨_, _, _, h⟩ | ⟨_, h⟩ <;>
      exact other hp (by simp) (by simp) (congrArg World.pc h)
  case prPromote t c i slot l out hp =>
    rcases doPromote_pc w t c i slot l out with ⟨_, _, h⟩ | ⟨_, _, h⟩ | ⟨_, _, _, _, h⟩ | ⟨_, _, h⟩ <;>
      exact other hp (by simp) (by simp) (congrArg World.pc h)
  case geRead t _ c i hp _ =>
    obtain ⟨_, h⟩ := doRead_pc w t c i; exact other hp (by simp) (by simp) (congrArg World.pc h)
  case gpVisit t p fs c i l retry out hp _ =>
    rcases doVisit_pc E w t p fs c i (fun r => .gpScan p fs c l retry (out ++ r)) with ⟨_, h⟩ | ⟨_, h⟩ <;>
      exact other hp (by simp) (by simp) (congrArg World.pc h)
  case gpRetry t p fs c i l out hp _ =>
    rcases doVisit_pc E w t p fs c i (fun r => .gpRetry p fs c l (out ++ r)) with ⟨_, h⟩ | ⟨_, h⟩ <;>
      exact other hp (by simp) (by simp) (congrArg World.pc h)
  all_goals exact other (by assumption) (by simp) (by simp) rfl

/-- A step moves at most one thread. -/
theorem step_pc {E : Env} {w w' : World} (h : Step E w w') : w'.pc = w.pc ∨ ∃ t p, w'.pc = upd w.pc t p := by
  rcases step_guard h with h | ⟨t, p, h, -⟩
  · exact .inl h
  · exact .inr ⟨t, p, h⟩

theorem Steps.trans {E : Env} {w w' w'' : World} (h : Steps E w w') (h' : Steps E w' w'') : Steps E w w'' := by
  induction h' with
  | refl => exact h
  | tail _ hs ih => exact .tail ih hs

theorem Steps.head {E : Env} {w w' w'' : World} (h : Step E w w') (h' : Steps E w' w'') : Steps E w w'' :=
  (Steps.tail (.refl w) h).trans h'

/-- Only finitely many threads are in a call. -/
theorem finite_threads {E : Env} {w : World} (h : Reachable E w) : ∃ N, ∀ t, N ≤ t → w.pc t = .idle := by
  obtain ⟨F, h⟩ := h
  induction h with
  | refl => exact ⟨0, fun _ _ => rfl⟩
  | tail _ hs ih =>
    obtain ⟨N, hN⟩ := ih
    rcases step_pc hs with h | ⟨t, p, h⟩
    · exact ⟨N, fun x hx => by rw [h]; exact hN x hx⟩
    · refine ⟨max N (t + 1), fun x hx => ?_⟩
      rw [h, upd_other (by omega)]
      exact hN x (by omega)

/-! ## How far a thread is from returning -/

/-- The thread has yet to fetch the list it works on. -/
def Pc.stage : Pc → Nat
  | .prWalk .. | .gpContains .. | .gpOwner .. | .gpStore .. | .gpSet .. => 1
  | _ => 0

/-- A bound on the steps to go within the stage. -/
def Pc.work : Pc → Nat
  | .idle => 0
  | .upCheck .. => 9
  | .upLookup .. => 8
  | .upSlot .. => 7
  | .upEntry .. => 6
  | .upStore .. => 5
  | .upAccount .. => 4
  | .upWrite .. => 3
  | .upUnown .. => 2
  | .upOwn .. => 1
  | .upDrop .. => 1
  | .upPush .. => 4
  | .upNewOwn .. => 3
  | .upNewSlot .. => 2
  | .upInsert .. => 1
  | .prWalk .. => 1
  | .prStore _ l => 2 + 6 * l.length
  | .prNext _ l _ => 1 + 6 * l.length
  | .prPromote _ _ _ l _ => 6 + 6 * l.length
  | .prUnown _ _ _ _ l _ => 5 + 6 * l.length
  | .prOwn _ _ _ l _ => 2 + 6 * l.length
  | .prDrop _ _ _ l _ => 3 + 6 * l.length
  | .prClear _ _ _ l _ => 2 + 6 * l.length
  | .geLookup .. => 3
  | .geStore .. => 2
  | .geRead .. => 1
  | .gpContains .. => 4
  | .gpOwner .. => 3
  | .gpStore .. => 2
  | .gpSet .. => 1
  | .gpScan _ _ _ l retry _ => 2 + 2 * l.length + retry.length
  | .gpRetry _ _ _ l _ => 1 + l.length

/-- `p` is closer to the end of the call than `q`. -/
def Lower (p q : Pc) : Prop := p.stage < q.stage ∨ p.stage = q.stage ∧ p.work < q.work

/-- In `update_account`. -/
def Pc.updates : Pc → Bool
  | .upCheck .. | .upLookup .. | .upSlot .. | .upEntry .. | .upStore .. | .upAccount .. | .upWrite .. | .upUnown ..
  | .upOwn .. | .upDrop .. | .upPush .. | .upNewOwn .. | .upNewSlot .. | .upInsert .. => true
  | _ => false

/-- In `process_slot_data` with commitment finalized. -/
def Pc.finalizes : Pc → Bool
  | .prWalk _ c | .prStore c _ | .prNext c .. | .prPromote c .. | .prOwn c .. => c = .finalized
  | .prUnown .. | .prDrop .. | .prClear .. => true
  | _ => false

/-- Thread `t` can take a step towards the end of its call. -/
def Moves (E : Env) (w : World) (t : Nat) : Prop :=
  ∃ w' p, Step E w w' ∧ w.pc t ≠ .idle ∧ w'.pc = upd w.pc t p ∧ Lower p (w.pc t) ∧ (p.updates = true → (w.pc t).updates = true) ∧
    (p.finalizes = true → (w.pc t).finalizes = true)

theorem Moves.of_go {E : Env} {w : World} {t : Nat} {s : Store} {p q : Pc} (hq : w.pc t = q) (h : Step E w (w.go t s p)) (h1 : q ≠ .idle)
    (h2 : Lower p q) (h3 : p.updates = true → q.updates = true) (h4 : p.finalizes = true → q.finalizes = true) : Moves E w t := by
  subst hq; exact ⟨_, p, h, h1, rfl, h2, h3, h4⟩

theorem Moves.of_ret {E : Env} {w : World} {t : Nat} {s : Store} {r : Reply} {q : Pc} (hq : w.pc t = q) (h : Step E w (w.ret t s r))
    (h2 : Lower .idle q) : Moves E w t := by
  subst hq
  refine ⟨_, .idle, h, fun e => ?_, rfl, h2, by simp [Pc.updates], by simp [Pc.finalizes]⟩
  rw [e] at h2; simp [Lower, Pc.work] at h2

/-- A thread that waits for no lock can go on. -/
theorem moves_free (E : Env) (w : World) (t : Nat) : (match w.pc t with
    | .upSlot .. | .upWrite .. | .upUnown .. | .upOwn .. | .upDrop .. | .upNewOwn .. | .upNewSlot .. | .upInsert ..
    | .prWalk .. | .prPromote .. | .prUnown .. | .prOwn .. | .prClear .. | .gpContains .. | .gpOwner .. | .gpSet ..
    | .prNext _ [] _ | .gpScan .. | .gpRetry _ _ _ [] _ => True
    | _ => False) → Moves E w t := by
  intro h
  split at h
  case h_20 => exact h.elim
  case h_1 a c i hp => exact .of_go hp (.upSlot w t a c i hp) (by simp) (by simp [Lower, Pc.stage, Pc.work]) (by simp [Pc.updates]) (by simp [Pc.finalizes])
  case h_2 a c i hp =>
    have hs := Step.upWrite (E := E) w t a c i hp
    rcases doWrite_pc w t a c i with ⟨_, _, h⟩ | ⟨_, _, _, h⟩ | ⟨_, h⟩ <;> rw [h] at hs
    · exact .of_ret hp hs (by simp [Lower, Pc.stage, Pc.work])
    · exact .of_go hp hs (by simp) (by simp [Lower, Pc.stage, Pc.work]) (by simp [Pc.updates]) (by simp [Pc.finalizes])
    · exact .of_go hp hs (by simp) (by simp [Lower, Pc.stage, Pc.work]) (by simp [Pc.updates]) (by simp [Pc.finalizes])
  case h_3 a prev i hp =>
    refine .of_go hp (.upUnown w t a prev i hp) (by simp) ?_ (by simp [Pc.updates]) ?_ <;>
      split <;> simp [Lower, Pc.stage, Pc.work, Pc.finalizes]
  case h_4 a i hp => exact .of_ret hp (.upOwn w t a i hp) (by simp [Lower, Pc.stage, Pc.work])
  case h_5 a i hp => exact .of_ret hp (.upDrop w t a i hp) (by simp [Lower, Pc.stage, Pc.work])
  case h_6 a c i hp => exact .of_go hp (.upNewOwn w t a c i hp) (by simp) (by simp [Lower, Pc.stage, Pc.work]) (by simp [Pc.updates]) (by simp [Pc.finalizes])
  case h_7 a c i hp => exact .of_go hp (.upNewSlot w t a c i hp) (by simp) (by simp [Lower, Pc.stage, Pc.work]) (by simp [Pc.updates]) (by simp [Pc.finalizes])
  case h_8 a i hp => exact .of_ret hp (.upInsert w t a i hp) (by simp [Lower, Pc.stage, Pc.work])
  case h_9 info c hp =>
    by_cases hw : ∃ r, walk info c (w.st.slots.length + 1) w.st.slots [] info.slot (some info.parent) = .ok r
    · obtain ⟨⟨slots, wl⟩, hw⟩ := hw
      exact .of_go hp (.prWalk w t info c slots wl wl hp hw (.refl _)) (by simp) (by simp [Lower, Pc.stage]) (by simp [Pc.updates])
        (by simp [Pc.finalizes])
    · exact .of_ret hp (.prEndless w t info c hp (fun r hr => hw ⟨r, hr⟩)) (by simp [Lower, Pc.stage])
  case h_10 c i slot l out hp =>
    have hs := Step.prPromote (E := E) w t c i slot l out hp
    rcases doPromote_pc w t c i slot l out with ⟨_, _, h⟩ | ⟨_, _, h⟩ | ⟨_, _, _, hc, h⟩ | ⟨_, _, h⟩ <;> rw [h] at hs
    · exact .of_ret hp hs (by simp [Lower, Pc.stage, Pc.work]; try omega)
    · exact .of_go hp hs (by simp) (by simp [Lower, Pc.stage, Pc.work]; try omega) (by simp [Pc.updates]) (by simp [Pc.finalizes])
    · exact .of_go hp hs (by simp) (by simp [Lower, Pc.stage, Pc.work]; try omega) (by simp [Pc.updates]) (by simp [Pc.finalizes, hc])
    · exact .of_go hp hs (by simp) (by simp [Lower, Pc.stage, Pc.work]; try omega) (by simp [Pc.updates]) (by simp [Pc.finalizes])
  case h_11 c i a prev l out hp =>
    refine .of_go hp (.prUnown w t c i a prev l out hp) (by simp) ?_ ?_ (by simp [Pc.finalizes]) <;>
      split <;> simp [Lower, Pc.stage, Pc.work, Pc.updates] <;> omega
  case h_12 c i a l out hp =>
    exact .of_go hp (.prOwn w t c i a l out hp) (by simp) (by simp [Lower, Pc.stage, Pc.work]; try omega) (by simp [Pc.updates]) (by simp [Pc.finalizes])
  case h_13 c i a l out hp =>
    exact .of_go hp (.prClear w t c i a l out hp) (by simp) (by simp [Lower, Pc.stage, Pc.work]; try omega) (by simp [Pc.updates]) (by simp [Pc.finalizes])
  case h_14 p fs c hp =>
    cases hc : w.filters.contains ⟨[], some p, fs⟩
    · exact .of_ret hp (.gpRefused w t p fs c hp hc) (by simp [Lower, Pc.stage])
    · exact .of_go hp (.gpContains w t p fs c hp hc) (by simp) (by simp [Lower, Pc.stage, Pc.work]) (by simp [Pc.updates]) (by simp [Pc.finalizes])
  case h_15 p fs c hp =>
    by_cases ho : w.st.byOwner p = none
    · exact .of_ret hp (.gpNone w t p fs c hp ho) (by simp [Lower, Pc.stage])
    · exact .of_go hp (.gpOwner w t p fs c hp ho) (by simp) (by simp [Lower, Pc.stage, Pc.work]) (by simp [Pc.updates]) (by simp [Pc.finalizes])
  case h_16 p fs c hp =>
    exact .of_go hp (.gpSet w t p fs c hp) (by simp) (by simp [Lower, Pc.stage]) (by simp [Pc.updates]) (by simp [Pc.finalizes])
  case h_17 c out hp => exact .of_ret hp (.prReturn w t c out hp) (by simp [Lower, Pc.stage, Pc.work])
  case h_18 p fs c l retry out hp =>
    cases l with
    | nil => exact .of_go hp (.gpAgain w t p fs c retry out hp) (by simp) (by simp [Lower, Pc.stage, Pc.work]; try omega) (by simp [Pc.updates]) (by simp [Pc.finalizes])
    | cons i l => exact .of_go hp (.gpBusy w t p fs c i l retry out hp) (by simp) (by simp [Lower, Pc.stage, Pc.work]; try omega) (by simp [Pc.updates]) (by simp [Pc.finalizes])
  case h_19 p fs c out hp => exact .of_ret hp (.gpReturn w t p fs c out hp) (by simp [Lower, Pc.stage, Pc.work])

/-- No update runs at the same time as a notification of a finalized slot. -/
def Apart (w : World) : Prop := ∀ t t', (w.pc t).updates = true → (w.pc t').finalizes = false

/-- The shards that notifications wait for are free. -/
def DropsFree (E : Env) (w : World) : Prop := ∀ t c i a l out, w.pc t = .prDrop c i a l out → w.ShardFree E a.pubkey

theorem Apart.dropsFree {E : Env} {w : World} (ha : Apart w) : DropsFree E w := by
  intro t c j a l out hp t' pk' hs
  have : (w.pc t').updates = true := by
    cases hp' : w.pc t' <;> rw [hp'] at hs <;> simp [Pc.shard, Pc.updates] at hs ⊢
  have := ha t' t this
  rw [hp] at this; simp [Pc.finalizes] at this

/-- If notifications need not wait for shards, some thread can go on. -/
theorem progress {E : Env} {w : World} (hd : DropsFree E w) (h : ∃ t, w.pc t ≠ .idle) : ∃ t, Moves E w t := by
  by_cases h1 : ∃ t i, (w.pc t).writes = some i
  · obtain ⟨t, i, h1⟩ := h1
    refine ⟨t, ?_⟩
    cases hp : w.pc t <;> rw [hp] at h1 <;> simp only [Pc.writes, reduceCtorEq, Option.some.injEq] at h1
    case prDrop c j a l out =>
      have hf : w.ShardFree E a.pubkey := hd t c j a l out hp
      exact .of_go hp (.prDrop w t c j a l out hp hf) (by simp) (by simp [Lower, Pc.stage, Pc.work]; try omega) (by simp [Pc.updates]) (by simp [Pc.finalizes])
    all_goals exact moves_free E w t (by rw [hp]; trivial)
  have hfree : ∀ i, w.AccountFree i := fun i t ht => h1 ⟨t, i, ht⟩
  by_cases h2 : ∃ t, (w.pc t).reads = true
  · obtain ⟨t, h2⟩ := h2
    refine ⟨t, ?_⟩
    cases hp : w.pc t <;> rw [hp] at h2 <;> simp only [Pc.reads, reduceCtorEq] at h2
    case upAccount a c i =>
      exact .of_go hp (.upAccount w t a c i hp (hfree i)) (by simp) (by simp [Lower, Pc.stage, Pc.work]) (by simp [Pc.updates]) (by simp [Pc.finalizes])
    case prNext c l out =>
      cases l with
      | nil => exact moves_free E w t (by rw [hp]; trivial)
      | cons e l =>
        obtain ⟨i, slot⟩ := e
        exact .of_go hp (.prNext w t c i slot l out hp (hfree i)) (by simp) (by simp [Lower, Pc.stage, Pc.work]; try omega) (by simp [Pc.updates]) (by simp [Pc.finalizes])
    case geRead pk c i =>
      have hs := Step.geRead (E := E) w t pk c i hp (hfree i)
      obtain ⟨r, h⟩ := doRead_pc w t c i
      rw [h] at hs
      exact .of_ret hp hs (by simp [Lower, Pc.stage, Pc.work])
    case gpRetry p fs c l out =>
      cases l with
      | nil => exact moves_free E w t (by rw [hp]; trivial)
      | cons i l =>
        have hs := Step.gpRetry (E := E) w t p fs c i l out hp (hfree i)
        rcases doVisit_pc E w t p fs c i (fun r => .gpRetry p fs c l (out ++ r)) with ⟨r, h⟩ | ⟨r, h⟩ <;> rw [h] at hs
        · exact .of_ret hp hs (by simp [Lower, Pc.stage, Pc.work]; try omega)
        · exact .of_go hp hs (by simp) (by simp [Lower, Pc.stage, Pc.work]) (by simp [Pc.updates]) (by simp [Pc.finalizes])
    case prDrop c i a l out => exact absurd (by rw [hp]; rfl) (hfree i t)
    all_goals exact moves_free E w t (by rw [hp]; trivial)
  have hnr : w.NoReader := fun t => by cases hr : (w.pc t).reads; rfl; exact absurd ⟨t, hr⟩ h2
  by_cases h3 : ∃ t, (w.pc t).pushes = true
  · obtain ⟨t, h3⟩ := h3
    refine ⟨t, ?_⟩
    cases hp : w.pc t <;> rw [hp] at h3 <;> simp only [Pc.pushes, reduceCtorEq] at h3
    case upPush a c =>
      exact .of_go hp (.upPush w t a c hp hnr) (by simp) (by simp [Lower, Pc.stage, Pc.work]) (by simp [Pc.updates]) (by simp [Pc.finalizes])
  have hcr : w.CanRead E := fun _ t => by cases hr : (w.pc t).pushes; rfl; exact absurd ⟨t, hr⟩ h3
  by_cases h4 : ∃ t pk, (w.pc t).shard = some pk
  · obtain ⟨t, pk, h4⟩ := h4
    refine ⟨t, ?_⟩
    cases hp : w.pc t <;> rw [hp] at h4 <;> simp only [Pc.shard, reduceCtorEq] at h4
    case upStore a c i =>
      exact .of_go hp (.upStore w t a c i hp hcr) (by simp) (by simp [Lower, Pc.stage, Pc.work]) (by simp [Pc.updates]) (by simp [Pc.finalizes])
    case upAccount a c i => exact absurd ⟨t, by rw [hp]; rfl⟩ h2
    case upPush a c => exact absurd ⟨t, by rw [hp]; rfl⟩ h3
    all_goals exact moves_free E w t (by rw [hp]; trivial)
  have hsf : ∀ pk, w.ShardFree E pk := fun pk t pk' ht => absurd ⟨t, pk', ht⟩ h4
  obtain ⟨t, h⟩ := h
  refine ⟨t, ?_⟩
  cases hp : w.pc t
  case idle => exact absurd hp h
  case upCheck a c =>
    cases hb : (!isDeleted a && !w.filters.satisfies a && !w.st.containsKey a.pubkey)
    · exact .of_go hp (.upTake w t a c hp (hsf _) hb) (by simp) (by simp [Lower, Pc.stage, Pc.work]) (by simp [Pc.updates]) (by simp [Pc.finalizes])
    · exact .of_ret hp (.upSkip w t a c hp (hsf _) hb) (by simp [Lower, Pc.stage, Pc.work])
  case upLookup a c =>
    cases hb : w.st.index a.pubkey with
    | none => exact .of_go hp (.upUnknown w t a c hp (hsf _) hb) (by simp) (by simp [Lower, Pc.stage, Pc.work]) (by simp [Pc.updates]) (by simp [Pc.finalizes])
    | some i => exact .of_go hp (.upKnown w t a c i hp (hsf _) hb) (by simp) (by simp [Lower, Pc.stage, Pc.work]) (by simp [Pc.updates]) (by simp [Pc.finalizes])
  case upEntry a c =>
    cases hb : w.st.index a.pubkey with
    | none =>
      cases hf : w.filters.satisfies a
      · exact .of_ret hp (.upIgnore w t a c hp (hsf _) hb hf) (by simp [Lower, Pc.stage, Pc.work])
      · exact .of_go hp (.upVacant w t a c hp (hsf _) hb hf) (by simp) (by simp [Lower, Pc.stage, Pc.work]) (by simp [Pc.updates]) (by simp [Pc.finalizes])
    | some i => exact .of_go hp (.upOccupied w t a c i hp (hsf _) hb) (by simp) (by simp [Lower, Pc.stage, Pc.work]) (by simp [Pc.updates]) (by simp [Pc.finalizes])
  case prStore c l =>
    exact .of_go hp (.prStore w t c l hp hcr) (by simp) (by simp [Lower, Pc.stage, Pc.work]) (by simp [Pc.updates]) (by simp [Pc.finalizes])
  case geLookup pk c =>
    cases hb : w.st.index pk with
    | none => exact .of_ret hp (.geNone w t pk c hp (hsf _) hb) (by simp [Lower, Pc.stage, Pc.work])
    | some i => exact .of_go hp (.geFound w t pk c i hp (hsf _) hb) (by simp) (by simp [Lower, Pc.stage, Pc.work]) (by simp [Pc.updates]) (by simp [Pc.finalizes])
  case geStore pk c i =>
    exact .of_go hp (.geStore w t pk c i hp hcr) (by simp) (by simp [Lower, Pc.stage, Pc.work]) (by simp [Pc.updates]) (by simp [Pc.finalizes])
  case gpStore p fs c =>
    exact .of_go hp (.gpStore w t p fs c hp hcr) (by simp) (by simp [Lower, Pc.stage, Pc.work]) (by simp [Pc.updates]) (by simp [Pc.finalizes])
  case prNext => exact absurd ⟨t, by rw [hp]; rfl⟩ h2
  case geRead => exact absurd ⟨t, by rw [hp]; rfl⟩ h2
  case gpRetry => exact absurd ⟨t, by rw [hp]; rfl⟩ h2
  case upAccount => exact absurd ⟨t, by rw [hp]; rfl⟩ h2
  case upStore a _ _ => exact absurd ⟨t, a.pubkey, by rw [hp]; rfl⟩ h4
  case upPush => exact absurd ⟨t, by rw [hp]; rfl⟩ h3
  case prDrop c i a l out => exact absurd (by rw [hp]; rfl) (hfree i t)
  all_goals exact moves_free E w t (by rw [hp]; trivial)

/-- The sum of a measure over the first threads. -/
def total (f : Pc → Nat) (pc : Nat → Pc) : Nat → Nat
  | 0 => 0
  | n + 1 => total f pc n + f (pc n)

theorem total_congr (f : Pc → Nat) {pc pc' : Nat → Pc} : ∀ n, (∀ t, t < n → pc t = pc' t) → total f pc n = total f pc' n
  | 0, _ => rfl
  | n + 1, h => by
    unfold total
    rw [total_congr f n (fun t ht => h t (by omega)), h n (by omega)]

theorem total_upd (f : Pc → Nat) (pc : Nat → Pc) (t : Nat) (p : Pc) : ∀ n, t < n →
    total f (upd pc t p) n + f (pc t) = total f pc n + f p
  | 0, h => by omega
  | n + 1, h => by
    unfold total
    by_cases ht : t = n
    · subst ht
      rw [total_congr (pc' := pc) f t (fun x hx => upd_other (by omega)), upd_self]
      omega
    · have := total_upd f pc t p n (by omega)
      rw [upd_other (Ne.symm ht)]
      omega

/-- Steps towards the end of calls keep to this. -/
def KeptByMoves (E : Env) (I : World → Prop) : Prop :=
  ∀ w w' t p, I w → Step E w w' → w.pc t ≠ .idle → w'.pc = upd w.pc t p → (p.updates = true → (w.pc t).updates = true) →
    (p.finalizes = true → (w.pc t).finalizes = true) → I w'

/-- If notifications need not wait for shards, and this stays so, all calls can return. -/
theorem all_return {E : Env} {I : World → Prop} (hd : ∀ w, I w → DropsFree E w) (hI : KeptByMoves E I) (N : Nat) :
    ∀ (m n : Nat) (w : World), I w → (∀ t, N ≤ t → w.pc t = .idle) →
    total Pc.stage w.pc N = m → total Pc.work w.pc N = n → ∃ w', Steps E w w' ∧ ∀ t, w'.pc t = .idle := by
  intro m
  induction m using Nat.strongRecOn with
  | ind m ihm =>
    intro n
    induction n using Nat.strongRecOn with
    | ind n ihn =>
      intro w ha hN hm hn
      by_cases h : ∃ t, w.pc t ≠ .idle
      · obtain ⟨t, w', p, hs, hne, hpc, hlow, hup, hfin⟩ := progress (E := E) (hd w ha) h
        have ht : t < N := by
          by_cases hlt : t < N; exact hlt; exact absurd (hN t (by omega)) hne
        have ha' : I w' := hI w w' t p ha hs hne hpc hup hfin
        have hN' : ∀ x, N ≤ x → w'.pc x = .idle := fun x hx => by rw [hpc, upd_other (by omega)]; exact hN x hx
        have e1 := total_upd Pc.stage w.pc t p N ht
        have e2 := total_upd Pc.work w.pc t p N ht
        rw [← hpc] at e1 e2
        have : ∃ w'', Steps E w' w'' ∧ ∀ t, w''.pc t = .idle := by
          rcases hlow with hlow | ⟨hl1, hl2⟩
          · exact ihm (total Pc.stage w'.pc N) (by omega) _ w' ha' hN' rfl rfl
          · exact ihn (total Pc.work w'.pc N) (by omega) w' ha' hN' (by omega) rfl
        obtain ⟨w'', h1, h2⟩ := this
        exact ⟨w'', .head hs h1, h2⟩
      · refine ⟨w, .refl w, fun t => ?_⟩
        cases hp : w.pc t <;> first | rfl | exact absurd ⟨t, by rw [hp]; simp⟩ h

theorem apart_kept (E : Env) : KeptByMoves E Apart := by
  intro w w' t p ha _ _ hpc hup hfin x y hx
  rw [hpc] at hx ⊢
  have hx' : ∃ x, (w.pc x).updates = true := by
    by_cases e : x = t
    · subst e; rw [upd_self] at hx; exact ⟨x, hup hx⟩
    · rw [upd_other e] at hx; exact ⟨x, hx⟩
  obtain ⟨x', hx'⟩ := hx'
  by_cases e : y = t
  · subst e; rw [upd_self]
    cases hf : p.finalizes
    · rfl
    · have := ha x' y hx'; rw [hfin hf] at this; cases this
  · rw [upd_other e]; exact ha x' y hx'

theorem calls_return {E : Env} {w : World} (hr : Reachable E w) (ha : Apart w) : ∃ w', Steps E w w' ∧ ∀ t, w'.pc t = .idle := by
  obtain ⟨N, hN⟩ := finite_threads hr
  exact all_return (fun _ h => h.dropsFree) (apart_kept E) N _ _ w ha hN rfl rfl

/-- An update that waits for an account which a notification holds while it waits for the shard of the update: both wait for
ever. -/
theorem stuck {E : Env} {w w' : World} (h : Steps E w w') {t t' i : Nat} {a b : AccountData} {c c' : Commitment} {l : Writable}
    {out : List AccountData} (h1 : w.pc t = .upAccount a c i) (h2 : w.pc t' = .prDrop c' i b l out)
    (hs : E.shardOf a.pubkey = E.shardOf b.pubkey) : w'.pc t = .upAccount a c i ∧ w'.pc t' = .prDrop c' i b l out := by
  induction h with
  | refl => exact ⟨h1, h2⟩
  | tail _ hst ih =>
    rename_i w1 w2 _
    obtain ⟨g1, g2⟩ := ih
    have nf1 : ¬ w1.AccountFree i := fun hf => hf t' (by rw [g2]; rfl)
    have nf2 : ¬ w1.ShardFree E b.pubkey := fun hf => hf t a.pubkey (by rw [g1]; rfl) hs
    rcases step_guard hst with h | ⟨x, p, h, q1, q2⟩
    · rw [h]; exact ⟨g1, g2⟩
    · have e1 : x ≠ t := fun e => by subst e; exact nf1 (q1 _ _ _ g1)
      have e2 : x ≠ t' := fun e => by subst e; exact nf2 (q2 _ _ _ _ _ g2)
      rw [h, upd_other (Ne.symm e1), upd_other (Ne.symm e2)]
      exact ⟨g1, g2⟩

end LAM.Conc
