import Verif.Lemmas.StoreConcSeq
/-!
# Concurrent calls of the in-memory account store: a scheduler to build concrete executions
-/
namespace LAM.Conc
open Store World ByCommitment Spec

/-- One decision of the scheduler. -/
inductive Move where
  | call (t : Nat) (k : Call)
  | go (t : Nat)

/-- All of the first `n` threads. -/
def allT (n : Nat) (w : World) (P : Pc → Bool) : Bool := (List.range n).all fun t => P (w.pc t)

/-- Only the first `n` threads are in calls. -/
def Within (n : Nat) (w : World) : Prop := ∀ t, n ≤ t → w.pc t = .idle

theorem allT_spec {n : Nat} {w : World} {P : Pc → Bool} (h : allT n w P = true) (hw : Within n w) (hi : P .idle = true) (t : Nat) :
    P (w.pc t) = true := by
  simp only [allT, List.all_eq_true, List.mem_range] at h
  by_cases ht : t < n
  · exact h t ht
  · rw [hw t (by omega)]; exact hi

def shardFree (E : Env) (n : Nat) (w : World) (pk : Pubkey) : Bool :=
  allT n w fun p => match p.shard with | some pk' => E.shardOf pk' != E.shardOf pk | none => true

theorem shardFree_spec {E : Env} {n : Nat} {w : World} {pk : Pubkey} (h : shardFree E n w pk = true) (hw : Within n w) :
    w.ShardFree E pk := by
  intro t pk' ht
  have := allT_spec h hw rfl t
  rw [ht] at this
  simpa using this

def accountFree (n : Nat) (w : World) (i : Nat) : Bool := allT n w fun p => p.writes != some i

theorem accountFree_spec {n : Nat} {w : World} {i : Nat} (h : accountFree n w i = true) (hw : Within n w) : w.AccountFree i := by
  intro t ht
  have := allT_spec h hw rfl t
  rw [ht] at this
  simp at this

def noReader (n : Nat) (w : World) : Bool := allT n w fun p => !p.reads

theorem noReader_spec {n : Nat} {w : World} (h : noReader n w = true) (hw : Within n w) : w.NoReader := by
  intro t
  have := allT_spec h hw rfl t
  simpa using this

def canRead (E : Env) (n : Nat) (w : World) : Bool := !E.writersFirst || allT n w fun p => !p.pushes

theorem canRead_spec {E : Env} {n : Nat} {w : World} (h : canRead E n w = true) (hw : Within n w) : w.CanRead E := by
  intro hf t
  simp only [canRead, hf, Bool.not_true, Bool.false_or] at h
  have := allT_spec h hw rfl t
  simpa using this

/-- The next step of a thread, if it can take one. -/
def next (E : Env) (n : Nat) (w : World) (t : Nat) : Option World :=
  match w.pc t with
  | .idle => none
  | .upCheck a c =>
    if shardFree E n w a.pubkey then
      some (if !isDeleted a && !w.filters.satisfies a && !w.st.containsKey a.pubkey then w.ret t w.st (.updated false)
        else w.go t w.st (.upLookup a c))
    else none
  | .upLookup a c =>
    if shardFree E n w a.pubkey then
      match w.st.index a.pubkey with
      | some i => some (w.go t w.st (.upSlot a c i))
      | none => some (w.go t w.st (.upEntry a c))
    else none
  | .upSlot a c i => some (w.go t (w.st.addIndexToSlot a.slot i c).1 (.upEntry a (w.st.addIndexToSlot a.slot i c).2))
  | .upEntry a c =>
    if shardFree E n w a.pubkey then
      match w.st.index a.pubkey with
      | some i => some (w.go t w.st (.upStore a c i))
      | none => if w.filters.satisfies a then some (w.go t w.st (.upPush a c)) else some (w.ret t w.st (.updated false))
    else none
  | .upStore a c i => if canRead E n w then some (w.go t w.st (.upAccount a c i)) else none
  | .upAccount a c i => if accountFree n w i then some (w.go t w.st (.upWrite a c i)) else none
  | .upWrite a c i => some (doWrite w t a c i)
  | .upUnown a prev i => some (w.go t (w.st.removeAccountOwner i prev.account.owner)
      (if isDeleted a || !w.filters.satisfies a then .upDrop a i else .upOwn a i))
  | .upOwn a i => some (w.ret t (own w i a) (.updated true))
  | .upDrop a i => some (w.ret t ((w.st.setAt i ⟨[], none, none⟩).dropKey a.pubkey) (.updated true))
  | .upPush a c => if noReader n w then some (w.go t { w.st with accounts := w.st.accounts ++ [ByCommitment.new a c] }
      (.upNewOwn a c w.st.accounts.length)) else none
  | .upNewOwn a c i => some (w.go t (w.st.addAccountOwner i a.account.owner) (.upNewSlot a c i))
  | .upNewSlot a c i => some (w.go t (w.st.addIndexToSlot a.slot i c).1 (.upInsert a i))
  | .upInsert a i => some (w.ret t { w.st with index := fun k => if k = a.pubkey then some i else w.st.index k } (.updated true))
  | .prWalk info c =>
    match walk info c (w.st.slots.length + 1) w.st.slots [] info.slot (some info.parent) with
    | .ok (slots, wl) => some (w.go t { w.st with slots := dropOldSlots slots info.slot c } (.prStore c wl))
    | _ => none
  | .prStore c l => if canRead E n w then some (w.go t w.st (.prNext c l [])) else none
  | .prNext _ [] out => some (w.ret t w.st (.reported out))
  | .prNext c ((i, slot) :: l) out => if accountFree n w i then some (w.go t w.st (.prPromote c i slot l out)) else none
  | .prPromote c i slot l out => some (doPromote w t c i slot l out)
  | .prUnown c i a prev l out => some (w.go t (w.st.removeAccountOwner i prev.account.owner)
      (if isDeleted a || !w.filters.satisfies a then .prDrop c i a l out else .prOwn c i a l out))
  | .prOwn c i a l out => some (w.go t (own w i a) (.prNext c l (out ++ [a])))
  | .prDrop c i a l out =>
    if shardFree E n w a.pubkey then some (w.go t (w.st.dropKey a.pubkey) (.prClear c i a l out)) else none
  | .prClear c i a l out => some (w.go t (w.st.setAt i ⟨[], none, none⟩) (.prNext c l (out ++ [a])))
  | .geLookup pk c =>
    if shardFree E n w pk then
      match w.st.index pk with
      | some i => some (w.go t w.st (.geStore pk c i))
      | none => some (w.ret t w.st (.account none))
    else none
  | .geStore pk c i => if canRead E n w then some (w.go t w.st (.geRead pk c i)) else none
  | .geRead _ c i => if accountFree n w i then some (doRead w t c i) else none
  | .gpContains p fs c =>
    if w.filters.contains ⟨[], some p, fs⟩ then some (w.go t w.st (.gpOwner p fs c))
    else some (w.ret t w.st (.accounts (.error .configDoesNotContainRequiredFilters)))
  | .gpOwner p fs c =>
    match w.st.byOwner p with
    | none => some (w.ret t w.st (.accounts (.ok [])))
    | some _ => some (w.go t w.st (.gpStore p fs c))
  | .gpStore p fs c => if canRead E n w then some (w.go t w.st (.gpSet p fs c)) else none
  | .gpSet p fs c => some (w.go t w.st (.gpScan p fs c ((w.st.byOwner p).getD []) [] []))
  | .gpScan p fs c [] retry out => some (w.go t w.st (.gpRetry p fs c retry out))
  | .gpScan p fs c (i :: l) retry out =>
    if accountFree n w i then some (doVisit E w t p fs c i (fun r => .gpScan p fs c l retry (out ++ r)))
    else some (w.go t w.st (.gpScan p fs c l (retry ++ [i]) out))
  | .gpRetry _ _ _ [] out => some (w.ret t w.st (.accounts (.ok out)))
  | .gpRetry p fs c (i :: l) out =>
    if accountFree n w i then some (doVisit E w t p fs c i (fun r => .gpRetry p fs c l (out ++ r))) else none

theorem next_sound {E : Env} {n : Nat} {w w' : World} {t : Nat} (hw : Within n w) (h : next E n w t = some w') : Step E w w' := by
  unfold next at h
  split at h
  case h_1 => cases h
  case h_2 a c hp =>
    split at h
    · rename_i hf
      split at h <;> cases h <;> rename_i hb
      · exact .upSkip w t a c hp (shardFree_spec hf hw) hb
      · exact .upTake w t a c hp (shardFree_spec hf hw) (by simpa using hb)
    · cases h
  case h_3 a c hp =>
    split at h
    · rename_i hf
      split at h <;> cases h <;> rename_i hb
      · exact .upKnown w t a c _ hp (shardFree_spec hf hw) hb
      · exact .upUnknown w t a c hp (shardFree_spec hf hw) hb
    · cases h
  case h_4 a c i hp => cases h; exact .upSlot w t a c i hp
  case h_5 a c hp =>
    split at h
    · rename_i hf
      split at h
      · rename_i hb; cases h; exact .upOccupied w t a c _ hp (shardFree_spec hf hw) hb
      · rename_i hb
        split at h <;> cases h <;> rename_i hs
        · exact .upVacant w t a c hp (shardFree_spec hf hw) hb hs
        · exact .upIgnore w t a c hp (shardFree_spec hf hw) hb (by simpa using hs)
    · cases h
  case h_6 a c i hp =>
    split at h
    · rename_i hf; cases h; exact .upStore w t a c i hp (canRead_spec hf hw)
    · cases h
  case h_7 a c i hp =>
    split at h
    · rename_i hf; cases h; exact .upAccount w t a c i hp (accountFree_spec hf hw)
    · cases h
  case h_8 a c i hp => cases h; exact .upWrite w t a c i hp
  case h_9 a prev i hp => cases h; exact .upUnown w t a prev i hp
  case h_10 a i hp => cases h; exact .upOwn w t a i hp
  case h_11 a i hp => cases h; exact .upDrop w t a i hp
  case h_12 a c hp =>
    split at h
    · rename_i hf; cases h; exact .upPush w t a c hp (noReader_spec hf hw)
    · cases h
  case h_13 a c i hp => cases h; exact .upNewOwn w t a c i hp
  case h_14 a c i hp => cases h; exact .upNewSlot w t a c i hp
  case h_15 a i hp => cases h; exact .upInsert w t a i hp
  case h_16 info c hp =>
    split at h
    · rename_i slots wl hwk; cases h; exact .prWalk w t info c slots wl wl hp hwk (.refl _)
    · cases h
  case h_17 c l hp =>
    split at h
    · rename_i hf; cases h; exact .prStore w t c l hp (canRead_spec hf hw)
    · cases h
  case h_18 c out hp => cases h; exact .prReturn w t c out hp
  case h_19 c i slot l out hp =>
    split at h
    · rename_i hf; cases h; exact .prNext w t c i slot l out hp (accountFree_spec hf hw)
    · cases h
  case h_20 c i slot l out hp => cases h; exact .prPromote w t c i slot l out hp
  case h_21 c i a prev l out hp => cases h; exact .prUnown w t c i a prev l out hp
  case h_22 c i a l out hp => cases h; exact .prOwn w t c i a l out hp
  case h_23 c i a l out hp =>
    split at h
    · rename_i hf; cases h; exact .prDrop w t c i a l out hp (shardFree_spec hf hw)
    · cases h
  case h_24 c i a l out hp => cases h; exact .prClear w t c i a l out hp
  case h_25 pk c hp =>
    split at h
    · rename_i hf
      split at h <;> cases h <;> rename_i hb
      · exact .geFound w t pk c _ hp (shardFree_spec hf hw) hb
      · exact .geNone w t pk c hp (shardFree_spec hf hw) hb
    · cases h
  case h_26 pk c i hp =>
    split at h
    · rename_i hf; cases h; exact .geStore w t pk c i hp (canRead_spec hf hw)
    · cases h
  case h_27 pk c i hp =>
    split at h
    · rename_i hf; cases h; exact .geRead w t pk c i hp (accountFree_spec hf hw)
    · cases h
  case h_28 p fs c hp =>
    split at h <;> cases h <;> rename_i hb
    · exact .gpContains w t p fs c hp hb
    · exact .gpRefused w t p fs c hp (by simpa using hb)
  case h_29 p fs c hp =>
    split at h <;> cases h <;> rename_i hb
    · exact .gpNone w t p fs c hp hb
    · exact .gpOwner w t p fs c hp (by rw [hb]; simp)
  case h_30 p fs c hp =>
    split at h
    · rename_i hf; cases h; exact .gpStore w t p fs c hp (canRead_spec hf hw)
    · cases h
  case h_31 p fs c hp => cases h; exact .gpSet w t p fs c hp
  case h_32 p fs c retry out hp => cases h; exact .gpAgain w t p fs c retry out hp
  case h_33 p fs c i l retry out hp =>
    split at h
    · rename_i hf; cases h; exact .gpVisit w t p fs c i l retry out hp (accountFree_spec hf hw)
    · cases h; exact .gpBusy w t p fs c i l retry out hp
  case h_34 p fs c out hp => cases h; exact .gpReturn w t p fs c out hp
  case h_35 p fs c i l out hp =>
    split at h
    · rename_i hf; cases h; exact .gpRetry w t p fs c i l out hp (accountFree_spec hf hw)
    · cases h

def isIdle : Pc → Bool
  | .idle => true
  | _ => false

/-- One decision carried out. -/
def move (E : Env) (n : Nat) (w : World) : Move → Option World
  | .call t k => if t < n && isIdle (w.pc t) then
      some { w with pc := upd w.pc t (Call.start k), log := w.log ++ [(t, .call k)] } else none
  | .go t => if t < n then next E n w t else none

/-- A schedule carried out. -/
def schedule (E : Env) (n : Nat) (w : World) : List Move → Option World
  | [] => some w
  | m :: ms => match move E n w m with
    | some w' => schedule E n w' ms
    | none => none

theorem move_sound {E : Env} {n : Nat} {w w' : World} {m : Move} (hw : Within n w) (h : move E n w m = some w') :
    Step E w w' ∧ Within n w' := by
  cases m with
  | call t k =>
    simp only [move] at h
    split at h
    · rename_i hc
      simp only [Bool.and_eq_true, decide_eq_true_eq] at hc
      cases h
      refine ⟨.call w t k ?_, fun x hx => ?_⟩
      · have := hc.2
        cases hp : w.pc t <;> rw [hp] at this <;> first | rfl | cases this
      · simp only; rw [upd_other (by omega)]; exact hw x hx
    · cases h
  | go t =>
    simp only [move] at h
    split at h
    · rename_i ht
      have hs := next_sound hw h
      refine ⟨hs, fun x hx => ?_⟩
      have hne : w'.pc = w.pc ∨ ∃ p, w'.pc = upd w.pc t p := by
        unfold next at h
        repeat' split at h
        all_goals first
          | (cases h; done)
          | (cases h; exact .inr ⟨_, rfl⟩)
          | (cases h; rcases doWrite_pc w t _ _ _ with ⟨_, _, h⟩ | ⟨_, _, _, h⟩ | ⟨_, h⟩ <;> exact .inr ⟨_, congrArg World.pc h⟩)
          | (cases h; rcases doPromote_pc w t _ _ _ _ _ with ⟨_, _, h⟩ | ⟨_, _, h⟩ | ⟨_, _, _, _, h⟩ | ⟨_, _, h⟩ <;>
              exact .inr ⟨_, congrArg World.pc h⟩)
          | (cases h; obtain ⟨_, h⟩ := doRead_pc w t _ _; exact .inr ⟨_, congrArg World.pc h⟩)
          | (cases h; rcases doVisit_pc E w t _ _ _ _ _ with ⟨_, h⟩ | ⟨_, h⟩ <;> exact .inr ⟨_, congrArg World.pc h⟩)
      rcases hne with h | ⟨p, h⟩
      · rw [h]; exact hw x hx
      · rw [h, upd_other (by omega)]; exact hw x hx
    · cases h

theorem schedule_sound {E : Env} {n : Nat} {ms : List Move} : ∀ {w w' : World}, Within n w → schedule E n w ms = some w' →
    Steps E w w' ∧ Within n w' := by
  induction ms with
  | nil => intro w w' hw h; cases h; exact ⟨.refl _, hw⟩
  | cons m ms ih =>
    intro w w' hw h
    simp only [schedule] at h
    split at h
    · rename_i w1 h1
      obtain ⟨hs, hw1⟩ := move_sound hw h1
      obtain ⟨h2, h3⟩ := ih hw1 h
      exact ⟨.head hs h2, h3⟩
    · cases h

theorem within_init (n : Nat) (F : Filters) : Within n (World.init F) := fun _ _ => rfl

/-- Schedules from a new store lead to reachable worlds. -/
theorem schedule_reachable {E : Env} {n : Nat} {F : Filters} {ms : List Move} {w : World}
    (h : schedule E n (World.init F) ms = some w) : Reachable E w := ⟨F, (schedule_sound (within_init n F) h).1⟩

/-- Where a schedule of a new store leads. -/
def played (E : Env) (n : Nat) (F : Filters) (ms : List Move) : World :=
  (schedule E n (World.init F) ms).getD (World.init F)

theorem played_reachable (E : Env) (n : Nat) (F : Filters) (ms : List Move) : Reachable E (played E n F ms) := by
  unfold played
  cases h : schedule E n (World.init F) ms with
  | none => exact ⟨F, .refl _⟩
  | some w => exact schedule_reachable h

theorem schedule_append (E : Env) (n : Nat) (ms ms' : List Move) : ∀ w, schedule E n w (ms ++ ms') =
    (schedule E n w ms).bind (fun w' => schedule E n w' ms') := by
  induction ms with
  | nil => intro w; rfl
  | cons m ms ih =>
    intro w
    simp only [List.cons_append, schedule]
    cases move E n w m with
    | none => rfl
    | some w' => exact ih w'

theorem played_steps {E : Env} {n : Nat} {F : Filters} {ms ms' : List Move}
    (h : (schedule E n (World.init F) (ms ++ ms')).isSome = true) : Steps E (played E n F ms) (played E n F (ms ++ ms')) := by
  unfold played
  rw [schedule_append] at h ⊢
  cases h1 : schedule E n (World.init F) ms with
  | none => rw [h1] at h; cases h
  | some w =>
    rw [h1] at h
    simp only [Option.bind_some] at h ⊢
    cases h2 : schedule E n w ms' with
    | none => rw [h2] at h; cases h
    | some w' => exact (schedule_sound (schedule_sound (within_init n F) h1).2 h2).1

/-- The states passed through by a schedule that continues another one. -/
def moments (E : Env) (n : Nat) (F : Filters) (ms mid : List Move) : List World :=
  (List.range (mid.length + 1)).map fun j => played E n F (ms ++ mid.take j)

theorem schedule_prefix {E : Env} {n : Nat} {w : World} {ms ms' : List Move} (h : (schedule E n w (ms ++ ms')).isSome = true) :
    (schedule E n w ms).isSome = true := by
  rw [schedule_append] at h
  cases h1 : schedule E n w ms with
  | none => rw [h1] at h; cases h
  | some _ => rfl

theorem played_step {E : Env} {n : Nat} {F : Filters} {ms : List Move} {m : Move}
    (h : (schedule E n (World.init F) (ms ++ [m])).isSome = true) : Step E (played E n F ms) (played E n F (ms ++ [m])) := by
  unfold played
  rw [schedule_append] at h ⊢
  cases h1 : schedule E n (World.init F) ms with
  | none => rw [h1] at h; cases h
  | some w =>
    rw [h1] at h
    simp only [Option.bind_some] at h ⊢
    cases h2 : schedule E n w [m] with
    | none => rw [h2] at h; cases h
    | some w' =>
      simp only [schedule] at h2
      split at h2
      · rename_i h3; cases h2; exact (move_sound (schedule_sound (within_init n F) h1).2 h3).1
      · cases h2

theorem trace_played {E : Env} {n : Nat} {F : Filters} {ms mid : List Move}
    (h : (schedule E n (World.init F) (ms ++ mid)).isSome = true) :
    Trace E (played E n F ms) (moments E n F ms mid) (played E n F (ms ++ mid)) := by
  have main : ∀ j, j ≤ mid.length → Trace E (played E n F ms) ((List.range (j + 1)).map fun j => played E n F (ms ++ mid.take j))
      (played E n F (ms ++ mid.take j)) := by
    intro j
    induction j with
    | zero => intro _; simp; exact .refl
    | succ j ih =>
      intro hj
      rw [List.range_succ, List.map_append, List.map_singleton]
      refine .tail (ih (by omega)) ?_
      rw [List.take_succ_eq_append_getElem (by omega), ← List.append_assoc]
      refine played_step ?_
      refine schedule_prefix (ms' := mid.drop (j + 1)) ?_
      rw [List.append_assoc, List.append_assoc, ← List.append_assoc (mid.take j), ← List.take_succ_eq_append_getElem (by omega),
        List.take_append_drop]
      exact h
  have := main mid.length (Nat.le_refl _)
  rwa [List.take_length] at this

/-- A call in a schedule, from its beginning to its end. -/
theorem performed_played {E : Env} {n : Nat} {F : Filters} {pre mid : List Move} {t : Nat} {k : Call} {m : Move} {r : Reply}
    (l : List (Nat × Event)) (h : (schedule E n (World.init F) (pre ++ [.call t k] ++ mid ++ [m])).isSome = true)
    (h0 : (played E n F (pre ++ [.call t k])).log = (played E n F pre).log ++ [(t, .call k)])
    (h1 : (played E n F (pre ++ [.call t k] ++ mid)).log = (played E n F (pre ++ [.call t k])).log ++ l) (hn : ∀ e ∈ l, e.1 ≠ t)
    (h2 : (played E n F (pre ++ [.call t k] ++ mid ++ [m])).log = (played E n F (pre ++ [.call t k] ++ mid)).log ++ [(t, .ret r)]) :
    Performed E t k (moments E n F (pre ++ [.call t k]) mid) r := by
  refine ⟨_, _, _, _, played_reachable E n F pre, played_step (schedule_prefix (schedule_prefix h)), h0,
    trace_played (schedule_prefix h), fun l' hl' => ?_, played_step h, h2⟩
  rw [h1, List.append_cancel_left_eq] at hl'
  exact hl' ▸ hn

end LAM.Conc
