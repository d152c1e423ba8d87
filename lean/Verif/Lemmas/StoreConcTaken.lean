import Verif.Spec.StoreConcTaken
import Verif.Lemmas.StoreConcHeard
/-!
# Concurrent calls of the in-memory account store: why an account is tracked
-/
namespace LAM.Conc
open Store World ByCommitment Spec

variable {A : Pubkey → Prop}

/-- A thread that makes an account known. -/
def TakesOK (A : Pubkey → Prop) : Pc → Prop
  | .upPush a _ | .upNewOwn a _ _ | .upNewSlot a _ _ | .upInsert a _ => A a.pubkey
  | _ => True

/-- The tracked accounts, and those about to be, are among `A`. -/
structure AllTaken (A : Pubkey → Prop) (w : World) : Prop where
  idx : ∀ pk i, w.st.index pk = some i → A pk
  pcs : ∀ t, TakesOK A (w.pc t)

/-- The filters let in only accounts among `A`. -/
def LetsIn (A : Pubkey → Prop) (w : World) : Prop :=
  ∀ t a c, LastCall w.log t (.update a c) → w.st.containsKey a.pubkey = false → w.filters.satisfies a = true → A a.pubkey

theorem taken_pc {w w' : World} {t : Nat} {p : Pc} (h : AllTaken A w) (hpc : w'.pc = upd w.pc t p)
    (hi : ∀ pk i, w'.st.index pk = some i → w.st.index pk = some i ∨ A pk) (hp : TakesOK A p) : AllTaken A w' := by
  refine ⟨fun pk i hx => ?_, fun x => ?_⟩
  · rcases hi pk i hx with hx | hx
    · exact h.idx pk i hx
    · exact hx
  · rw [hpc]; simp only [upd]; split
    · exact hp
    · exact h.pcs x

theorem doWrite_index (w : World) (t : Nat) (a : AccountData) (c : Commitment) (i : Nat) : (doWrite w t a c i).st.index = w.st.index := by
  unfold doWrite; split
  · rfl
  · simp only; repeat' split
    all_goals rfl

theorem doWrite_takes (w : World) (t : Nat) (a : AccountData) (c : Commitment) (i : Nat) :
    ∃ p, (doWrite w t a c i).pc = upd w.pc t p ∧ TakesOK A p := by
  unfold doWrite; split
  · exact ⟨_, rfl, trivial⟩
  · simp only; repeat' split
    all_goals exact ⟨_, rfl, trivial⟩

theorem doPromote_index (w : World) (t : Nat) (c : Commitment) (i slot : Nat) (l : Writable) (out : List AccountData) :
    (doPromote w t c i slot l out).st.index = w.st.index := by
  unfold doPromote; split
  · rfl
  · simp only; repeat' split
    all_goals rfl

theorem doPromote_takes (w : World) (t : Nat) (c : Commitment) (i slot : Nat) (l : Writable) (out : List AccountData) :
    ∃ p, (doPromote w t c i slot l out).pc = upd w.pc t p ∧ TakesOK A p := by
  unfold doPromote; split
  · exact ⟨_, rfl, trivial⟩
  · simp only; repeat' split
    all_goals exact ⟨_, rfl, trivial⟩

theorem taken_step {E : Env} {w w' : World} (hs : Step E w w') (hl : LogOK E w) (hA : LetsIn A w) (h : AllTaken A w) :
    AllTaken A w' := by
  have go : ∀ {t : Nat} {s : Store} {p : Pc}, s.index = w.st.index → TakesOK A p → AllTaken A (w.go t s p) := fun {t s p} hi hp =>
    taken_pc h (go_pc ..) (fun pk i hx => .inl (by rw [go_st, hi] at hx; exact hx)) hp
  have ret : ∀ {t : Nat} {s : Store} {r : Reply}, s.index = w.st.index → AllTaken A (w.ret t s r) := fun {t s r} hi =>
    taken_pc (p := .idle) h (ret_pc ..) (fun pk i hx => .inl (by rw [← hi]; exact hx)) trivial
  have same : ∀ t q, w.pc t = q → TakesOK A q := fun t q hq => hq ▸ h.pcs t
  cases hs
  case env => exact ⟨h.idx, h.pcs⟩
  case call t k hp => exact taken_pc h rfl (fun _ _ h => .inl h) (by cases k <;> trivial)
  case upWrite t a c i hp =>
    obtain ⟨p, h1, h2⟩ := doWrite_takes (A := A) w t a c i
    exact taken_pc h h1 (fun _ _ h => .inl (by rw [doWrite_index] at h; exact h)) h2
  case prPromote t c i slot l out hp =>
    obtain ⟨p, h1, h2⟩ := doPromote_takes (A := A) w t c i slot l out
    exact taken_pc h h1 (fun _ _ h => .inl (by rw [doPromote_index] at h; exact h)) h2
  case upUnown t a prev i hp => exact go rfl (by split <;> trivial)
  case prUnown t c i a prev l out hp => exact go rfl (by split <;> trivial)
  case upOwn t a i hp => exact ret (own_index ..)
  case prOwn t c i a l out hp => exact go (own_index ..) trivial
  case upDrop t a i hp =>
    refine taken_pc h (ret_pc ..) (fun pk j hx => .inl ?_) trivial
    simp only [ret_st, dropKey] at hx
    split at hx
    · cases hx
    · exact hx
  case prDrop t c i a l out hp _ =>
    refine taken_pc h (go_pc ..) (fun pk j hx => .inl ?_) trivial
    simp only [go_st, dropKey] at hx
    split at hx
    · cases hx
    · exact hx
  case upVacant t a c hp _ hn hf =>
    obtain ⟨k, ⟨d, rfl⟩, hc⟩ := lastCall_serves hl hp (by simp)
    exact go rfl (hA t a d hc (by simp [containsKey, hn]) hf)
  case upPush t a c hp _ => exact go rfl (by have := same t _ hp; exact this)
  case upNewOwn t a c i hp => exact go rfl (by have := same t _ hp; exact this)
  case upNewSlot t a c i hp => exact go (addIndexToSlot_index ..) (by have := same t _ hp; exact this)
  case upSlot t a c i hp => exact go (addIndexToSlot_index ..) trivial
  case upInsert t a i hp =>
    refine taken_pc h (ret_pc ..) (fun pk j hx => ?_) trivial
    simp only [ret_st] at hx
    split at hx
    · rename_i he; subst he; exact .inr (by have := same t _ hp; exact this)
    · exact .inl hx
  case geRead t pk c i hp _ =>
    obtain ⟨r, hr⟩ := doRead_pc w t c i
    rw [hr]; exact ret rfl
  case gpVisit t p fs c i l retry out hp _ =>
    rcases doVisit_pc E w t p fs c i (fun r => .gpScan p fs c l retry (out ++ r)) with ⟨r, hr⟩ | ⟨r, hr⟩
    · rw [hr]; exact ret rfl
    · rw [hr]; exact go rfl trivial
  case gpRetry t p fs c i l out hp _ =>
    rcases doVisit_pc E w t p fs c i (fun r => .gpRetry p fs c l (out ++ r)) with ⟨r, hr⟩ | ⟨r, hr⟩
    · rw [hr]; exact ret rfl
    · rw [hr]; exact go rfl trivial
  all_goals first
    | exact go rfl trivial
    | exact ret rfl

/-- `AllTaken` along an execution. -/
theorem taken_trace {E : Env} {w0 w : World} {vs : List World} (hr : Reachable E w0) (h : Trace E w0 vs w)
    (hA : ∀ v ∈ vs, LetsIn A v) (h0 : AllTaken A w0) : AllTaken A w := by
  induction h with
  | refl => exact h0
  | tail hst hs ih =>
    exact taken_step hs (reachable_log (Steps.reachable hr hst.steps)) (hA _ (by simp [hst.last]))
      (ih (fun v hv => hA v (by simp [hv])))

theorem letsIn_takenIn {vs : List World} : ∀ v ∈ vs, LetsIn (TakenIn vs) v :=
  fun v hv t a c h1 h2 h3 => ⟨v, hv, t, a, c, h1, rfl, h2, h3⟩

theorem init_taken (F : Filters) : AllTaken A (World.init F) :=
  ⟨fun pk i h => by simp [World.init, Store.empty] at h, fun t => trivial⟩

/-- Nobody is about to make an account known if no update of it is executed. -/
theorem taken_start {E : Env} {w : World} {vs : List World} {pk : Pubkey} (hr : Reachable E w) (hn : w.st.containsKey pk = false)
    (hu : ∀ t a c, LastCall w.log t (.update a c) → a.pubkey ≠ pk) : AllTaken (fun x => x = pk → TakenIn vs x) w := by
  refine ⟨fun x i hx he => ?_, fun t => ?_⟩
  · subst he; simp [containsKey, hx] at hn
  · have hl := reachable_log hr
    cases hp : w.pc t <;> first
      | trivial
      | (intro he
         obtain ⟨k, ⟨d, rfl⟩, hc⟩ := lastCall_serves hl hp (by simp)
         exact absurd he (hu t _ _ hc))

/-! ## What answers contain -/

/-- What a thread has put aside. -/
def CarriesOK (A : Pubkey → Prop) : Pc → Prop
  | .prNext _ _ out | .prPromote _ _ _ _ out => ∀ b ∈ out, A b.pubkey
  | .prUnown _ _ a _ _ out | .prOwn _ _ a _ out | .prDrop _ _ a _ out | .prClear _ _ a _ out => ∀ b ∈ out ++ [a], A b.pubkey
  | .gpScan _ _ _ _ _ out | .gpRetry _ _ _ _ out => ∀ b ∈ out, A b.pubkey
  | _ => True

/-- Everything the store has, and everything it has said, is about accounts among `A`. -/
structure AllSaid (A : Pubkey → Prop) (w : World) : Prop where
  entries : ∀ (i : Nat) e, w.st.accounts[i]? = some e → AllSt (fun a => A a.pubkey) e
  pcs : ∀ t, CarriesOK A (w.pc t)
  log : ∀ t r, (t, Event.ret r) ∈ w.log → ∀ pk, Shows pk r → A pk

theorem said_pc {w w' : World} {t : Nat} {p : Pc} {ext : List (Nat × Event)} (h : AllSaid A w) (hpc : w'.pc = upd w.pc t p)
    (hl : w'.log = w.log ++ ext) (he : ∀ t r, (t, Event.ret r) ∈ ext → ∀ pk, Shows pk r → A pk)
    (hi : ∀ (i : Nat) e, w'.st.accounts[i]? = some e → w.st.accounts[i]? = some e ∨ AllSt (fun a => A a.pubkey) e)
    (hp : CarriesOK A p) : AllSaid A w' := by
  refine ⟨fun i e hx => ?_, fun x => ?_, fun x r hx => ?_⟩
  · rcases hi i e hx with hx | hx
    · exact h.entries i e hx
    · exact hx
  · rw [hpc]; simp only [upd]; split
    · exact hp
    · exact h.pcs x
  · rw [hl] at hx
    rcases List.mem_append.1 hx with hx | hx
    · exact h.log x r hx
    · exact he x r hx

theorem getElem?_set_cases {l : List ByCommitment} {i j : Nat} {x e : ByCommitment} (h : (l.set i x)[j]? = some e) :
    l[j]? = some e ∨ e = x := by
  rw [List.getElem?_set] at h
  split at h
  · split at h
    · simp at h; exact .inr h.symm
    · cases h
  · exact .inl h

theorem allSt_dead {P : AccountData → Prop} : AllSt P ⟨[], none, none⟩ := by
  simp [AllSt, BMap.find]

/-- What an entry shows. -/
theorem Good.shown {E : Env} {key : Nat → Pubkey} {w : World} (hg : Good E key w) {i : Nat} {e : ByCommitment}
    (he : w.st.accounts[i]? = some e) {P : AccountData → Prop} (h : AllSt P e) {c : Commitment} {a : AccountData}
    (ha : e.get c = some a) : P a := by
  rcases hg.entry i e he with rfl | ⟨h1, -⟩
  · cases c <;> cases ha
  · exact h.get h1 ha

theorem said_doVisit {E : Env} {key : Nat → Pubkey} {w : World} {t : Nat} {p : Pubkey} {fs : Option (List AccountFilterType)} {c : Commitment}
    {i : Nat} {next : List AccountData → Pc} {out : List AccountData} (hg : Good E key w) (h : AllSaid A w)
    (hout : ∀ b ∈ out, A b.pubkey) (hnext : ∀ r, (∀ b ∈ out ++ r, A b.pubkey) → CarriesOK A (next r)) :
    AllSaid A (doVisit E w t p fs c i next) := by
  have panics : AllSaid A (w.ret t w.st .panicked) :=
    said_pc (p := .idle) h (ret_pc ..) rfl (fun _ r hr pk hs => by simp at hr; rw [hr.2] at hs; exact hs.elim) (fun _ _ h => .inl h) trivial
  unfold doVisit
  split
  · exact panics
  · rename_i e he
    split
    · rename_i r hr
      refine said_pc (ext := []) h (go_pc ..) (by simp) (fun _ _ hr => by simp at hr) (fun _ _ h => .inl h) (hnext r ?_)
      intro b hb
      rcases List.mem_append.1 hb with hb | hb
      · exact hout b hb
      · obtain ⟨-, a, ha, hsame, -⟩ := gpaOne_sound hr hb
        have := hg.shown he (h.entries i e he) ha
        rw [← hsame.1] at this; exact this
    · exact panics

theorem said_step {E : Env} {key : Nat → Pubkey} {w w' : World} (hs : Step E w w') (hg : Good E key w) (hk : AllTaken A w)
    (h : AllSaid A w) : AllSaid A w' := by
  have go : ∀ {t : Nat} {s : Store} {p : Pc}, s.accounts = w.st.accounts → CarriesOK A p → AllSaid A (w.go t s p) := fun {t s p} hi hp =>
    said_pc (ext := []) h (go_pc ..) (by simp) (fun _ _ hr => by simp at hr) (fun i e hx => .inl (by rw [go_st, hi] at hx; exact hx)) hp
  have ret : ∀ {t : Nat} {s : Store} {r : Reply}, s.accounts = w.st.accounts → (∀ pk, Shows pk r → A pk) → AllSaid A (w.ret t s r) :=
    fun {t s r} hi hr => said_pc (p := .idle) h (ret_pc ..) rfl (fun _ r' hr' pk hs => by simp at hr'; rw [hr'.2] at hs; exact hr pk hs)
      (fun i e hx => .inl (by rw [← hi]; exact hx)) trivial
  have quiet : ∀ {b : Bool} (pk), Shows pk (.updated b) → A pk := fun {b} pk hs => hs.elim
  have same : ∀ t q, w.pc t = q → CarriesOK A q := fun t q hq => hq ▸ h.pcs t
  have pushed : ∀ {out : List AccountData} {a : AccountData}, (∀ b ∈ out, A b.pubkey) → A a.pubkey → ∀ b ∈ out ++ [a], A b.pubkey := by
    intro out a h1 h2 b hb
    rcases List.mem_append.1 hb with hb | hb
    · exact h1 b hb
    · simp at hb; subst hb; exact h2
  cases hs
  case env => exact ⟨h.entries, h.pcs, h.log⟩
  case call t k hp =>
    exact said_pc (ext := [(t, .call k)]) h rfl rfl (fun _ r hr => by simp at hr) (fun _ _ h => .inl h) (by cases k <;> trivial)
  case upWrite t a c i hp =>
    have hpt := hg.pcs t
    rw [hp] at hpt
    obtain ⟨-, hi⟩ := hpt
    obtain ⟨-, e, he, -⟩ := hg.idx _ _ hi
    have ha := hk.idx _ _ hi
    have hset : ∀ (j : Nat) e', (w.st.setAt i (e.update a c).1).accounts[j]? = some e' →
        w.st.accounts[j]? = some e' ∨ AllSt (fun a => A a.pubkey) e' := by
      intro j e' hx
      rcases getElem?_set_cases hx with hx | rfl
      · exact .inl hx
      · exact .inr (allSt_update (h.entries i e he) ha c)
    have hret : ∀ r, (∀ pk, ¬ Shows pk r) → AllSaid A (w.ret t (w.st.setAt i (e.update a c).1) r) := fun r hr =>
      said_pc (p := .idle) h (ret_pc ..) rfl (fun _ r' hr' pk hs => by simp at hr'; rw [hr'.2] at hs; exact (hr pk hs).elim) hset trivial
    have hgo : ∀ p, CarriesOK A p → AllSaid A (w.go t (w.st.setAt i (e.update a c).1) p) := fun p hp =>
      said_pc (ext := []) h (go_pc ..) (by simp) (fun _ _ hr => by simp at hr) hset hp
    unfold doWrite
    rw [he]
    simp only
    repeat' split
    all_goals first
      | exact hret _ (fun _ h => h)
      | exact hgo _ trivial
  case prPromote t c i slot l out hp =>
    have hout : ∀ b ∈ out, A b.pubkey := same t _ hp
    unfold doPromote
    split
    · exact ret rfl (fun _ h => h.elim)
    · rename_i e he
      have hset : ∀ (j : Nat) e', (w.st.setAt i (e.promote slot c).1).accounts[j]? = some e' →
          w.st.accounts[j]? = some e' ∨ AllSt (fun a => A a.pubkey) e' := by
        intro j e' hx
        rcases getElem?_set_cases hx with hx | rfl
        · exact .inl hx
        · rcases hg.entry i e he with rfl | ⟨h1, -⟩
          · rw [promote_dead]; exact .inr allSt_dead
          · exact .inr (allSt_promote (h.entries i e he) h1 slot c)
      have hret : ∀ r, (∀ pk, ¬ Shows pk r) → AllSaid A (w.ret t (w.st.setAt i (e.promote slot c).1) r) := fun r hr =>
        said_pc (p := .idle) h (ret_pc ..) rfl (fun _ r' hr' pk hs => by simp at hr'; rw [hr'.2] at hs; exact (hr pk hs).elim) hset trivial
      have hgo : ∀ p, CarriesOK A p → AllSaid A (w.go t (w.st.setAt i (e.promote slot c).1) p) := fun p hp =>
        said_pc (ext := []) h (go_pc ..) (by simp) (fun _ _ hr => by simp at hr) hset hp
      have hres : ∀ a prev, (e.promote slot c).2 = some (a, prev) → A a.pubkey := by
        intro a prev ha
        obtain ⟨-, hf, -⟩ := (promote_result _ _ _ _ _).1 ha
        exact (h.entries i e he).1 _ _ hf
      simp only
      split
      · exact hgo _ hout
      · rename_i a ha
        exact hgo _ (pushed hout (hres a _ ha))
      · rename_i a prev ha
        have := pushed hout (hres a _ ha)
        repeat' split
        all_goals first
          | exact hgo _ this
          | exact hret _ (fun _ h => h)
  case upUnown t a prev i hp => exact go rfl (by split <;> trivial)
  case prUnown t c i a prev l out hp => exact go rfl (by have := same t _ hp; split <;> exact this)
  case upOwn t a i hp => exact ret (own_accounts ..) quiet
  case prOwn t c i a l out hp => exact go (own_accounts ..) (by have := same t _ hp; exact this)
  case upDrop t a i hp =>
    refine said_pc (p := .idle) h (ret_pc ..) rfl (fun _ r hr pk hs => by simp at hr; rw [hr.2] at hs; exact hs.elim) (fun j e hx => ?_) trivial
    rcases getElem?_set_cases hx with hx | rfl
    · exact .inl hx
    · exact .inr allSt_dead
  case prDrop t c i a l out hp _ => exact go rfl (by have := same t _ hp; exact this)
  case prClear t c i a l out hp =>
    refine said_pc (ext := []) h (go_pc ..) (by simp) (fun _ _ hr => by simp at hr) (fun j e hx => ?_) (by have := same t _ hp; exact this)
    rcases getElem?_set_cases hx with hx | rfl
    · exact .inl hx
    · exact .inr allSt_dead
  case upPush t a c hp _ =>
    have ha : A a.pubkey := by have := hk.pcs t; rw [hp] at this; exact this
    refine said_pc (ext := []) h (go_pc ..) (by simp) (fun _ _ hr => by simp at hr) (fun j e hx => ?_) trivial
    simp only [go_st] at hx
    rw [List.getElem?_append] at hx
    split at hx
    · exact .inl hx
    · have := List.mem_of_getElem? hx
      simp at this; subst this
      exact .inr (allSt_new ha c)
  case upNewSlot t a c i hp => exact go (addIndexToSlot_accounts ..) trivial
  case upSlot t a c i hp => exact go (addIndexToSlot_accounts ..) trivial
  case prStore t c l hp _ => exact go rfl (fun b hb => by simp at hb)
  case prReturn t c out hp =>
    refine ret rfl ?_
    rintro pk ⟨a, ha, rfl⟩
    exact same t _ hp a ha
  case prNext t c i slot l out hp _ => exact go rfl (by have := same t _ hp; exact this)
  case geRead t pk c i hp _ =>
    unfold doRead
    split
    · exact ret rfl (fun _ h => h.elim)
    · rename_i e he
      refine ret rfl ?_
      rintro pk ⟨a, ha, rfl⟩
      rw [Option.filter_eq_some_iff] at ha
      exact hg.shown he (h.entries i e he) ha.1
  case geNone t pk c hp _ _ => exact ret rfl (by rintro pk ⟨a, ha, -⟩; cases ha)
  case gpNone t p fs c hp _ => exact ret rfl (by rintro pk ⟨a, ha, -⟩; simp at ha)
  case gpSet t p fs c hp => exact go rfl (fun b hb => by simp at hb)
  case gpBusy t p fs c i l retry out hp => exact go rfl (by have := same t _ hp; exact this)
  case gpAgain t p fs c retry out hp => exact go rfl (by have := same t _ hp; exact this)
  case gpVisit t p fs c i l retry out hp _ => exact said_doVisit hg h (by have := same t _ hp; exact this) (fun r hr => hr)
  case gpRetry t p fs c i l out hp _ => exact said_doVisit hg h (by have := same t _ hp; exact this) (fun r hr => hr)
  case gpReturn t p fs c out hp =>
    refine ret rfl ?_
    rintro pk ⟨a, ha, rfl⟩
    exact same t _ hp a ha
  all_goals first
    | exact go rfl trivial
    | exact ret rfl (fun _ h => h.elim)

/-- `AllSaid` along an execution from the start. -/
theorem said_trace {E : Env} {F : Filters} {w : World} {vs : List World} (h : Trace E (World.init F) vs w)
    (hA : ∀ v ∈ vs, LetsIn A v) : AllSaid A w := by
  have hr : ∀ {v}, Steps E (World.init F) v → Reachable E v := fun h => ⟨F, h⟩
  generalize hw0 : World.init F = w0 at h hr
  induction h with
  | refl =>
    subst hw0
    exact ⟨fun i e h => by simp [World.init, Store.empty] at h, fun t => trivial, fun t r h => by simp [World.init] at h⟩
  | tail hst hs ih =>
    obtain ⟨-, key, hg⟩ := reachable_good (hr hst.steps)
    exact said_step hs hg (taken_trace (hr (.refl _)) hst (fun v hv => hA v (by simp [hv])) (hw0 ▸ init_taken F))
      (ih (fun v hv => hA v (by simp [hv])))

/-- An update that returns `true` has made the account known or found it known. -/
theorem updated_taken {E : Env} {key : Nat → Pubkey} {w w' : World} {t : Nat} {a : AccountData} {c : Commitment} (hs : Step E w w')
    (hg : Good E key w) (hk : AllTaken A w) (hv : (w.pc t).serves (.update a c))
    (hl : w'.log = w.log ++ [(t, .ret (.updated true))]) : A a.pubkey := by
  have at_t : ∀ {x : Nat} {q : Pc} {s : Store} {r : Reply}, w.pc x = q → (w.ret x s r).log = w.log ++ [(t, .ret (.updated true))] →
      q.serves (.update a c) ∧ r = .updated true := by
    intro x q s r hq h
    simp only [World.ret, List.append_cancel_left_eq, List.cons.injEq, Prod.mk.injEq, Event.ret.injEq, and_true] at h
    obtain ⟨rfl, rfl⟩ := h
    exact ⟨hq ▸ hv, rfl⟩
  have nogo : ∀ {x : Nat} {s : Store} {p : Pc}, (w.go x s p).log ≠ w.log ++ [(t, .ret (.updated true))] := by
    intro x s p h
    simp [World.go] at h
  cases hs
  case env => simp at hl
  case call => simp at hl
  case upWrite x b d i hp =>
    have hpt := hg.pcs x
    rw [hp] at hpt
    have hb := hk.idx _ _ hpt.2
    have : x = t := by
      unfold doWrite at hl
      split at hl
      · exact absurd (at_t hp hl).2 (by simp)
      · simp only at hl
        repeat' split at hl
        all_goals first
          | exact absurd hl nogo
          | (simp [World.ret] at hl; exact hl)
          | (simp [World.ret] at hl; exact hl.1)
          | (simp [World.ret] at hl)
    subst this
    rw [hp] at hv
    obtain ⟨_, hv⟩ := hv
    cases hv
    exact hb
  case prPromote x d i slot l out hp =>
    exfalso
    unfold doPromote at hl
    split at hl
    · exact absurd (at_t hp hl).2 (by simp)
    · simp only at hl
      repeat' split at hl
      all_goals first
        | exact absurd hl nogo
        | exact absurd (at_t hp hl).2 (by simp)
  case upOwn x b i hp =>
    have hpt := hg.pcs x
    rw [hp] at hpt
    obtain ⟨⟨_, h⟩, -⟩ := at_t hp hl
    cases h
    exact hk.idx _ _ hpt.2
  case upDrop x b i hp =>
    have hpt := hg.pcs x
    rw [hp] at hpt
    obtain ⟨⟨_, h⟩, -⟩ := at_t hp hl
    cases h
    exact hk.idx _ _ hpt.2
  case upInsert x b i hp =>
    have hpt := hk.pcs x
    rw [hp] at hpt
    obtain ⟨⟨_, h⟩, -⟩ := at_t hp hl
    cases h
    exact hpt
  case geRead x pk d i hp _ =>
    unfold doRead at hl
    split at hl
    · exact absurd (at_t hp hl).2 (by simp)
    · exact absurd (at_t hp hl).2 (by simp)
  case gpVisit x p fs d i l retry out hp _ =>
    unfold doVisit at hl
    split at hl
    · exact absurd (at_t hp hl).2 (by simp)
    · split at hl
      · exact absurd hl nogo
      · exact absurd (at_t hp hl).2 (by simp)
  case gpRetry x p fs d i l out hp _ =>
    unfold doVisit at hl
    split at hl
    · exact absurd (at_t hp hl).2 (by simp)
    · split at hl
      · exact absurd hl nogo
      · exact absurd (at_t hp hl).2 (by simp)
  all_goals
    first
    | exact absurd hl nogo
    | (rename w.pc _ = _ => hp; exact absurd (at_t hp hl).2 (by simp))

end LAM.Conc
