import Verif.Spec.StoreConcHeard
import Verif.Lemmas.StoreConcSettled
/-!
# Concurrent calls of the in-memory account store: who has heard of the states that are shown
-/
namespace LAM.Conc
open Store World ByCommitment Spec

variable {F : Filters} {G : Commitment → AccountData → Prop}

theorem Due.slotIs {log : List (Nat × Event)} {k : Nat} {c : Commitment} (h : Due F log k c) : SlotIs F log k c := by
  cases c with
  | processed => trivial
  | confirmed => exact h.1 (by simp)
  | finalized => exact h.2 rfl

theorem Due.le {log : List (Nat × Event)} {k : Nat} {c c' : Commitment} (h : Due F log k c') (hc : c ≤ c') : Due F log k c := by
  cases c <;> cases c' <;> first
    | exact h
    | exact absurd hc (by decide)
    | exact ⟨fun h => absurd rfl h, fun h => by cases h⟩
    | exact h.lower (by simp)

theorem HeardOf.append {c : Commitment} {log : List (Nat × Event)} {a : AccountData} (h : HeardOf c log a) (ext : List (Nat × Event)) :
    HeardOf c (log ++ ext) a := by
  obtain ⟨pre, t, l, post, info, c', rfl, h⟩ := h
  exact ⟨pre, t, l, post ++ ext, info, c', by simp, h⟩

theorem LateUpdate.append {c : Commitment} {log : List (Nat × Event)} {a : AccountData} (h : LateUpdate F c log a) (ext : List (Nat × Event)) :
    LateUpdate F c (log ++ ext) a := by
  obtain ⟨pre, t, b, post, d, rfl, h⟩ := h
  exact ⟨pre, t, b, post ++ ext, d, by simp, h⟩

/-- The thread will tell of the state, or is a late update that has written it. -/
def InHand (F : Filters) (c : Commitment) (log : List (Nat × Event)) (a : AccountData) : Pc → Prop
  | .prNext c' _ out | .prPromote c' _ _ _ out => c ≤ c' ∧ a ∈ out
  | .prUnown c' _ x _ _ out | .prOwn c' _ x _ out | .prDrop c' _ x _ out | .prClear c' _ x _ out => c ≤ c' ∧ a ∈ out ++ [x]
  | .upUnown x _ _ | .upOwn x _ | .upDrop x _ | .upNewOwn x _ _ | .upNewSlot x _ _ | .upInsert x _ => x = a ∧ Due F log a.slot c
  | _ => False

theorem InHand.append {c : Commitment} {log : List (Nat × Event)} {a : AccountData} {p : Pc} (h : InHand F c log a p)
    (ext : List (Nat × Event)) : InHand F c (log ++ ext) a p := by
  have d : ∀ {k c}, Due F log k c → Due F (log ++ ext) k c := fun h => h.mono (fun x hx => by simp [hx])
  cases p <;> first
    | exact h
    | exact ⟨h.1, d h.2⟩

/-- Somebody has heard of the state, will be told of it, or it is of a late update. -/
def Known (F : Filters) (c : Commitment) (w : World) (a : AccountData) : Prop :=
  HeardOf c w.log a ∨ LateUpdate F c w.log a ∨ ∃ t, InHand F c w.log a (w.pc t)

/-- What is in `G` and all states shown are known. -/
def AllKnown (F : Filters) (G : Commitment → AccountData → Prop) (w : World) : Prop :=
  (∀ c a, G c a → Known F c w a) ∧ ∀ (i : Nat) e, w.st.accounts[i]? = some e →
    (∀ a, e.confirmed = some a → Known F .confirmed w a) ∧ ∀ a, e.finalized = some a → Known F .finalized w a

/-- A step of thread `t` that forgets nothing it has in hand. -/
theorem Known.step {c : Commitment} {w w' : World} {a : AccountData} {t : Nat} {p : Pc} {ext : List (Nat × Event)} (h : Known F c w a)
    (hl : w'.log = w.log ++ ext) (hpc : w'.pc = upd w.pc t p)
    (hk : InHand F c w.log a (w.pc t) → InHand F c w'.log a p ∨ HeardOf c w'.log a ∨ LateUpdate F c w'.log a) : Known F c w' a := by
  rcases h with h | h | ⟨u, h⟩
  · exact .inl (by rw [hl]; exact h.append ext)
  · exact .inr (.inl (by rw [hl]; exact h.append ext))
  · by_cases hu : u = t
    · subst hu
      rcases hk h with h | h | h
      · exact .inr (.inr ⟨u, by rw [hpc, upd_self]; exact h⟩)
      · exact .inl h
      · exact .inr (.inl h)
    · exact .inr (.inr ⟨u, by rw [hpc, upd_other hu, hl]; exact h.append ext⟩)

/-- What a step must keep of the hands of its thread. -/
def Keeps (F : Filters) (w w' : World) (t : Nat) (p : Pc) : Prop :=
  ∀ c a, InHand F c w.log a (w.pc t) → InHand F c w'.log a p ∨ HeardOf c w'.log a ∨ LateUpdate F c w'.log a

/-- Steps that leave the accounts alone. -/
theorem known_same {w w' : World} {t : Nat} {p : Pc} {ext : List (Nat × Event)} (h : AllKnown F G w) (hl : w'.log = w.log ++ ext)
    (hpc : w'.pc = upd w.pc t p) (ha : w'.st.accounts = w.st.accounts) (hk : Keeps F w w' t p) : AllKnown F G w' := by
  refine ⟨fun c a hG => (h.1 c a hG).step hl hpc (hk c a), fun i e he => ?_⟩
  rw [ha] at he
  exact ⟨fun a hc => ((h.2 i e he).1 a hc).step hl hpc (hk _ a), fun a hc => ((h.2 i e he).2 a hc).step hl hpc (hk _ a)⟩

/-- Steps that write one account: what is new is known afterwards. -/
theorem known_setAt {w w' : World} {t i : Nat} {p : Pc} {ext : List (Nat × Event)} {e e' : ByCommitment} (h : AllKnown F G w)
    (hl : w'.log = w.log ++ ext) (hpc : w'.pc = upd w.pc t p) (ha : w'.st.accounts = (w.st.setAt i e').accounts)
    (he : w.st.accounts[i]? = some e) (hk : Keeps F w w' t p)
    (hc : ∀ a, e'.confirmed = some a → e.confirmed = some a ∨ Known F .confirmed w' a)
    (hf : ∀ a, e'.finalized = some a → e.finalized = some a ∨ Known F .finalized w' a) : AllKnown F G w' := by
  refine ⟨fun c a hG => (h.1 c a hG).step hl hpc (hk c a), fun j x hx => ?_⟩
  rw [ha, setAt_getElem] at hx
  split at hx
  · cases hx
    refine ⟨fun a h1 => ?_, fun a h1 => ?_⟩
    · rcases hc a h1 with h2 | h2
      · exact ((h.2 i e he).1 a h2).step hl hpc (hk _ a)
      · exact h2
    · rcases hf a h1 with h2 | h2
      · exact ((h.2 i e he).2 a h2).step hl hpc (hk _ a)
      · exact h2
  · exact ⟨fun a h1 => ((h.2 j x hx).1 a h1).step hl hpc (hk _ a), fun a h1 => ((h.2 j x hx).2 a h1).step hl hpc (hk _ a)⟩

theorem known_clear {w w' : World} {t i : Nat} {p : Pc} {ext : List (Nat × Event)} (h : AllKnown F G w) (hl : w'.log = w.log ++ ext)
    (hpc : w'.pc = upd w.pc t p) (ha : w'.st.accounts = (w.st.setAt i ⟨[], none, none⟩).accounts) (hk : Keeps F w w' t p) :
    AllKnown F G w' := by
  cases he : w.st.accounts[i]? with
  | none =>
    refine known_same h hl hpc ?_ hk
    rw [ha]
    exact List.set_eq_of_length_le (by simpa using he)
  | some e => exact known_setAt h hl hpc ha he hk (by simp) (by simp)

theorem lastCall_serves {E : Env} {w : World} {t : Nat} {p : Pc} (hl : LogOK E w) (hp : w.pc t = p) (hn : p ≠ .idle) :
    ∃ k, p.serves k ∧ LastCall w.log t k := by
  have := hl.opened t (by rw [hp]; exact hn)
  rw [hp] at this; exact this

/-- An update that returns. -/
theorem lateUpdate_ret {log : List (Nat × Event)} {t : Nat} {a : AccountData} {c d : Commitment} {b : Bool} (hc : LastCall log t (.update a d))
    (hd : Due F log a.slot c) : LateUpdate F c (log ++ [(t, .ret (.updated b))]) a := ⟨log, t, b, [], d, rfl, hc, hd.slotIs⟩

theorem known_doWrite {E : Env} {key : Nat → Pubkey} {w : World} {t : Nat} {a : AccountData} {c : Commitment} {i : Nat}
    (hg : Good E key w) (hl : LogOK E w) (ht : Traced F w) (h : AllKnown F G w) (hp : w.pc t = .upWrite a c i) :
    AllKnown F G (doWrite w t a c i) := by
  have hgt := hg.pcs t
  rw [hp] at hgt
  obtain ⟨-, e, he, ho⟩ := hg.idx _ _ hgt.2
  have hd := ht.pcs t
  rw [hp] at hd
  have hd : Due F w.log a.slot c := hd
  obtain ⟨k, ⟨d, rfl⟩, hk⟩ := lastCall_serves hl hp (by simp)
  have keeps : ∀ w' p, Keeps F w w' t p := by
    intro w' p c a hh
    rw [hp] at hh; exact hh.elim
  have conf : ∀ b, (e.update a c).1.confirmed = some b → e.confirmed = some b ∨ (b = a ∧ Due F w.log a.slot .confirmed) := by
    intro b hb
    rw [update_confirmed] at hb
    split at hb
    · exact .inl hb
    · rename_i hc
      split at hb
      · simp at hb; exact .inr ⟨hb.symm, hd.lower hc⟩
      · exact .inl hb
  have fin : ∀ b, (e.update a c).1.finalized = some b → e.finalized = some b ∨ (b = a ∧ Due F w.log a.slot .finalized) := by
    intro b hb
    rw [update_finalized] at hb
    split at hb
    · rename_i hc; simp at hb; exact .inr ⟨hb.symm, by rw [← hc.1]; exact hd⟩
    · exact .inl hb
  have ret : ∀ b, AllKnown F G (w.ret t (w.st.setAt i (e.update a c).1) (.updated b)) := fun b =>
    known_setAt h rfl (ret_pc ..) rfl he (keeps _ _)
      (fun x hx => (conf x hx).imp id (by rintro ⟨rfl, hx⟩; exact .inr (.inl (lateUpdate_ret hk hx))))
      (fun x hx => (fin x hx).imp id (by rintro ⟨rfl, hx⟩; exact .inr (.inl (lateUpdate_ret hk hx))))
  have go : ∀ p, (∀ c, Due F w.log a.slot c → InHand F c w.log a p) → AllKnown F G (w.go t (w.st.setAt i (e.update a c).1) p) :=
    fun p hq => known_setAt (ext := []) h (by simp) (go_pc ..) rfl he (keeps _ _)
      (fun x hx => (conf x hx).imp id (by
        rintro ⟨rfl, hx⟩; exact .inr (.inr ⟨t, by rw [go_pc, upd_self]; exact hq _ hx⟩)))
      (fun x hx => (fin x hx).imp id (by
        rintro ⟨rfl, hx⟩; exact .inr (.inr ⟨t, by rw [go_pc, upd_self]; exact hq _ hx⟩)))
  unfold doWrite
  rw [he]
  simp only
  split
  · split
    · exact ret _
    · rename_i prev hprev
      rw [if_neg (by simp [ho.get_pubkey hprev])]
      split
      · split <;> exact go _ (fun c hc => ⟨rfl, hc⟩)
      · exact ret _
  · exact ret _

theorem known_doPromote {E : Env} {key : Nat → Pubkey} {w : World} {t : Nat} {c : Commitment} {i slot : Nat} {l : Writable}
    {out : List AccountData} (hg : Good E key w) (h : AllKnown F G w) (hp : w.pc t = .prPromote c i slot l out) :
    AllKnown F G (doPromote w t c i slot l out) := by
  have hgt := hg.pcs t
  rw [hp] at hgt
  obtain ⟨e, he⟩ : ∃ e, w.st.accounts[i]? = some e := ⟨_, List.getElem?_eq_getElem hgt.1⟩
  -- what is new is reported
  have conf : ∀ b, (e.promote slot c).1.confirmed = some b → e.confirmed = some b ∨
      (Commitment.confirmed ≤ c ∧ ∃ prev, (e.promote slot c).2 = some (b, prev)) := by
    intro b hb
    rcases hg.entry i e he with rfl | ⟨ho, -⟩
    · rw [promote_dead] at hb; exact .inl hb
    rw [promote_confirmed] at hb
    cases hf : BMap.find e.processed slot with
    | none => rw [hf] at hb; exact .inl hb
    | some x =>
      rw [hf] at hb
      simp only at hb
      split at hb
      · exact .inl hb
      · rename_i hcp
        have new : (∀ y, e.confirmed = some y → y.slot < x.slot) → x = b → e.confirmed = some b ∨
            (Commitment.confirmed ≤ c ∧ ∃ prev, (e.promote slot c).2 = some (b, prev)) := by
          rintro hlt rfl
          refine .inr ⟨?_, e.get c, (promote_result ..).2 ⟨hcp, hf, rfl, fun y hy => ?_⟩⟩
          · cases c with
            | processed => exact absurd rfl hcp
            | confirmed => decide
            | finalized => decide
          · cases c with
            | processed => exact absurd rfl hcp
            | confirmed => exact hlt y hy
            | finalized =>
              obtain ⟨-, z, hz, hle⟩ := ho.fin y hy
              exact Nat.lt_of_le_of_lt hle (hlt z hz)
        split at hb
        · rename_i y hy
          split at hb
          · rename_i hlt
            exact new (fun z hz => by rw [hy] at hz; cases hz; exact hlt) (by simpa using hb)
          · exact .inl (by rw [hy]; exact hb)
        · rename_i hn
          exact new (fun z hz => by rw [hn] at hz; cases hz) (by simpa using hb)
  have fin : ∀ b, (e.promote slot c).1.finalized = some b → e.finalized = some b ∨
      (c = .finalized ∧ ∃ prev, (e.promote slot c).2 = some (b, prev)) := by
    intro b hb
    rw [promote_finalized] at hb
    cases hf : BMap.find e.processed slot with
    | none => rw [hf] at hb; exact .inl hb
    | some x =>
      rw [hf] at hb
      simp only at hb
      split at hb
      · rename_i hcf
        have new : (∀ y, e.finalized = some y → y.slot < x.slot) → x = b → e.finalized = some b ∨
            (c = .finalized ∧ ∃ prev, (e.promote slot c).2 = some (b, prev)) := by
          rintro hlt rfl
          refine .inr ⟨hcf, e.get c, (promote_result ..).2 ⟨by rw [hcf]; simp, hf, rfl, fun y hy => ?_⟩⟩
          subst hcf
          exact hlt y hy
        split at hb
        · rename_i y hy
          split at hb
          · rename_i hlt
            exact new (fun z hz => by rw [hy] at hz; cases hz; exact hlt) (by simpa using hb)
          · exact .inl (by rw [hy]; exact hb)
        · rename_i hn
          exact new (fun z hz => by rw [hn] at hz; cases hz) (by simpa using hb)
      · exact .inl hb
  have go : ∀ p, (∀ d b, d ≤ c → b ∈ out → InHand F d w.log b p) →
      (∀ d b prev, d ≤ c → (e.promote slot c).2 = some (b, prev) → InHand F d w.log b p) →
      AllKnown F G (w.go t (w.st.setAt i (e.promote slot c).1) p) := by
    intro p h1 h2
    refine known_setAt (ext := []) h (by simp) (go_pc ..) rfl he ?_ ?_ ?_
    · intro d b hb
      rw [hp] at hb
      exact .inl (h1 d b hb.1 hb.2)
    · intro b hb
      refine (conf b hb).imp id fun ⟨hc, prev, hr⟩ => .inr (.inr ⟨t, ?_⟩)
      rw [go_pc, upd_self]
      exact h2 _ b prev hc hr
    · intro b hb
      refine (fin b hb).imp id fun ⟨hc, prev, hr⟩ => .inr (.inr ⟨t, ?_⟩)
      rw [go_pc, upd_self]
      exact h2 _ b prev (by rw [hc]; decide) hr
  unfold doPromote
  rw [he]
  simp only
  have next : ∀ a prev, (e.promote slot c).2 = some (a, prev) →
      AllKnown F G (w.go t (w.st.setAt i (e.promote slot c).1) (.prNext c l (out ++ [a]))) := by
    intro a prev hr
    refine go _ (fun d b hd hb => ⟨hd, by simp [hb]⟩) (fun d b prev' hd hb => ⟨hd, ?_⟩)
    rw [hr] at hb; simp at hb; simp [hb.1]
  split
  · rename_i hr
    exact go _ (fun d b hd hb => ⟨hd, hb⟩) (fun d b prev hd hb => by rw [hr] at hb; cases hb)
  · rename_i a hr
    exact next a none hr
  · rename_i a prev hr
    split
    · rw [if_neg]
      · split
        · split
          all_goals
            refine go _ (fun d b hd hb => ⟨hd, by simp [hb]⟩) (fun d b prev' hd hb => ⟨hd, ?_⟩)
            rw [hr] at hb; simp at hb; simp [hb.1]
        · exact next a _ hr
      · rcases hg.entry i e he with rfl | ⟨h1, h2⟩
        · rw [promote_dead] at hr; cases hr
        · obtain ⟨-, hf, hpr, -⟩ := (promote_result _ _ _ _ _).1 hr
          simp [(h1.keys _ _ hf).2, h1.get_pubkey hpr.symm]
    · exact next a _ hr

theorem known_step {E : Env} {key : Nat → Pubkey} {w w' : World} (hs : Step E w w') (hg : Good E key w) (hl : LogOK E w)
    (ht : Traced F w) (h : AllKnown F G w) : AllKnown F G w' := by
  -- steps that leave the accounts alone
  have go : ∀ {t : Nat} {q : Pc} {s : Store} {p : Pc}, w.pc t = q → s.accounts = w.st.accounts →
      (∀ c a, InHand F c w.log a q → InHand F c w.log a p) → AllKnown F G (w.go t s p) := fun {t q s p} hq hs hk =>
    known_same (ext := []) h (by simp) (go_pc ..) hs (fun c a hh => .inl (hk c a (by rw [hq] at hh; exact hh)))
  have idle : ∀ {t : Nat} {q : Pc} {s : Store} {r : Reply}, w.pc t = q → s.accounts = w.st.accounts →
      (∀ c a, ¬ InHand F c w.log a q) → AllKnown F G (w.ret t s r) := fun {t q s r} hq hs hk =>
    known_same h rfl (ret_pc ..) hs (fun c a hh => absurd (by rw [hq] at hh; exact hh) (hk c a))
  -- the end of an update that has written
  have late : ∀ {t : Nat} {q : Pc} {s : Store} {b : Bool} {x : AccountData}, w.pc t = q → q ≠ .idle → (∀ k, q.serves k → ∃ d, k = .update x d) →
      (∀ c a, InHand F c w.log a q → x = a ∧ Due F w.log a.slot c) → Keeps F w (w.ret t s (.updated b)) t .idle := by
    intro t q s b x hq hn hsv hx c a hh
    rw [hq] at hh
    obtain ⟨k, hk, hc⟩ := lastCall_serves hl hq hn
    obtain ⟨d, rfl⟩ := hsv k hk
    obtain ⟨rfl, hd⟩ := hx c a hh
    exact .inr (.inr (lateUpdate_ret hc hd))
  cases hs
  case env => exact h
  case call t k hp =>
    refine known_same h rfl rfl rfl ?_
    intro c a hh
    rw [hp] at hh; exact hh.elim
  case upWrite t a c i hp => exact known_doWrite hg hl ht h hp
  case prPromote t c i slot l out hp => exact known_doPromote hg h hp
  case upUnown t a prev i hp => exact go hp rfl (by split <;> exact fun _ _ h => h)
  case upOwn t a i hp =>
    exact known_same h rfl (ret_pc ..) (own_accounts ..) (late hp (by simp) (fun _ h => h) (fun _ _ h => h))
  case upDrop t a i hp => exact known_clear h rfl (ret_pc ..) rfl (late hp (by simp) (fun _ h => h) (fun _ _ h => h))
  case upInsert t a i hp => exact known_same h rfl (ret_pc ..) rfl (late hp (by simp) (fun _ h => h) (fun _ _ h => h))
  case upPush t a c hp hn =>
    have hd := ht.pcs t
    rw [hp] at hd
    have hd : Due F w.log a.slot c := hd
    have keeps : Keeps F w (w.go t { w.st with accounts := w.st.accounts ++ [ByCommitment.new a c] }
        (.upNewOwn a c w.st.accounts.length)) t (.upNewOwn a c w.st.accounts.length) := by
      intro c a hh
      rw [hp] at hh; exact hh.elim
    have new : ∀ d, Due F w.log a.slot d → Known F d (w.go t { w.st with accounts := w.st.accounts ++ [ByCommitment.new a c] }
        (.upNewOwn a c w.st.accounts.length)) a := fun d hd => .inr (.inr ⟨t, by rw [go_pc, upd_self]; exact ⟨rfl, hd⟩⟩)
    refine ⟨fun d b hG => (h.1 d b hG).step (ext := []) (by simp) (go_pc ..) (keeps d b), fun j e he => ?_⟩
    simp only [go_st] at he
    rw [List.getElem?_append] at he
    split at he
    · exact ⟨fun b hb => ((h.2 j e he).1 b hb).step (ext := []) (by simp) (go_pc ..) (keeps _ b),
        fun b hb => ((h.2 j e he).2 b hb).step (ext := []) (by simp) (go_pc ..) (keeps _ b)⟩
    · have := List.mem_of_getElem? he
      simp at this; subst this
      have := entryDue_new hd
      refine ⟨fun b hb => ?_, fun b hb => ?_⟩
      · have hx := this.1 b hb
        simp only [ByCommitment.new] at hb
        split at hb
        · simp at hb; subst hb; exact new _ hx
        · cases hb
      · have hx := this.2 b hb
        simp only [ByCommitment.new] at hb
        split at hb
        · simp at hb; subst hb; exact new _ hx
        · cases hb
  case upNewSlot t a c i hp => exact go hp (addIndexToSlot_accounts ..) (fun _ _ h => h)
  case upSlot t a c i hp => exact go hp (addIndexToSlot_accounts ..) (fun _ _ h => h.elim)
  case prReturn t c out hp =>
    refine known_same h rfl (ret_pc ..) rfl ?_
    intro d a hh
    rw [hp] at hh
    obtain ⟨k, ⟨info, rfl⟩, hc⟩ := lastCall_serves hl hp (by simp)
    exact .inr (.inl ⟨w.log, t, out, [], info, c, rfl, hc, hh.1, hh.2⟩)
  case prStore t c l hp _ => exact go hp rfl (fun _ _ h => h.elim)
  case prUnown t c i a prev l out hp => exact go hp rfl (by split <;> exact fun _ _ h => h)
  case prOwn t c i a l out hp => exact go hp (own_accounts ..) (fun _ _ h => h)
  case prClear t c i a l out hp =>
    refine known_clear (ext := []) h (by simp) (go_pc ..) rfl ?_
    intro d b hh
    rw [hp] at hh; exact .inl hh
  case geRead t pk c i hp _ =>
    obtain ⟨r, hr⟩ := doRead_pc w t c i
    rw [hr]; exact idle hp rfl (fun _ _ h => h)
  case gpVisit t p fs c i l retry out hp _ =>
    rcases doVisit_pc E w t p fs c i (fun r => .gpScan p fs c l retry (out ++ r)) with ⟨r, hr⟩ | ⟨r, hr⟩
    · rw [hr]; exact idle hp rfl (fun _ _ h => h)
    · rw [hr]; exact go hp rfl (fun _ _ h => h.elim)
  case gpRetry t p fs c i l out hp _ =>
    rcases doVisit_pc E w t p fs c i (fun r => .gpRetry p fs c l (out ++ r)) with ⟨r, hr⟩ | ⟨r, hr⟩
    · rw [hr]; exact idle hp rfl (fun _ _ h => h)
    · rw [hr]; exact go hp rfl (fun _ _ h => h.elim)
  all_goals
    rename w.pc _ = _ => hp
    first
    | exact go hp rfl (fun _ _ h => h)
    | exact go hp rfl (fun _ _ h => h.elim)
    | exact idle hp rfl (fun _ _ h => h)

theorem reachable_known {E : Env} {w : World} (h : Reachable E w) : AllKnown F (fun _ _ => False) w := by
  obtain ⟨G, h⟩ := h
  have hr : ∀ {w}, Steps E (World.init G) w → Reachable E w := fun h => ⟨G, h⟩
  generalize hw0 : World.init G = w0 at h hr
  induction h with
  | refl => subst hw0; exact ⟨fun _ _ h => h.elim, fun i e he => by simp [World.init, Store.empty] at he⟩
  | tail hst hs ih =>
    obtain ⟨-, key, hg⟩ := reachable_good (hr hst)
    exact known_step hs hg (reachable_log (hr hst)) (reachable_traced (hr hst)) ih

/-- What is known stays known. -/
theorem Known.steps {E : Env} {w w' : World} {c : Commitment} {a : AccountData} (hr : Reachable E w) (h : Known F c w a)
    (hs : Steps E w w') : Known F c w' a := by
  have : AllKnown F (fun d b => d = c ∧ b = a) w' := by
    induction hs with
    | refl => exact ⟨by rintro d b ⟨rfl, rfl⟩; exact h, (reachable_known hr).2⟩
    | tail hst hs ih =>
      have hr' := Steps.reachable hr hst
      obtain ⟨-, key, hg⟩ := reachable_good hr'
      exact known_step hs hg (reachable_log hr') (reachable_traced hr') ih
  exact this.1 c a ⟨rfl, rfl⟩

/-- Seen from outside. -/
theorem Known.told {E : Env} {w : World} {c : Commitment} {a : AccountData} (hr : Reachable E w) (h : Known F c w a) :
    HeardOf c w.log a ∨ LateUpdate F c w.log a ∨ Telling F c w.log a := by
  rcases h with h | h | ⟨t, h⟩
  · exact .inl h
  · exact .inr (.inl h)
  · refine .inr (.inr ?_)
    have hn : w.pc t ≠ .idle := by intro he; rw [he] at h; exact h
    obtain ⟨k, hk, hc⟩ := (reachable_log hr).opened t hn
    revert h hk
    cases w.pc t <;> intro h hk <;> try exact h.elim
    all_goals first
      | (obtain ⟨d, rfl⟩ := hk; obtain ⟨rfl, h⟩ := h; exact .inr ⟨t, d, hc, h.slotIs⟩)
      | (obtain ⟨info, rfl⟩ := hk; exact .inl ⟨t, info, _, hc, h.1⟩)

end LAM.Conc
