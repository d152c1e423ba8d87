import Verif.Lemmas.StoreConcLin
/-!
# Concurrent calls of the in-memory account store: the steps of updates of different accounts
-/
namespace LAM.Conc
open Store World ByCommitment Spec

/-! ## Events -/

theorem writeEvents_append (t : Nat) (l l' : List (Nat × Event)) : writeEvents t (l ++ l') = writeEvents t l ++ writeEvents t l' := by
  simp [writeEvents]

theorem doneEvents_append (t : Nat) (l l' : List Done) : doneEvents t (l ++ l') = doneEvents t l ++ doneEvents t l' := by
  simp [doneEvents]

theorem writeEvents_other {t x : Nat} (h : t ≠ x) (v : Event) : writeEvents x [(t, v)] = [] := by
  simp [writeEvents, h]

theorem writeEvents_updated (t : Nat) (b : Bool) : writeEvents t [(t, .ret (.updated b))] = [.ret (.updated b)] := by
  simp [writeEvents]

theorem writeEvents_reported (t : Nat) (l : List AccountData) : writeEvents t [(t, .ret (.reported l))] = [.ret (.reported l)] := by
  simp [writeEvents]

theorem writeEvents_call (t : Nat) (k : Call) : writeEvents t [(t, .call k)] = if k.modifies then [.call k] else [] := by
  unfold writeEvents; cases h : k.modifies <;> simp [h]

theorem writeEvents_read (t x : Nat) {r : Reply} (h1 : ∀ b, r ≠ .updated b) (h2 : ∀ l, r ≠ .reported l) :
    writeEvents x [(t, .ret r)] = [] := by
  unfold writeEvents
  by_cases h : t = x
  · cases r <;> simp_all
  · simp [h]

theorem doneEvents_other {t x : Nat} (h : t ≠ x) (op : Op) (r : Reply) : doneEvents x [⟨t, op, r⟩] = [] := by
  simp [doneEvents, h]

theorem doneEvents_self (t : Nat) (op : Op) (r : Reply) : doneEvents t [⟨t, op, r⟩] = [.call (opCall op), .ret r] := by
  simp [doneEvents]

/-- What a step adds to the calls that took effect. -/
def Adds (F : Filters) (s' : Store) (ex : List Done) (s1' : Store) : Prop :=
  (ex = [] ∧ s1' = s') ∨ ∃ d, ex = [d] ∧ opResult s' d.op = .ok (s1', d.reply) ∧ opFilters d.op = F

/-- The updates go on. -/
def Goes (w w' : World) (s' : Store) (ds : List Done) (log : List (Nat × Event)) : Prop :=
  ∃ m1 s1' ex lg, w'.log = w.log ++ lg ∧ lg.length ≤ 1 ∧ Adds w.filters s' ex s1' ∧ Up m1 w' s1' (ds ++ ex) (log ++ lg)

section
variable {E : Env} {key : Nat → Pubkey} {m : Pairing} {w : World} {s' : Store} {ds : List Done} {log : List (Nat × Event)}
  (hu : Up m w s' ds log) (hd : Different w) (hg : Good E key w)
include hu hd hg

/-! ## Updates that have taken effect -/

theorem late_go {t i : Nat} {pk : Pubkey} {p1 : Pc} {s1 : Store} (hpk : (w.pc t).subject = some pk) (hl : Late w.st (w.pc t) i)
    (hl0 : ∀ x, Late w.st (w.pc t) x → x = i) (hpk1 : p1.subject = some pk) (hl1 : Late s1 p1 i) (hf0 : (w.pc t).fresh = none)
    (hA : Ahead w.filters m w.st s' (writeEvents t log) (doneEvents t ds) (w.pc t) pk i)
    (hT : Ahead w.filters m s1 s' (writeEvents t log) (doneEvents t ds) p1 pk i →
      ThreadOK w.filters m s1 s' (writeEvents t log) (doneEvents t ds) p1)
    (hfin : finish w.filters s1 p1 = finish w.filters w.st (w.pc t)) (hfr : Frame w.st i s1)
    (hidx : ∀ x, x ≠ pk → s1.index x = w.st.index x) : Goes w (w.go t s1 p1) s' ds log := by
  have hk := hand_key hg (.inl hl) hpk
  refine ⟨m, s', [], [], by simp [World.go], by simp, .inl ⟨rfl, rfl⟩, ?_⟩
  rw [List.append_nil, List.append_nil]
  refine up_step hu hd hg (T := (· = i)) hpk rfl rfl (fun x hx _ => by rw [hx]; exact hk.1) hu.one
    (fun hij => ?_) (fun x hx => .inl ⟨?_, ?_⟩) hu.all' ?_ (fun x hx => ⟨hidx x hx, rfl⟩) (fun x hx => hfr.others x hx)
    (fun x y _ _ => .refl _ _) (fun _ _ h => h) (fun _ _ h => .inl h) hl0 (.inr ⟨i, hl1, hpk1⟩)
    (fun x y _ hx => .inr (by rw [hx]; exact hl1)) (hT ?_) (fun _ _ => ⟨rfl, rfl⟩)
  · have := hu.lt hij; simp only [World.go, hfr.len]; exact this
  · simp only [World.go, hfr.len] at hx; exact hx
  · rw [hf0]; simp
  · simp only [World.go, hfr.slots]; exact hu.slots
  · obtain ⟨j, s2, r, h1, h2, h3⟩ := hA
    exact ⟨j, s2, r, h1, by rw [hfin]; exact h2, h3⟩

theorem late_ret {t i : Nat} {pk : Pubkey} {s1 : Store} {b : Bool} (hpk : (w.pc t).subject = some pk) (hl : Late w.st (w.pc t) i)
    (hl0 : ∀ x, Late w.st (w.pc t) x → x = i) (hf0 : (w.pc t).fresh = none)
    (hA : Ahead w.filters m w.st s' (writeEvents t log) (doneEvents t ds) (w.pc t) pk i)
    (hfin : finish w.filters w.st (w.pc t) = .ok (s1, .updated b)) (hfr : Frame w.st i s1)
    (hidx : ∀ x, x ≠ pk → s1.index x = w.st.index x) : Goes w (w.ret t s1 (.updated b)) s' ds log := by
  have hk := hand_key hg (.inl hl) hpk
  obtain ⟨j, s2, r, h1, h2, h3, h4, h5⟩ := hA
  rw [hfin] at h2
  cases h2
  refine ⟨m, s', [], [(t, .ret (.updated b))], rfl, by simp, .inl ⟨rfl, rfl⟩, ?_⟩
  rw [List.append_nil]
  refine up_step hu hd hg (T := (· = i)) hpk rfl rfl (fun x hx _ => by rw [hx]; exact hk.1) hu.one
    (fun hij => ?_) (fun x hx => .inl ⟨?_, ?_⟩) hu.all' ?_ (fun x hx => ⟨hidx x hx, rfl⟩) (fun x hx => hfr.others x hx)
    (fun x y _ _ => .refl _ _) (fun _ _ h => h) (fun _ _ h => .inl h) hl0 (.inl ?_)
    (fun x y hxy hx => .inl ?_) ?_ (fun x hx => ⟨?_, rfl⟩)
  · have := hu.lt hij; simp only [World.ret, hfr.len]; exact this
  · simp only [World.ret, hfr.len] at hx; exact hx
  · rw [hf0]; simp
  · simp only [World.ret, hfr.slots]; exact hu.slots
  · rcases h4 with h | h
    · exact .inl h
    · exact .inr ⟨i, j, h1, h⟩
  · subst hx; rw [hu.one.left hxy h1]; exact h3
  · simp only [ThreadOK]
    rw [writeEvents_append, writeEvents_updated]
    exact h5
  · rw [writeEvents_append, writeEvents_other (Ne.symm hx), List.append_nil]

/-! ## Updates that have not taken effect -/

omit hg in
theorem own_idx {t : Nat} {pk : Pubkey} (hpk : (w.pc t).subject = some pk) (hl0 : ∀ x, ¬ Late w.st (w.pc t) x) : IdxEq m w.st s' pk := by
  rcases hu.idx pk with h | ⟨x, i, h1, h2⟩
  · exact h
  · by_cases hx : x = t
    · subst hx; exact absurd h1 (hl0 i)
    · obtain ⟨p, q, h3, h4, h5⟩ := hd x t hx (subject_modifies h2) (subject_modifies hpk)
      rw [h2] at h3; rw [hpk] at h4; cases h3; cases h4
      exact absurd rfl h5

theorem own_pair {t i j : Nat} {pk : Pubkey} (hpk : (w.pc t).subject = some pk) (hl0 : ∀ x, ¬ Late w.st (w.pc t) x) (hk : key i = pk)
    (hij : m i j) : PairEq w.st i s' j := by
  rcases hu.pair hij with h | ⟨x, h1⟩
  · exact h
  · obtain ⟨pk', h2⟩ := late_subject h1
    have h6 := (hand_key hg (.inl h1) h2).1
    by_cases hx : x = t
    · subst hx; exact absurd h1 (hl0 i)
    · obtain ⟨p, q, h3, h4, h5⟩ := hd x t hx (subject_modifies h2) (subject_modifies hpk)
      rw [h2] at h3; rw [hpk] at h4; cases h3; cases h4
      exact absurd (h6.symm.trans hk) h5

/-- Nothing happens to the stores. -/
theorem early_go {t : Nat} {pk : Pubkey} {p1 : Pc} (hpk : (w.pc t).subject = some pk) (hl0 : ∀ x, ¬ Late w.st (w.pc t) x)
    (hf0 : (w.pc t).fresh = none)
    (hT : ThreadOK w.filters m w.st s' (writeEvents t log) (doneEvents t ds) p1) : Goes w (w.go t w.st p1) s' ds log := by
  refine ⟨m, s', [], [], by simp [World.go], by simp, .inl ⟨rfl, rfl⟩, ?_⟩
  rw [List.append_nil, List.append_nil]
  exact up_step hu hd hg (T := fun _ => False) hpk rfl rfl (fun _ h => h.elim) hu.one
    (fun hij => hu.lt hij) (fun x hx => .inl ⟨hx, by rw [hf0]; simp⟩) hu.all' hu.slots (fun x hx => ⟨rfl, rfl⟩) (fun x hx => .refl _ _)
    (fun x y _ _ => .refl _ _) (fun _ _ h => h) (fun _ _ h => .inl h) (fun x hx => hl0 x hx) (.inl (own_idx hu hd hpk hl0))
    (fun x y _ hx => hx.elim) hT (fun _ _ => ⟨rfl, rfl⟩)

/-- The update is of no interest: it takes effect when it returns. -/
theorem early_ret {t : Nat} {pk : Pubkey} {a : AccountData} {c : Commitment} (hpk : (w.pc t).subject = some pk)
    (hl0 : ∀ x, ¬ Late w.st (w.pc t) x) (hf0 : (w.pc t).fresh = none)
    (hev : writeEvents t log = doneEvents t ds ++ [.call (.update a c)])
    (hop : s'.updateAccount w.filters a c = .ok (s', false)) : Goes w (w.ret t w.st (.updated false)) s' ds log := by
  refine ⟨m, s', [⟨t, .update w.filters a c, .updated false⟩], [(t, .ret (.updated false))], rfl, by simp,
    .inr ⟨_, rfl, by simp [opResult, hop], rfl⟩, ?_⟩
  refine up_step hu hd hg (T := fun _ => False) hpk rfl rfl (fun _ h => h.elim) hu.one
    (fun hij => hu.lt hij) (fun x hx => .inl ⟨hx, by rw [hf0]; simp⟩) hu.all' hu.slots (fun x hx => ⟨rfl, rfl⟩) (fun x hx => .refl _ _)
    (fun x y _ _ => .refl _ _) (fun _ _ h => h) (fun _ _ h => .inl h) (fun x hx => hl0 x hx) (.inl (own_idx hu hd hpk hl0))
    (fun x y _ hx => hx.elim) ?_ (fun x hx => ⟨?_, ?_⟩)
  · simp only [ThreadOK]
    rw [writeEvents_append, writeEvents_updated, doneEvents_append, doneEvents_self, hev]
    simp [opCall]
  · rw [writeEvents_append, writeEvents_other (Ne.symm hx), List.append_nil]
  · rw [doneEvents_append, doneEvents_other (Ne.symm hx), List.append_nil]

/-- The update of a known account takes effect when it looks at the slot. -/
theorem slot_go {t i : Nat} {a : AccountData} {c : Commitment} (hp : w.pc t = .upSlot a c i) :
    Goes w (w.go t (w.st.addIndexToSlot a.slot i c).1 (.upEntry a (w.st.addIndexToSlot a.slot i c).2)) s' ds log := by
  have hT := hu.threads t
  rw [hp] at hT
  simp only [ThreadOK] at hT
  obtain ⟨hev, hi⟩ := hT
  have hpk : (w.pc t).subject = some a.pubkey := by rw [hp]; rfl
  have hl0 : ∀ x, ¬ Late w.st (w.pc t) x := by rw [hp]; exact fun _ h => h
  obtain ⟨hk, e, he, hok⟩ := hg.idx _ _ hi
  rcases own_idx hu hd hpk hl0 with ⟨h, -⟩ | ⟨i', j, hij, h1, hj⟩
  · rw [hi] at h; cases h
  rw [hi] at h1; cases h1
  have hpair := own_pair hu hd hg hpk hl0 hk hij
  obtain ⟨hsl, hce⟩ := slotsEq_add hu.slots hij a.slot c
  -- the rest of the call
  have hfin : ∃ s2 b, updateOccupied w.filters (w.st.addIndexToSlot a.slot i c).1 a (w.st.addIndexToSlot a.slot i c).2 i = .ok (s2, b) := by
    unfold updateOccupied
    rw [addIndexToSlot_accounts, he]
    simp only [Run.unwrap_some, Run.ok_bind]
    split
    · split
      · rename_i p hg'
        rw [updateOwner_eq _ _ _ _ _ _ (hok.get_pubkey hg')]
        simp only [Run.ok_bind]
        split <;> exact ⟨_, _, rfl⟩
      · exact ⟨_, _, rfl⟩
    · exact ⟨_, _, rfl⟩
  obtain ⟨s2, b, hfin⟩ := hfin
  have hpair1 : PairEq (w.st.addIndexToSlot a.slot i c).1 i (s'.addIndexToSlot a.slot j c).1 j := by
    refine ⟨?_, fun o => ?_⟩
    · rw [addIndexToSlot_accounts, addIndexToSlot_accounts]; exact hpair.1
    · unfold owns; rw [addIndexToSlot_byOwner, addIndexToSlot_byOwner]; exact hpair.2 o
  obtain ⟨s1', hfin', hres, hdrop, hfr, hfr'⟩ := updateOccupied_local hpair1 hfin
  have hseq : s'.updateAccount w.filters a c = .ok (s1', b) := by
    unfold updateAccount
    have : s'.containsKey a.pubkey = true := by simp [containsKey, hj]
    simp only [this, Bool.not_true, Bool.and_false, Bool.false_eq_true, if_false, maybeUpdateSlotStatus, hj, addIndexToSlot_index]
    rw [← hce]; exact hfin'
  have hidx' : ∀ x, x ≠ a.pubkey → s1'.index x = s'.index x := by
    intro x hx
    rcases hdrop with ⟨-, h⟩ | ⟨pk, rfl, -, h⟩
    · rw [h, addIndexToSlot_index]
    · rw [h]; simp [dropKey, hx]
  refine ⟨m, s1', [⟨t, .update w.filters a c, .updated b⟩], [], by simp [World.go], by simp,
    .inr ⟨_, rfl, by simp [opResult, hseq], rfl⟩, ?_⟩
  rw [List.append_nil]
  have hl1 : Late (w.st.addIndexToSlot a.slot i c).1 (.upEntry a (w.st.addIndexToSlot a.slot i c).2) i := by
    simp only [Late, addIndexToSlot_index]; exact hi
  refine up_step hu hd hg (T := (· = i)) hpk rfl rfl (fun x hx _ => by rw [hx]; exact hk) hu.one
    (fun hij => ?_) (fun x hx => .inl ⟨?_, ?_⟩) (fun y hy => hu.all' y ?_) ?_ (fun x hx => ⟨?_, hidx' x hx⟩) (fun x hx => ⟨?_, fun o => ?_⟩)
    (fun x y hxy hx => ?_) (fun _ _ h => h) (fun _ _ h => .inl h) (fun x hx => absurd hx (hl0 x)) (.inr ⟨i, hl1, rfl⟩)
    (fun x y _ hx => .inr (by rw [hx]; exact hl1)) ?_ (fun x hx => ⟨rfl, ?_⟩)
  · have := hu.lt hij
    rw [hfr'.len]; simp only [World.go, addIndexToSlot_accounts]; exact this
  · simpa [World.go] using hx
  · rw [hp]; simp [Pc.fresh]
  · rw [hfr'.len, addIndexToSlot_accounts] at hy; exact hy
  · rw [hfr'.slots]; exact hsl
  · simp [World.go]
  · simp [World.go]
  · unfold owns; simp [World.go]
  · have hyj : y ≠ j := by rintro rfl; exact hx (hu.one.right hxy hij)
    have := hfr'.others y hyj
    refine ⟨?_, fun o => ?_⟩
    · rw [← this.1, addIndexToSlot_accounts]
    · rw [← this.2 o]; unfold owns; rw [addIndexToSlot_byOwner]
  · simp only [ThreadOK, World.go]
    refine .inr ⟨i, hl1, j, s2, .updated b, hij, ?_, hres, ?_, ?_⟩
    · simp only [finish, finishEntry, addIndexToSlot_index, hi, hfin]; rfl
    · rcases hdrop with ⟨h1, h2⟩ | ⟨pk, rfl, h1, h2⟩
      · rw [h1, h2, addIndexToSlot_index, addIndexToSlot_index]; exact .inr ⟨hi, hj⟩
      · rw [h1, h2]; exact .inl ⟨by simp [dropKey], by simp [dropKey]⟩
    · rw [doneEvents_append, doneEvents_self, hev]; simp [opCall]
  · rw [doneEvents_append, doneEvents_other (Ne.symm hx), List.append_nil]

/-- The account of an update is pushed. -/
theorem push_go {t : Nat} {a : AccountData} {c : Commitment} (hp : w.pc t = .upPush a c) :
    Goes w (w.go t { w.st with accounts := w.st.accounts ++ [ByCommitment.new a c] } (.upNewOwn a c w.st.accounts.length)) s' ds log := by
  have hT := hu.threads t
  rw [hp] at hT
  simp only [ThreadOK] at hT
  obtain ⟨hev, hs⟩ := hT
  have hpk : (w.pc t).subject = some a.pubkey := by rw [hp]; rfl
  have hl0 : ∀ x, ¬ Late w.st (w.pc t) x := by rw [hp]; exact fun _ h => h
  have hn : ∀ j, ¬ m w.st.accounts.length j := fun j h => absurd (hu.lt h).1 (Nat.lt_irrefl _)
  refine ⟨m, s', [], [], by simp [World.go], by simp, .inl ⟨rfl, rfl⟩, ?_⟩
  rw [List.append_nil, List.append_nil]
  refine up_step hu hd hg (T := (· = w.st.accounts.length)) hpk rfl rfl (fun x hx h => by rw [hx] at h; exact absurd h (Nat.lt_irrefl _)) hu.one
    (fun hij => ?_) (fun x hx => ?_) hu.all' hu.slots (fun x hx => ⟨rfl, rfl⟩) (fun x hx => ⟨?_, fun o => .rfl⟩)
    (fun x y _ _ => .refl _ _) (fun _ _ h => h) (fun _ _ h => .inl h) (fun x hx => absurd hx (hl0 x)) (.inl ?_)
    (fun x y hxy hx => ?_) ?_ (fun _ _ => ⟨rfl, rfl⟩)
  · have := hu.lt hij; simp [World.go]; omega
  · simp [World.go] at hx
    by_cases h : x = w.st.accounts.length
    · exact .inr (.inr (by simp [Pc.fresh, h]))
    · exact .inl ⟨by omega, by rw [hp]; simp [Pc.fresh]⟩
  · simp only [World.go]
    by_cases h : x < w.st.accounts.length
    · rw [List.getElem?_append_left h]
    · rw [List.getElem?_eq_none (by omega), List.getElem?_eq_none (by simp; omega)]
  · exact own_idx hu hd hpk hl0
  · rw [hx] at hxy; exact absurd hxy (hn y)
  · simp only [ThreadOK, World.go]
    refine ⟨hev, hs, hn, by simp, fun o ho => ?_⟩
    unfold owns at ho
    simp only at ho
    cases hb : w.st.byOwner o with
    | none => rw [hb] at ho; simp at ho
    | some l =>
      rw [hb] at ho
      exact absurd (hg.ranges.owners o l hb _ ho) (Nat.lt_irrefl _)

/-- The pushed account joins the accounts of its owner. -/
theorem newOwn_go {t i : Nat} {a : AccountData} {c : Commitment} (hp : w.pc t = .upNewOwn a c i) :
    Goes w (w.go t (w.st.addAccountOwner i a.account.owner) (.upNewSlot a c i)) s' ds log := by
  have hT := hu.threads t
  rw [hp] at hT
  simp only [ThreadOK] at hT
  obtain ⟨hev, hs, hn, he, ho⟩ := hT
  have hpk : (w.pc t).subject = some a.pubkey := by rw [hp]; rfl
  have hl0 : ∀ x, ¬ Late w.st (w.pc t) x := by rw [hp]; exact fun _ h => h
  have hk := hand_key hg (i := i) (.inr (by rw [hp]; rfl)) hpk
  refine ⟨m, s', [], [], by simp [World.go], by simp, .inl ⟨rfl, rfl⟩, ?_⟩
  rw [List.append_nil, List.append_nil]
  refine up_step hu hd hg (T := (· = i)) hpk rfl rfl (fun x hx h => by rw [hx]; exact hk.1) hu.one
    (fun hij => hu.lt hij) (fun x hx => ?_) hu.all' hu.slots (fun x hx => ⟨rfl, rfl⟩) (fun x hx => (frame_add _ _ _).others x hx)
    (fun x y _ _ => .refl _ _) (fun _ _ h => h) (fun _ _ h => .inl h) (fun x hx => absurd hx (hl0 x)) (.inl (own_idx hu hd hpk hl0))
    (fun x y hxy hx => ?_) ?_ (fun _ _ => ⟨rfl, rfl⟩)
  · by_cases h : x = i
    · exact .inr (.inr (by simp [Pc.fresh, h]))
    · exact .inl ⟨hx, by rw [hp]; simp [Pc.fresh, Ne.symm h]⟩
  · rw [hx] at hxy; exact absurd hxy (hn y)
  · simp only [ThreadOK, World.go]
    refine ⟨hev, hs, hn, he, fun o => ?_⟩
    rw [owns_addAccountOwner]
    simp [ho o]

/-- The update of an unknown account takes effect when it looks at the slot. -/
theorem newSlot_go (hO : OwnIn s') {t i : Nat} {a : AccountData} {c : Commitment} (hp : w.pc t = .upNewSlot a c i) :
    Goes w (w.go t (w.st.addIndexToSlot a.slot i c).1 (.upInsert a i)) s' ds log := by
  have hT := hu.threads t
  have hok := hg.pcs t
  rw [hp] at hT hok
  simp only [ThreadOK] at hT
  simp only [PcOK] at hok
  obtain ⟨hev, hs, hn, he, ho⟩ := hT
  obtain ⟨-, hin, -⟩ := hok
  have hpk : (w.pc t).subject = some a.pubkey := by rw [hp]; rfl
  have hl0 : ∀ x, ¬ Late w.st (w.pc t) x := by rw [hp]; exact fun _ h => h
  have hk := hand_key hg (i := i) (.inr (by rw [hp]; rfl)) hpk
  have hin' : s'.index a.pubkey = none := by
    rcases own_idx hu hd hpk hl0 with ⟨-, h⟩ | ⟨_, _, -, h, -⟩
    · exact h
    · rw [hin] at h; cases h
  let m1 : Pairing := fun x y => m x y ∨ (x = i ∧ y = s'.accounts.length)
  have hm : ∀ x y, m x y → m1 x y := fun _ _ h => .inl h
  have hone : OneOne m1 := by
    refine ⟨?_, ?_⟩
    · rintro x y y' (h | ⟨rfl, rfl⟩) (h' | ⟨h1, rfl⟩)
      · exact hu.one.left h h'
      · subst h1; exact absurd h (hn y)
      · exact absurd h' (hn y')
      · rfl
    · rintro x x' y (h | ⟨rfl, rfl⟩) (h' | ⟨rfl, h1⟩)
      · exact hu.one.right h h'
      · subst h1; exact absurd (hu.lt h).2 (Nat.lt_irrefl _)
      · exact absurd (hu.lt h').2 (Nat.lt_irrefl _)
      · rfl
  have hij : m1 i s'.accounts.length := .inr ⟨rfl, rfl⟩
  have hsl := (slotsEq_add (SlotsEq.mono hm hu.slots) hij a.slot c).1
  have hseq : s'.updateAccount w.filters a c = .ok (createdStore s' a c, true) := by
    unfold updateAccount
    simp [hs, hin', maybeUpdateSlotStatus, updateVacant, createdStore]
    cases c <;> exact ⟨rfl, rfl⟩
  refine ⟨m1, createdStore s' a c, [⟨t, .update w.filters a c, .updated true⟩], [], by simp [World.go], by simp,
    .inr ⟨_, rfl, by simp [opResult, hseq], rfl⟩, ?_⟩
  rw [List.append_nil]
  have hnone : ∀ o, ¬ owns s' o s'.accounts.length := fun o h => absurd (hO o _ h) (Nat.lt_irrefl _)
  have hown : ∀ o j, owns (createdStore s' a c) o j ↔ owns s' o j ∨ (j = s'.accounts.length ∧ o = a.account.owner) :=
    fun o j => owns_addAccountOwner s' s'.accounts.length a.account.owner o j
  have hfr : ∀ y, y < s'.accounts.length → PairEq s' y (createdStore s' a c) y := by
    intro y hy
    refine ⟨?_, fun o => ?_⟩
    · simp only [createdStore]; rw [List.getElem?_append_left hy]
    · rw [hown]
      constructor
      · exact .inl
      · rintro (h | ⟨h, -⟩)
        · exact h
        · omega
  have hpi : PairEq (w.st.addIndexToSlot a.slot i c).1 i (createdStore s' a c) s'.accounts.length := by
    refine ⟨?_, fun o => ?_⟩
    · rw [addIndexToSlot_accounts, he]; simp [createdStore]
    · rw [hown]
      have : owns (w.st.addIndexToSlot a.slot i c).1 o i ↔ owns w.st o i := by unfold owns; rw [addIndexToSlot_byOwner]
      rw [this, ho o]
      simp [hnone o]
  refine up_step hu hd hg (T := (· = i)) hpk rfl rfl (fun x hx h => by rw [hx]; exact hk.1) hone
    (fun hxy => ?_) (fun x hx => ?_) (fun y hy => ?_) hsl (fun x hx => ⟨?_, ?_⟩) (fun x hx => ⟨?_, fun o => ?_⟩)
    (fun x y hxy _ => hfr y (hu.lt hxy).2) hm ?_ (fun x hx => absurd hx (hl0 x)) (.inr ⟨i, rfl, rfl⟩)
    (fun x y hxy hx => .inr hx.symm) ?_ (fun x hx => ⟨rfl, ?_⟩)
  · simp only [World.go, addIndexToSlot_accounts, createdStore, List.length_append, List.length_cons, List.length_nil]
    rcases hxy with h | ⟨rfl, rfl⟩
    · have := hu.lt h; omega
    · have := hk.2; omega
  · simp only [World.go, addIndexToSlot_accounts] at hx
    by_cases h : x = i
    · exact .inr (.inl ⟨_, by rw [h]; exact hij⟩)
    · exact .inl ⟨hx, by rw [hp]; simp [Pc.fresh, Ne.symm h]⟩
  · simp only [createdStore, List.length_append, List.length_cons, List.length_nil] at hy
    by_cases h : y = s'.accounts.length
    · exact ⟨i, by rw [h]; exact hij⟩
    · obtain ⟨x, hx⟩ := hu.all' y (by omega)
      exact ⟨x, hm _ _ hx⟩
  · simp [World.go]
  · simp [createdStore, hx]
  · simp [World.go]
  · unfold owns; simp [World.go]
  · rintro x y (h | ⟨h, -⟩)
    · exact .inl h
    · exact .inr h
  · simp only [ThreadOK, World.go]
    refine ⟨s'.accounts.length, _, .updated true, hij, rfl, ⟨hpi.1, hpi.2⟩, .inr ⟨by simp, by simp [createdStore]⟩, ?_⟩
    rw [doneEvents_append, doneEvents_self, hev]; simp [opCall]
  · rw [doneEvents_append, doneEvents_other (Ne.symm hx), List.append_nil]

omit hd hg in
/-- A thread moves, and nothing else happens. -/
theorem up_same {w1 : World} {log1 : List (Nat × Event)} {t : Nat} {p1 : Pc} (hst : w1.st = w.st) (hF : w1.filters = w.filters)
    (hpc : w1.pc = upd w.pc t p1) (hl0 : ∀ x, ¬ Late w.st (w.pc t) x) (hf0 : (w.pc t).fresh = none)
    (hT : ThreadOK w.filters m w.st s' (writeEvents t log1) (doneEvents t ds) p1)
    (hev : ∀ x, x ≠ t → writeEvents x log1 = writeEvents x log) : Up m w1 s' ds log1 := by
  have keep : ∀ x i, Late w.st (w.pc x) i → w1.pc x = w.pc x := by
    intro x i h
    rw [hpc, upd_other]; rintro rfl; exact hl0 i h
  refine ⟨hu.one, fun h => by rw [hst]; exact hu.lt h, fun i hi => ?_, hu.all', by rw [hst]; exact hu.slots, fun pk => ?_, fun h => ?_, fun x => ?_⟩
  · rw [hst] at hi
    rcases hu.all i hi with h | ⟨x, h⟩
    · exact .inl h
    · refine .inr ⟨x, ?_⟩
      rw [hpc, upd_other]
      · exact h
      · rintro rfl; rw [hf0] at h; cases h
  · rcases hu.idx pk with h | ⟨x, i, h1, h2⟩
    · exact .inl (by unfold IdxEq; rw [hst]; exact h)
    · exact .inr ⟨x, i, by rw [keep x i h1, hst]; exact h1, by rw [keep x i h1]; exact h2⟩
  · rcases hu.pair h with h' | ⟨x, h1⟩
    · exact .inl (by rw [hst]; exact h')
    · exact .inr ⟨x, by rw [keep x _ h1, hst]; exact h1⟩
  · rw [hpc, hF, hst]
    by_cases hx : x = t
    · subst hx; rw [upd_self]; exact hT
    · rw [upd_other hx, hev x hx]; exact hu.threads x

omit hd hg in
theorem read_go {t : Nat} {p1 : Pc} (hm : (w.pc t).modifies = false) (hm1 : p1.modifies = false) : Goes w (w.go t w.st p1) s' ds log := by
  refine ⟨m, s', [], [], by simp [World.go], by simp, .inl ⟨rfl, rfl⟩, ?_⟩
  rw [List.append_nil, List.append_nil]
  refine up_same hu rfl rfl rfl (fun x hx => ?_) ?_ ?_ (fun _ _ => rfl)
  · obtain ⟨pk, hs⟩ := late_subject hx
    rw [subject_modifies hs] at hm; cases hm
  · cases hp : w.pc t <;> rw [hp] at hm <;> first | rfl | cases hm
  · have := hu.threads t
    have this : writeEvents t log = doneEvents t ds := by
      cases hp : w.pc t <;> rw [hp] at hm this <;> first | exact this | cases hm
    cases p1 <;> first | exact this | cases hm1

omit hd hg in
theorem read_ret {t : Nat} {r : Reply} (hm : (w.pc t).modifies = false) (h1 : ∀ b, r ≠ .updated b) (h2 : ∀ l, r ≠ .reported l) :
    Goes w (w.ret t w.st r) s' ds log := by
  refine ⟨m, s', [], [(t, .ret r)], rfl, by simp, .inl ⟨rfl, rfl⟩, ?_⟩
  rw [List.append_nil]
  refine up_same hu rfl rfl rfl (fun x hx => ?_) ?_ ?_ (fun x _ => ?_)
  · obtain ⟨pk, hs⟩ := late_subject hx
    rw [subject_modifies hs] at hm; cases hm
  · cases hp : w.pc t <;> rw [hp] at hm <;> first | rfl | cases hm
  · have := hu.threads t
    have this : writeEvents t log = doneEvents t ds := by
      cases hp : w.pc t <;> rw [hp] at hm this <;> first | exact this | cases hm
    simp only [ThreadOK]
    rw [writeEvents_append, writeEvents_read t t h1 h2, List.append_nil]
    exact this
  · rw [writeEvents_append, writeEvents_read t x h1 h2, List.append_nil]

/-- The account of an update that goes on is written. -/
theorem write_goes {t i : Nat} {a : AccountData} {c : Commitment} (hp : w.pc t = .upWrite a c i) : Goes w (doWrite w t a c i) s' ds log := by
  have hpk : (w.pc t).subject = some a.pubkey := by rw [hp]; rfl
  have hl : Late w.st (w.pc t) i := by rw [hp]; rfl
  have hl0 : ∀ x, Late w.st (w.pc t) x → x = i := by rw [hp]; exact fun _ h => h.symm
  have hf0 : (w.pc t).fresh = none := by rw [hp]; rfl
  have hA := hu.threads t
  have hpt := hg.pcs t
  rw [hp] at hA hpt
  simp only [ThreadOK] at hA
  rw [← hp] at hA
  obtain ⟨hk, e, he, ho⟩ := hg.idx _ _ hpt.2
  have hfin : finish w.filters w.st (w.pc t) =
      (do let r ← updateOccupied w.filters w.st a c i; return (r.1, .updated r.2)) := by rw [hp]; rfl
  simp only [updateOccupied, he, Run.unwrap_some, Run.ok_bind] at hfin
  unfold doWrite
  simp only [he]
  have hfr : ∀ e', Frame w.st i (w.st.setAt i e') := fun e' => frame_setAt _ _ _
  have hix : ∀ e' x, x ≠ a.pubkey → (w.st.setAt i e').index x = w.st.index x := fun _ _ _ => rfl
  split
  · rename_i hup
    rw [if_pos hup] at hfin
    split
    · rename_i hget
      simp only [hget] at hfin
      exact late_ret hu hd hg hpk hl hl0 hf0 hA hfin (hfr _) (hix _)
    · rename_i prev hget
      have hpk' := ho.get_pubkey hget
      simp only [hget] at hfin
      rw [if_neg (by simp [hpk'])]
      simp only [updateOwnerDeleteIfNecessary, hpk', ne_eq, not_true_eq_false, if_false] at hfin
      split
      · rename_i hown
        rw [if_pos hown] at hfin
        split
        · rename_i hc
          rw [if_pos hc] at hfin
          refine late_go hu hd hg hpk hl hl0 rfl rfl hf0 hA (fun h => h) ?_ (hfr _) (hix _)
          rw [hfin]
          simp only [finish, finishOwner, isDeleted_cases]
          cases (!isDeleted a && w.filters.satisfies a) <;> simp [ByCommitment.delete] <;> rfl
        · rename_i hc
          rw [if_neg hc] at hfin
          refine late_go hu hd hg hpk hl hl0 rfl rfl hf0 hA (fun h => h) ?_ (hfr _) (hix _)
          rw [hfin]
          simp only [finish]
          cases (!isDeleted a && w.filters.satisfies a) <;> simp
      · rename_i hown
        rw [if_neg hown] at hfin
        exact late_ret hu hd hg hpk hl hl0 hf0 hA hfin (hfr _) (hix _)
  · rename_i hup
    rw [if_neg hup] at hfin
    exact late_ret hu hd hg hpk hl hl0 hf0 hA hfin (hfr _) (hix _)

/-- Every step other than a call or a change of the filters. -/
theorem update_goes (hO : OwnIn s') {w' : World} (h : Step E w w') : (∃ F, w' = { w with filters := F }) ∨
    (∃ t k, w.pc t = .idle ∧ w' = { w with pc := upd w.pc t (Call.start k), log := w.log ++ [(t, .call k)] }) ∨
    Goes w w' s' ds log := by
  have early : ∀ {t p pk} (q : Pc), w.pc t = q → q.subject = some pk → (∀ x, ¬ Late w.st q x) → q.fresh = none →
      ThreadOK w.filters m w.st s' (writeEvents t log) (doneEvents t ds) p → Goes w (w.go t w.st p) s' ds log := by
    rintro t p pk q rfl h1 h2 h3 h4
    exact early_go hu hd hg h1 h2 h3 h4
  have skip : ∀ {t a c} (q : Pc), w.pc t = q → q.subject = some a.pubkey → (∀ x, ¬ Late w.st q x) → q.fresh = none →
      writeEvents t log = doneEvents t ds ++ [.call (.update a c)] →
      (IdxEq m w.st s' a.pubkey → s'.updateAccount w.filters a c = .ok (s', false)) →
      Goes w (w.ret t w.st (.updated false)) s' ds log := by
    rintro t a c q rfl h1 h2 h3 h4 h5
    exact early_ret hu hd hg h1 h2 h3 h4 (h5 (own_idx hu hd h1 h2))
  have lgo : ∀ {t p pk i s1} (q : Pc), w.pc t = q → q.subject = some pk → Late w.st q i → (∀ x, Late w.st q x → x = i) →
      p.subject = some pk → Late s1 p i → q.fresh = none → Ahead w.filters m w.st s' (writeEvents t log) (doneEvents t ds) q pk i →
      (Ahead w.filters m s1 s' (writeEvents t log) (doneEvents t ds) p pk i →
        ThreadOK w.filters m s1 s' (writeEvents t log) (doneEvents t ds) p) →
      finish w.filters s1 p = finish w.filters w.st q → Frame w.st i s1 → (∀ x, x ≠ pk → s1.index x = w.st.index x) →
      Goes w (w.go t s1 p) s' ds log := by
    rintro t p pk i s1 q rfl h1 h2 h3 h4 h5 h6 h7 h8 h9 h10 h11
    exact late_go hu hd hg h1 h2 h3 h4 h5 h6 h7 h8 h9 h10 h11
  have lret : ∀ {t b pk i s1} (q : Pc), w.pc t = q → q.subject = some pk → Late w.st q i → (∀ x, Late w.st q x → x = i) →
      q.fresh = none → Ahead w.filters m w.st s' (writeEvents t log) (doneEvents t ds) q pk i →
      finish w.filters w.st q = .ok (s1, .updated b) → Frame w.st i s1 → (∀ x, x ≠ pk → s1.index x = w.st.index x) →
      Goes w (w.ret t s1 (.updated b)) s' ds log := by
    rintro t b pk i s1 q rfl h1 h2 h3 h4 h5 h6 h7 h8
    exact late_ret hu hd hg h1 h2 h3 h4 h5 h6 h7 h8
  have rgo : ∀ {t p} (q : Pc), w.pc t = q → q.modifies = false → p.modifies = false → Goes w (w.go t w.st p) s' ds log := by
    rintro t p q rfl h1 h2
    exact read_go hu h1 h2
  have rret : ∀ {t r} (q : Pc), w.pc t = q → q.modifies = false → (∀ b, r ≠ .updated b) → (∀ l, r ≠ .reported l) →
      Goes w (w.ret t w.st r) s' ds log := by
    rintro t r q rfl h1 h2 h3
    exact read_ret hu h1 h2 h3
  have hT := fun t => hu.threads t
  have no : ∀ {t q}, w.pc t = q → ¬ ThreadOK w.filters m w.st s' (writeEvents t log) (doneEvents t ds) q → False := by
    rintro t q rfl h; exact h (hT t)
  cases h
  case env F => exact .inl ⟨F, rfl⟩
  case call t k hp => exact .inr (.inl ⟨t, k, hp, rfl⟩)
  case upSkip t a c hp hf hb =>
    have h := hT t; rw [hp] at h
    refine .inr (.inr (skip _ hp rfl (fun _ h => h) rfl h fun hi => ?_))
    unfold updateAccount
    rw [if_pos]
    simp only [containsKey, Bool.and_eq_true, Bool.not_eq_true', Option.isSome_eq_false_iff, Option.isNone_iff_eq_none] at hb ⊢
    refine ⟨hb.1, ?_⟩
    rcases hi with ⟨-, h⟩ | ⟨_, _, -, h, -⟩
    · exact h
    · rw [hb.2] at h; cases h
  case upTake t a c hp hf hb =>
    have h := hT t; rw [hp] at h
    exact .inr (.inr (early _ hp rfl (fun _ h => h) rfl h))
  case upKnown t a c i hp hf hi =>
    have h := hT t; rw [hp] at h
    exact .inr (.inr (early _ hp rfl (fun _ h => h) rfl ⟨h, hi⟩))
  case upUnknown t a c hp hf hi =>
    have h := hT t; rw [hp] at h
    exact .inr (.inr (early _ hp rfl (fun _ h => h) rfl (.inl ⟨hi, h⟩)))
  case upSlot t a c i hp => exact .inr (.inr (slot_go hu hd hg hp))
  case upOccupied t a c i hp hf hi =>
    have h := hT t; rw [hp] at h
    rcases h with ⟨h, -⟩ | ⟨j, hj, h⟩
    · rw [hi] at h; cases h
    · rw [hi] at hj; cases hj
      refine .inr (.inr (lgo _ hp rfl hi (fun x h => ?_) rfl rfl rfl h (fun h => h) ?_ (.refl _ _) (fun _ _ => rfl)))
      · simp only [Late] at h; rw [hi] at h; cases h; rfl
      · simp only [finish, finishEntry, hi]
  case upVacant t a c hp hf hi hs =>
    have h := hT t; rw [hp] at h
    rcases h with ⟨-, h⟩ | ⟨j, hj, -⟩
    · refine .inr (.inr (early _ hp rfl (fun x h => ?_) rfl ⟨h, hs⟩))
      simp only [Late] at h; rw [hi] at h; cases h
    · rw [hi] at hj; cases hj
  case upIgnore t a c hp hf hi hs =>
    have h := hT t; rw [hp] at h
    rcases h with ⟨-, h⟩ | ⟨j, hj, -⟩
    · refine .inr (.inr (skip _ hp rfl (fun x h => ?_) rfl h fun hx => ?_))
      · simp only [Late] at h; rw [hi] at h; cases h
      · have hn : s'.index a.pubkey = none := by
          rcases hx with ⟨-, h⟩ | ⟨_, _, -, h, -⟩
          · exact h
          · rw [hi] at h; cases h
        unfold updateAccount
        split
        · rfl
        · simp [maybeUpdateSlotStatus, hn, updateVacant, hs]
    · rw [hi] at hj; cases hj
  case upStore t a c i hp hf =>
    have h := hT t; rw [hp] at h
    exact .inr (.inr (lgo _ hp rfl rfl (fun _ h => h.symm) rfl rfl rfl h (fun h => h) rfl (.refl _ _) (fun _ _ => rfl)))
  case upAccount t a c i hp hf =>
    have h := hT t; rw [hp] at h
    exact .inr (.inr (lgo _ hp rfl rfl (fun _ h => h.symm) rfl rfl rfl h (fun h => h) rfl (.refl _ _) (fun _ _ => rfl)))
  case upWrite t a c i hp => exact .inr (.inr (write_goes hu hd hg hp))
  case upUnown t a prev i hp =>
    have h := hT t; rw [hp] at h
    refine .inr (.inr ?_)
    by_cases hb : (isDeleted a || !w.filters.satisfies a) = true
    · rw [if_pos hb]
      refine lgo _ hp rfl rfl (fun _ h => h.symm) rfl rfl rfl h (fun h => h) ?_ (frame_remove _ _ _) (fun _ _ => rfl)
      simp only [finish, finishOwner]
      rw [if_pos hb]
    · rw [if_neg hb]
      refine lgo _ hp rfl rfl (fun _ h => h.symm) rfl rfl rfl h (fun h => h) ?_ (frame_remove _ _ _) (fun _ _ => rfl)
      simp only [finish, finishOwner]
      rw [if_neg hb]
  case upOwn t a i hp =>
    have h := hT t; rw [hp] at h
    refine .inr (.inr (lret _ hp rfl rfl (fun _ h => h.symm) rfl h rfl ?_ ?_))
    · unfold own; split
      · exact frame_add _ _ _
      · exact .refl _ _
    · intro x hx; unfold own; split <;> rfl
  case upDrop t a i hp =>
    have h := hT t; rw [hp] at h
    refine .inr (.inr (lret _ hp rfl rfl (fun _ h => h.symm) rfl h rfl ((frame_setAt _ _ _).trans (frame_drop _ _ _)) ?_))
    intro x hx; simp [dropKey, hx]
  case upPush t a c hp hf => exact .inr (.inr (push_go hu hd hg hp))
  case upNewOwn t a c i hp => exact .inr (.inr (newOwn_go hu hd hg hp))
  case upNewSlot t a c i hp => exact .inr (.inr (newSlot_go hu hd hg hO hp))
  case upInsert t a i hp =>
    have h := hT t; rw [hp] at h
    refine .inr (.inr (lret _ hp rfl rfl (fun _ h => h.symm) rfl h rfl ⟨rfl, rfl, fun _ _ => .refl _ _⟩ ?_))
    intro x hx; simp [hx]
  case geRead t pk c i hp hf =>
    refine .inr (.inr ?_)
    unfold doRead
    split
    · exact rret _ hp rfl (by simp) (by simp)
    · exact rret _ hp rfl (by simp) (by simp)
  case gpVisit t p fs c i l retry out hp hf =>
    refine .inr (.inr ?_)
    unfold doVisit
    split
    · exact rret _ hp rfl (by simp) (by simp)
    · split
      · exact rgo _ hp rfl rfl
      · exact rret _ hp rfl (by simp) (by simp)
  case gpRetry t p fs c i l out hp hf =>
    refine .inr (.inr ?_)
    unfold doVisit
    split
    · exact rret _ hp rfl (by simp) (by simp)
    · split
      · exact rgo _ hp rfl rfl
      · exact rret _ hp rfl (by simp) (by simp)
  all_goals
    rename w.pc _ = _ => hp
    first
    | exact (no hp (fun h => h)).elim
    | exact .inr (.inr (rgo _ hp rfl rfl))
    | exact .inr (.inr (rret _ hp rfl (by simp) (by simp)))

end

end LAM.Conc
