import Verif.Lemmas.StoreConcSim
import Verif.Spec.StoreConcLin
/-!
# Concurrent calls of the in-memory account store: updates of different accounts take effect one after the other
-/
namespace LAM.Conc
open Store World ByCommitment Spec

/-! ## Threads -/

/-- The account a thread updates. -/
def Pc.subject : Pc → Option Pubkey
  | .upCheck a _ | .upLookup a _ | .upSlot a _ _ | .upEntry a _ | .upStore a _ _ | .upAccount a _ _ | .upWrite a _ _
  | .upUnown a _ _ | .upOwn a _ | .upDrop a _ | .upPush a _ | .upNewOwn a _ _ | .upNewSlot a _ _ | .upInsert a _ => some a.pubkey
  | _ => none

/-- The update has taken effect, and the account at `i` is not yet what it will be. -/
def Late (s : Store) : Pc → Nat → Prop
  | .upEntry a _, i => s.index a.pubkey = some i
  | .upStore _ _ j, i | .upAccount _ _ j, i | .upWrite _ _ j, i | .upUnown _ _ j, i | .upOwn _ j, i | .upDrop _ j, i
  | .upInsert _ j, i => j = i
  | _, _ => False

/-- The account has been pushed, and the update has not yet taken effect. -/
def Pc.fresh : Pc → Option Nat
  | .upNewOwn _ _ i | .upNewSlot _ _ i => some i
  | _ => none

/-- The account the thread works on. -/
def Hand (s : Store) (p : Pc) (i : Nat) : Prop := Late s p i ∨ p.fresh = some i

theorem late_subject {s : Store} {p : Pc} {i : Nat} (h : Late s p i) : ∃ pk, p.subject = some pk := by
  cases p <;> simp only [Late] at h <;> exact ⟨_, rfl⟩

theorem hand_subject {s : Store} {p : Pc} {i : Nat} (h : Hand s p i) : ∃ pk, p.subject = some pk := by
  rcases h with h | h
  · exact late_subject h
  · cases p <;> simp [Pc.fresh] at h <;> exact ⟨_, rfl⟩

theorem subject_modifies {p : Pc} {pk : Pubkey} (h : p.subject = some pk) : p.modifies = true := by
  cases p <;> simp [Pc.subject] at h <;> rfl

theorem hand_key {E : Env} {key : Nat → Pubkey} {w : World} (hg : Good E key w) {t i : Nat} {pk : Pubkey}
    (h : Hand w.st (w.pc t) i) (hp : (w.pc t).subject = some pk) : key i = pk ∧ i < w.st.accounts.length := by
  have hok := hg.pcs t
  generalize w.pc t = p at h hp hok
  rcases h with h | h
  · cases p <;> simp only [Late] at h <;> simp only [Pc.subject, Option.some.injEq] at hp <;> subst hp
    case upEntry => exact ⟨(hg.idx _ _ h).1, hg.lt h⟩
    case upInsert =>
      subst h
      simp only [PcOK] at hok
      obtain ⟨-, -, h1, e, he, -⟩ := hok
      exact ⟨h1, (List.getElem?_eq_some_iff.1 he).1⟩
    all_goals
      subst h
      simp only [PcOK] at hok
      exact ⟨(hg.idx _ _ hok.2).1, hg.lt hok.2⟩
  · cases p <;> simp only [Pc.fresh] at h <;> simp only [Pc.subject] at hp
    case upNewOwn | upNewSlot =>
      cases h; cases hp
      simp only [PcOK] at hok
      obtain ⟨-, -, h1, e, he, -⟩ := hok
      exact ⟨h1, (List.getElem?_eq_some_iff.1 he).1⟩
    all_goals cases h

/-- What is left to do to the account only depends on the account. -/
theorem finish_local {F : Filters} {s s1 s2 : Store} {p : Pc} {i : Nat} {r : Reply} (hl : Late s p i) (h : PairEq s i s1 i)
    (hi : ∀ pk, p.subject = some pk → s1.index pk = s.index pk) (hr : finish F s p = .ok (s2, r)) :
    ∃ s3, finish F s1 p = .ok (s3, r) ∧ PairEq s2 i s3 i ∧ ∀ pk, p.subject = some pk → s3.index pk = s2.index pk := by
  have occ : ∀ {a c}, (∀ pk, some a.pubkey = some pk → s1.index pk = s.index pk) →
      (do let r ← updateOccupied F s a c i; return (r.1, Reply.updated r.2) : Run (Store × Reply)) = .ok (s2, r) →
      ∃ s3, (do let r ← updateOccupied F s1 a c i; return (r.1, Reply.updated r.2) : Run (Store × Reply)) = .ok (s3, r) ∧
        PairEq s2 i s3 i ∧ ∀ pk, some a.pubkey = some pk → s3.index pk = s2.index pk := by
    intro a c hi hr
    simp only [Run.bind_eq_ok, Run.pure_eq, Run.ok.injEq] at hr
    obtain ⟨⟨x, b⟩, hx, hr⟩ := hr
    cases hr
    obtain ⟨y, hy, h1, h2, -, -⟩ := updateOccupied_local h hx
    refine ⟨y, by simp [hy], h1, fun pk hpk => ?_⟩
    simp only [Option.some.injEq] at hpk
    have := hi pk (by rw [hpk])
    rcases h2 with ⟨i1, i2⟩ | ⟨pk', -, i1, i2⟩
    · rw [i1, i2]; exact this
    · rw [i1, i2]; simp only [dropKey]; split
      · rfl
      · exact this
  have drp : ∀ {x y : Store} {pk pk' : Pubkey}, y.index pk = x.index pk → (y.dropKey pk').index pk = (x.dropKey pk').index pk := by
    intro x y pk pk' h; simp only [dropKey]; rw [h]
  cases p <;> simp only [Late] at hl
  case upEntry a c =>
    have h2 := hi a.pubkey rfl
    rw [hl] at h2
    simp only [finish, finishEntry, hl, h2] at hr ⊢
    exact occ hi hr
  case upStore a c j => subst hl; exact occ hi hr
  case upAccount a c j => subst hl; exact occ hi hr
  case upWrite a c j => subst hl; exact occ hi hr
  case upUnown a q j =>
    subst hl
    simp only [finish, finishOwner, Run.ok.injEq] at hr ⊢
    have hp := pairEq_remove h q.account.owner
    by_cases h1 : (isDeleted a || !F.satisfies a) = true
    · simp only [h1, if_true] at hr ⊢
      cases hr
      exact ⟨_, rfl, pairEq_drop (pairEq_setAt hp _) _, fun pk hpk => drp (hi pk hpk)⟩
    · simp only [h1] at hr ⊢
      by_cases h2 : (!isDeleted a && F.satisfies a) = true
      · simp only [h2, if_true] at hr ⊢
        cases hr; exact ⟨_, rfl, pairEq_add hp _, hi⟩
      · simp only [h2] at hr ⊢
        cases hr; exact ⟨_, rfl, hp, hi⟩
  case upOwn a j =>
    subst hl
    simp only [finish, Run.ok.injEq] at hr ⊢
    by_cases h2 : (!isDeleted a && F.satisfies a) = true
    · simp only [h2, if_true] at hr ⊢
      cases hr; exact ⟨_, rfl, pairEq_add h _, hi⟩
    · simp only [h2] at hr ⊢
      cases hr; exact ⟨_, rfl, h, hi⟩
  case upDrop a j =>
    subst hl
    simp only [finish, Run.ok.injEq] at hr ⊢
    cases hr
    exact ⟨_, rfl, pairEq_drop (pairEq_setAt h _) _, fun pk hpk => drp (hi pk hpk)⟩
  case upInsert a j =>
    subst hl
    simp only [finish, Run.ok.injEq] at hr ⊢
    cases hr
    refine ⟨_, rfl, h, fun pk hpk => ?_⟩
    simp only
    rw [hi pk hpk]

/-- The update has taken effect in `s'`: what is left to do makes the account at `i` what it is there. -/
def Ahead (F : Filters) (m : Pairing) (s s' : Store) (ev dn : List Event) (p : Pc) (pk : Pubkey) (i : Nat) : Prop :=
  ∃ j s2 r, m i j ∧ finish F s p = .ok (s2, r) ∧ PairEq s2 i s' j ∧
    ((s2.index pk = none ∧ s'.index pk = none) ∨ (s2.index pk = some i ∧ s'.index pk = some j)) ∧ ev ++ [.ret r] = dn

/-- How far a thread has come, with its events `ev` and the events `dn` of its calls that took effect. -/
def ThreadOK (F : Filters) (m : Pairing) (s s' : Store) (ev dn : List Event) : Pc → Prop
  | .upCheck a c | .upLookup a c => ev = dn ++ [.call (.update a c)]
  | .upSlot a c i => ev = dn ++ [.call (.update a c)] ∧ s.index a.pubkey = some i
  | .upEntry a c => (s.index a.pubkey = none ∧ ev = dn ++ [.call (.update a c)]) ∨
      ∃ i, s.index a.pubkey = some i ∧ Ahead F m s s' ev dn (.upEntry a c) a.pubkey i
  | .upStore a c i => Ahead F m s s' ev dn (.upStore a c i) a.pubkey i
  | .upAccount a c i => Ahead F m s s' ev dn (.upAccount a c i) a.pubkey i
  | .upWrite a c i => Ahead F m s s' ev dn (.upWrite a c i) a.pubkey i
  | .upUnown a q i => Ahead F m s s' ev dn (.upUnown a q i) a.pubkey i
  | .upOwn a i => Ahead F m s s' ev dn (.upOwn a i) a.pubkey i
  | .upDrop a i => Ahead F m s s' ev dn (.upDrop a i) a.pubkey i
  | .upPush a c => ev = dn ++ [.call (.update a c)] ∧ F.satisfies a = true
  | .upNewOwn a c i => ev = dn ++ [.call (.update a c)] ∧ F.satisfies a = true ∧ (∀ j, ¬ m i j) ∧
      s.accounts[i]? = some (ByCommitment.new a c) ∧ ∀ o, ¬ owns s o i
  | .upNewSlot a c i => ev = dn ++ [.call (.update a c)] ∧ F.satisfies a = true ∧ (∀ j, ¬ m i j) ∧
      s.accounts[i]? = some (ByCommitment.new a c) ∧ ∀ o, owns s o i ↔ o = a.account.owner
  | .upInsert a i => Ahead F m s s' ev dn (.upInsert a i) a.pubkey i
  | .prWalk .. | .prStore .. | .prNext .. | .prPromote .. | .prUnown .. | .prOwn .. | .prDrop .. | .prClear .. => False
  | _ => ev = dn

theorem Ahead.keep {F : Filters} {m m1 : Pairing} {s s1 s' s1' : Store} {ev dn : List Event} {p : Pc} {pk : Pubkey} {i : Nat}
    (h : Ahead F m s s' ev dn p pk i) (hp : p.subject = some pk) (hl : Late s p i)
    (hi : s1.index pk = s.index pk ∧ s1'.index pk = s'.index pk) (hm : ∀ i j, m i j → m1 i j)
    (hq : PairEq s i s1 i) (hq' : ∀ j, m i j → PairEq s' j s1' j) : Ahead F m1 s1 s1' ev dn p pk i := by
  obtain ⟨j, s2, r, h1, h2, h3, h4, h5⟩ := h
  obtain ⟨s3, h6, h7, h8⟩ := finish_local hl hq (fun pk' h => by rw [hp] at h; cases h; exact hi.1) h2
  refine ⟨j, s3, r, hm _ _ h1, h6, (h7.symm.trans h3).trans (hq' j h1), ?_, h5⟩
  rw [h8 pk hp, hi.2]; exact h4

theorem ThreadOK.keep {F : Filters} {m m1 : Pairing} {s s1 s' s1' : Store} {ev dn : List Event} {p : Pc}
    (h : ThreadOK F m s s' ev dn p)
    (hi : ∀ pk, p.subject = some pk → s1.index pk = s.index pk ∧ s1'.index pk = s'.index pk)
    (hm : ∀ i j, m i j → m1 i j) (hp : ∀ i, Hand s p i → PairEq s i s1 i)
    (hp' : ∀ i j, Late s p i → m i j → PairEq s' j s1' j) (hn : ∀ i j, p.fresh = some i → m1 i j → m i j) :
    ThreadOK F m1 s1 s1' ev dn p := by
  have late : ∀ {i pk}, Ahead F m s s' ev dn p pk i → p.subject = some pk → Late s p i → Ahead F m1 s1 s1' ev dn p pk i :=
    fun h hs hl => h.keep hs hl (hi _ hs) hm (hp _ (.inl hl)) (fun j hj => hp' _ j hl hj)
  cases p <;> simp only [ThreadOK] at h ⊢
  case upSlot a c i => exact ⟨h.1, by rw [(hi _ rfl).1]; exact h.2⟩
  case upEntry a c =>
    rcases h with h | ⟨i, h1, h2⟩
    · exact .inl ⟨by rw [(hi _ rfl).1]; exact h.1, h.2⟩
    · exact .inr ⟨i, by rw [(hi _ rfl).1]; exact h1, late h2 rfl h1⟩
  case upNewOwn a c i =>
    obtain ⟨h1, h2, h3, h4, h5⟩ := h
    have := hp i (.inr rfl)
    exact ⟨h1, h2, fun j hj => h3 j (hn i j rfl hj), by rw [← this.1]; exact h4, fun o ho => h5 o ((this.2 o).2 ho)⟩
  case upNewSlot a c i =>
    obtain ⟨h1, h2, h3, h4, h5⟩ := h
    have := hp i (.inr rfl)
    exact ⟨h1, h2, fun j hj => h3 j (hn i j rfl hj), by rw [← this.1]; exact h4, fun o => by rw [← this.2 o]; exact h5 o⟩
  all_goals first | exact h | exact late h rfl rfl

/-- No thread is in a slot notification, and the updates that took effect lead to `s'`. -/
structure Up (m : Pairing) (w : World) (s' : Store) (ds : List Done) (log : List (Nat × Event)) : Prop where
  one : OneOne m
  lt : ∀ {i j}, m i j → i < w.st.accounts.length ∧ j < s'.accounts.length
  all : ∀ i, i < w.st.accounts.length → (∃ j, m i j) ∨ ∃ t, (w.pc t).fresh = some i
  all' : ∀ j, j < s'.accounts.length → ∃ i, m i j
  slots : SlotsEq m w.st.slots s'.slots
  idx : ∀ pk, IdxEq m w.st s' pk ∨ ∃ t i, Late w.st (w.pc t) i ∧ (w.pc t).subject = some pk
  pair : ∀ {i j}, m i j → PairEq w.st i s' j ∨ ∃ t, Late w.st (w.pc t) i
  threads : ∀ t, ThreadOK w.filters m w.st s' (writeEvents t log) (doneEvents t ds) (w.pc t)

/-- Different threads update different accounts. -/
def Different (w : World) : Prop :=
  ∀ t t', t ≠ t' → (w.pc t).modifies = true → (w.pc t').modifies = true →
    ∃ pk pk', (w.pc t).subject = some pk ∧ (w.pc t').subject = some pk' ∧ pk ≠ pk'

/-- A step of an update. -/
theorem up_step {E : Env} {key : Nat → Pubkey} {m m1 : Pairing} {w w1 : World} {s' s1' : Store} {ds ds1 : List Done}
    {log log1 : List (Nat × Event)} (hu : Up m w s' ds log) (hd : Different w) (hg : Good E key w)
    {t : Nat} {pk : Pubkey} {p1 : Pc} (hpk : (w.pc t).subject = some pk) (hpc : w1.pc = upd w.pc t p1) (hF : w1.filters = w.filters)
    (T : Nat → Prop) (hTk : ∀ i, T i → i < w.st.accounts.length → key i = pk)
    (one : OneOne m1) (lt : ∀ {i j}, m1 i j → i < w1.st.accounts.length ∧ j < s1'.accounts.length)
    (all : ∀ i, i < w1.st.accounts.length → (i < w.st.accounts.length ∧ (w.pc t).fresh ≠ some i) ∨ (∃ j, m1 i j) ∨ p1.fresh = some i)
    (all' : ∀ j, j < s1'.accounts.length → ∃ i, m1 i j) (slots : SlotsEq m1 w1.st.slots s1'.slots)
    (hidx : ∀ x, x ≠ pk → w1.st.index x = w.st.index x ∧ s1'.index x = s'.index x)
    (hpair : ∀ x, ¬ T x → PairEq w.st x w1.st x) (hpair' : ∀ x y, m x y → ¬ T x → PairEq s' y s1' y)
    (hm : ∀ i j, m i j → m1 i j) (hm1 : ∀ i j, m1 i j → m i j ∨ T i) (hlate : ∀ i, Late w.st (w.pc t) i → T i)
    (hidxT : IdxEq m1 w1.st s1' pk ∨ ∃ i, Late w1.st p1 i ∧ p1.subject = some pk)
    (hpairT : ∀ i j, m1 i j → T i → PairEq w1.st i s1' j ∨ Late w1.st p1 i)
    (hthread : ThreadOK w.filters m1 w1.st s1' (writeEvents t log1) (doneEvents t ds1) p1)
    (hev : ∀ x, x ≠ t → writeEvents x log1 = writeEvents x log ∧ doneEvents x ds1 = doneEvents x ds) :
    Up m1 w1 s1' ds1 log1 := by
  have other : ∀ x pk', x ≠ t → (w.pc x).subject = some pk' → pk' ≠ pk := by
    intro x pk' hx hs
    obtain ⟨p, q, h1, h2, h3⟩ := hd x t hx (subject_modifies hs) (subject_modifies hpk)
    rw [hs] at h1; rw [hpk] at h2; cases h1; cases h2
    exact h3
  have hT : ∀ x i, x ≠ t → Hand w.st (w.pc x) i → ¬ T i := by
    intro x i hx hh hTi
    obtain ⟨pk', hs⟩ := hand_subject hh
    obtain ⟨h1, h2⟩ := hand_key hg hh hs
    exact other x pk' hx hs (h1.symm.trans (hTk i hTi h2))
  have late_same : ∀ x i, x ≠ t → (Late w.st (w.pc x) i ↔ Late w1.st (w.pc x) i) := by
    intro x i hx
    have := fun pk' hs => (hidx pk' (other x pk' hx hs)).1
    cases hp : w.pc x <;> simp only [Late]
    case upEntry a c => rw [hp] at this; rw [this _ rfl]
  refine ⟨one, lt, fun i hi => ?_, all', slots, fun x => ?_, ?_, fun x => ?_⟩
  · rcases all i hi with ⟨h1, h2⟩ | h | h
    · rcases hu.all i h1 with ⟨j, hj⟩ | ⟨x, hx⟩
      · exact .inl ⟨j, hm _ _ hj⟩
      · have hxt : x ≠ t := by rintro rfl; exact h2 hx
        exact .inr ⟨x, by rw [hpc, upd_other hxt]; exact hx⟩
    · exact .inl h
    · exact .inr ⟨t, by rw [hpc, upd_self]; exact h⟩
  · by_cases hx : x = pk
    · subst hx
      rcases hidxT with h | ⟨i, h1, h2⟩
      · exact .inl h
      · exact .inr ⟨t, i, by rw [hpc, upd_self]; exact h1, by rw [hpc, upd_self]; exact h2⟩
    · obtain ⟨i1, i2⟩ := hidx x hx
      rcases hu.idx x with h | ⟨y, i, h1, h2⟩
      · left
        rcases h with h | ⟨i, j, h1, h2⟩
        · exact .inl (by rw [i1, i2]; exact h)
        · exact .inr ⟨i, j, hm _ _ h1, by rw [i1, i2]; exact h2⟩
      · have hyt : y ≠ t := by rintro rfl; rw [hpk] at h2; cases h2; exact hx rfl
        exact .inr ⟨y, i, by rw [hpc, upd_other hyt]; exact (late_same y i hyt).1 h1, by rw [hpc, upd_other hyt]; exact h2⟩
  · intro i j hij
    by_cases hTi : T i
    · rcases hpairT i j hij hTi with h | h
      · exact .inl h
      · exact .inr ⟨t, by rw [hpc, upd_self]; exact h⟩
    · rcases hm1 i j hij with h | h
      · rcases hu.pair h with h' | ⟨y, h'⟩
        · exact .inl (((hpair i hTi).symm.trans h').trans (hpair' i j h hTi))
        · have hyt : y ≠ t := by rintro rfl; exact hTi (hlate i h')
          exact .inr ⟨y, by rw [hpc, upd_other hyt]; exact (late_same y i hyt).1 h'⟩
      · exact absurd h hTi
  · rw [hpc, hF]
    by_cases hx : x = t
    · subst hx; rw [upd_self]; exact hthread
    · rw [upd_other hx, (hev x hx).1, (hev x hx).2]
      refine (hu.threads x).keep (fun pk' hs => hidx pk' (other x pk' hx hs)) hm (fun i hh => hpair i (hT x i hx hh))
        (fun i j hl hij => hpair' i j hij (hT x i hx (.inl hl))) (fun i j hf hij => ?_)
      rcases hm1 i j hij with h | h
      · exact h
      · exact absurd h (hT x i hx (.inr hf))

/-- While nobody writes, the store is what the calls that took effect lead to. -/
theorem Up.sim {m : Pairing} {w : World} {s' : Store} {ds : List Done} {log : List (Nat × Event)} (hu : Up m w s' ds log)
    (hq : ∀ t, (w.pc t).modifies = false) : Sim m w.st s' ∧ ∀ t, writeEvents t log = doneEvents t ds := by
  have nl : ∀ t i, ¬ Late w.st (w.pc t) i := by
    intro t i h
    obtain ⟨pk, hs⟩ := late_subject h
    have := subject_modifies hs
    rw [hq t] at this; cases this
  have nf : ∀ t i, (w.pc t).fresh ≠ some i := by
    intro t i h
    obtain ⟨pk, hs⟩ := hand_subject (s := w.st) (.inr h)
    have := subject_modifies hs
    rw [hq t] at this; cases this
  refine ⟨⟨hu.one, hu.lt, fun i hi => ?_, hu.all', hu.slots, fun pk => ?_, fun hij => ?_⟩, fun t => ?_⟩
  · rcases hu.all i hi with h | ⟨t, h⟩
    · exact h
    · exact absurd h (nf t i)
  · rcases hu.idx pk with h | ⟨t, i, h, -⟩
    · exact h
    · exact absurd h (nl t i)
  · rcases hu.pair hij with h | ⟨t, h⟩
    · exact h
    · exact absurd h (nl t _)
  · have := hu.threads t
    have hm := hq t
    cases hp : w.pc t <;> rw [hp] at this hm <;> first | exact this | cases hm

theorem Sim.up {m : Pairing} {w : World} {s' : Store} {ds : List Done} {log : List (Nat × Event)} (h : Sim m w.st s')
    (hq : ∀ t, (w.pc t).modifies = false) (he : ∀ t, writeEvents t log = doneEvents t ds) : Up m w s' ds log := by
  refine ⟨h.one, h.lt, fun i hi => .inl (h.all i hi), h.all', h.slots, fun pk => .inl (h.idx pk), fun hij => .inl (h.pair hij), fun t => ?_⟩
  have hm := hq t
  cases hp : w.pc t <;> rw [hp] at hm <;> first | exact he t | cases hm

end LAM.Conc
