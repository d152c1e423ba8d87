import Verif.Model.Poison
import Verif.Props.OnDemandStore
/-!
# Queries whose text does not decode: C98
-/
namespace LAM.Props
open Spec Store Demand

/-- The system as it is while no lock is poisoned. -/
def live (w : Sys) : Live := ⟨w, false, false⟩

/-- **C98** as claimed: whatever the text of a program query, afterwards updates of accounts are taken as before. -/
def C98_statement : Prop :=
  ∀ (X : Codecs) (S : Source) (busy : Nat → Bool) (w : Sys) (h : List Op) (gs : List AccountFilter) (p : Pubkey)
    (fs : Option (List AccountFilterType)) (c : Commitment) (l' : Live) (o : Outcome) (a : AccountData) (c' : Commitment),
    Came X w h gs → Source.Sound X S → (live w).program X S busy p fs c = .ok (l', o) → Honest X a →
    ∃ l'' b, l'.update X a c' = .ok (l'', .updated b)

/-! ## A program not seen before -/

theorem mapRun_panics {X : Codecs} {l : List AccountFilterType} {x : AccountFilterType} (hx : x ∈ l) (hw : ¬ WellFormed X x) :
    mapRun (AccountFilterType.toBytes X) l = .panic := by
  have key : ∀ y : AccountFilterType, y.toBytes X = .panic ∨ ∃ z, y.toBytes X = .ok z := by
    intro y
    cases y with
    | datasize n => exact Or.inr ⟨_, rfl⟩
    | memcmp m =>
      obtain ⟨off, data⟩ := m
      cases data with
      | bytes b => exact Or.inr ⟨_, rfl⟩
      | base58 t => cases h : X.b58 t <;> simp [AccountFilterType.toBytes, MemcmpFilter.bytes, h, Run.unwrap, bind, Run.bind]
      | base64 t => cases h : X.b64 t <;> simp [AccountFilterType.toBytes, MemcmpFilter.bytes, h, Run.unwrap, bind, Run.bind]
  induction l with
  | nil => cases hx
  | cons y l ih =>
    rcases key y with h | ⟨z, h⟩
    · simp [mapRun, h, bind, Run.bind]
    · rcases List.mem_cons.1 hx with rfl | hx
      · exfalso
        apply hw
        cases x with
        | datasize n => trivial
        | memcmp m =>
          obtain ⟨off, data⟩ := m
          cases data with
          | bytes b => simp [WellFormed, pattern]
          | base58 t => cases h' : X.b58 t <;> simp_all [AccountFilterType.toBytes, MemcmpFilter.bytes, Run.unwrap, bind, Run.bind, WellFormed, pattern]
          | base64 t => cases h' : X.b64 t <;> simp_all [AccountFilterType.toBytes, MemcmpFilter.bytes, Run.unwrap, bind, Run.bind, WellFormed, pattern]
      · simp [mapRun, h, ih hx, bind, Run.bind]

theorem programs_unchanged {X : Codecs} {gs : List AccountFilter} {p : Pubkey} (h : ∀ g ∈ gs, g.programId ≠ some p) :
    ∀ {s s' : SimpleFilterStore}, s.addFilters X gs = .ok s' → s'.programs p = s.programs p := by
  induction gs with
  | nil => intro s s' hs; simp only [SimpleFilterStore.addFilters, Run.ok.injEq] at hs; rw [hs]
  | cons g gs ih =>
    intro s s' hs
    simp only [SimpleFilterStore.addFilters, Run.bind_eq_ok] at hs
    obtain ⟨s1, h1, hs⟩ := hs
    rw [ih (fun x hx => h x (by simp [hx])) hs]
    have hg := h g (by simp)
    simp only [SimpleFilterStore.addFilter] at h1
    split at h1
    · simp only [Run.pure_eq, Run.ok.injEq] at h1; rw [← h1]
    · rename_i q hq
      simp only [Run.bind_eq_ok, Run.pure_eq, Run.ok.injEq] at h1
      obtain ⟨pf, -, rfl⟩ := h1
      have : p ≠ q := fun e => hg (by rw [hq, e])
      simp [this]

/-- Why **C98** fails: a query of a program that no filter mentions, with a text that does not decode, panics with the filters locked. -/
theorem C98_poisons (X : Codecs) (S : Source) (busy : Nat → Bool) (w : Sys) (h : List Op) (gs : List AccountFilter) (p : Pubkey)
    (l : List AccountFilterType) (x : AccountFilterType) (c : Commitment) (hw : Came X w h gs) (hnew : ∀ g ∈ gs, g.programId ≠ some p)
    (hx : x ∈ l) (hbad : ¬ WellFormed X x) (hlo : w.loadingPrograms (p, l) = false)
    (hS : ∀ filters, S.subscribe (programFilter p (some l)) filters = some filters) :
    ∃ l', (live w).program X S busy p (some l) c = .ok (l', .panicked) ∧ l'.poisoned = true := by
  have hn : w.filters.programs p = none := by
    rw [programs_unchanged hnew hw.filters.2]
    rfl
  have hc : w.filters.containsFilter (programFilter p (some l)) = false := by
    simp [SimpleFilterStore.containsFilter, programFilter, hn]
  have ha : w.filters.addFilters X [programFilter p (some l)] = .panic := by
    simp [SimpleFilterStore.addFilters, SimpleFilterStore.addFilter, programFilter, hn, programFilters, firstFilters, mapRun_panics hx hbad, bind,
      Run.bind]
  refine ⟨⟨{ w with loadingPrograms := fun k => if k = (p, l) then true else w.loadingPrograms k }, true, false⟩, ?_, rfl⟩
  simp [Live.program, live, hc, hlo, hS, ha]

/-- **C98** is false. -/
theorem C98_refuted : ¬ C98_statement := by
  intro h
  obtain ⟨l', hl, hp⟩ := C98_poisons Toy.codecs (sourceOf []) (fun _ => false) fresh [] [] Toy.prog [.memcmp ⟨0, .base58 [0]⟩]
    (.memcmp ⟨0, .base58 [0]⟩) .processed (fresh_came _) (by simp) (by simp) (by decide) rfl (fun _ => rfl)
  obtain ⟨l'', b, hu⟩ := h Toy.codecs (sourceOf []) (fun _ => false) fresh [] [] Toy.prog _ .processed l' _ (Toy.acct Toy.alice Toy.prog2 1 5 1)
    .processed (fresh_came _) (fun f s s' e => ⟨[], by simp, by
      have : s = s' := by simpa [sourceOf] using e
      simp [SimpleFilterStore.addFilters, this]⟩) hl ⟨[1, 2, 3], rfl, rfl⟩
  have : asks l'.sys.store (Toy.acct Toy.alice Toy.prog2 1 5 1) = true ∧ l'.satisfies Toy.codecs (Toy.acct Toy.alice Toy.prog2 1 5 1) = .panic :=
    ⟨by simp [asks, isDeleted, Toy.acct], by simp [Live.satisfies, hp]⟩
  simp [Live.update, this] at hu

theorem init_locks {X : Codecs} {l l' : Live} {a : AccountData} {b : Bool} (h : l.init X a = .ok (l', b)) :
    l'.poisoned = l.poisoned ∧ l'.tablePoisoned = l.tablePoisoned := by
  simp only [Live.init] at h
  split at h
  · simp only [Run.ok.injEq, Prod.mk.injEq] at h; rw [← h.1]; exact ⟨rfl, rfl⟩
  · simp only [Run.bind_eq_ok, Run.pure_eq, Run.ok.injEq, Prod.mk.injEq] at h
    obtain ⟨_, -, h, -⟩ := h
    rw [← h]; exact ⟨rfl, rfl⟩

theorem inits_locks {X : Codecs} {l l' : Live} {as : List AccountData} {b : Bool} (h : l.inits X as = .ok (l', b)) :
    l'.poisoned = l.poisoned ∧ l'.tablePoisoned = l.tablePoisoned := by
  induction as generalizing l with
  | nil => simp only [Live.inits, Run.ok.injEq, Prod.mk.injEq] at h; rw [← h.1]; exact ⟨rfl, rfl⟩
  | cons a as ih =>
    simp only [Live.inits, Run.bind_eq_ok] at h
    obtain ⟨⟨l1, b1⟩, h1, h⟩ := h
    have e1 := init_locks h1
    simp only at h
    split at h
    · have e2 := ih h
      exact ⟨e2.1.trans e1.1, e2.2.trans e1.2⟩
    · simp only [Run.pure_eq, Run.ok.injEq, Prod.mk.injEq] at h
      rw [← h.1]; exact e1

theorem step_poisoned {X : Codecs} {l l' : Live} {k : Call} {o : Outcome} (hp : l.poisoned = true) (h : l.Step X k l' o) :
    l'.poisoned = true := by
  cases h with
  | account h =>
    simp only [Live.account, Run.bind_eq_ok] at h
    obtain ⟨r, hr, h⟩ := h
    split at h
    · simp only [Run.pure_eq, Run.ok.injEq, Prod.mk.injEq] at h; rw [← h.1]; exact hp
    · rw [hp] at h
      split at h
      · simp only [Run.pure_eq, Run.ok.injEq, Prod.mk.injEq] at h; rw [← h.1]; exact hp
      split at h
      · simp only [hr, Run.ok_bind, Run.pure_eq, Run.ok.injEq, Prod.mk.injEq] at h; rw [← h.1]; exact hp
      · simp only [if_true, Run.pure_eq, Run.ok.injEq, Prod.mk.injEq] at h; rw [← h.1]
  | program h =>
    simp only [Live.program, hp, if_true, Run.ok.injEq, Prod.mk.injEq] at h
    rw [← h.1]; exact hp
  | update h =>
    simp only [Live.update] at h
    split at h
    · simp only [Run.ok.injEq, Prod.mk.injEq] at h; rw [← h.1]; exact hp
    · simp only [Run.bind_eq_ok, Run.pure_eq, Run.ok.injEq, Prod.mk.injEq] at h
      obtain ⟨_, -, h, -⟩ := h
      rw [← h]; exact hp
  | init h => rw [(init_locks h).1]; exact hp
  | load h =>
    simp only [Live.load] at h
    split at h
    · simp only [Run.ok.injEq, Prod.mk.injEq] at h; rw [← h.1]; exact hp
    · simp only [Run.bind_eq_ok, Run.pure_eq, Run.ok.injEq, Prod.mk.injEq] at h
      obtain ⟨⟨l1, b⟩, h1, rfl, -⟩ := h
      rw [(inits_locks h1).1]; exact hp
  | slot h => exact hp
  | slotPanics s => exact hp

/-- There is no way back: whatever is called after that, every program query panics, every update of a live account panics without effect,
and so does looking for an account that is not stored (unless the same is being loaded). -/
theorem C98_poisoned_forever (X : Codecs) (l l' : Live) (ks : List Call) (hp : l.poisoned = true) (hs : l.Steps X ks l') :
    l'.poisoned = true ∧
    (∀ S busy p fs c, l'.program X S busy p fs c = .ok (l', .panicked)) ∧
    (∀ a c, 0 < a.account.lamports → l'.update X a c = .ok (l', .panicked)) ∧
    ∀ S pk c, l'.sys.store.getAccount pk c = .ok none → l'.sys.loadingAccounts pk = false →
      ∃ l2, l'.account X S pk c = .ok (l2, .panicked) := by
  have hp' : l'.poisoned = true := by
    induction hs with
    | nil => exact hp
    | cons h _ ih => exact ih (step_poisoned hp h)
  refine ⟨hp', fun S busy p fs c => by simp [Live.program, hp'], fun a c ha => ?_, fun S pk c hg hlo => ?_⟩
  · have : asks l'.sys.store a = true ∧ l'.satisfies X a = .panic :=
      ⟨by simp [asks, isDeleted]; left; omega, by simp [Live.satisfies, hp']⟩
    simp [Live.update, this]
  · cases ht : l'.tablePoisoned with
    | true => exact ⟨l', by simp [Live.account, hg, ht]⟩
    | false => exact ⟨{ l' with tablePoisoned := true }, by simp [Live.account, hg, ht, hlo, hp']⟩

/-! ## A program that is known -/

theorem anyM_append {α : Type _} {f : α → Run Bool} {l m : List α} (h : Run.anyM f l = .ok false) :
    Run.anyM f (l ++ m) = Run.anyM f m := by
  induction l with
  | nil => rfl
  | cons x l ih =>
    simp only [Run.anyM, List.cons_append, Run.bind_eq_ok] at h ⊢
    obtain ⟨b, hb, h⟩ := h
    cases b with
    | true => simp at h
    | false => simp only [hb, Run.ok_bind, Bool.false_eq_true, if_false] at h ⊢; exact ih h

theorem allows_panics {X : Codecs} {x : AccountFilterType} (hw : ¬ WellFormed X x) (d : Bytes) : x.allows X d = .panic := by
  cases x with
  | datasize n => exact absurd trivial hw
  | memcmp m =>
    obtain ⟨off, data⟩ := m
    cases data with
    | bytes b => exact absurd (by simp [WellFormed, pattern]) hw
    | base58 t =>
      cases h : X.b58 t with
      | none => simp [AccountFilterType.allows, MemcmpFilter.bytesMatch, MemcmpFilter.bytes, h, Run.unwrap, bind, Run.bind]
      | some b => exact absurd (by simp [WellFormed, pattern, h]) hw
    | base64 t =>
      cases h : X.b64 t with
      | none => simp [AccountFilterType.allows, MemcmpFilter.bytesMatch, MemcmpFilter.bytes, h, Run.unwrap, bind, Run.bind]
      | some b => exact absurd (by simp [WellFormed, pattern, h]) hw

/-- Lists of filters only grow, as long as nobody asks for all of the program. -/
theorem programs_grow {X : Codecs} {gs : List AccountFilter} {p : Pubkey} (h : ∀ g ∈ gs, g.programId = some p → g.filters ≠ none) :
    ∀ {s s' : SimpleFilterStore} {L : List FSet}, s.addFilters X gs = .ok s' → s.programs p = some (.byFilterType L) →
      ∃ M, s'.programs p = some (.byFilterType (L ++ M)) := by
  induction gs with
  | nil => intro s s' L hs hp; simp only [SimpleFilterStore.addFilters, Run.ok.injEq] at hs; exact ⟨[], by rw [← hs, hp]; simp⟩
  | cons g gs ih =>
    intro s s' L hs hp
    simp only [SimpleFilterStore.addFilters, Run.bind_eq_ok] at hs
    obtain ⟨s1, h1, hs⟩ := hs
    have hg := h g (by simp)
    have : ∃ M, s1.programs p = some (.byFilterType (L ++ M)) := by
      simp only [SimpleFilterStore.addFilter] at h1
      split at h1
      · simp only [Run.pure_eq, Run.ok.injEq] at h1; exact ⟨[], by rw [← h1]; simpa using hp⟩
      · rename_i q hq
        simp only [Run.bind_eq_ok, Run.pure_eq, Run.ok.injEq] at h1
        obtain ⟨pf, hpf, rfl⟩ := h1
        by_cases e : p = q
        · subst e
          rw [hp] at hpf
          cases hf : g.filters with
          | none => exact absurd hf (hg hq)
          | some l =>
            simp only [programFilters, mergeFilters, hf, Run.ok.injEq] at hpf
            exact ⟨[FSet.collect l], by simp [← hpf]⟩
        · exact ⟨[], by simp [e, hp]⟩
    obtain ⟨M, hM⟩ := this
    obtain ⟨M', hM'⟩ := ih (fun x hx => h x (by simp [hx])) hs hM
    exact ⟨M ++ M', by rw [hM']; simp⟩

theorem accounts_grow {X : Codecs} {gs : List AccountFilter} {pk : Pubkey} (h : ∀ g ∈ gs, pk ∉ g.accounts) :
    ∀ {s s' : SimpleFilterStore}, s.addFilters X gs = .ok s' → s'.accounts pk = s.accounts pk := by
  induction gs with
  | nil => intro s s' hs; simp only [SimpleFilterStore.addFilters, Run.ok.injEq] at hs; rw [hs]
  | cons g gs ih =>
    intro s s' hs
    simp only [SimpleFilterStore.addFilters, Run.bind_eq_ok] at hs
    obtain ⟨s1, h1, hs⟩ := hs
    rw [ih (fun x hx => h x (by simp [hx])) hs]
    have hg := h g (by simp)
    simp only [SimpleFilterStore.addFilter] at h1
    split at h1
    · simp only [Run.pure_eq, Run.ok.injEq] at h1; rw [← h1]; simp [hg]
    · simp only [Run.bind_eq_ok, Run.pure_eq, Run.ok.injEq] at h1
      obtain ⟨pf, -, rfl⟩ := h1
      simp [hg]

/-- If filters mention the program already, the query is stored as it is, undecoded.  The query itself may not even panic, but from then on,
whatever filters are added (short of the whole program or the account itself), the filters panic on every account of the program
that none of the earlier filters asks for; so every update of such an account panics. -/
theorem C98_known_program (X : Codecs) (S : Source) (busy : Nat → Bool) (w : Sys) (h : List Op) (gs : List AccountFilter) (p : Pubkey)
    (x : AccountFilterType) (c : Commitment) (hw : Came X w h gs) (hknown : ∃ g ∈ gs, g.programId = some p)
    (hbad : ¬ WellFormed X x) (hnc : w.filters.containsFilter (programFilter p (some [x])) = false)
    (hlo : w.loadingPrograms (p, [x]) = false) (hS : ∀ filters, S.subscribe (programFilter p (some [x])) filters = some filters)
    (l' : Live) (o : Outcome) (hl : (live w).program X S busy p (some [x]) c = .ok (l', o))
    (a : AccountData) (d : Bytes) (ho : a.account.owner = p) (hd : contents X a.account.data = some d) (hlive : 0 < a.account.lamports)
    (hun : ∀ g ∈ gs, ¬ Matches X g a d) :
    (∀ c', l'.update X a c' = .ok (l', .panicked)) ∧
    ∀ more filters, (∀ f ∈ more, f.programId = some p → f.filters ≠ none) → (∀ f ∈ more, a.pubkey ∉ f.accounts) →
      l'.sys.filters.addFilters X more = .ok filters → filters.satisfies X a = .panic := by
  have hsat : w.filters.satisfies X a = .ok false := by
    obtain ⟨s', h1, -, h2⟩ := C02_store_is_union X gs hw.filters.1
    rw [hw.filters.2] at h1
    cases h1
    obtain ⟨b, hb, hi⟩ := h2 a d hd
    cases b with
    | false => exact hb
    | true =>
      obtain ⟨g, hg, hm⟩ := hi.1 rfl
      exact absurd hm (hun g hg)
  have hpr : ∃ L, w.filters.programs p = some (.byFilterType L) := by
    cases hp : w.filters.programs p with
    | none =>
      obtain ⟨s0, hs0, hrep⟩ := addFilters_rep X gs [] _ hw.filters.1 (rep_empty X)
      rw [hw.filters.2] at hs0
      cases hs0
      obtain ⟨g, hg, he⟩ := hknown
      exact absurd he (hrep.absent p hp g (by simpa using hg))
    | some pf =>
      cases pf with
      | allowAll =>
        simp only [SimpleFilterStore.satisfies, ho, hp] at hsat
        split at hsat <;> simp at hsat
      | byFilterType L => exact ⟨L, rfl⟩
  obtain ⟨L, hL⟩ := hpr
  have hacc : w.filters.accounts a.pubkey = false := by
    cases hx : w.filters.accounts a.pubkey with
    | false => rfl
    | true => simp [SimpleFilterStore.satisfies, hx] at hsat
  have hany : Run.anyM (fun set => Run.allM (fun y => do let d ← a.account.data.data X; y.allows X d) set) L = .ok false := by
    simpa [SimpleFilterStore.satisfies, hacc, ho, hL] using hsat
  have hadd : ∃ f1, w.filters.addFilters X [programFilter p (some [x])] = .ok f1 ∧
      f1.programs p = some (.byFilterType (L ++ [[x]])) ∧ f1.accounts a.pubkey = false := by
    refine ⟨⟨fun pk => w.filters.accounts pk || (programFilter p (some [x])).accounts.contains pk,
      fun q => if q = p then some (.byFilterType (L ++ [FSet.collect [x]])) else w.filters.programs q⟩, ?_, ?_, ?_⟩
    · simp [SimpleFilterStore.addFilters, SimpleFilterStore.addFilter, programFilter, programFilters, mergeFilters, hL]
    · simp [FSet.collect, scollect, sinsert]
    · simp [hacc, programFilter]
  obtain ⟨f1, hadd, hf1, hf1a⟩ := hadd
  have hpanic : ∀ more filters, (∀ f ∈ more, f.programId = some p → f.filters ≠ none) → (∀ f ∈ more, a.pubkey ∉ f.accounts) →
      f1.addFilters X more = .ok filters → filters.satisfies X a = .panic := by
    intro more filters h1 h2 h3
    obtain ⟨M, hM⟩ := programs_grow h1 h3 hf1
    have hac := accounts_grow h2 h3
    rw [hf1a] at hac
    have hdata : a.account.data.data X = .ok d := by rw [data_eq, hd]; rfl
    simp only [SimpleFilterStore.satisfies, hac, Bool.false_eq_true, if_false, ho, hM, List.append_assoc]
    rw [anyM_append hany]
    simp [Run.anyM, Run.allM, hdata, allows_panics hbad, bind, Run.bind]
  have hlf : l'.sys.filters = f1 ∧ l'.poisoned = false := by
    have hq : ∀ (l : Live), l.query X busy p (some [x]) c = .ok (l', o) → l' = l := by
      intro l hq
      simp only [Live.query] at hq
      split at hq
      · simp only [Run.ok.injEq, Prod.mk.injEq] at hq; exact hq.1.symm
      · split at hq <;> first | (simp only [Run.ok.injEq, Prod.mk.injEq] at hq; exact hq.1.symm) | cases hq
    simp only [Live.program, live, Bool.false_eq_true, if_false, hnc, Option.getD_some, hlo, hS, hadd, Run.bind_eq_ok] at hl
    obtain ⟨⟨st, fine⟩, -, hl⟩ := hl
    split at hl
    · simp only [Run.pure_eq, Run.ok.injEq, Prod.mk.injEq] at hl
      rw [← hl.1]; exact ⟨rfl, rfl⟩
    split at hl
    · rw [hq _ hl]; exact ⟨rfl, rfl⟩
    · simp only [Run.pure_eq, Run.ok.injEq, Prod.mk.injEq] at hl
      rw [← hl.1]; exact ⟨rfl, rfl⟩
  obtain ⟨hlf, hlp⟩ := hlf
  refine ⟨fun c' => ?_, fun more filters h1 h2 h3 => hpanic more filters h1 h2 (by rw [← hlf]; exact h3)⟩
  have : asks l'.sys.store a = true ∧ l'.satisfies X a = .panic :=
    ⟨by simp [asks, isDeleted]; left; omega, by
      simp only [Live.satisfies, hlp, hlf, Bool.false_eq_true, if_false]
      exact hpanic [] f1 (by simp) (by simp) rfl⟩
  simp [Live.update, this]

/-! ## Sources -/

/-- If the filters panic on the first account that the source hands over, the request panics, and the account stays marked as being
loaded: no later request for it asks any source. -/
theorem C98_source_panics (X : Codecs) (S : Source) (l : Live) (pk : Pubkey) (c : Commitment) (filters : SimpleFilterStore)
    (a : AccountData) (as : List AccountData) (ok : Bool) (h1 : l.poisoned = false) (h2 : l.tablePoisoned = false)
    (hno : l.sys.store.getAccount pk c = .ok none) (hl : l.sys.loadingAccounts pk = false)
    (hc : l.sys.filters.containsAccount pk = false) (hs : S.subscribe (accountFilter pk) l.sys.filters = some filters)
    (ha : S.snapshot (accountFilter pk) = (a :: as, ok)) (hlive : 0 < a.account.lamports) (hp : filters.satisfies X a = .panic) :
    ∃ l', l.account X S pk c = .ok (l', .panicked) ∧ l'.sys.store = l.sys.store ∧
      ∀ S', l'.account X S' pk c = .ok (l', .account (.ok none)) := by
  have hask : asks l.sys.store a = true ∧ filters.satisfies X a = .panic := ⟨by simp [asks, isDeleted]; left; omega, hp⟩
  refine ⟨{ l with sys := { l.sys with
      loadingAccounts := fun k => if k = pk then true else l.sys.loadingAccounts k, filters := filters } }, ?_, rfl, fun S' => ?_⟩
  · simp [Live.account, hno, h1, h2, hl, hc, hs, ha, loadAll, hask]
  · simp [Live.account, hno, h2]

/-- The same for a query of a program: the query stays marked as being loaded. -/
theorem C98_source_panics_program (X : Codecs) (S : Source) (busy : Nat → Bool) (l : Live) (p : Pubkey) (fs : Option (List AccountFilterType))
    (c : Commitment) (filters filters' : SimpleFilterStore) (a : AccountData) (as : List AccountData) (ok : Bool) (h1 : l.poisoned = false)
    (hc : l.sys.filters.containsFilter (programFilter p fs) = false) (hl : l.sys.loadingPrograms (p, fs.getD []) = false)
    (hs : S.subscribe (programFilter p fs) l.sys.filters = some filters) (hf : filters.addFilters X [programFilter p fs] = .ok filters')
    (ha : S.snapshot (programFilter p fs) = (a :: as, ok)) (hlive : 0 < a.account.lamports) (hp : filters'.satisfies X a = .panic) :
    ∃ l', l.program X S busy p fs c = .ok (l', .panicked) ∧ l'.sys.store = l.sys.store ∧
      ∀ S' c', l'.program X S' busy p fs c' = l'.query X busy p fs c' := by
  have hask : asks l.sys.store a = true ∧ filters'.satisfies X a = .panic := ⟨by simp [asks, isDeleted]; left; omega, hp⟩
  refine ⟨{ l with sys := { l.sys with
      loadingPrograms := fun k => if k = (p, fs.getD []) then true else l.sys.loadingPrograms k, filters := filters' } }, ?_, rfl, fun S' c' => ?_⟩
  · simp [Live.program, h1, hl, hc, hs, hf, ha, loadAll, hask]
  · simp [Live.program, h1]

/-- An account whose data does not decompress. -/
def broken : AccountData :=
  { Toy.acct Toy.alice Toy.prog 1 5 1 with account := { (Toy.acct Toy.alice Toy.prog 1 5 1).account with data := .zstd [] 3 } }

/-- The source hands over an account whose data does not decompress. -/
example : ∃ l', (live { fresh with filters := ⟨fun _ => false, fun q => if q = Toy.prog then some (.byFilterType [[.datasize 5]]) else none⟩ }).account
    Toy.codecs (sourceOf [broken]) Toy.bob .processed = .ok (l', .panicked) ∧ l'.sys.store = empty ∧
    ∀ S', l'.account Toy.codecs S' Toy.bob .processed = .ok (l', .account (.ok none)) :=
  C98_source_panics Toy.codecs (sourceOf [broken]) _ Toy.bob .processed _ broken [] true rfl rfl rfl rfl rfl rfl rfl (by decide) rfl

example : ∃ l', (live fresh).program Toy.codecs (sourceOf [broken]) (fun _ => false) Toy.prog (some [.datasize 5]) .processed =
    .ok (l', .panicked) ∧ l'.sys.store = empty ∧
    ∀ S' c', l'.program Toy.codecs S' (fun _ => false) Toy.prog (some [.datasize 5]) c' =
      l'.query Toy.codecs (fun _ => false) Toy.prog (some [.datasize 5]) c' :=
  C98_source_panics_program Toy.codecs (sourceOf [broken]) _ _ Toy.prog _ .processed _ _ broken [] true rfl rfl rfl rfl rfl rfl (by decide) rfl

/-! ## Texts that decode -/

theorem satisfies_ok {X : Codecs} {gs : List AccountFilter} {s : SimpleFilterStore} (h : Configured X gs s) {a : AccountData}
    (ha : Honest X a) : ∃ b, s.satisfies X a = .ok b := by
  obtain ⟨d, hd, -⟩ := ha
  obtain ⟨s', h1, -, h2⟩ := C02_store_is_union X gs h.1
  rw [h.2] at h1
  cases h1
  obtain ⟨b, hb, -⟩ := h2 a d hd
  exact ⟨b, hb⟩

theorem loadAll_eq {X : Codecs} {gs : List AccountFilter} {f : SimpleFilterStore} (h : Configured X gs f) {l : List AccountData}
    (hl : ∀ a ∈ l, Honest X a) (s : Store) : loadAll X f s l = (initAll (filtersOf X f) s l >>= fun s' => .ok (s', true)) := by
  induction l generalizing s with
  | nil => rfl
  | cons a l ih =>
    obtain ⟨b, hb⟩ := satisfies_ok h (hl a (by simp))
    have hn : ¬ (asks s a = true ∧ f.satisfies X a = .panic) := by rw [hb]; simp
    simp only [loadAll, if_neg hn, initAll]
    cases s.initializeOrUpdate (filtersOf X f) a with
    | ok s1 => simp [ih (fun x hx => hl x (by simp [hx]))]
    | panic => rfl
    | diverge => rfl

theorem inits_eq {X : Codecs} {gs : List AccountFilter} {w : Sys} (h : Configured X gs w.filters) {l : List AccountData}
    (hl : ∀ a ∈ l, Honest X a) : Live.inits X ⟨w, false, false⟩ l =
      (initAll (filtersOf X w.filters) w.store l >>= fun s' => .ok (⟨{ w with store := s' }, false, false⟩, true)) := by
  induction l generalizing w with
  | nil => rfl
  | cons a l ih =>
    obtain ⟨b, hb⟩ := satisfies_ok h (hl a (by simp))
    have hn : ¬ (asks w.store a = true ∧ Live.satisfies X ⟨w, false, false⟩ a = .panic) := by simp [Live.satisfies, hb]
    simp only [Live.inits, Live.init, if_neg hn, initAll, Demand.initializeOrUpdate]
    cases w.store.initializeOrUpdate (filtersOf X w.filters) a with
    | ok s1 =>
      have := ih (w := { w with store := s1 }) h (fun x hx => hl x (by simp [hx]))
      simp [this]
    | panic => rfl
    | diverge => rfl

/-- Calls whose texts decode, with accounts that decompress, go as in `Model/OnDemandStore`. -/
theorem step_agrees {X : Codecs} {l l' : Live} {k : Call} {o : Outcome} {h : List Op} {gs : List AccountFilter}
    (hp : l.poisoned = false) (ht : l.tablePoisoned = false) (hw : Came X l.sys h gs) (hh : HonestHistory X h) (hk : k.Sound X)
    (hb : ∀ a ∈ k.brings, Honest X a) (hs : l.Step X k l' o) :
    l.sys.call X k = .ok l'.sys ∧ l'.poisoned = false ∧ l'.tablePoisoned = false ∧ o ≠ .panicked := by
  obtain ⟨w, _, _⟩ := l
  cases hp
  cases ht
  cases hs with
  | @account S pk c _ _ hs =>
    simp only [Live.account, Run.bind_eq_ok] at hs
    obtain ⟨r, hr, hs⟩ := hs
    cases r with
    | some b =>
      simp only [Run.pure_eq, Run.ok.injEq, Prod.mk.injEq] at hs
      obtain ⟨rfl, rfl⟩ := hs
      exact ⟨by simp [Sys.call, Demand.getAccount, hr], rfl, rfl, by simp⟩
    | none =>
      simp only [hr, Run.ok_bind, Run.pure_eq, Bool.false_eq_true, if_false] at hs
      split at hs
      · rename_i hlo
        simp only [Run.ok.injEq, Prod.mk.injEq] at hs
        obtain ⟨rfl, rfl⟩ := hs
        exact ⟨by simp [Sys.call, Demand.getAccount, hr, hlo], rfl, rfl, by simp⟩
      rename_i hlo
      split at hs
      · rename_i hca
        simp only [Run.ok.injEq, Prod.mk.injEq] at hs
        obtain ⟨rfl, rfl⟩ := hs
        exact ⟨by simp [Sys.call, Demand.getAccount, hr, hlo, hca], rfl, rfl, by simp⟩
      rename_i hca
      split at hs
      · rename_i hsub
        simp only [Run.ok.injEq, Prod.mk.injEq] at hs
        obtain ⟨rfl, rfl⟩ := hs
        exact ⟨by simp [Sys.call, Demand.getAccount, hr, hlo, hca, hsub], rfl, rfl, by simp⟩
      rename_i filters hsub
      obtain ⟨gs', hwf, hadd⟩ := hk _ _ _ hsub
      obtain ⟨s2, hs2, hconf⟩ := configured_add hw.filters hwf
      rw [hadd] at hs2
      cases hs2
      obtain ⟨st, hl, hrun⟩ := load_run hw.store (filtersOf X filters) (S.snapshot (accountFilter pk)).1
      have hla := loadAll_eq hconf (l := (S.snapshot (accountFilter pk)).1) hb w.store
      rw [hl] at hla
      simp only [hla, Run.ok_bind, Bool.not_true, Bool.false_eq_true, if_false] at hs
      split at hs
      · rename_i hok
        simp only [Run.bind_eq_ok, Run.ok.injEq, Prod.mk.injEq] at hs
        obtain ⟨x, hx, rfl, rfl⟩ := hs
        exact ⟨by simp [Sys.call, Demand.getAccount, hr, hlo, hca, hsub, hl, hok, hx], rfl, rfl, by simp⟩
      · rename_i hok
        simp only [Run.ok.injEq, Prod.mk.injEq] at hs
        obtain ⟨rfl, rfl⟩ := hs
        exact ⟨by simp [Sys.call, Demand.getAccount, hr, hlo, hca, hsub, hl, hok], rfl, rfl, by simp⟩
  | @program S busy p fs c _ _ hs =>
    have hq : ∀ (m : Live) (h' : List Op) (gs' : List AccountFilter), m.poisoned = false → Came X m.sys h' gs' → HonestHistory X h' →
        m.query X busy p fs c = .ok (l', o) →
        l' = m ∧ o ≠ .panicked ∧ ∃ r, m.sys.store.getProgramAccounts X (filtersOf X m.sys.filters) busy p fs c = .ok r := by
      intro m h' gs' hmp hmw hmh hq
      obtain ⟨r, hr⟩ : ∃ r, m.sys.store.getProgramAccounts X (filtersOf X m.sys.filters) busy p fs c = .ok r := by
        rcases C34_rejected_iff_not_contained _ _ hmw.store X hmh (filtersOf X m.sys.filters) busy p fs c hk.2 with ⟨-, h⟩ | ⟨-, r, h⟩
        · exact ⟨_, h⟩
        · exact ⟨_, h⟩
      simp only [Live.query, hmp, Bool.false_eq_true, if_false, hr, Run.ok.injEq, Prod.mk.injEq] at hq
      obtain ⟨rfl, rfl⟩ := hq
      exact ⟨rfl, by simp, r, hr⟩
    simp only [Live.program, Bool.false_eq_true, if_false] at hs
    split at hs
    · rename_i hc
      obtain ⟨rfl, ho, r, hr⟩ := hq _ _ _ rfl hw hh hs
      exact ⟨by simp [Sys.call, Demand.getProgramAccounts, hc, hr], rfl, rfl, ho⟩
    rename_i hc
    split at hs
    · rename_i hlo
      obtain ⟨rfl, ho, r, hr⟩ := hq _ _ _ rfl hw hh hs
      exact ⟨by simp [Sys.call, Demand.getProgramAccounts, hc, hlo, hr], rfl, rfl, ho⟩
    rename_i hlo
    split at hs
    · rename_i hsub
      simp only [Run.ok.injEq, Prod.mk.injEq] at hs
      obtain ⟨rfl, rfl⟩ := hs
      exact ⟨by simp [Sys.call, Demand.getProgramAccounts, hc, hlo, hsub], rfl, rfl, by simp⟩
    rename_i filters0 hsub
    obtain ⟨gs', hwf, hadd⟩ := hk.1 _ _ _ hsub
    obtain ⟨s2, hs2, hconf0⟩ := configured_add hw.filters hwf
    rw [hadd] at hs2
    cases hs2
    obtain ⟨filters, hadd2, hconf⟩ := configured_add hconf0 (gs := [programFilter p fs]) (by
      intro f hf
      simp only [List.mem_singleton] at hf
      subst hf
      exact hk.2)
    obtain ⟨st, hl, hrun⟩ := load_run hw.store (filtersOf X filters) (S.snapshot (programFilter p fs)).1
    have hla := loadAll_eq hconf (l := (S.snapshot (programFilter p fs)).1) hb w.store
    rw [hl] at hla
    simp only [hadd2, hla, Run.ok_bind, Bool.not_true, Bool.false_eq_true, if_false] at hs
    split at hs
    · rename_i hok
      obtain ⟨rfl, ho, r, hr⟩ := hq _ (h ++ (S.snapshot (programFilter p fs)).1.map (fun a => Op.update (filtersOf X filters) a .finalized))
        ((gs ++ gs') ++ [programFilter p fs]) rfl ⟨hrun, hconf⟩ (by
          intro F a c' hm
          rcases List.mem_append.1 hm with hm | hm
          · exact hh F a c' hm
          · simp only [List.mem_map, Op.update.injEq] at hm
            obtain ⟨b, hb', -, rfl, -⟩ := hm
            exact hb b hb') hs
      refine ⟨?_, rfl, rfl, ho⟩
      simp [Sys.call, Demand.getProgramAccounts, hc, hlo, hsub, hadd2, hl, hok, hr]
    · rename_i hok
      simp only [Run.pure_eq, Run.ok.injEq, Prod.mk.injEq] at hs
      obtain ⟨rfl, rfl⟩ := hs
      refine ⟨?_, rfl, rfl, by simp⟩
      simp [Sys.call, Demand.getProgramAccounts, hc, hlo, hsub, hadd2, hl, hok]
  | @update a c _ _ hs =>
    obtain ⟨b, hsat⟩ := satisfies_ok hw.filters (hb a (by simp [Call.brings]))
    have hn : ¬ (asks w.store a = true ∧ Live.satisfies X ⟨w, false, false⟩ a = .panic) := by simp [Live.satisfies, hsat]
    simp only [Live.update, if_neg hn, Run.bind_eq_ok, Run.pure_eq, Run.ok.injEq, Prod.mk.injEq] at hs
    obtain ⟨⟨w1, b1⟩, h1, rfl, rfl⟩ := hs
    exact ⟨by simp [Sys.call, h1], rfl, rfl, by simp⟩
  | @init a _ b hs =>
    obtain ⟨b, hsat⟩ := satisfies_ok hw.filters (hb a (by simp [Call.brings]))
    have hn : ¬ (asks w.store a = true ∧ Live.satisfies X ⟨w, false, false⟩ a = .panic) := by simp [Live.satisfies, hsat]
    simp only [Live.init, if_neg hn, Run.bind_eq_ok, Run.pure_eq, Run.ok.injEq, Prod.mk.injEq] at hs
    obtain ⟨w1, h1, rfl, rfl⟩ := hs
    exact ⟨by simp [Sys.call, h1], rfl, rfl, by simp⟩
  | @load bs _ _ hs =>
    simp only [Live.load] at hs
    split at hs
    · rename_i hd
      simp only [Run.ok.injEq, Prod.mk.injEq] at hs
      obtain ⟨rfl, rfl⟩ := hs
      exact ⟨by simp [Sys.call, Demand.loadFromSnapshot, Store.loadFromSnapshot, hd], rfl, rfl, by simp⟩
    · rename_i as hd
      rw [inits_eq hw.filters (fun a ha => hb a (by simp [Call.brings, hd, ha]))] at hs
      simp only [Run.bind_eq_ok, Run.pure_eq, Run.ok.injEq, Prod.mk.injEq] at hs
      obtain ⟨_, ⟨s', hl, rfl⟩, rfl, rfl⟩ := hs
      exact ⟨by simp [Sys.call, Demand.loadFromSnapshot, Store.loadFromSnapshot, hd, hl], rfl, rfl, by simp⟩
  | slot hs => exact ⟨by simp [Sys.call, hs], rfl, rfl, by simp⟩
  | @slotPanics _ _ _ pk i e _ _ s hi he hf hpan =>
    exfalso
    have hv : w.store.view pk = some e := by
      change w.store.index pk = some i at hi
      change w.store.accounts[i]? = some e at he
      simp only [Store.view, hi, he]
    have hsub := processed_submitted hw.store hv hf
    obtain ⟨-, F, c', hm⟩ := mem_submissions.1 hsub
    obtain ⟨b, hsat⟩ := satisfies_ok hw.filters (hh F _ c' hm)
    simp [Live.satisfies, hsat] at hpan

/-- **C98 (partial)**. As long as all texts decode and all accounts decompress no lock is poisoned, no call panics, and every update of
an account that decompresses returns.  Missing: texts that do not decode. -/
theorem C98_decodable_partial (X : Codecs) (w : Sys) (h : List Op) (gs : List AccountFilter) (hw : Came X w h gs) (hh : HonestHistory X h)
    (ks : List Call) (hk : ∀ k ∈ ks, k.Sound X ∧ ∀ a ∈ k.brings, Honest X a) (l : Live) (hs : (live w).Steps X ks l) :
    w.calls X ks = .ok l.sys ∧ l.poisoned = false ∧ l.tablePoisoned = false ∧
    (∀ a c, Honest X a → ∃ l' b, l.update X a c = .ok (l', .updated b)) ∧
    ∀ k l' o, k.Sound X → (∀ a ∈ k.brings, Honest X a) → l.Step X k l' o → o ≠ .panicked := by
  have key : ∀ (m : Live), m.Steps X ks l → m.poisoned = false → m.tablePoisoned = false → ∀ h gs, Came X m.sys h gs → HonestHistory X h →
      m.sys.calls X ks = .ok l.sys ∧ l.poisoned = false ∧ l.tablePoisoned = false ∧ ∃ h gs, Came X l.sys h gs ∧ HonestHistory X h := by
    intro m hm
    clear hs
    induction hm with
    | nil => intro hp ht h gs hw hh; exact ⟨rfl, hp, ht, h, gs, hw, hh⟩
    | @cons m k ks m1 m2 o hs1 _ ih =>
      intro hp ht h gs hw hh
      obtain ⟨hk1, hk2⟩ := hk k (by simp)
      obtain ⟨hc, hp1, ht1, -⟩ := step_agrees hp ht hw hh hk1 hk2 hs1
      obtain ⟨h', gs', hw', hbr, -⟩ := call_came hw hk1 hc
      obtain ⟨i1, i2, i3, i4⟩ := ih (fun x hx => hk x (by simp [hx])) hp1 ht1 _ _ hw' (by
        intro F a c hm
        rcases List.mem_append.1 hm with hm | hm
        · exact hh F a c hm
        · exact hk2 a (hbr F a c hm))
      exact ⟨by simp [Sys.calls, hc, i1], i2, i3, i4⟩
  obtain ⟨h1, h2, h3, h', gs', hw', hh'⟩ := key (live w) hs rfl rfl h gs hw hh
  refine ⟨h1, h2, h3, fun a c ha => ?_, fun k l' o hk1 hk2 hst => (step_agrees h2 h3 hw' hh' hk1 hk2 hst).2.2.2⟩
  obtain ⟨b, hsat⟩ := satisfies_ok hw'.filters ha
  have hn : ¬ (asks l.sys.store a = true ∧ l.satisfies X a = .panic) := by simp [Live.satisfies, h2, hsat]
  obtain ⟨s', b', he, -⟩ := updateAccount_case (inv_run inv_empty hw'.store) (filtersOf X l.sys.filters) a c
  exact ⟨{ l with sys := { l.sys with store := s' } }, b', by simp [Live.update, hn, Demand.updateAccount, he]⟩

/-- A query of a new program with a text that decodes, followed by an update. -/
example : ∃ l, (live fresh).Steps Toy.codecs [.program (sourceOf []) (fun _ => false) Toy.prog (some base58Query) .processed,
    .update (Toy.acct Toy.alice Toy.prog 1 5 1) .processed] l ∧
    l.sys.store.getAccount Toy.alice .processed = .ok (some (Toy.acct Toy.alice Toy.prog 1 5 1)) :=
  ⟨_, .cons (.program rfl) (.cons (.update rfl) .nil), rfl⟩

/-- A text that does not decode, for a program that is known: the query is answered, the next update of the program panics. -/
example : ∃ w l' r, Came Toy.codecs w [] [programFilter Toy.prog (some [.datasize 5])] ∧
    (live w).program Toy.codecs (sourceOf []) (fun _ => false) Toy.prog (some [.memcmp ⟨0, .base58 [0]⟩]) .processed = .ok (l', .accounts r) ∧
    l'.update Toy.codecs (Toy.acct Toy.alice Toy.prog 1 5 1) .processed = .ok (l', .panicked) := by
  refine ⟨{ fresh with filters := ⟨fun _ => false, fun q => if q = Toy.prog then some (.byFilterType [[.datasize 5]]) else none⟩ }, _, _,
    ⟨rfl, ?_, rfl⟩, rfl, rfl⟩
  intro f hf
  simp only [List.mem_singleton] at hf
  subst hf
  intro l hl x hx
  simp only [programFilter, Option.some.injEq] at hl
  subst hl
  simp only [List.mem_singleton] at hx
  subst hx
  trivial

end LAM.Props
