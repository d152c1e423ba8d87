import Verif.Spec.Gauges
import Verif.Lemmas.StoreGauges
import Verif.Props.StoreMemory
/-!
# C135, C136: the gauges of the account store
-/
namespace LAM.Props
open LAM LAM.Store LAM.Spec

/-- **C135**. The gauge of accounts in memory shows how many accounts the store tracks. -/
def C135_statement : Prop :=
  ∀ (h : List Op) (s : Store) (g : StoreGauges) (ks : List Pubkey),
    empty.runG .zero h = .ok (s, g) → TrackedAre s ks → g.stored = ks.length

/-- **C135 (entries)**. The gauge counts the entries of the store, used or not. -/
theorem C135_entries (h : List Op) (s : Store) (g : StoreGauges) (hr : empty.runG .zero h = .ok (s, g)) :
    g.stored = s.accounts.length := by
  suffices H : ∀ n (h : List Op), h.length = n → ∀ s g, empty.runG .zero h = .ok (s, g) → g.stored = s.accounts.length from
    H _ h rfl s g hr
  intro n
  induction n with
  | zero =>
    intro h hl s g hr
    obtain rfl := List.length_eq_zero_iff.1 hl
    simp only [runG, Run.ok.injEq, Prod.mk.injEq] at hr
    obtain ⟨rfl, rfl⟩ := hr
    rfl
  | succ n ih =>
    intro h hl s g hr
    obtain ⟨l, op, rfl⟩ : ∃ l op, h = l ++ [op] := by
      have hne : h ≠ [] := by rintro rfl; simp at hl
      exact ⟨h.dropLast, h.getLast hne, (List.dropLast_concat_getLast hne).symm⟩
    obtain ⟨⟨s1, g1⟩, h1, h2⟩ := runG_snoc hr
    have e := ih l (by simp at hl; exact hl) s1 g1 h1
    have hi := inv_run inv_empty ((store_erase _ _ _ _).2 ⟨_, h1⟩)
    have := (stepG_positions hi h2).1
    simp only at this
    omega

/-- Accounts that are tracked have entries of their own. -/
theorem tracked_le {s : Store} (hi : Store.Inv s) {ks : List Pubkey} (hk : TrackedAre s ks) : ks.length ≤ s.accounts.length := by
  have h1 : (ks.map s.index).Nodup := by
    rw [List.nodup_iff_pairwise_ne, List.pairwise_map]
    refine List.Pairwise.imp_of_mem ?_ hk.1
    intro a b ha hb hne heq
    obtain ⟨i, hi'⟩ := Option.isSome_iff_exists.1 ((hk.2 a).1 ha)
    exact hne (hi.inj hi' (by rw [← heq, hi']))
  have h2 := pigeon (ks.map s.index) ((List.range s.accounts.length).map some) h1 (by
    intro x hx
    obtain ⟨pk, hp, rfl⟩ := List.mem_map.1 hx
    obtain ⟨i, hi'⟩ := Option.isSome_iff_exists.1 ((hk.2 pk).1 hp)
    rw [hi']
    exact List.mem_map_of_mem (List.mem_range.2 (hi.lt hi')))
  simpa using h2

theorem tracked_submitted (h : List Op) (s : Store) (hs : empty.run h = .ok s) (pk : Pubkey) (ht : (s.index pk).isSome) :
    ∃ F a c, Op.update F a c ∈ h ∧ a.pubkey = pk := by
  have hi := inv_run inv_empty hs
  obtain ⟨i, hp⟩ := Option.isSome_iff_exists.1 ht
  obtain ⟨e, he, hok⟩ := hi.idx _ _ hp
  have hview : s.view pk = some e := by rw [view_of_index hp, he]
  obtain ⟨p, -, -, hf, -⟩ := hok.last
  obtain ⟨hpk, F, c, hm⟩ := mem_submissions.1 (processed_submitted hs hview hf)
  exact ⟨F, p, c, hm, hpk⟩

/-- To find the accounts tracked it is enough to look at those submitted. -/
theorem trackedAre_of (h : List Op) (s : Store) (hs : empty.run h = .ok s) (ks : List Pubkey) (hn : ks.Nodup)
    (hk : ∀ pk ∈ ks, (s.index pk).isSome) (hu : ∀ a ∈ updates h, a.pubkey ∈ ks ∨ s.index a.pubkey = none) : TrackedAre s ks := by
  refine ⟨hn, fun pk => ⟨hk pk, fun ht => ?_⟩⟩
  obtain ⟨F, a, c, hm, rfl⟩ := tracked_submitted h s hs pk ht
  rcases hu a (mem_updates.2 ⟨F, c, hm⟩) with h1 | h1
  · exact h1
  · simp [h1] at ht

/-- **C135 (partial)**. The gauge shows no less than the accounts tracked, and exactly those if no state submitted closes its account
or leaves the filters.  Missing: accounts that are removed, which the gauge keeps counting (`C135_counts_removed`). -/
theorem C135_partial (h : List Op) (s : Store) (g : StoreGauges) (ks : List Pubkey) (hr : empty.runG .zero h = .ok (s, g))
    (hk : TrackedAre s ks) :
    (ks.length : Int) ≤ g.stored ∧ (NoneLeaves h → g.stored = ks.length) := by
  have hrun := (store_erase _ _ _ _).2 ⟨_, hr⟩
  have hi := inv_run inv_empty hrun
  rw [C135_entries h s g hr]
  have hle := tracked_le hi hk
  refine ⟨by omega, fun hn => ?_⟩
  have := entries_le (s := s) (keys := ks) (List.range s.accounts.length) List.nodup_range (by
    intro i hi'
    obtain ⟨pk, hp⟩ := all_tracked h s hrun hn i (List.mem_range.1 hi')
    exact ⟨pk, (hk.2 pk).2 (by simp [hp]), hp⟩)
  simp at this
  omega

/-- Two accounts, one of them updated once more. -/
def twoAccounts : List Op :=
  [.update allowAll (Toy.acct Toy.alice Toy.prog 1 5 1) .processed, .update allowAll (Toy.acct Toy.bob Toy.prog 1 5 1) .processed,
   .update allowAll (Toy.acct Toy.alice Toy.prog 2 6 1) .processed, .slot allowAll .asIs ⟨6, 5, 0⟩ .finalized]

example : ∃ s g, empty.runG .zero twoAccounts = .ok (s, g) ∧ TrackedAre s [Toy.alice, Toy.bob] ∧ NoneLeaves twoAccounts ∧ g.stored = 2 := by
  refine ⟨_, _, rfl, trackedAre_of twoAccounts _ rfl _ (by decide) (by decide) (by decide), ?_, rfl⟩
  intro a ha
  simp [twoAccounts, updates] at ha
  refine ⟨by rcases ha with rfl | rfl | rfl <;> decide, ?_⟩
  intro op ho
  simp [twoAccounts] at ho
  rcases ho with rfl | rfl | rfl | rfl <;> simp [filtersOf, allowAll]

/-- Why **C135** fails: accounts that are removed are still counted, once each time.  With no account tracked the gauge shows any number. -/
theorem C135_counts_removed (n : Nat) : ∃ h s g, empty.runG .zero h = .ok (s, g) ∧ TrackedAre s [] ∧ g.stored = n := by
  obtain ⟨h, s, hr, -, hl, hv, -⟩ := C120_grows n
  obtain ⟨g, hg⟩ := (store_erase h empty .zero s).1 hr
  refine ⟨h, s, g, hg, ⟨List.nodup_nil, fun pk => ⟨by simp, fun ht => ?_⟩⟩, by rw [C135_entries h s g hg, hl]⟩
  exfalso
  have hi := inv_run inv_empty hr
  obtain ⟨i, hp⟩ := Option.isSome_iff_exists.1 ht
  obtain ⟨e, he, hok⟩ := hi.idx _ _ hp
  obtain ⟨p, hp, -, -⟩ := hok.last
  have := (hv e (List.mem_of_getElem? he)).1
  simp [this, BMap.lastVal] at hp

/-- **C135** is false. -/
theorem C135_refuted : ¬ C135_statement := by
  intro hc
  obtain ⟨h, s, g, hr, hk, hg⟩ := C135_counts_removed 1
  have := hc h s g [] hr hk
  simp [hg] at this

/-- **C136**. The gauge of the latest slot shows the highest slot of an account submitted. -/
def C136_statement : Prop :=
  ∀ (h : List Op) (s : Store) (g : StoreGauges), empty.runG .zero h = .ok (s, g) → g.latest = highestSubmitted h

theorem latest_step {s s' : Store} {g g' : StoreGauges} {op : Op} (h : s.stepG g op = .ok (s', g')) :
    g'.latest = match op with
      | .update _ a _ => (a.slot : Int)
      | .slot .. => g.latest := by
  cases op with
  | update F a c =>
    simp only [stepG, updateAccountG_eq, Run.bind_eq_ok, Run.pure_eq, Run.ok.injEq, Prod.mk.injEq] at h
    obtain ⟨r, ⟨r1, h1, rfl⟩, rfl, rfl⟩ := h
    rfl
  | slot F σ info c =>
    simp only [stepG, Run.bind_eq_ok, Run.pure_eq, Run.ok.injEq, Prod.mk.injEq] at h
    obtain ⟨r, h1, rfl, rfl⟩ := h
    rfl

theorem latest_last : ∀ (n : Nat) (h : List Op) (s : Store) (g : StoreGauges), h.length = n →
    empty.runG .zero h = .ok (s, g) → g.latest = lastSubmitted h := by
  intro n
  induction n with
  | zero =>
    intro h s g hl hr
    obtain rfl := List.length_eq_zero_iff.1 hl
    simp only [runG, Run.ok.injEq, Prod.mk.injEq] at hr
    obtain ⟨rfl, rfl⟩ := hr
    rfl
  | succ n ih =>
    intro h s g hl hr
    obtain ⟨l, op, rfl⟩ : ∃ l op, h = l ++ [op] := by
      have hne : h ≠ [] := by rintro rfl; simp at hl
      exact ⟨h.dropLast, h.getLast hne, (List.dropLast_concat_getLast hne).symm⟩
    obtain ⟨⟨s1, g1⟩, h1, h2⟩ := runG_snoc hr
    have e := ih l s1 g1 (by simp at hl; exact hl) h1
    rw [latest_step h2]
    cases op with
    | update F a c => simp [lastSubmitted, updates]
    | slot F σ info c =>
      simp only [e]
      simp [lastSubmitted, updates]

theorem highest_last {l : List AccountData} (hp : l.Pairwise (fun a b => a.slot ≤ b.slot)) :
    l.foldl (fun m a => max m a.slot) 0 = ((l.getLast?).map (·.slot)).getD 0 := by
  rcases List.eq_nil_or_concat l with rfl | ⟨l, b, rfl⟩
  · rfl
  rw [List.concat_eq_append] at hp ⊢
  rw [List.pairwise_append] at hp
  have key : ∀ (l : List AccountData) (m : Nat), (∀ a ∈ l, a.slot ≤ b.slot) → m ≤ b.slot → l.foldl (fun m a => max m a.slot) m ≤ b.slot := by
    intro l
    induction l with
    | nil => intro m _ hm; exact hm
    | cons a l ih =>
      intro m h hm
      exact ih _ (fun x hx => h x (by simp [hx])) (Nat.max_le.2 ⟨hm, h a (by simp)⟩)
  have h1 := key l 0 (fun a ha => hp.2.2 a ha b (by simp)) (Nat.zero_le _)
  simp only [List.foldl_append, List.foldl_cons, List.foldl_nil, List.getLast?_append, List.getLast?_singleton, Option.some_or, Option.map_some,
    Option.getD_some]
  omega

/-- **C136 (partial)**. The gauge shows the slot of the last account submitted, taken or not; if accounts are submitted with slots that
do not go back, the highest.  Missing: accounts submitted later with a lower slot, which take the gauge back (`C136_goes_back`). -/
theorem C136_partial (h : List Op) (s : Store) (g : StoreGauges) (hr : empty.runG .zero h = .ok (s, g)) :
    g.latest = lastSubmitted h ∧ (Ascending h → g.latest = highestSubmitted h) := by
  have := latest_last _ h s g rfl hr
  exact ⟨this, fun ha => by rw [this, highestSubmitted, highest_last ha]; rfl⟩

example : ∃ s g, empty.runG .zero twoAccounts = .ok (s, g) ∧ Ascending twoAccounts ∧ g.latest = 6 := ⟨_, _, rfl, by simp [twoAccounts, Ascending, updates, Toy.acct], rfl⟩

/-- An account of slot 7, then an older state of it that is refused. -/
def goesBack : List Op :=
  [.update allowAll (Toy.acct Toy.alice Toy.prog 1 7 1) .finalized, .update allowAll (Toy.acct Toy.alice Toy.prog 2 3 1) .finalized]

/-- Why **C136** fails: a state that the store refuses takes the gauge back. -/
theorem C136_goes_back : ∃ s s' g, empty.runG .zero goesBack = .ok (s, g) ∧ empty.run (goesBack.take 1) = .ok s' ∧
    s.getAccount Toy.alice .processed = s'.getAccount Toy.alice .processed ∧
    g.latest = 3 ∧ highestSubmitted goesBack = 7 := by
  refine ⟨_, _, _, rfl, rfl, ?_, rfl, rfl⟩
  decide

/-- **C136** is false. -/
theorem C136_refuted : ¬ C136_statement := by
  intro hc
  obtain ⟨s, s', g, hr, -, -, hg, hh⟩ := C136_goes_back
  have := hc _ s g hr
  rw [hg, hh] at this
  cases this

end LAM.Props
