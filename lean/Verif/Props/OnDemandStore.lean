import Verif.Spec.OnDemandStore
import Verif.Props.StoreQueries
import Verif.Props.Snapshot
import Verif.Props.Filter
/-!
# Loading on demand into the in-memory store: C96, C97
-/
namespace LAM.Props
open Spec Store Demand

/-! ## Loading into the store -/

theorem load_run {h : List Op} {s : Store} (hs : empty.run h = .ok s) (F : Filters) (l : List AccountData) :
    ∃ s', initAll F s l = .ok s' ∧ empty.run (h ++ l.map (fun a => Op.update F a .finalized)) = .ok s' := by
  obtain ⟨s', h1, -⟩ := run_ok (inv_run inv_empty hs) (l.map (fun a => Op.update F a .finalized))
  exact ⟨s', by rw [initAll_eq_run, h1], by rw [run_append, hs]; exact h1⟩

theorem load_isolated {h : List Op} {s s' : Store} (hs : empty.run h = .ok s) {F : Filters} {l : List AccountData}
    (hl : initAll F s l = .ok s') {pk : Pubkey} (hpk : ∀ b ∈ l, b.pubkey ≠ pk) :
    s'.view pk = s.view pk := by
  induction l generalizing h s with
  | nil => simp [initAll] at hl; rw [hl]
  | cons b l ih =>
    simp only [initAll, Store.initializeOrUpdate, Run.bind_eq_ok, Run.pure_eq, Run.ok.injEq] at hl
    obtain ⟨_, ⟨⟨s1, r⟩, h1, rfl⟩, h2⟩ := hl
    obtain ⟨s2, b2, he, hc⟩ := updateAccount_case (inv_run inv_empty hs) F b .finalized
    rw [h1] at he; cases he
    have hv := (view_updateCase (inv_run inv_empty hs) hc pk).1 (fun e => hpk b (by simp) e.symm)
    rw [ih (h := h ++ [.update F b .finalized]) (run_snoc_ok hs (by simp [step, h1])) h2 (fun x hx => hpk x (by simp [hx])), hv]

theorem new_finalized (a : AccountData) (c : Commitment) : (ByCommitment.new a .finalized).get c = some a := by cases c <;> rfl

/-- An account that is handed over once and is accepted is stored. -/
theorem load_view {h : List Op} {s s' : Store} (hs : empty.run h = .ok s) {F : Filters} {l : List AccountData}
    (hl : initAll F s l = .ok s') {a : AccountData} (ha : a ∈ l)
    (hnd : (l.map AccountData.pubkey).Nodup) (hun : s.containsKey a.pubkey = false) (hF : F.satisfies a = true) :
    s'.view a.pubkey = some (ByCommitment.new a .finalized) := by
  obtain ⟨pre, post, rfl⟩ := List.append_of_mem ha
  rw [List.map_append, List.map_cons, List.nodup_append, List.nodup_cons] at hnd
  obtain ⟨s1, h1, r1⟩ := load_run hs F pre
  have hi1 := inv_run inv_empty r1
  have v1 : s1.view a.pubkey = none := by
    rw [load_isolated hs h1 (fun b hb e => ?_)]
    · have := (inv_run inv_empty hs).view_isSome a.pubkey
      rw [hun] at this
      simpa using this
    · exact hnd.2.2 _ (List.mem_map_of_mem hb) _ (by simp) e
  obtain ⟨s2, b2, he, hc⟩ := updateAccount_case hi1 F a .finalized
  have v2 : s2.view a.pubkey = some (ByCommitment.new a .finalized) := by
    rcases (view_updateCase hi1 hc a.pubkey).2 rfl with h | h | ⟨e, h, -⟩ | ⟨e, h, -⟩
    · rw [hF] at h; simp at h
    · exact h.2.2.1
    · rw [v1] at h; cases h
    · rw [v1] at h; cases h
  have r2 := run_snoc_ok r1 (op := .update F a .finalized) (s' := s2) (by simp [step, he])
  obtain ⟨s3, h3, -⟩ := load_run r2 F post
  have e3 : initAll F s (pre ++ a :: post) = .ok s3 := by
    rw [initAll_eq_run] at h1 h3 ⊢
    rw [List.map_append, List.map_cons, run_append, h1]
    simp only [Run.bind, Store.run, step, he, Run.ok_bind, Run.pure_eq]
    exact h3
  rw [hl] at e3
  cases e3
  rw [load_isolated r2 h3 (fun b hb e => ?_), v2]
  exact hnd.2.1.1 (e ▸ List.mem_map_of_mem hb)

theorem view_read {h : List Op} {s : Store} (hs : empty.run h = .ok s) {pk : Pubkey} {a : AccountData}
    (hv : s.view pk = some (ByCommitment.new a .finalized)) (hl : 0 < a.account.lamports) (c : Commitment) :
    s.getAccount pk c = .ok (some a) := by
  rw [getAccount_stateAt (inv_run inv_empty hs), stateAt, hv]
  simp [new_finalized, shown, hl]

theorem addFilters_append (X : Codecs) (fs gs : List AccountFilter) (s : SimpleFilterStore) :
    s.addFilters X (fs ++ gs) = (s.addFilters X fs >>= fun s' => s'.addFilters X gs) := by
  induction fs generalizing s with
  | nil => rfl
  | cons f fs ih =>
    simp only [List.cons_append, SimpleFilterStore.addFilters]
    cases s.addFilter X f with
    | ok s1 => simp [ih]
    | panic => rfl
    | diverge => rfl

theorem configured_add {X : Codecs} {fs gs : List AccountFilter} {s : SimpleFilterStore} (h : Configured X fs s)
    (hg : ∀ f ∈ gs, FilterWellFormed X f) : ∃ s', s.addFilters X gs = .ok s' ∧ Configured X (fs ++ gs) s' := by
  obtain ⟨s', h1, -⟩ := C02_store_is_union X (fs ++ gs) (by
    intro f hf
    rcases List.mem_append.1 hf with hf | hf
    · exact h.1 f hf
    · exact hg f hf)
  have h2 := h1
  rw [addFilters_append, h.2] at h2
  refine ⟨s', h2, ?_, h1⟩
  intro f hf
  rcases List.mem_append.1 hf with hf | hf
  · exact h.1 f hf
  · exact hg f hf

/-! ## C96: accounts -/

/-- **C96** as claimed: an account that the source has and that is not known yet is found on demand. -/
def C96_statement : Prop :=
  ∀ (X : Codecs) (S : Source) (w : Sys) (h : List Op) (fs : List AccountFilter) (pk : Pubkey) (a : AccountData) (c : Commitment),
    Came X w h fs → w.store.containsKey pk = false → w.loadingAccounts pk = false → w.filters.containsAccount pk = false →
    Provides S (accountFilter pk) [a] → a.pubkey = pk → 0 < a.account.lamports → Honest X a →
    ∃ w', Demand.getAccount X S w pk c = .ok (w', .ok (some a))

/-- A system that has just been started. -/
def fresh : Sys := ⟨.empty, .empty, fun _ => false, fun _ => false⟩

theorem fresh_came (X : Codecs) : Came X fresh [] [] := ⟨rfl, by simp, rfl⟩

/-- A source that has these accounts. -/
def sourceOf (accounts : List AccountData) : Source := ⟨fun _ f => some f, fun _ => (accounts, true)⟩

/-- **C96** is false: nobody adds the account to the filters, so the storage drops what the source hands over. -/
theorem C96_refuted : ¬ C96_statement := by
  intro h
  obtain ⟨w', hw⟩ := h Toy.codecs (sourceOf [Toy.acct Toy.alice Toy.prog 1 5 1]) fresh [] [] Toy.alice (Toy.acct Toy.alice Toy.prog 1 5 1) .processed
    (fresh_came _) rfl rfl rfl ⟨fun _ => rfl, rfl⟩ rfl (by decide) ⟨[1, 2, 3], rfl, rfl⟩
  simp [Demand.getAccount, fresh, sourceOf, accountFilter, initAll, Store.initializeOrUpdate, Store.getAccount, Store.empty, Store.updateAccount,
    filtersOf, SimpleFilterStore.empty, SimpleFilterStore.containsAccount, SimpleFilterStore.satisfies, isDeleted, containsKey, Toy.acct] at hw

/-- The accounts of a source that the filters do not ask for leave the store as it is. -/
theorem load_rejected {h : List Op} {s : Store} (hs : empty.run h = .ok s) {F : Filters} {l : List AccountData}
    (hl : ∀ a ∈ l, s.containsKey a.pubkey = false ∧ F.satisfies a = false) : initAll F s l = .ok s := by
  induction l with
  | nil => rfl
  | cons a l ih =>
    have hi := inv_run inv_empty hs
    obtain ⟨h1, h2⟩ := hl a (by simp)
    have hv : s.view a.pubkey = none := by
      have := hi.view_isSome a.pubkey
      rw [h1] at this
      simpa using this
    obtain ⟨s', b, he, hc⟩ := updateAccount_case hi F a .finalized
    have : s' = s := by
      cases hc with
      | rejected => rfl
      | created hx hf => rw [h2] at hf; cases hf
      | kept i e hx => rw [(hi.view_none _).1 hv] at hx; cases hx
      | removed i e hx => rw [(hi.view_none _).1 hv] at hx; cases hx
    subst this
    simp only [initAll, Store.initializeOrUpdate, he, Run.ok_bind, Run.pure_eq]
    exact ih (fun x hx => hl x (by simp [hx]))

theorem configured_accepts {X : Codecs} {fs : List AccountFilter} {s : SimpleFilterStore} (h : Configured X fs s)
    {a : AccountData} {d : Bytes} (hd : contents X a.account.data = some d) :
    (filtersOf X s).satisfies a = true ↔ ∃ f ∈ fs, Matches X f a d := by
  obtain ⟨s', h1, -, h2⟩ := C02_store_is_union X fs h.1
  rw [h.2] at h1
  cases h1
  obtain ⟨b, hb, hi⟩ := h2 a d hd
  rw [← hi]
  simp [filtersOf, hb]

theorem untracked_read {s : Store} {h : List Op} (hs : empty.run h = .ok s) {pk : Pubkey} (hun : s.containsKey pk = false)
    (c : Commitment) : s.getAccount pk c = .ok none := by
  have := (inv_run inv_empty hs).view_isSome pk
  rw [hun] at this
  rw [getAccount_stateAt (inv_run inv_empty hs), stateAt]
  have hv : s.view pk = none := by simpa using this
  simp [hv]

/-- Why **C96** fails, in general: as long as no configured filter asks for the account, the answer is "no such account" and
nothing changes, so that every further call subscribes and loads again. -/
theorem C96_unregistered (X : Codecs) (S : Source) (w : Sys) (h : List Op) (fs : List AccountFilter) (pk : Pubkey)
    (accounts : List AccountData) (c : Commitment) (hw : Came X w h fs) (hun : w.store.containsKey pk = false)
    (hlo : w.loadingAccounts pk = false) (hS : Provides S (accountFilter pk) accounts)
    (hacc : ∀ a ∈ accounts, a.pubkey = pk ∧ ∃ d, contents X a.account.data = some d ∧ ∀ f ∈ fs, ¬ Matches X f a d) :
    Demand.getAccount X S w pk c = .ok (w, .ok none) := by
  have hr := untracked_read hw.store hun c
  have hload : initAll (filtersOf X w.filters) w.store accounts = .ok w.store := by
    refine load_rejected hw.store (fun a ha => ?_)
    obtain ⟨hp, d, hd, hn⟩ := hacc a ha
    refine ⟨hp ▸ hun, ?_⟩
    cases hx : (filtersOf X w.filters).satisfies a with
    | false => rfl
    | true =>
      obtain ⟨f, hf, hm⟩ := (configured_accepts hw.filters hd).1 hx
      exact absurd hm (hn f hf)
  have hsame : (fun k => if k = pk then false else w.loadingAccounts k) = w.loadingAccounts := by
    funext k
    split
    · rename_i e; rw [e, hlo]
    · rfl
  simp only [Demand.getAccount, hr, Run.ok_bind, hlo, hS.1, hS.2, hload, if_true, Bool.false_eq_true, if_false, hsame, Run.pure_eq]
  split <;> rfl

/-- **C96 (partial)**. If the filters, as they are once the source has subscribed, ask for the account and the source hands it over
(and no second account of this name), it is returned, and stored at every commitment.  Missing: filters that do not ask for it, as is the case
unless the source adds it to them or another filter covers it. -/
theorem C96_loaded_partial (X : Codecs) (S : Source) (w : Sys) (h : List Op) (fs fs' : List AccountFilter) (filters : SimpleFilterStore)
    (pk : Pubkey) (accounts : List AccountData) (a : AccountData) (d : Bytes) (c : Commitment)
    (hw : Came X w h fs) (hun : w.store.containsKey pk = false) (hlo : w.loadingAccounts pk = false)
    (hnf : ∀ f ∈ fs, pk ∉ f.accounts)
    (hsub : S.subscribe (accountFilter pk) w.filters = some filters) (hconf : Configured X fs' filters)
    (hsnap : S.snapshot (accountFilter pk) = (accounts, true)) (hnd : (accounts.map AccountData.pubkey).Nodup)
    (ha : a ∈ accounts) (hpk : a.pubkey = pk) (hlam : 0 < a.account.lamports)
    (hd : contents X a.account.data = some d) (hm : ∃ f ∈ fs', Matches X f a d) :
    ∃ w', Demand.getAccount X S w pk c = .ok (w', .ok (some a)) ∧
      Came X w' (h ++ accounts.map (fun b => Op.update (filtersOf X filters) b .finalized)) fs' ∧
      ∀ c', w'.store.getAccount pk c' = .ok (some a) := by
  subst hpk
  have hr := untracked_read hw.store hun c
  have hca : w.filters.containsAccount a.pubkey = false := by
    obtain ⟨s', h1, h2, -⟩ := C02_store_is_union X fs hw.filters.1
    rw [hw.filters.2] at h1
    cases h1
    cases hx : w.filters.containsAccount a.pubkey with
    | false => rfl
    | true =>
      obtain ⟨f, hf, hp⟩ := (h2 a.pubkey).1 hx
      exact absurd hp (hnf f hf)
  obtain ⟨s', hl, hrun⟩ := load_run hw.store (filtersOf X filters) accounts
  have hv := load_view hw.store hl ha hnd hun ((configured_accepts hconf hd).2 hm)
  have hread := view_read hrun hv hlam
  refine ⟨⟨s', filters, fun k => if k = a.pubkey then false else w.loadingAccounts k, w.loadingPrograms⟩, ?_, ⟨hrun, hconf⟩, hread⟩
  simp only [Demand.getAccount, hr, Run.ok_bind, hlo, hca, hsub, hsnap, hl, hread, if_true, Bool.false_eq_true, if_false, Run.pure_eq]

/-- A stored account is returned as it is, whatever the source does, and nothing changes. -/
theorem C96_stored_direct (X : Codecs) (S : Source) (w : Sys) (pk : Pubkey) (a : AccountData) (c : Commitment)
    (ha : w.store.getAccount pk c = .ok (some a)) : Demand.getAccount X S w pk c = .ok (w, .ok (some a)) := by
  simp [Demand.getAccount, ha]

/-- Nothing is made up: an account that is returned has the name asked for, and was submitted to the storage before or handed over
by the source just now. -/
theorem C96_answers (X : Codecs) (S : Source) (w w' : Sys) (h : List Op) (fs : List AccountFilter) (pk : Pubkey) (a : AccountData)
    (c : Commitment) (hw : Came X w h fs) (hr : Demand.getAccount X S w pk c = .ok (w', .ok (some a))) :
    a.pubkey = pk ∧ ((∃ F c', Op.update F a c' ∈ h) ∨ a ∈ (S.snapshot (accountFilter pk)).1) := by
  have old : w.store.getAccount pk c = .ok (some a) → a.pubkey = pk ∧ ∃ F c', Op.update F a c' ∈ h :=
    fun hx => C12_reads_were_submitted h _ hw.store pk c a hx
  simp only [Demand.getAccount, Run.bind_eq_ok] at hr
  obtain ⟨r, hr0, hr⟩ := hr
  cases r with
  | some b =>
    simp only [Run.pure_eq, Run.ok.injEq, Prod.mk.injEq, Except.ok.injEq, Option.some.injEq] at hr
    obtain ⟨-, rfl⟩ := hr
    exact ⟨(old hr0).1, Or.inl (old hr0).2⟩
  | none =>
    simp only [hr0, Run.ok_bind, Run.pure_eq] at hr
    split at hr
    · simp at hr
    split at hr
    · simp at hr
    split at hr
    · simp at hr
    rename_i filters hsub
    simp only [Run.bind_eq_ok] at hr
    obtain ⟨s', hl, hr⟩ := hr
    split at hr
    · simp only [Run.bind_eq_ok, Run.ok.injEq, Prod.mk.injEq, Except.ok.injEq] at hr
      obtain ⟨x, hx, -, rfl⟩ := hr
      obtain ⟨s2, hl2, hrun⟩ := load_run hw.store (filtersOf X filters) (S.snapshot (accountFilter pk)).1
      rw [hl] at hl2
      cases hl2
      obtain ⟨hp, F, c', hm⟩ := C12_reads_were_submitted _ _ hrun pk c a hx
      refine ⟨hp, ?_⟩
      rcases List.mem_append.1 hm with hm | hm
      · exact Or.inl ⟨F, c', hm⟩
      · simp only [List.mem_map, Op.update.injEq] at hm
        obtain ⟨b, hb, -, rfl, -⟩ := hm
        exact Or.inr hb
    · simp at hr

/-- A source that registers the accounts it is asked for has them found. -/
example : let a := Toy.acct Toy.alice Toy.prog 1 5 1
    let S : Source := ⟨fun f s => match s.addFilters Toy.codecs [f] with | .ok s => some s | _ => none, fun _ => ([a], true)⟩
    ∃ w', Demand.getAccount Toy.codecs S fresh Toy.alice .processed = .ok (w', .ok (some a)) := by
  obtain ⟨w', h, -⟩ := C96_loaded_partial Toy.codecs
    ⟨fun f s => match s.addFilters Toy.codecs [f] with | .ok s => some s | _ => none, fun _ => ([Toy.acct Toy.alice Toy.prog 1 5 1], true)⟩
    fresh [] [] [accountFilter Toy.alice] _ Toy.alice [Toy.acct Toy.alice Toy.prog 1 5 1] (Toy.acct Toy.alice Toy.prog 1 5 1) [1, 2, 3]
    .processed (fresh_came _) rfl rfl (by simp) rfl ⟨by simp [accountFilter, FilterWellFormed], rfl⟩ rfl (by simp) (by simp) rfl (by decide) rfl
    ⟨accountFilter Toy.alice, by simp, Or.inl (by simp [accountFilter, Toy.acct])⟩
  exact ⟨w', h⟩

/-- The account of the source is asked for again and again, and never found. -/
example (c : Commitment) : Demand.getAccount Toy.codecs (sourceOf [Toy.acct Toy.alice Toy.prog 1 5 1]) fresh Toy.alice c = .ok (fresh, .ok none) :=
  C96_unregistered _ _ _ [] [] _ [Toy.acct Toy.alice Toy.prog 1 5 1] c (fresh_came _) rfl rfl ⟨fun _ => rfl, rfl⟩
    (by intro a ha; simp at ha; subst ha; exact ⟨rfl, [1, 2, 3], rfl, by simp⟩)

/-! ## C97: program queries -/

/-- **C97** as claimed: a query of a program that is not configured yet is answered with the accounts the source has for it. -/
def C97_statement : Prop :=
  ∀ (X : Codecs) (S : Source) (busy : Nat → Bool) (w : Sys) (h : List Op) (gs : List AccountFilter) (p : Pubkey)
    (fs : Option (List AccountFilterType)) (accounts : List AccountData) (c : Commitment),
    Came X w h gs → HonestHistory X h → QueryWellFormed X fs →
    w.filters.containsFilter (programFilter p fs) = false → w.loadingPrograms (p, fs.getD []) = false →
    Provides S (programFilter p fs) accounts → Fetched X w h p fs accounts →
    ∃ w' r, Demand.getProgramAccounts X S busy w p fs c = .ok (w', .ok r) ∧ ∀ a ∈ accounts, ∃ b ∈ r, SameAccount X a b

/-- The base58 text of `[1]` among the toy codecs, as a filter. -/
def base58Query : List AccountFilterType := [.memcmp ⟨0, .base58 [50]⟩]

/-- **C97** is false: the base58 filter is stored as bytes, so that the storage finds the very query that was just configured missing from
the filters, and answers with an error. -/
theorem C97_refuted : ¬ C97_statement := by
  intro h
  obtain ⟨w', r, hw, -⟩ := h Toy.codecs (sourceOf [Toy.acct Toy.alice Toy.prog 1 5 1]) (fun _ => false) fresh [] [] Toy.prog (some base58Query)
    [Toy.acct Toy.alice Toy.prog 1 5 1] .processed (fresh_came _) (by intro F a c hm; cases hm)
    (by intro l hl x hx; simp at hl; subst hl; simp [base58Query] at hx; subst hx; decide)
    (by decide) rfl ⟨fun _ => rfl, rfl⟩
    { honest := by intro a ha; simp at ha; subst ha; exact ⟨[1, 2, 3], rfl, rfl⟩
      owner := by intro a ha; simp at ha; subst ha; rfl
      selected := by
        intro a ha l hl x hx
        simp at ha hl; subst ha hl
        simp [base58Query] at hx; subst hx
        exact ⟨[1, 2, 3], rfl, [1], by decide, [], [2, 3], rfl, rfl⟩
      alive := by intro a ha; simp at ha; subst ha; decide
      distinct := by simp
      untracked := by intro a ha; rfl
      stable := by intro a ha b hb; cases hb }
  have : (Demand.getProgramAccounts Toy.codecs (sourceOf [Toy.acct Toy.alice Toy.prog 1 5 1]) (fun _ => false) fresh Toy.prog
      (some base58Query) .processed).map Prod.snd = .ok (.error .configDoesNotContainRequiredFilters) := by rfl
  rw [hw] at this
  cases this

/-- The filters after a program query has been configured. -/
theorem query_configured {X : Codecs} {gs : List AccountFilter} {s : SimpleFilterStore} (h : Configured X gs s) {p : Pubkey}
    {fs : Option (List AccountFilterType)} (hq : QueryWellFormed X fs)
    (hc : (∀ l, fs = some l → ∀ x ∈ l, RawBytes x) ∨ ∃ g ∈ gs, g.programId = some p) :
    ∃ s', s.addFilters X [programFilter p fs] = .ok s' ∧ Configured X (gs ++ [programFilter p fs]) s' ∧
      s'.containsFilter (programFilter p fs) = true := by
  obtain ⟨s', h1, h2⟩ := configured_add h (gs := [programFilter p fs]) (by
    intro f hf
    simp only [List.mem_singleton] at hf
    subst hf
    exact hq)
  refine ⟨s', h1, h2, ?_⟩
  simp only [SimpleFilterStore.addFilters, Run.bind_eq_ok, Run.ok.injEq] at h1
  obtain ⟨s1, h1, rfl⟩ := h1
  refine C05_added_is_contained_partial X s _ _ ?_ h1
  rcases hc with hc | ⟨g, hg, hp⟩
  · exact Or.inl hc
  · refine Or.inr (fun q hq => ?_)
    simp only [programFilter, Option.some.injEq] at hq
    subst hq
    intro hn
    obtain ⟨s0, hs0, hrep⟩ := addFilters_rep X gs [] _ h.1 (rep_empty X)
    rw [h.2] at hs0
    cases hs0
    exact hrep.absent p hn g (by simpa using hg) hp

/-- **C97 (partial)**. The query is answered, with all accounts handed over, no pubkey twice, and nothing that is not of the program, does
not pass the filters, or was neither submitted before nor handed over; and it stays configured.  Missing: base58 and base64 filters
of a program that no filter mentions yet. -/
theorem C97_loaded_partial (X : Codecs) (S : Source) (busy : Nat → Bool) (w : Sys) (h : List Op) (gs : List AccountFilter) (p : Pubkey)
    (fs : Option (List AccountFilterType)) (accounts : List AccountData) (c : Commitment)
    (hw : Came X w h gs) (hh : HonestHistory X h) (hq : QueryWellFormed X fs)
    (hraw : (∀ l, fs = some l → ∀ x ∈ l, RawBytes x) ∨ ∃ g ∈ gs, g.programId = some p)
    (hnc : w.filters.containsFilter (programFilter p fs) = false) (hlo : w.loadingPrograms (p, fs.getD []) = false)
    (hS : Provides S (programFilter p fs) accounts) (hf : Fetched X w h p fs accounts) :
    ∃ w' r F, Demand.getProgramAccounts X S busy w p fs c = .ok (w', .ok r) ∧
      (∀ a ∈ accounts, ∃ b ∈ r, SameAccount X a b) ∧
      (r.map AccountData.pubkey).Nodup ∧
      (∀ b ∈ r, b.account.owner = p ∧ Selected X fs b ∧
        ∃ a, (a ∈ submissions b.pubkey h ∨ a ∈ accounts) ∧ SameAccount X a b) ∧
      (∀ a ∈ accounts, ∀ c', w'.store.getAccount a.pubkey c' = .ok (some a)) ∧
      Came X w' (h ++ accounts.map (fun b => Op.update F b .finalized)) (gs ++ [programFilter p fs]) ∧
      w'.filters.containsFilter (programFilter p fs) = true := by
  obtain ⟨filters, h1, h2, h3⟩ := query_configured hw.filters hq hraw
  obtain ⟨s', hl, hrun⟩ := load_run hw.store (filtersOf X filters) accounts
  have hread : ∀ a ∈ accounts, ∀ c', s'.getAccount a.pubkey c' = .ok (some a) := by
    intro a ha
    obtain ⟨d, hd, -⟩ := hf.honest a ha
    refine view_read hrun (load_view hw.store hl ha hf.distinct (hf.untracked a ha) ((configured_accepts h2 hd).2
      ⟨programFilter p fs, by simp, Or.inr ⟨by simp [programFilter, hf.owner a ha], ?_⟩⟩)) (hf.alive a ha)
    intro l hl x hx
    obtain ⟨d', hd', hx⟩ := hf.selected a ha l hl x hx
    rw [hd] at hd'
    cases hd'
    exact hx
  have hhon : HonestHistory X (h ++ accounts.map (fun b => Op.update (filtersOf X filters) b .finalized)) := by
    intro F a c' hm
    rcases List.mem_append.1 hm with hm | hm
    · exact hh F a c' hm
    · simp only [List.mem_map, Op.update.injEq] at hm
      obtain ⟨b, hb, -, rfl, -⟩ := hm
      exact hf.honest b hb
  have hsub : ∀ pk a, a ∈ submissions pk (h ++ accounts.map (fun b => Op.update (filtersOf X filters) b .finalized)) →
      a ∈ submissions pk h ∨ a ∈ accounts := by
    intro pk a ha
    rw [submissions_append] at ha
    rcases List.mem_append.1 ha with ha | ha
    · exact Or.inl ha
    · obtain ⟨-, F, c', hm⟩ := mem_submissions.1 ha
      simp only [List.mem_map, Op.update.injEq] at hm
      obtain ⟨b, hb, -, rfl, -⟩ := hm
      exact Or.inr hb
  rcases C34_rejected_iff_not_contained _ s' hrun X hhon (filtersOf X filters) busy p fs c hq with ⟨hx, -⟩ | ⟨-, r, hr⟩
  · rw [show (filtersOf X filters).contains ⟨[], some p, fs⟩ = true from h3] at hx
    cases hx
  have hsound := C27_query_sound _ s' hrun X (filtersOf X filters) busy p fs c r hr
  refine ⟨⟨s', filters, w.loadingAccounts, fun k => if k = (p, fs.getD []) then false else w.loadingPrograms k⟩, r, filtersOf X filters,
    ?_, ?_, hsound.1, ?_, hread, ⟨hrun, h2⟩, h3⟩
  · simp only [Demand.getProgramAccounts, hnc, hlo, hS.1, hS.2, h1, hl, hr, Run.ok_bind, Run.pure_eq, if_true, Bool.false_eq_true, if_false]
  · intro a ha
    refine C28_query_complete_partial _ s' hrun X hhon (filtersOf X filters) busy p fs c r hq hr a.pubkey a ?_ (hread a ha c) (hf.selected a ha)
    intro b hb
    rcases hsub _ _ hb with hb | hb
    · exact hf.stable a ha b hb
    · exact hf.owner b hb
  · intro b hb
    obtain ⟨ho, hsel, a, hst, hsame⟩ := hsound.2 b hb
    exact ⟨ho, hsel, a, hsub _ _ (stateAt_submitted hrun hst), hsame⟩

/-- A query with a raw filter, of a new program. -/
example : ∃ w' r, Demand.getProgramAccounts Toy.codecs (sourceOf [Toy.acct Toy.alice Toy.prog 1 5 1]) (fun _ => false) fresh Toy.prog
      (some [.memcmp ⟨0, .bytes [1]⟩]) .processed = .ok (w', .ok r) ∧ r.length = 1 := by
  refine ⟨_, _, rfl, rfl⟩

/-- The base58 query that fails at first is answered when it is made a second time. -/
example : ((do
    let (w, _) ← Demand.getProgramAccounts Toy.codecs (sourceOf [Toy.acct Toy.alice Toy.prog 1 5 1]) (fun _ => false) fresh Toy.prog
      (some base58Query) .processed
    let (_, r) ← Demand.getProgramAccounts Toy.codecs (sourceOf [Toy.acct Toy.alice Toy.prog 1 5 1]) (fun _ => false) w Toy.prog
      (some base58Query) .processed
    return r) : Run (Except LoadError (List AccountData))) = .ok (.ok [Toy.acct Toy.alice Toy.prog 1 5 1]) := by rfl

/-- A configured query is answered by the storage alone, and nothing changes. -/
theorem C97_contained_direct (X : Codecs) (S : Source) (busy : Nat → Bool) (w : Sys) (p : Pubkey) (fs : Option (List AccountFilterType))
    (c : Commitment) (hc : w.filters.containsFilter (programFilter p fs) = true) :
    Demand.getProgramAccounts X S busy w p fs c =
      (w.store.getProgramAccounts X (filtersOf X w.filters) busy p fs c).map (fun r => (w, r)) := by
  simp only [Demand.getProgramAccounts, hc, if_true]
  cases w.store.getProgramAccounts X (filtersOf X w.filters) busy p fs c <;> rfl

/-- Once a query is configured, an update of an account that it selects is taken even if the account was never seen before, and the
query finds it from then on. -/
theorem C97_updates_followed (X : Codecs) (S : Source) (busy : Nat → Bool) (w : Sys) (h : List Op) (gs : List AccountFilter) (p : Pubkey)
    (fs : Option (List AccountFilterType)) (a : AccountData) (c : Commitment)
    (hw : Came X w h gs) (hh : HonestHistory X h) (hq : QueryWellFormed X fs)
    (hc : w.filters.containsFilter (programFilter p fs) = true) (ha : Honest X a) (ho : a.account.owner = p) (hsel : Selected X fs a)
    (hlam : 0 < a.account.lamports) (hun : w.store.containsKey a.pubkey = false)
    (hst : ∀ b ∈ submissions a.pubkey h, b.account.owner = p) :
    ∃ w', Demand.updateAccount X w a c = .ok (w', true) ∧ w'.store.getAccount a.pubkey c = .ok (some a) ∧
      ∃ r, Demand.getProgramAccounts X S busy w' p fs c = .ok (w', .ok r) ∧ ∃ b ∈ r, SameAccount X a b := by
  obtain ⟨d, hd, hlen⟩ := ha
  have hi := inv_run inv_empty hw.store
  have hacc : (filtersOf X w.filters).satisfies a = true := by
    have := C04_contains_sound X gs hw.filters.1 w.filters hw.filters.2 _ hc a d hd (Or.inr ⟨by simp [programFilter, ho], by
      intro l hl x hx
      obtain ⟨d', hd', hx⟩ := hsel l hl x hx
      rw [hd] at hd'
      cases hd'
      exact hx⟩)
    simp [filtersOf, this]
  have hv0 : w.store.view a.pubkey = none := by
    have := hi.view_isSome a.pubkey
    rw [hun] at this
    simpa using this
  obtain ⟨s', b, he, hcase⟩ := updateAccount_case hi (filtersOf X w.filters) a c
  have hv : s'.view a.pubkey = some (ByCommitment.new a c) ∧ b = true := by
    rcases (view_updateCase hi hcase a.pubkey).2 rfl with h | h | ⟨e, h, -⟩ | ⟨e, h, -⟩
    · rw [hacc] at h; simp at h
    · exact ⟨h.2.2.1, h.2.2.2⟩
    · rw [hv0] at h; cases h
    · rw [hv0] at h; cases h
  obtain ⟨hv, rfl⟩ := hv
  have hrun := run_snoc_ok hw.store (op := .update (filtersOf X w.filters) a c) (s' := s') (by simp [step, he])
  have hread : s'.getAccount a.pubkey c = .ok (some a) := by
    rw [getAccount_stateAt (inv_run inv_empty hrun), stateAt, hv]
    have : (ByCommitment.new a c).get c = some a := by cases c <;> rfl
    simp [this, shown, hlam]
  have hhon : HonestHistory X (h ++ [.update (filtersOf X w.filters) a c]) := by
    intro F x c' hm
    rcases List.mem_append.1 hm with hm | hm
    · exact hh F x c' hm
    · simp only [List.mem_singleton, Op.update.injEq] at hm
      obtain ⟨-, rfl, -⟩ := hm
      exact ⟨d, hd, hlen⟩
  rcases C34_rejected_iff_not_contained _ s' hrun X hhon (filtersOf X w.filters) busy p fs c hq with ⟨hx, -⟩ | ⟨-, r, hr⟩
  · rw [show (filtersOf X w.filters).contains ⟨[], some p, fs⟩ = true from hc] at hx
    cases hx
  refine ⟨{ w with store := s' }, by simp [Demand.updateAccount, he], hread, r, ?_, ?_⟩
  · have := C97_contained_direct X S busy { w with store := s' } p fs c hc
    rw [this, hr]; rfl
  · refine C28_query_complete_partial _ s' hrun X hhon (filtersOf X w.filters) busy p fs c r hq hr a.pubkey a ?_ hread hsel
    intro x hx
    rw [submissions_append, submissions_update, if_pos rfl] at hx
    rcases List.mem_append.1 hx with hx | hx
    · exact hst x hx
    · simp only [List.mem_singleton] at hx; subst hx; exact ho

/-- One call keeps a system one that came about by calls of its storage and by configuring filters. -/
theorem call_came {X : Codecs} {w w' : Sys} {h : List Op} {gs : List AccountFilter} (hw : Came X w h gs) {k : Call} (hk : k.Sound X)
    (hr : w.call X k = .ok w') :
    ∃ h' gs', Came X w' (h ++ h') (gs ++ gs') ∧ (∀ F a c, Op.update F a c ∈ h' → a ∈ k.brings) ∧
      ∀ q, w.filters.containsFilter q = true → w'.filters.containsFilter q = true := by
  have brought : ∀ (G : Filters) (l : List AccountData) F a c, Op.update F a c ∈ l.map (fun b => Op.update G b .finalized) → a ∈ l := by
    intro G l F a c hm
    simp only [List.mem_map, Op.update.injEq] at hm
    obtain ⟨b, hb, -, rfl, -⟩ := hm
    exact hb
  have same : ∀ w2 : Sys, w2.store = w.store → w2.filters = w.filters → ∃ h' gs', Came X w2 (h ++ h') (gs ++ gs') ∧
      (∀ F a c, Op.update F a c ∈ h' → a ∈ k.brings) ∧
      ∀ q, w.filters.containsFilter q = true → w2.filters.containsFilter q = true := by
    intro w2 h1 h2
    exact ⟨[], [], ⟨by rw [h1]; simpa using hw.store, by rw [h2]; simpa using hw.filters⟩, by simp, fun q hq => by rw [h2]; exact hq⟩
  cases k with
  | account S pk c =>
    simp only [Sys.call, Run.bind_eq_ok, Run.pure_eq, Run.ok.injEq] at hr
    obtain ⟨⟨w1, ans⟩, hr, rfl⟩ := hr
    simp only [Demand.getAccount, Run.bind_eq_ok] at hr
    obtain ⟨r, hr0, hr⟩ := hr
    cases r with
    | some b =>
      simp only [Run.pure_eq, Run.ok.injEq, Prod.mk.injEq] at hr
      obtain ⟨rfl, -⟩ := hr
      exact same _ rfl rfl
    | none =>
      simp only [hr0, Run.ok_bind, Run.pure_eq] at hr
      split at hr
      · simp only [Run.ok.injEq, Prod.mk.injEq] at hr; obtain ⟨rfl, -⟩ := hr; exact same _ rfl rfl
      split at hr
      · simp only [Run.ok.injEq, Prod.mk.injEq] at hr; obtain ⟨rfl, -⟩ := hr; exact same _ rfl rfl
      split at hr
      · simp only [Run.ok.injEq, Prod.mk.injEq] at hr; obtain ⟨rfl, -⟩ := hr; exact same _ rfl rfl
      rename_i filters hsub
      obtain ⟨gs', hwf, hadd⟩ := hk _ _ _ hsub
      obtain ⟨s2, hs2, hconf⟩ := configured_add hw.filters hwf
      rw [hadd] at hs2
      cases hs2
      simp only [Run.bind_eq_ok] at hr
      obtain ⟨s', hl, hr⟩ := hr
      obtain ⟨s2, hl2, hrun⟩ := load_run hw.store (filtersOf X filters) (S.snapshot (accountFilter pk)).1
      rw [hl] at hl2
      cases hl2
      refine ⟨(S.snapshot (accountFilter pk)).1.map (fun a => Op.update (filtersOf X filters) a .finalized), gs', ?_⟩
      split at hr
      · simp only [Run.bind_eq_ok, Run.ok.injEq, Prod.mk.injEq] at hr
        obtain ⟨x, hx, rfl, -⟩ := hr
        exact ⟨⟨hrun, hconf⟩, brought _ _, fun q hq => C04_contains_monotone X gs' _ _ hadd q hq⟩
      · simp only [Run.ok.injEq, Prod.mk.injEq] at hr
        obtain ⟨rfl, -⟩ := hr
        exact ⟨⟨hrun, hconf⟩, brought _ _, fun q hq => C04_contains_monotone X gs' _ _ hadd q hq⟩
  | program S busy p fs c =>
    simp only [Sys.call, Run.bind_eq_ok, Run.pure_eq, Run.ok.injEq] at hr
    obtain ⟨⟨w1, ans⟩, hr, rfl⟩ := hr
    simp only [Demand.getProgramAccounts] at hr
    split at hr
    · simp only [Run.bind_eq_ok, Run.pure_eq, Run.ok.injEq, Prod.mk.injEq] at hr
      obtain ⟨_, -, rfl, -⟩ := hr
      exact same _ rfl rfl
    split at hr
    · simp only [Run.bind_eq_ok, Run.pure_eq, Run.ok.injEq, Prod.mk.injEq] at hr
      obtain ⟨_, -, rfl, -⟩ := hr
      exact same _ rfl rfl
    split at hr
    · simp only [Run.pure_eq, Run.ok.injEq, Prod.mk.injEq] at hr; obtain ⟨rfl, -⟩ := hr; exact same _ rfl rfl
    rename_i filters0 hsub
    obtain ⟨gs', hwf, hadd⟩ := hk.1 _ _ _ hsub
    obtain ⟨s2, hs2, hconf0⟩ := configured_add hw.filters hwf
    rw [hadd] at hs2
    cases hs2
    simp only [Run.bind_eq_ok] at hr
    obtain ⟨filters, hadd2, s', hl, hr⟩ := hr
    obtain ⟨s2, hs2, hconf⟩ := configured_add hconf0 (gs := [programFilter p fs]) (by
      intro f hf
      simp only [List.mem_singleton] at hf
      subst hf
      exact hk.2)
    rw [hadd2] at hs2
    cases hs2
    obtain ⟨s2, hl2, hrun⟩ := load_run hw.store (filtersOf X filters) (S.snapshot (programFilter p fs)).1
    rw [hl] at hl2
    cases hl2
    have hmono : ∀ q, w.filters.containsFilter q = true → filters.containsFilter q = true := fun q hq =>
      C04_contains_monotone X _ _ _ hadd2 q (C04_contains_monotone X gs' _ _ hadd q hq)
    refine ⟨(S.snapshot (programFilter p fs)).1.map (fun a => Op.update (filtersOf X filters) a .finalized), gs' ++ [programFilter p fs], ?_⟩
    rw [← List.append_assoc gs]
    split at hr
    · simp only [Run.bind_eq_ok, Run.pure_eq, Run.ok.injEq, Prod.mk.injEq] at hr
      obtain ⟨x, hx, rfl, -⟩ := hr
      exact ⟨⟨hrun, hconf⟩, brought _ _, hmono⟩
    · simp only [Run.pure_eq, Run.ok.injEq, Prod.mk.injEq] at hr
      obtain ⟨rfl, -⟩ := hr
      exact ⟨⟨hrun, hconf⟩, brought _ _, hmono⟩
  | update a c =>
    simp only [Sys.call, Demand.updateAccount, Run.bind_eq_ok, Run.pure_eq, Run.ok.injEq] at hr
    obtain ⟨_, ⟨⟨s', b⟩, he, rfl⟩, rfl⟩ := hr
    exact ⟨[.update (filtersOf X w.filters) a c], [], ⟨run_snoc_ok hw.store (by simp [step, he]), by simpa using hw.filters⟩, by simp +contextual [Call.brings], fun q hq => hq⟩
  | slot σ info c =>
    simp only [Sys.call, Demand.processSlotData, Run.bind_eq_ok, Run.pure_eq, Run.ok.injEq] at hr
    obtain ⟨_, ⟨⟨s', b⟩, he, rfl⟩, rfl⟩ := hr
    exact ⟨[.slot (filtersOf X w.filters) σ info c], [], ⟨run_snoc_ok hw.store (by simp [step, he]), by simpa using hw.filters⟩, by simp +contextual [Call.brings], fun q hq => hq⟩
  | init a =>
    simp only [Sys.call, Demand.initializeOrUpdate, Store.initializeOrUpdate, Run.bind_eq_ok, Run.pure_eq, Run.ok.injEq] at hr
    obtain ⟨_, ⟨⟨s', b⟩, he, rfl⟩, rfl⟩ := hr
    exact ⟨[.update (filtersOf X w.filters) a .finalized], [], ⟨run_snoc_ok hw.store (by simp [step, he]), by simpa using hw.filters⟩, by simp +contextual [Call.brings], fun q hq => hq⟩
  | load bs =>
    simp only [Sys.call, Demand.loadFromSnapshot, Store.loadFromSnapshot, Run.bind_eq_ok, Run.pure_eq, Run.ok.injEq] at hr
    obtain ⟨_, ⟨⟨s', b⟩, he, rfl⟩, rfl⟩ := hr
    split at he
    · simp only [Run.ok.injEq, Prod.mk.injEq] at he
      exact same _ he.1.symm rfl
    · rename_i l hd
      simp only [Run.bind_eq_ok, Run.ok.injEq, Prod.mk.injEq] at he
      obtain ⟨s1, hl, rfl, -⟩ := he
      obtain ⟨s2, hl2, hrun⟩ := load_run hw.store (filtersOf X w.filters) l
      rw [hl] at hl2
      cases hl2
      exact ⟨l.map (fun a => Op.update (filtersOf X w.filters) a .finalized), [], ⟨hrun, by simpa using hw.filters⟩,
        by simpa [Call.brings, hd] using brought (filtersOf X w.filters) l, fun q hq => hq⟩

/-- Whatever is called, from a start with nothing stored or configured: the storage has seen some calls,
all of account states that the calls brought along, and some filters have been configured; and a query that is configured stays so.  So what is proved above of a system that `Came` about holds after every sequence of calls. -/
theorem C97_reachable (X : Codecs) (calls : List Call) : ∀ (w w' : Sys) (h : List Op) (gs : List AccountFilter),
    Came X w h gs → (∀ k ∈ calls, k.Sound X) → w.calls X calls = .ok w' →
    ∃ h' gs', Came X w' (h ++ h') (gs ++ gs') ∧ (∀ F a c, Op.update F a c ∈ h' → ∃ k ∈ calls, a ∈ k.brings) ∧
      ∀ q, w.filters.containsFilter q = true → w'.filters.containsFilter q = true := by
  induction calls with
  | nil =>
    intro w w' h gs hw _ hr
    simp only [Sys.calls, Run.ok.injEq] at hr
    subst hr
    exact ⟨[], [], by simpa using hw, by simp, fun q hq => hq⟩
  | cons k calls ih =>
    intro w w' h gs hw hk hr
    simp only [Sys.calls, Run.bind_eq_ok] at hr
    obtain ⟨w1, h1, hr⟩ := hr
    obtain ⟨h1', gs1, hc1, hb1, hm1⟩ := call_came hw (hk k (by simp)) h1
    obtain ⟨h2', gs2, hc2, hb2, hm2⟩ := ih w1 w' _ _ hc1 (fun x hx => hk x (by simp [hx])) hr
    refine ⟨h1' ++ h2', gs1 ++ gs2, by simpa using hc2, ?_, fun q hq => hm2 q (hm1 q hq)⟩
    intro F a c hm
    rcases List.mem_append.1 hm with hm | hm
    · exact ⟨k, by simp, hb1 F a c hm⟩
    · obtain ⟨x, hx, hb⟩ := hb2 F a c hm
      exact ⟨x, by simp [hx], hb⟩

/-- The calls that follow a first, failing base58 query. -/
example : ∃ w', fresh.calls Toy.codecs [.program (sourceOf []) (fun _ => false) Toy.prog (some base58Query) .processed,
    .update (Toy.acct Toy.alice Toy.prog 1 5 1) .processed, .account (sourceOf []) Toy.bob .confirmed] = .ok w' ∧
    w'.store.getAccount Toy.alice .processed = .ok (some (Toy.acct Toy.alice Toy.prog 1 5 1)) := ⟨_, rfl, rfl⟩

end LAM.Props
