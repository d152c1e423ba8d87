import Verif.Lemmas.Filter
import Verif.Basic.Toy
/-!
# Properties C01-C06, C08: filters and filter stores
-/
namespace LAM.Props
open Spec

/-! ## C01 -/

/-- **C01**. A decodable filter never panics and decides exactly the byte window (or length). -/
theorem C01_filter_exact (X : Codecs) (f : AccountFilterType) (d : Bytes) (h : WellFormed X f) :
    ∃ b, f.allows X d = .ok b ∧ (b = true ↔ Allows X f d) := allows_ok X f d h

/-- **C01**. The only way a filter check fails to return is malformed text, which panics. -/
theorem C01_panics_iff_malformed (X : Codecs) (f : AccountFilterType) (d : Bytes) :
    (f.allows X d = .panic ↔ ¬ WellFormed X f) ∧ f.allows X d ≠ .diverge := by
  by_cases h : WellFormed X f
  · obtain ⟨b, hb, _⟩ := allows_ok X f d h
    simp [hb, h]
  · cases f with
    | datasize n => simp [WellFormed] at h
    | memcmp m =>
      simp only [WellFormed, Option.not_isSome_iff_eq_none] at h
      simp [AccountFilterType.allows, bytesMatch_eq, h, WellFormed]

/-- **C01**. The verdict depends on the decoded bytes only, not on their encoding. -/
theorem C01_encoding_independent (X : Codecs) (off : Nat) (p q : MemcmpData) (d : Bytes)
    (h : pattern X p = pattern X q) :
    (AccountFilterType.memcmp ⟨off, p⟩).allows X d = (AccountFilterType.memcmp ⟨off, q⟩).allows X d := by
  simp [AccountFilterType.allows, bytesMatch_eq, h]

/-- Non-trivial instance: a two-byte window at offset 1, given in base58, on matching and
non-matching data, and an offset far outside. -/
example : let f := AccountFilterType.memcmp ⟨1, .base58 [51, 52]⟩
    WellFormed Toy.codecs f ∧ f.allows Toy.codecs [9, 2, 3] = .ok true ∧
    f.allows Toy.codecs [9, 2, 4] = .ok false ∧ f.allows Toy.codecs [9, 2] = .ok false ∧
    (AccountFilterType.memcmp ⟨2 ^ 64 - 1, .bytes []⟩).allows Toy.codecs [] = .ok false ∧
    (AccountFilterType.memcmp ⟨3, .bytes []⟩).allows Toy.codecs [1, 2, 3] = .ok true := by
  refine ⟨?_, ?_, ?_, ?_, ?_, ?_⟩ <;> decide

/-! ## C02, C03 -/

/-- **C02**. A store built from well-formed filters accepts exactly the accounts matched by at least
one of them; neither building nor checking panics. -/
theorem C02_store_is_union (X : Codecs) (fs : List AccountFilter)
    (hw : ∀ f ∈ fs, FilterWellFormed X f) :
    ∃ s, SimpleFilterStore.empty.addFilters X fs = .ok s ∧
      (∀ pk, s.containsAccount pk = true ↔ ∃ f ∈ fs, pk ∈ f.accounts) ∧
      ∀ (a : AccountData) (d : Bytes), contents X a.account.data = some d →
        ∃ b, s.satisfies X a = .ok b ∧ (b = true ↔ ∃ f ∈ fs, Matches X f a d) := by
  obtain ⟨s, hs, hr⟩ := addFilters_rep X fs [] _ hw (rep_empty X)
  refine ⟨s, hs, ?_, fun a d hd => ?_⟩
  · simpa [SimpleFilterStore.containsAccount] using hr.accounts
  · simpa using satisfies_of_rep X _ s hr a d hd

/-- **C03**. If every filter of one list occurs in another (so also for reordering, duplication and
extension), every account accepted by the store of the first is accepted by the store of the second. -/
theorem C03_monotone_and_order_independent (X : Codecs) (fs gs : List AccountFilter)
    (hfs : ∀ f ∈ fs, FilterWellFormed X f) (hgs : ∀ f ∈ gs, FilterWellFormed X f)
    (hsub : ∀ f, f ∈ fs → f ∈ gs) (s t : SimpleFilterStore)
    (hs : SimpleFilterStore.empty.addFilters X fs = .ok s)
    (ht : SimpleFilterStore.empty.addFilters X gs = .ok t)
    (a : AccountData) (d : Bytes) (hd : contents X a.account.data = some d) :
    s.satisfies X a = .ok true → t.satisfies X a = .ok true := by
  obtain ⟨s', hs', -, h1⟩ := C02_store_is_union X fs hfs
  obtain ⟨t', ht', -, h2⟩ := C02_store_is_union X gs hgs
  rw [hs] at hs'; rw [ht] at ht'
  cases hs'; cases ht'
  obtain ⟨b, hb, hbi⟩ := h1 a d hd
  obtain ⟨c, hc, hci⟩ := h2 a d hd
  rw [hb, hc]
  intro hb'
  have : b = true := by simpa using hb'
  obtain ⟨f, hf, hm⟩ := hbi.1 this
  rw [hci.2 ⟨f, hsub f hf, hm⟩]

/-- Two filters for one program and one listed account. -/
def exFilters : List AccountFilter :=
  [⟨[Toy.alice], none, none⟩,
   ⟨[], some Toy.prog, some [.datasize 3, .memcmp ⟨0, .base64 [66, 67]⟩]⟩,
   ⟨[], some Toy.prog, some [.datasize 1]⟩]

example : (∀ f ∈ exFilters, FilterWellFormed Toy.codecs f) ∧
    (SimpleFilterStore.empty.addFilters Toy.codecs exFilters >>= fun s =>
      s.satisfies Toy.codecs (Toy.acct Toy.bob Toy.prog 5 1 1 [1, 2, 3])) = .ok true ∧
    (SimpleFilterStore.empty.addFilters Toy.codecs exFilters >>= fun s =>
      s.satisfies Toy.codecs (Toy.acct Toy.bob Toy.prog 5 1 1 [1, 3, 3])) = .ok false ∧
    (SimpleFilterStore.empty.addFilters Toy.codecs exFilters >>= fun s =>
      s.satisfies Toy.codecs (Toy.acct Toy.alice Toy.prog2 5 1 1 [])) = .ok true := by
  refine ⟨?_, by decide, by decide, by decide⟩
  intro f hf l hl x hx
  simp [exFilters] at hf
  rcases hf with rfl | rfl | rfl <;> simp at hl <;> subst hl <;> simp at hx
  · rcases hx with rfl | rfl <;> decide
  · subst hx; decide

/-! ## C04 -/

/-- **C04**. A contained query asks only about tracked accounts: whatever matches it is accepted. -/
theorem C04_contains_sound (X : Codecs) (fs : List AccountFilter)
    (hw : ∀ f ∈ fs, FilterWellFormed X f) (s : SimpleFilterStore)
    (hs : SimpleFilterStore.empty.addFilters X fs = .ok s) (q : AccountFilter)
    (hq : s.containsFilter q = true) (a : AccountData) (d : Bytes)
    (hd : contents X a.account.data = some d) (hm : Matches X q a d) :
    s.satisfies X a = .ok true := by
  obtain ⟨s', hs', hr⟩ := addFilters_rep X fs [] _ hw (rep_empty X)
  rw [hs] at hs'; cases hs'
  obtain ⟨b, hb, hbi⟩ := satisfies_of_rep X _ s hr a d hd
  rw [hb, hbi.2 (contains_of_rep X _ s hr q hq a d hm)]

/-- One filter never removes containment. -/
theorem addFilter_contains_mono (X : Codecs) (s s' : SimpleFilterStore) (f q : AccountFilter)
    (hs : s.addFilter X f = .ok s') (hq : s.containsFilter q = true) : s'.containsFilter q = true := by
  simp only [SimpleFilterStore.addFilter] at hs
  simp only [SimpleFilterStore.containsFilter, Bool.and_eq_true, List.all_eq_true] at hq ⊢
  obtain ⟨h1, h2⟩ := hq
  cases hp : f.programId with
  | none =>
    simp only [hp, Run.pure_eq, Run.ok.injEq] at hs
    subst hs
    exact ⟨fun x hx => by simp [h1 x hx], h2⟩
  | some p =>
    simp only [hp, Run.bind_eq_ok, Run.pure_eq, Run.ok.injEq] at hs
    obtain ⟨pf, hpf, rfl⟩ := hs
    refine ⟨fun x hx => by simp [h1 x hx], ?_⟩
    cases hqp : q.programId with
    | none => simp
    | some p' =>
      simp only [hqp] at h2 ⊢
      by_cases hpp : p' = p
      · subst hpp
        simp only [if_true]
        cases hcur : s.programs p' with
        | none => simp [hcur] at h2
        | some cur =>
          simp only [hcur, programFilters, Run.ok.injEq] at hpf h2
          subst hpf
          cases cur with
          | allowAll => simp [mergeFilters]
          | byFilterType L =>
            cases hf : f.filters with
            | none => simp [mergeFilters]
            | some l =>
              simp only [mergeFilters]
              cases hq : q.filters with
              | none => simp [hq] at h2
              | some ql =>
                simp only [hq, List.any_eq_true] at h2
                obtain ⟨set, hset, hpm⟩ := h2
                simp only [List.any_eq_true]
                exact ⟨set, by simp [hset], hpm⟩
      · simp only [hpp, if_false]; exact h2

/-- **C04**. Containment is never lost by adding filters. -/
theorem C04_contains_monotone (X : Codecs) (fs : List AccountFilter) : ∀ (s s' : SimpleFilterStore)
    (_ : s.addFilters X fs = .ok s') (q : AccountFilter), s.containsFilter q = true →
    s'.containsFilter q = true := by
  induction fs with
  | nil => intro s s' h q hq; simp [SimpleFilterStore.addFilters] at h; subst h; exact hq
  | cons f fs ih =>
    intro s s' h q hq
    simp only [SimpleFilterStore.addFilters, Run.bind_eq_ok] at h
    obtain ⟨s1, h1, h2⟩ := h
    exact ih s1 s' h2 q (addFilter_contains_mono X s s1 f q h1 hq)

/-- A query with an additional later-sorted sub-filter is contained and matches an account. -/
example : let q : AccountFilter := ⟨[], some Toy.prog, some [.memcmp ⟨0, .bytes [1]⟩, .datasize 1]⟩
    (SimpleFilterStore.empty.addFilters Toy.codecs exFilters >>= fun s =>
      (.ok (s.containsFilter q))) = .ok true ∧
    Matches Toy.codecs q (Toy.acct Toy.bob Toy.prog 5 1 1 [1]) [1] := by
  refine ⟨by decide, Or.inr ⟨rfl, ?_⟩⟩
  intro l hl x hx
  simp at hl; subst hl
  simp at hx
  rcases hx with rfl | rfl
  · exact ⟨[1], rfl, [], [], rfl, rfl⟩
  · simp [Allows]

/-! ## C05 -/

/-- The full claim of **C05**: a filter that was added is contained. -/
def C05_statement : Prop :=
  ∀ (X : Codecs) (s s' : SimpleFilterStore) (f : AccountFilter),
    FilterWellFormed X f → s.addFilter X f = .ok s' → s'.containsFilter f = true

/-- **C05** is false: a base58 filter added first for its program is stored as bytes and the same
base58 filter is then not found. -/
theorem C05_added_is_contained_refuted : ¬ C05_statement := by
  intro h
  have := h Toy.codecs SimpleFilterStore.empty
    ⟨fun pk => false, fun q => if q = Toy.prog then
      some (.byFilterType [[.memcmp ⟨0, .bytes [1]⟩]]) else none⟩
    ⟨[], some Toy.prog, some [.memcmp ⟨0, .base58 [50]⟩]⟩
    (by intro l hl x hx; simp at hl; subst hl; simp at hx; subst hx; decide)
    (by rfl)
  revert this; decide

/-- A sub-filter given as raw bytes (or a data size). -/
def RawBytes : AccountFilterType → Prop
  | .datasize _ => True
  | .memcmp ⟨_, .bytes _⟩ => True
  | _ => False

theorem mapToBytes_raw (X : Codecs) (l : List AccountFilterType) (h : ∀ x ∈ l, RawBytes x) :
    mapRun (AccountFilterType.toBytes X) l = .ok l := by
  induction l with
  | nil => rfl
  | cons x xs ih =>
    have hx : x.toBytes X = .ok x := by
      have := h x (by simp)
      rcases x with n | ⟨o, d | d | d⟩ <;> simp_all [RawBytes, AccountFilterType.toBytes]
    simp [mapRun, hx, ih (fun y hy => h y (by simp [hy]))]

/-- **C05 (partial)**. An added filter is contained if its memcmp patterns are raw bytes, or if its
program already had a filter in the store.  Missing: text-encoded filters that are the first ones of
their program, for which the claim is false (`C05_added_is_contained_refuted`). -/
theorem C05_added_is_contained_partial (X : Codecs) (s s' : SimpleFilterStore) (f : AccountFilter)
    (h : (∀ l, f.filters = some l → ∀ x ∈ l, RawBytes x) ∨
      (∀ p, f.programId = some p → s.programs p ≠ none))
    (hs : s.addFilter X f = .ok s') : s'.containsFilter f = true := by
  simp only [SimpleFilterStore.addFilter] at hs
  simp only [SimpleFilterStore.containsFilter, Bool.and_eq_true, List.all_eq_true]
  have hpre : ∀ l, prefixMatches (FSet.collect l) (FSet.collect l) = true := fun l =>
    (prefixMatches_iff _ _ (FSet.sorted_collect l)).2 ⟨[], by simp⟩
  cases hp : f.programId with
  | none =>
    simp only [hp, Run.pure_eq, Run.ok.injEq] at hs
    subst hs
    exact ⟨fun x hx => by simp [hx], rfl⟩
  | some p =>
    simp only [hp, Run.bind_eq_ok, Run.pure_eq, Run.ok.injEq] at hs
    obtain ⟨pf, hpf, rfl⟩ := hs
    refine ⟨fun x hx => by simp [hx], ?_⟩
    simp only [if_true]
    cases hcur : s.programs p with
    | none =>
      simp only [hcur, programFilters] at hpf
      have hraw : ∀ l, f.filters = some l → ∀ x ∈ l, RawBytes x := by
        rcases h with h | h
        · exact h
        · exact absurd hcur (h p hp)
      cases hf : f.filters with
      | none => simp [hf, firstFilters] at hpf; subst hpf; rfl
      | some l =>
        simp [hf, firstFilters, mapToBytes_raw X l (hraw l hf)] at hpf
        subst hpf
        simp [hpre]
    | some cur =>
      simp only [hcur, programFilters, Run.ok.injEq] at hpf
      subst hpf
      cases cur with
      | allowAll => simp [mergeFilters]
      | byFilterType L =>
        cases hf : f.filters with
        | none => simp [mergeFilters]
        | some l => simp [mergeFilters, hpre]

example : ∃ s', SimpleFilterStore.empty.addFilter Toy.codecs
      ⟨[Toy.alice], some Toy.prog, some [.memcmp ⟨0, .bytes [7]⟩, .datasize 9]⟩ = .ok s' ∧
      s'.containsFilter ⟨[Toy.alice], some Toy.prog, some [.datasize 9, .memcmp ⟨0, .bytes [7]⟩]⟩ = true := by
  refine ⟨_, rfl, by decide⟩

/-! ## C06 -/

/-- **C06** (first half). `ExceptFilterStore` accepts exactly the accounts no excluded filter matches. -/
theorem C06_except_is_complement (X : Codecs) (fs : List AccountFilter)
    (hw : ∀ f ∈ fs, FilterWellFormed X f) :
    ∃ s, (ExceptFilterStore.mk .empty).addFilters X fs = .ok s ∧
      ∀ (a : AccountData) (d : Bytes), contents X a.account.data = some d →
        ∃ b, s.satisfies X a = .ok b ∧ (b = true ↔ ∀ f ∈ fs, ¬ Matches X f a d) := by
  obtain ⟨s, hs, -, h⟩ := C02_store_is_union X fs hw
  refine ⟨⟨s⟩, by simp [ExceptFilterStore.addFilters, hs], fun a d hd => ?_⟩
  obtain ⟨b, hb, hbi⟩ := h a d hd
  refine ⟨!b, by simp [ExceptFilterStore.satisfies, hb], ?_⟩
  cases b <;> simp_all

/-- The second half of **C06**: a contained query matches accepted accounts only. -/
def C06_contains_sound_statement : Prop :=
  ∀ (X : Codecs) (fs : List AccountFilter) (s : ExceptFilterStore) (q : AccountFilter)
    (a : AccountData) (d : Bytes),
    (∀ f ∈ fs, FilterWellFormed X f) → (ExceptFilterStore.mk .empty).addFilters X fs = .ok s →
    contents X a.account.data = some d → s.containsFilter q = true → Matches X q a d →
    s.satisfies X a = .ok true

/-- It is false: with one size-3 exclusion the whole program counts as contained although its size-3
accounts are not stored. -/
theorem C06_contains_sound_refuted : ¬ C06_contains_sound_statement := by
  intro h
  have := h Toy.codecs [⟨[], some Toy.prog, some [.datasize 3]⟩]
    ⟨⟨fun _ => false, fun q => if q = Toy.prog then some (.byFilterType [[.datasize 3]]) else none⟩⟩
    ⟨[], some Toy.prog, none⟩ (Toy.acct Toy.alice Toy.prog 1 1 1) [1, 2, 3]
    (by intro f hf l hl x hx; simp at hf; subst hf; simp at hl; subst hl; simp at hx; subst hx; trivial)
    (by rfl) rfl (by decide) (Or.inr ⟨rfl, by simp⟩)
  revert this; decide

/-- **C06 (partial)**. With exclusions that name whole programs only, a contained query naming a program
(and no accounts) only matches accepted accounts.  Missing: exclusions with sub-filters or account
lists, for which the claim is false. -/
theorem C06_contains_sound_partial (X : Codecs) (fs : List AccountFilter) (s : ExceptFilterStore)
    (q : AccountFilter) (a : AccountData) (d : Bytes)
    (hfs : ∀ f ∈ fs, f.accounts = [] ∧ f.filters = none)
    (hs : (ExceptFilterStore.mk .empty).addFilters X fs = .ok s)
    (hd : contents X a.account.data = some d) (hqa : q.accounts = [])
    (hq : s.containsFilter q = true) (hm : Matches X q a d) : s.satisfies X a = .ok true := by
  have hw : ∀ f ∈ fs, FilterWellFormed X f := by
    intro f hf l hl; simp [(hfs f hf).2] at hl
  simp only [ExceptFilterStore.addFilters, Run.bind_eq_ok, Run.pure_eq, Run.ok.injEq] at hs
  obtain ⟨t, ht, rfl⟩ := hs
  obtain ⟨t', ht', hr⟩ := addFilters_rep X fs [] _ hw (rep_empty X)
  rw [ht] at ht'; cases ht'
  simp only [List.nil_append] at hr
  obtain ⟨b, hb, hbi⟩ := satisfies_of_rep X _ t hr a d hd
  have hno : ¬ ∃ f ∈ fs, Matches X f a d := by
    rintro ⟨f, hf, hfm⟩
    rcases hfm with hfm | ⟨hfp, -⟩
    · simp [(hfs f hf).1] at hfm
    · rcases hm with hm | ⟨hqp, -⟩
      · simp [hqa] at hm
      · -- the query's program is excluded, so the simple store contains the query
        have : t.containsFilter q = true := by
          simp only [SimpleFilterStore.containsFilter, hqa, hqp, List.all_nil, Bool.true_and]
          cases hc : t.programs a.account.owner with
          | none => exact absurd hfp (hr.absent _ hc f hf)
          | some pf =>
            cases pf with
            | allowAll => rfl
            | byFilterType L =>
              obtain ⟨l, hl, -⟩ := (hr.listed _ L hc).1 f hf hfp
              simp [(hfs f hf).2] at hl
        simp [ExceptFilterStore.containsFilter, this] at hq
  cases b with
  | true => exact absurd (hbi.1 rfl) hno
  | false => simp [ExceptFilterStore.satisfies, hb]

example : ((ExceptFilterStore.mk .empty).addFilters Toy.codecs [⟨[], some Toy.prog, none⟩] >>= fun s => do
      let b ← s.satisfies Toy.codecs (Toy.acct Toy.alice Toy.prog 1 1 1)
      let c ← s.satisfies Toy.codecs (Toy.acct Toy.alice Toy.prog2 1 1 1)
      return (b, c, s.containsFilter ⟨[], some Toy.prog2, some [.datasize 3]⟩)) = .ok (false, true, true) := by
  decide

/-! ## C08 -/

/-- The verdict of an RPC filter on account data. -/
def RpcAllows (X : Codecs) (f : RpcFilter) (d : Bytes) : Prop :=
  match f with
  | .dataSize n => d.length = n
  | .memcmp off b => ∃ pat, (match b with
      | .base58 s => X.b58 s
      | .base64 s => X.b64 s
      | .bytes b => some b) = some pat ∧ WindowAt off pat d
  | .tokenAccountState => False

/-- **C08**. `get_rpc_filter` keeps the number and the verdicts of the sub-filters. -/
theorem C08_to_rpc_preserves (X : Codecs) (f : AccountFilter) (l : List AccountFilterType)
    (hf : f.filters = some l) : ∃ r, f.getRpcFilter = some r ∧ r.length = l.length ∧
      ∀ (d : Bytes) (i : Nat) (h : i < l.length) (h' : i < r.length),
        RpcAllows X r[i] d ↔ Allows X l[i] d := by
  refine ⟨l.map AccountFilterType.toRpc, by simp [AccountFilter.getRpcFilter, hf], by simp, ?_⟩
  intro d i h h'
  simp only [List.getElem_map]
  generalize l[i] = x
  rcases x with n | ⟨o, b | s | s⟩ <;> simp [AccountFilterType.toRpc, RpcAllows, Allows, pattern]

/-- **C08**. Evaluating the RPC filter on a stored account (`AccountData::allows`) gives the verdict
of the account filter on its contents. -/
theorem C08_rpc_verdict (X : Codecs) (f : AccountFilterType) (a : AccountData) (d : Bytes)
    (hd : contents X a.account.data = some d) (hl : a.account.data.len = d.length)
    (hw : WellFormed X f) :
    ∃ b, a.allows X f.toRpc = .ok b ∧ (b = true ↔ Allows X f d) := by
  rcases f with n | ⟨o, p | s | s⟩
  · exact ⟨_, rfl, by simp [Allows, hl]⟩
  · obtain ⟨b, hb, hi⟩ := windowMatch_ok o p d
    exact ⟨b, by simp [AccountFilterType.toRpc, AccountData.allows, data_eq, hd, rpcBytesMatch,
      RpcEncodedBytes.decode, hb], by simp [Allows, pattern, hi]⟩
  · simp only [WellFormed, pattern, Option.isSome_iff_exists] at hw
    obtain ⟨p, hp⟩ := hw
    obtain ⟨b, hb, hi⟩ := windowMatch_ok o p d
    exact ⟨b, by simp [AccountFilterType.toRpc, AccountData.allows, data_eq, hd, rpcBytesMatch,
      RpcEncodedBytes.decode, hp, hb], by simp [Allows, pattern, hp, hi]⟩
  · simp only [WellFormed, pattern, Option.isSome_iff_exists] at hw
    obtain ⟨p, hp⟩ := hw
    obtain ⟨b, hb, hi⟩ := windowMatch_ok o p d
    exact ⟨b, by simp [AccountFilterType.toRpc, AccountData.allows, data_eq, hd, rpcBytesMatch,
      RpcEncodedBytes.decode, hp, hb], by simp [Allows, pattern, hp, hi]⟩

/-- **C08**. `AccountData::allows` on any RPC filter: the verdict is that of the filter on the contents; text that does not decode
and `TokenAccountState` (a todo in the code) match nothing. -/
theorem C08_rpc_allows (X : Codecs) (r : RpcFilter) (a : AccountData) (d : Bytes)
    (hd : contents X a.account.data = some d) (hl : a.account.data.len = d.length) :
    ∃ b, a.allows X r = .ok b ∧ (b = true ↔ RpcAllows X r d) := by
  rcases r with n | ⟨off, e⟩ | _
  · exact ⟨_, rfl, by simp [RpcAllows, hl]⟩
  · cases he : e.decode X with
    | none =>
      refine ⟨false, by simp [AccountData.allows, data_eq, hd, rpcBytesMatch, he], ?_⟩
      cases e <;> simp_all [RpcAllows, RpcEncodedBytes.decode]
    | some p =>
      obtain ⟨b, hb, hi⟩ := windowMatch_ok off p d
      refine ⟨b, by simp [AccountData.allows, data_eq, hd, rpcBytesMatch, he, hb], ?_⟩
      cases e <;> simp_all [RpcAllows, RpcEncodedBytes.decode]
  · exact ⟨false, rfl, by simp [RpcAllows]⟩

example : (Toy.acct Toy.alice Toy.prog 1 1 1 [7, 8]).allows Toy.codecs (.memcmp 1 (.bytes [8])) = .ok true := by decide +kernel

/-- The full claim of **C08** for the conversion from RPC filters: verdicts are preserved. -/
def C08_from_rpc_statement : Prop :=
  ∀ (X : Codecs) (r : RpcFilter) (g : AccountFilterType) (d : Bytes),
    AccountFilterType.ofRpc X r = .ok g → (Allows X g d ↔ RpcAllows X r d)

/-- False: a malformed base58 filter matches nothing as an RPC filter but everything after conversion. -/
theorem C08_from_rpc_refuted : ¬ C08_from_rpc_statement := by
  intro h
  have := (h Toy.codecs (.memcmp 0 (.base58 [48])) (.memcmp ⟨0, .bytes []⟩) [1] rfl).1
    ⟨[], rfl, [], [1], rfl, rfl⟩
  obtain ⟨p, hp, -⟩ := this
  revert hp
  decide +revert

/-- **C08 (partial)**. Conversion from an RPC filter preserves the verdict when its text decodes; the
result is always a raw-bytes filter, and `TokenAccountState` panics.  Missing: malformed text. -/
theorem C08_from_rpc_partial (X : Codecs) (r : RpcFilter)
    (hw : ∀ off b, r = .memcmp off b → (b.decode X).isSome) :
    (r = .tokenAccountState ∧ AccountFilterType.ofRpc X r = .panic) ∨
    ∃ g, AccountFilterType.ofRpc X r = .ok g ∧ RawBytes g ∧
      ∀ d, Allows X g d ↔ RpcAllows X r d := by
  rcases r with n | ⟨off, b⟩ | _
  · exact Or.inr ⟨_, rfl, trivial, fun d => Iff.rfl⟩
  · right
    have := hw off b rfl
    obtain ⟨p, hp⟩ := Option.isSome_iff_exists.1 this
    refine ⟨.memcmp ⟨off, .bytes p⟩, by simp [AccountFilterType.ofRpc, hp], trivial, fun d => ?_⟩
    cases b <;> simp_all [Allows, RpcAllows, pattern, RpcEncodedBytes.decode]
  · exact Or.inl ⟨rfl, rfl⟩

example : AccountFilterType.ofRpc Toy.codecs (.memcmp 4 (.base58 [50, 51])) =
    .ok (.memcmp ⟨4, .bytes [1, 2]⟩) := by decide

end LAM.Props
