import Verif.Spec.Filter
/-!
# Helper lemmas about filters
-/
namespace LAM
open Spec

theorem slice_ok {d : Bytes} {a b : Nat} (h : a ≤ b ∧ b ≤ d.length) :
    slice d a b = .ok ((d.drop a).take (b - a)) := by simp [slice, h]

theorem windowAt_iff (off : Nat) (pat d : Bytes) :
    WindowAt off pat d ↔ off + pat.length ≤ d.length ∧ (d.drop off).take pat.length = pat := by
  constructor
  · rintro ⟨pre, suf, rfl, rfl⟩
    refine ⟨by simp, by simp⟩
  · rintro ⟨h1, h2⟩
    refine ⟨d.take off, d.drop (off + pat.length), ?_, by simp; omega⟩
    conv => lhs; rw [← List.take_append_drop off d]
    rw [List.append_assoc]
    congr 1
    conv => lhs; rw [← List.take_append_drop pat.length (d.drop off)]
    rw [h2, List.drop_drop]

theorem windowMatch_ok (off : Nat) (pat d : Bytes) :
    ∃ b, windowMatch off pat d = .ok b ∧ (b = true ↔ WindowAt off pat d) := by
  unfold windowMatch
  rw [windowAt_iff]
  by_cases h1 : off > d.length
  · refine ⟨false, by simp [h1], by simp; omega⟩
  · rw [slice_ok (by omega)]
    simp only [h1, if_false, Run.ok_bind, Run.pure_eq]
    simp only [List.length_take, List.length_drop, Nat.min_self]
    by_cases h2 : d.length - off < pat.length
    · exact ⟨false, by simp [h2], by simp; omega⟩
    · rw [slice_ok (by omega)]
      refine ⟨_, by simp only [h2, if_false, Run.ok_bind]; rfl, ?_⟩
      simp only [Nat.add_sub_cancel_left, beq_iff_eq]
      constructor
      · intro h; exact ⟨by omega, h⟩
      · exact fun h => h.2

theorem bytes_eq (X : Codecs) (m : MemcmpFilter) :
    m.bytes X = Run.unwrap (pattern X m.data) := by
  obtain ⟨off, data⟩ := m
  cases data <;> rfl

theorem bytesMatch_eq (X : Codecs) (m : MemcmpFilter) (d : Bytes) :
    m.bytesMatch X d = (do let p ← Run.unwrap (pattern X m.data); windowMatch m.offset p d) := by
  obtain ⟨off, data⟩ := m
  cases data <;> rfl

theorem allows_ok (X : Codecs) (f : AccountFilterType) (d : Bytes) (h : WellFormed X f) :
    ∃ b, f.allows X d = .ok b ∧ (b = true ↔ Allows X f d) := by
  cases f with
  | datasize n => exact ⟨_, rfl, by simp [Allows]⟩
  | memcmp m =>
    simp only [WellFormed, Option.isSome_iff_exists] at h
    obtain ⟨pat, hp⟩ := h
    obtain ⟨b, hb, hw⟩ := windowMatch_ok m.offset pat d
    refine ⟨b, by simp [AccountFilterType.allows, bytesMatch_eq, hp, hb], ?_⟩
    simp [Allows, hp, hw]

/-- Classical truth value of `Allows`. -/
noncomputable def allowsB (X : Codecs) (f : AccountFilterType) (d : Bytes) : Bool :=
  @decide (Allows X f d) (Classical.propDecidable _)

theorem allowsB_iff (X : Codecs) (f : AccountFilterType) (d : Bytes) :
    allowsB X f d = true ↔ Allows X f d := by simp [allowsB]

theorem allows_eq (X : Codecs) (f : AccountFilterType) (d : Bytes) (h : WellFormed X f) :
    f.allows X d = .ok (allowsB X f d) := by
  obtain ⟨b, hb, hw⟩ := allows_ok X f d h
  rw [hb]; congr 1
  rw [Bool.eq_iff_iff, hw, allowsB_iff]

theorem data_eq (X : Codecs) (d : Data) : d.data X = Run.unwrap (contents X d) := by
  cases d <;> rfl

/-! ## The derived order is a strict total order -/

theorem AccountFilterType.key_inj {a b : AccountFilterType} (h : a.key = b.key) : a = b := by
  have hmap : ∀ s t : Bytes, s.map UInt8.toNat = t.map UInt8.toNat → s = t := by
    intro s
    induction s with
    | nil => intro t; cases t <;> simp
    | cons x xs ih =>
      intro t
      cases t with
      | nil => simp
      | cons y ys =>
        simp only [List.map_cons, List.cons.injEq]
        rintro ⟨h1, h2⟩
        exact ⟨UInt8.toNat_inj.1 h1, ih ys h2⟩
  rcases a with n | ⟨o, d | d | d⟩ <;> rcases b with n' | ⟨o', d' | d' | d'⟩ <;>
    simp [AccountFilterType.key] at h ⊢ <;> first | exact h | (obtain ⟨h1, h2⟩ := h; exact ⟨h1, hmap _ _ h2⟩)

theorem AccountFilterType.lt_strict : StrictTotal AccountFilterType.lt := by
  refine ⟨fun a => ?_, fun a b c => ?_, fun a b h1 h2 => ?_⟩
  · simp [AccountFilterType.lt, List.lt_irrefl]
  · simp only [AccountFilterType.lt, decide_eq_true_eq]; exact List.lt_trans
  · simp only [AccountFilterType.lt, decide_eq_false_iff_not] at h1 h2
    exact AccountFilterType.key_inj (List.le_antisymm h2 h1)

theorem FSet.mem_collect (l : List AccountFilterType) (x : AccountFilterType) :
    x ∈ FSet.collect l ↔ x ∈ l := mem_scollect AccountFilterType.lt_strict l x

theorem FSet.sorted_collect (l : List AccountFilterType) :
    SSorted AccountFilterType.lt (FSet.collect l) := sorted_scollect AccountFilterType.lt_strict l

theorem FSet.collect_sorted (l : List AccountFilterType) (h : SSorted AccountFilterType.lt l) :
    FSet.collect l = l := scollect_of_sorted AccountFilterType.lt_strict l h

theorem prefixMatches_iff (q stored : FSet) (hq : SSorted AccountFilterType.lt q) :
    prefixMatches q stored = true ↔ ∃ rest, q = stored ++ rest := by
  have htake : SSorted AccountFilterType.lt (q.take stored.length) := List.Pairwise.take hq
  unfold prefixMatches
  constructor
  · intro h
    split at h
    · rw [FSet.collect_sorted _ htake, beq_iff_eq] at h
      exact ⟨q.drop stored.length, by conv => lhs; rw [← List.take_append_drop stored.length q, h]⟩
    · simp at h
  · rintro ⟨rest, rfl⟩
    rw [FSet.collect_sorted _ htake]; simp

/-! ## Re-encoding -/

theorem toBytes_ok (X : Codecs) (f : AccountFilterType) (h : WellFormed X f) :
    ∃ g, f.toBytes X = .ok g ∧ WellFormed X g ∧ ∀ d, Allows X g d ↔ Allows X f d := by
  cases f with
  | datasize n => exact ⟨_, rfl, trivial, fun _ => Iff.rfl⟩
  | memcmp m =>
    obtain ⟨off, data⟩ := m
    cases data with
    | bytes b => exact ⟨_, rfl, h, fun _ => Iff.rfl⟩
    | base58 s =>
      simp only [WellFormed, pattern, Option.isSome_iff_exists] at h
      obtain ⟨p, hp⟩ := h
      refine ⟨.memcmp ⟨off, .bytes p⟩, by simp [AccountFilterType.toBytes, MemcmpFilter.bytes, hp], by simp [WellFormed, pattern], ?_⟩
      intro d; simp [Allows, pattern, hp]
    | base64 s =>
      simp only [WellFormed, pattern, Option.isSome_iff_exists] at h
      obtain ⟨p, hp⟩ := h
      refine ⟨.memcmp ⟨off, .bytes p⟩, by simp [AccountFilterType.toBytes, MemcmpFilter.bytes, hp], by simp [WellFormed, pattern], ?_⟩
      intro d; simp [Allows, pattern, hp]

theorem mapToBytes_ok (X : Codecs) (l : List AccountFilterType) (h : ∀ x ∈ l, WellFormed X x) :
    ∃ l', mapRun (AccountFilterType.toBytes X) l = .ok l' ∧ (∀ x ∈ l', WellFormed X x) ∧
      ∀ d, (∀ x ∈ l', Allows X x d) ↔ (∀ x ∈ l, Allows X x d) := by
  induction l with
  | nil => exact ⟨[], rfl, by simp, by simp⟩
  | cons x xs ih =>
    obtain ⟨g, hg, hw, ha⟩ := toBytes_ok X x (h x (by simp))
    obtain ⟨l', hl, hw', ha'⟩ := ih (fun y hy => h y (by simp [hy]))
    refine ⟨g :: l', by simp [mapRun, hg, hl], ?_, ?_⟩
    · simp; exact ⟨hw, hw'⟩
    · intro d; simp [ha, ha']

/-- A set stored for a program stands for a filter list added for it. -/
def Stands (X : Codecs) (set : FSet) (l : List AccountFilterType) : Prop :=
  (∀ x ∈ set, WellFormed X x) ∧ ∀ d, (∀ x ∈ set, Allows X x d) ↔ (∀ x ∈ l, Allows X x d)

/-- What the store's maps mean in terms of the filters added so far. -/
structure Rep (X : Codecs) (fs : List AccountFilter) (s : SimpleFilterStore) : Prop where
  accounts : ∀ pk, s.accounts pk = true ↔ ∃ f ∈ fs, pk ∈ f.accounts
  absent : ∀ p, s.programs p = none → ∀ f ∈ fs, f.programId ≠ some p
  allowed : ∀ p, s.programs p = some .allowAll → ∃ f ∈ fs, f.programId = some p ∧ f.filters = none
  listed : ∀ p L, s.programs p = some (.byFilterType L) →
    (∀ f ∈ fs, f.programId = some p → ∃ l, f.filters = some l ∧ ∃ set ∈ L, Stands X set l) ∧
    (∀ set ∈ L, ∃ f ∈ fs, f.programId = some p ∧ ∃ l, f.filters = some l ∧ Stands X set l)

theorem rep_empty (X : Codecs) : Rep X [] SimpleFilterStore.empty :=
  ⟨by simp [SimpleFilterStore.empty], by simp, by simp [SimpleFilterStore.empty],
   by simp [SimpleFilterStore.empty]⟩

theorem stands_collect (X : Codecs) (l : List AccountFilterType) (h : ∀ x ∈ l, WellFormed X x) :
    Stands X (FSet.collect l) l := by
  refine ⟨fun x hx => h x ((FSet.mem_collect l x).1 hx), fun d => ?_⟩
  simp [FSet.mem_collect]

theorem addFilter_rep (X : Codecs) (fs : List AccountFilter) (s : SimpleFilterStore)
    (f : AccountFilter) (hf : FilterWellFormed X f) (hr : Rep X fs s) :
    ∃ s', s.addFilter X f = .ok s' ∧ Rep X (fs ++ [f]) s' := by
  have hacc : ∀ pk, (s.accounts pk || f.accounts.contains pk) = true ↔
      ∃ g ∈ fs ++ [f], pk ∈ g.accounts := by
    intro pk
    simp [hr.accounts]
  cases hp : f.programId with
  | none =>
    refine ⟨_, by simp only [SimpleFilterStore.addFilter, hp]; rfl, ?_⟩
    refine ⟨hacc, ?_, ?_, ?_⟩
    · intro p hn g hg
      rcases List.mem_append.1 hg with hg | hg
      · exact hr.absent p hn g hg
      · simp at hg; subst hg; simp [hp]
    · intro p hn
      obtain ⟨g, hg, h1⟩ := hr.allowed p hn
      exact ⟨g, by simp [hg], h1⟩
    · intro p L hn
      obtain ⟨h1, h2⟩ := hr.listed p L hn
      refine ⟨?_, ?_⟩
      · intro g hg hgp
        rcases List.mem_append.1 hg with hg | hg
        · exact h1 g hg hgp
        · simp at hg; subst hg; simp [hp] at hgp
      · intro set hset
        obtain ⟨g, hg, h3⟩ := h2 set hset
        exact ⟨g, by simp [hg], h3⟩
  | some p =>
    -- the filters stored for `p` afterwards
    have key : ∃ pf, programFilters X (s.programs p) f.filters = .ok pf ∧
        (pf = .allowAll → ∃ g ∈ fs ++ [f], g.programId = some p ∧ g.filters = none) ∧
        (∀ L, pf = .byFilterType L →
          (∀ g ∈ fs ++ [f], g.programId = some p → ∃ l, g.filters = some l ∧ ∃ set ∈ L, Stands X set l) ∧
          (∀ set ∈ L, ∃ g ∈ fs ++ [f], g.programId = some p ∧ ∃ l, g.filters = some l ∧ Stands X set l)) := by
      cases hs : s.programs p with
      | none =>
        have hno := hr.absent p hs
        cases hfl : f.filters with
        | none =>
          refine ⟨.allowAll, rfl, fun _ => ⟨f, by simp, hp, hfl⟩, by simp⟩
        | some l =>
          obtain ⟨l', hl', hw, ha⟩ := mapToBytes_ok X l (hf l hfl)
          have hst : Stands X (FSet.collect l') l := by
            have := stands_collect X l' hw
            exact ⟨this.1, fun d => (this.2 d).trans (ha d)⟩
          refine ⟨.byFilterType [FSet.collect l'], by simp [programFilters, firstFilters, hl'], by simp, ?_⟩
          intro L hL
          simp at hL; subst hL
          refine ⟨?_, ?_⟩
          · intro g hg hgp
            rcases List.mem_append.1 hg with hg | hg
            · exact absurd hgp (hno g hg)
            · simp at hg; subst hg
              exact ⟨l, hfl, _, by simp, hst⟩
          · intro set hset
            simp at hset; subst hset
            exact ⟨f, by simp, hp, l, hfl, hst⟩
      | some cur =>
        cases cur with
        | allowAll =>
          refine ⟨.allowAll, by simp [programFilters, mergeFilters], fun _ => ?_, by simp⟩
          obtain ⟨g, hg, h1⟩ := hr.allowed p hs
          exact ⟨g, by simp [hg], h1⟩
        | byFilterType cur =>
          obtain ⟨h1, h2⟩ := hr.listed p cur hs
          cases hfl : f.filters with
          | none =>
            exact ⟨.allowAll, by simp [programFilters, mergeFilters], fun _ => ⟨f, by simp, hp, hfl⟩, by simp⟩
          | some l =>
            have hst := stands_collect X l (hf l hfl)
            refine ⟨.byFilterType (cur ++ [FSet.collect l]), by simp [programFilters, mergeFilters], by simp, ?_⟩
            intro L hL
            simp at hL; subst hL
            refine ⟨?_, ?_⟩
            · intro g hg hgp
              rcases List.mem_append.1 hg with hg | hg
              · obtain ⟨l2, hl2, set, hset, hs2⟩ := h1 g hg hgp
                exact ⟨l2, hl2, set, by simp [hset], hs2⟩
              · simp at hg; subst hg
                exact ⟨l, hfl, _, by simp, hst⟩
            · intro set hset
              rcases List.mem_append.1 hset with hset | hset
              · obtain ⟨g, hg, h3⟩ := h2 set hset
                exact ⟨g, by simp [hg], h3⟩
              · simp at hset; subst hset
                exact ⟨f, by simp, hp, l, hfl, hst⟩
    obtain ⟨pf, hpf, hall, hsome⟩ := key
    refine ⟨{ accounts := fun pk => s.accounts pk || f.accounts.contains pk,
              programs := fun q => if q = p then some pf else s.programs q }, ?_, ?_⟩
    · simp [SimpleFilterStore.addFilter, hp, hpf]
    · refine ⟨hacc, ?_, ?_, ?_⟩
      · intro q hq g hg
        by_cases hqp : q = p
        · simp [hqp] at hq
        · simp only [hqp, if_false] at hq
          rcases List.mem_append.1 hg with hg | hg
          · exact hr.absent q hq g hg
          · simp at hg; subst hg; rw [hp]; simpa using Ne.symm hqp
      · intro q hq
        by_cases hqp : q = p
        · subst hqp; simp at hq; exact hall hq
        · simp only [hqp, if_false] at hq
          obtain ⟨g, hg, h1⟩ := hr.allowed q hq
          exact ⟨g, by simp [hg], h1⟩
      · intro q L hq
        by_cases hqp : q = p
        · subst hqp; simp at hq; exact hsome L hq
        · simp only [hqp, if_false] at hq
          obtain ⟨h1, h2⟩ := hr.listed q L hq
          refine ⟨?_, ?_⟩
          · intro g hg hgp
            rcases List.mem_append.1 hg with hg | hg
            · exact h1 g hg hgp
            · simp at hg; subst hg; rw [hp] at hgp; simp at hgp; exact absurd hgp.symm hqp
          · intro set hset
            obtain ⟨g, hg, h3⟩ := h2 set hset
            exact ⟨g, by simp [hg], h3⟩

theorem addFilters_rep (X : Codecs) (gs : List AccountFilter) : ∀ (fs : List AccountFilter)
    (s : SimpleFilterStore), (∀ f ∈ gs, FilterWellFormed X f) → Rep X fs s →
    ∃ s', s.addFilters X gs = .ok s' ∧ Rep X (fs ++ gs) s' := by
  induction gs with
  | nil => intro fs s _ hr; exact ⟨s, rfl, by simpa using hr⟩
  | cons g gs ih =>
    intro fs s hw hr
    obtain ⟨s1, h1, hr1⟩ := addFilter_rep X fs s g (hw g (by simp)) hr
    obtain ⟨s2, h2, hr2⟩ := ih (fs ++ [g]) s1 (fun f hf => hw f (by simp [hf])) hr1
    exact ⟨s2, by simp [SimpleFilterStore.addFilters, h1, h2], by simpa using hr2⟩

theorem satisfies_of_rep (X : Codecs) (fs : List AccountFilter) (s : SimpleFilterStore)
    (hr : Rep X fs s) (a : AccountData) (d : Bytes) (hd : contents X a.account.data = some d) :
    ∃ b, s.satisfies X a = .ok b ∧ (b = true ↔ ∃ f ∈ fs, Matches X f a d) := by
  unfold SimpleFilterStore.satisfies
  by_cases hacc : s.accounts a.pubkey = true
  · refine ⟨true, by simp [hacc], ?_⟩
    obtain ⟨f, hf, hpk⟩ := (hr.accounts _).1 hacc
    simp; exact ⟨f, hf, Or.inl hpk⟩
  · have hno : ∀ f ∈ fs, a.pubkey ∉ f.accounts := by
      intro f hf hpk; exact hacc ((hr.accounts _).2 ⟨f, hf, hpk⟩)
    rw [if_neg hacc]
    cases hp : s.programs a.account.owner with
    | none =>
      refine ⟨false, rfl, ?_⟩
      simp
      intro f hf hm
      rcases hm with h | ⟨h, _⟩
      · exact hno f hf h
      · exact hr.absent _ hp f hf h
    | some pf =>
      cases pf with
      | allowAll =>
        refine ⟨true, rfl, ?_⟩
        obtain ⟨f, hf, h1, h2⟩ := hr.allowed _ hp
        simp; exact ⟨f, hf, Or.inr ⟨h1, by simp [h2]⟩⟩
      | byFilterType L =>
        obtain ⟨h1, h2⟩ := hr.listed _ L hp
        have hall : ∀ set ∈ L, Run.allM (fun x => do
            let d ← a.account.data.data X; AccountFilterType.allows X x d) set
            = .ok (set.all (fun x => allowsB X x d)) := by
          intro set hset
          obtain ⟨f, hf, hfp, l, hl, hst⟩ := h2 set hset
          refine Run.allM_ok _ _ _ fun x hx => ?_
          simp [data_eq, hd, allows_eq X x d (hst.1 x hx)]
        refine ⟨_, Run.anyM_ok _ _ _ hall, ?_⟩
        simp only [List.any_eq_true, List.all_eq_true, allowsB_iff]
        constructor
        · rintro ⟨set, hset, hx⟩
          obtain ⟨f, hf, hfp, l, hl, hst⟩ := h2 set hset
          refine ⟨f, hf, Or.inr ⟨hfp, fun l' hl' => ?_⟩⟩
          rw [hl] at hl'; simp at hl'; subst hl'
          exact (hst.2 d).1 hx
        · rintro ⟨f, hf, hm⟩
          rcases hm with hm | ⟨hfp, hm⟩
          · exact absurd hm (hno f hf)
          · obtain ⟨l, hl, set, hset, hst⟩ := h1 f hf hfp
            exact ⟨set, hset, (hst.2 d).2 (hm l hl)⟩

theorem contains_of_rep (X : Codecs) (fs : List AccountFilter) (s : SimpleFilterStore)
    (hr : Rep X fs s) (q : AccountFilter) (hq : s.containsFilter q = true)
    (a : AccountData) (d : Bytes) (hm : Matches X q a d) : ∃ f ∈ fs, Matches X f a d := by
  simp only [SimpleFilterStore.containsFilter, Bool.and_eq_true, List.all_eq_true] at hq
  obtain ⟨hacc, hprog⟩ := hq
  rcases hm with hm | ⟨hp, hm⟩
  · obtain ⟨f, hf, h1⟩ := (hr.accounts _).1 (hacc _ hm)
    exact ⟨f, hf, Or.inl h1⟩
  · rw [hp] at hprog
    cases hs : s.programs a.account.owner with
    | none => simp [hs] at hprog
    | some pf =>
      cases pf with
      | allowAll =>
        obtain ⟨f, hf, h1, h2⟩ := hr.allowed _ hs
        exact ⟨f, hf, Or.inr ⟨h1, by simp [h2]⟩⟩
      | byFilterType L =>
        simp only [hs] at hprog
        cases hl : q.filters with
        | none => simp [hl] at hprog
        | some l =>
          simp only [hl, List.any_eq_true] at hprog
          obtain ⟨set, hset, hpre⟩ := hprog
          rw [prefixMatches_iff _ _ (FSet.sorted_collect l)] at hpre
          obtain ⟨rest, hrest⟩ := hpre
          obtain ⟨f, hf, hfp, l2, hl2, hst⟩ := (hr.listed _ L hs).2 set hset
          refine ⟨f, hf, Or.inr ⟨hfp, fun l' hl' => ?_⟩⟩
          rw [hl2] at hl'; simp at hl'; subst hl'
          refine (hst.2 d).1 fun x hx => hm l hl x ?_
          rw [← FSet.mem_collect, hrest]; simp [hx]

end LAM
