import Verif.Spec.FilterJson
/-!
# Property C07: JSON round-trip of account filters
-/
namespace LAM.Props
open Spec

/-- Numbers of the filter are `u64`s, as in the Rust type. -/
def FilterFits (f : AccountFilter) : Prop :=
  ∀ l, f.filters = some l → ∀ x ∈ l, match x with
    | .datasize n => n < 2 ^ 64
    | .memcmp m => m.offset < 2 ^ 64

theorem mapOpt_map (f : α → β) (g : β → Option α) (l : List α) (h : ∀ x ∈ l, g (f x) = some x) :
    mapOpt g (l.map f) = some l := by
  induction l with
  | nil => rfl
  | cons x xs ih =>
    simp [mapOpt, h x (by simp), ih (fun y hy => h y (by simp [hy]))]

theorem mapRun_map (f : α → β) (g : β → Run α) (l : List α) (h : ∀ x ∈ l, g (f x) = .ok x) :
    mapRun g (l.map f) = .ok l := by
  induction l with
  | nil => rfl
  | cons x xs ih =>
    simp [mapRun, h x (by simp), ih (fun y hy => h y (by simp [hy]))]

theorem memcmpData_json (d : MemcmpData) : MemcmpData.ofJson d.toJson = some d := by
  cases d with
  | bytes b =>
    simp only [MemcmpData.toJson, MemcmpData.ofJson]
    rw [mapOpt_map]
    · rfl
    · intro x _
      have : x.toNat < 256 := x.toNat_lt
      simp [Json.asU8, this]
  | base58 s => rfl
  | base64 s => rfl

theorem filterType_json (f : AccountFilterType)
    (h : match f with | .datasize n => n < 2 ^ 64 | .memcmp m => m.offset < 2 ^ 64) :
    AccountFilterType.ofJson f.toJson = some f := by
  cases f with
  | datasize n => simp_all [AccountFilterType.toJson, AccountFilterType.ofJson, Json.asU64]
  | memcmp m =>
    obtain ⟨off, d⟩ := m
    simp only at h
    simp [AccountFilterType.toJson, AccountFilterType.ofJson, MemcmpFilter.toJson,
      MemcmpFilter.ofJson, Json.get, List.lookup, Json.asU64, h, memcmpData_json]

/-- **C07**. Deserialising a serialised filter gives it back, whatever parts are present. -/
theorem C07_json_roundtrip (T : PkText) (hT : T.Lawful) (f : AccountFilter) (hf : FilterFits f) :
    AccountFilter.ofJson T (f.toJson T) = .ok f := by
  have hpk : ∀ pk, pkOfJson T (.str (T.toStr pk)) = .ok pk := by
    intro pk; simp [pkOfJson, Json.asStr, hT pk]
  have hacc : ∀ l : List Pubkey, mapRun (pkOfJson T) (l.map fun pk => .str (T.toStr pk)) = .ok l :=
    fun l => mapRun_map _ _ l (fun x _ => hpk x)
  have hfil : ∀ l, f.filters = some l → mapOpt AccountFilterType.ofJson (l.map AccountFilterType.toJson) = some l :=
    fun l hl => mapOpt_map _ _ l (fun x hx => filterType_json x (hf l hl x hx))
  obtain ⟨accounts, programId, filters⟩ := f
  simp only at hfil
  have keyA : accountsOfJson T (AccountFilter.toJson T ⟨accounts, programId, filters⟩) = .ok accounts := by
    cases accounts with
    | nil => cases programId <;> cases filters <;> rfl
    | cons a as =>
      have := hacc (a :: as)
      simpa [accountsOfJson, AccountFilter.toJson, Json.get, List.lookup] using this
  have keyP : programOfJson T (AccountFilter.toJson T ⟨accounts, programId, filters⟩) = .ok programId := by
    cases accounts <;> cases programId <;> cases filters <;>
      simp [programOfJson, AccountFilter.toJson, Json.get, List.lookup, hpk]
  have keyF : subFiltersOfJson (AccountFilter.toJson T ⟨accounts, programId, filters⟩) = .ok filters := by
    cases filters with
    | none => cases accounts <;> cases programId <;> rfl
    | some l =>
      have := hfil l rfl
      cases accounts <;> cases programId <;>
        simp [subFiltersOfJson, AccountFilter.toJson, Json.get, List.lookup, filtersOfJson, this]
  simp [AccountFilter.ofJson, keyA, keyP, keyF]

/-- The assumed law is satisfiable (pubkey text = its bytes) and a full filter round-trips. -/
example : let T : PkText := ⟨fun pk => pk.bytes, fun s => if h : s.length = 32 then some ⟨s, h⟩ else none⟩
    T.Lawful ∧ FilterFits ⟨[Pubkey.fill 3], some (Pubkey.fill 4),
      some [.datasize 7, .memcmp ⟨2 ^ 64 - 1, .base64 [65]⟩, .memcmp ⟨0, .bytes [255]⟩]⟩ := by
  refine ⟨fun pk => by simp [pk.size], ?_⟩
  intro l hl x hx
  simp at hl; subst hl; simp at hx
  rcases hx with rfl | rfl | rfl <;> decide

theorem each_cons {R : α → β → Prop} {a : α} {l : List α} {b : β} {m : List β} :
    Each R (a :: l) (b :: m) ↔ R a b ∧ Each R l m := by
  constructor
  · rintro ⟨h1, h2⟩
    exact ⟨h2 0 a b rfl rfl, by simpa using h1, fun i x y hx hy => h2 (i + 1) x y (by simpa using hx) (by simpa using hy)⟩
  · rintro ⟨h0, h1, h2⟩
    refine ⟨by simp [h1], ?_⟩
    intro i x y hx hy
    cases i with
    | zero => simp at hx hy; subst hx hy; exact h0
    | succ i => exact h2 i x y (by simpa using hx) (by simpa using hy)

theorem mapOpt_iff {g : α → Option β} {R : α → β → Prop} (h : ∀ a b, g a = some b ↔ R a b) :
    ∀ (l : List α) (m : List β), mapOpt g l = some m ↔ Each R l m
  | [], [] => by simp [mapOpt, Each]
  | [], b :: m => by simp [mapOpt, Each]
  | a :: l, [] => by
    simp only [mapOpt, Each, List.length_cons, List.length_nil]
    cases g a <;> cases mapOpt g l <;> simp
  | a :: l, b :: m => by
    rw [each_cons, ← h, ← mapOpt_iff h l m]
    simp only [mapOpt]
    cases g a <;> cases mapOpt g l <;> simp

theorem mapRun_iff {g : α → Run β} {R : α → β → Prop} (h : ∀ a b, g a = .ok b ↔ R a b) :
    ∀ (l : List α) (m : List β), mapRun g l = .ok m ↔ Each R l m
  | [], [] => by simp [mapRun, Each]
  | [], b :: m => by simp [mapRun, Each]
  | a :: l, [] => by
    simp only [mapRun, Each, List.length_cons, List.length_nil]
    cases g a <;> cases mapRun g l <;> simp
  | a :: l, b :: m => by
    rw [each_cons, ← h, ← mapRun_iff h l m]
    simp only [mapRun]
    cases g a <;> cases mapRun g l <;> simp

theorem get_iff (j : Json) (k : String) (v : Json) : j.get k = some v ↔ At j k v := by
  cases j <;> simp [Json.get, At]

theorem get_none (j : Json) (k : String) : j.get k = none ↔ Absent j k := by
  simp only [Absent, ← get_iff]
  cases j.get k <;> simp

theorem asU64_iff (j : Json) (n : Nat) : j.asU64 = some n ↔ j = .num n ∧ n < 2 ^ 64 := by
  cases j <;> simp [Json.asU64]
  omega

theorem bytesJson_iff : ∀ (l : List Json) (bs : Bytes), mapOpt Json.asU8 l = some bs ↔ l = bs.map (fun b => .num b.toNat)
  | [], [] => by simp [mapOpt]
  | [], b :: bs => by simp [mapOpt]
  | j :: l, [] => by
    simp only [mapOpt]
    cases j.asU8 <;> cases mapOpt Json.asU8 l <;> simp
  | j :: l, b :: bs => by
    have h1 : j.asU8 = some b ↔ j = .num b.toNat := by
      cases j with
      | num n =>
        simp only [Json.asU8]
        have hb := b.toNat_lt
        constructor
        · intro h
          split at h
          · rename_i hn
            simp only [Option.some.injEq] at h
            subst h
            simp [Nat.mod_eq_of_lt hn]
          · simp at h
        · intro h
          cases h
          simp [hb]
      | _ => simp [Json.asU8]
    rw [List.map_cons, List.cons.injEq, ← bytesJson_iff l bs, ← h1]
    simp only [mapOpt]
    cases j.asU8 <;> cases mapOpt Json.asU8 l <;> simp

theorem pattern_iff (j : Json) (d : MemcmpData) : MemcmpData.ofJson j = some d ↔ PatternJson j d := by
  constructor
  · intro h
    unfold MemcmpData.ofJson at h
    split at h
    · rename_i l
      simp only [Option.map_eq_some_iff] at h
      obtain ⟨bs, h1, rfl⟩ := h
      rw [(bytesJson_iff l bs).1 h1]
      exact .bytes bs
    · cases h; exact .base58 _
    · cases h; exact .base64 _
    · simp at h
  · rintro (bs | s | s)
    · simp [MemcmpData.ofJson, (bytesJson_iff _ bs).2 rfl]
    · rfl
    · rfl

theorem subFilter_iff (j : Json) (f : AccountFilterType) : AccountFilterType.ofJson j = some f ↔ SubFilterJson j f := by
  constructor
  · intro h
    unfold AccountFilterType.ofJson at h
    split at h
    · simp only [Option.map_eq_some_iff] at h
      obtain ⟨n, h1, rfl⟩ := h
      obtain ⟨rfl, h2⟩ := (asU64_iff _ _).1 h1
      exact .datasize n h2
    · simp only [Option.map_eq_some_iff] at h
      obtain ⟨m, h1, rfl⟩ := h
      unfold MemcmpFilter.ofJson at h1
      simp only at h1
      split at h1
      · simp only [bind, Option.bind_eq_some_iff, pure, Option.some.injEq] at h1
        obtain ⟨o, ho, d, hd, rfl⟩ := h1
        obtain ⟨rfl, h2⟩ := (asU64_iff _ _).1 ho
        exact .memcmpArray _ o d h2 ((pattern_iff _ _).1 hd)
      · simp at h1
      · simp only [bind, Option.bind_eq_some_iff, pure, Option.some.injEq] at h1
        obtain ⟨oj, hoj, dj, hdj, o, ho, d, hd, rfl⟩ := h1
        obtain ⟨rfl, h2⟩ := (asU64_iff _ _).1 ho
        exact .memcmp _ dj o d h2 ((get_iff _ _ _).1 hoj) ((get_iff _ _ _).1 hdj) ((pattern_iff _ _).1 hd)
    · simp at h
  · rintro (⟨n, h⟩ | ⟨j, dj, o, d, h1, h2, h3, h4⟩ | ⟨dj, o, d, h1, h2⟩)
    · simp [AccountFilterType.ofJson, Json.asU64, h]
    · have e1 := (get_iff _ _ _).2 h2
      have e2 := (get_iff _ _ _).2 h3
      obtain ⟨l, rfl, -⟩ := h2
      simp [AccountFilterType.ofJson, MemcmpFilter.ofJson, e1, e2, Json.asU64, h1, (pattern_iff _ _).2 h4]
    · simp [AccountFilterType.ofJson, MemcmpFilter.ofJson, Json.asU64, h1, (pattern_iff _ _).2 h2]

theorem key_iff (T : PkText) (j : Json) (pk : Pubkey) : pkOfJson T j = .ok pk ↔ KeyJson T j pk := by
  cases j <;> simp [pkOfJson, Json.asStr, KeyJson, Run.unwrap]
  rename_i s
  cases T.ofStr s <;> simp

/-- **C07**. Which JSON is read as which filter: exactly the JSON of the form given in `FilterJson`; everything else panics. -/
theorem C07_reads_iff (T : PkText) (j : Json) :
    (∀ f, AccountFilter.ofJson T j = .ok f ↔ FilterJson T j f) ∧
      (AccountFilter.ofJson T j = .panic ∨ ∃ f, AccountFilter.ofJson T j = .ok f) := by
  have hA : ∀ as, accountsOfJson T j = .ok as ↔ ((∃ l, At j "accounts" (.arr l) ∧ Each (KeyJson T) l as) ∨
      ((∀ l, ¬ At j "accounts" (.arr l)) ∧ as = [])) := by
    intro as
    simp only [accountsOfJson, ← get_iff]
    cases h : j.get "accounts" with
    | none => simp [eq_comm]
    | some v =>
      cases v <;> simp [eq_comm]
      exact mapRun_iff (key_iff T) _ _
  have hP : ∀ p, programOfJson T j = .ok p ↔ ((Absent j "programId" ∧ p = none) ∨
      ∃ v pk, At j "programId" v ∧ KeyJson T v pk ∧ p = some pk) := by
    intro p
    simp only [programOfJson, ← get_iff, ← get_none, ← key_iff]
    cases h : j.get "programId" with
    | none => simp [eq_comm]
    | some v => cases hk : pkOfJson T v <;> simp [hk, eq_comm]
  have hF : ∀ fs, subFiltersOfJson j = .ok fs ↔ (((Absent j "filters" ∨ At j "filters" .null) ∧ fs = none) ∨
      ∃ l gs, At j "filters" (.arr l) ∧ Each SubFilterJson l gs ∧ fs = some gs) := by
    intro fs
    simp only [subFiltersOfJson, ← get_iff, ← get_none]
    cases h : j.get "filters" with
    | none => simp [eq_comm]
    | some v =>
      cases v with
      | null => simp [filtersOfJson, Run.unwrap, eq_comm]
      | arr l =>
        simp only [filtersOfJson, ← mapOpt_iff subFilter_iff]
        cases hm : mapOpt AccountFilterType.ofJson l with
        | none => simp [Run.unwrap, hm]
        | some x => simp [Run.unwrap, hm, eq_comm]
      | _ => simp [filtersOfJson, Run.unwrap]
  refine ⟨?_, ?_⟩
  · rintro ⟨as, p, fs⟩
    constructor
    · intro h
      simp only [AccountFilter.ofJson, Run.bind_eq_ok, Run.pure_eq, Run.ok.injEq, AccountFilter.mk.injEq] at h
      obtain ⟨a, h1, q, h2, g, h3, rfl, rfl, rfl⟩ := h
      exact ⟨(hA _).1 h1, (hP _).1 h2, (hF _).1 h3⟩
    · rintro ⟨h1, h2, h3⟩
      simp [AccountFilter.ofJson, (hA _).2 h1, (hP _).2 h2, (hF _).2 h3]
  · have hm : ∀ l, mapRun (pkOfJson T) l = .panic ∨ ∃ f, mapRun (pkOfJson T) l = .ok f := by
      intro l
      induction l with
      | nil => exact .inr ⟨[], rfl⟩
      | cons x l ih =>
        have hk : pkOfJson T x = .panic ∨ ∃ k, pkOfJson T x = .ok k := by
          cases x <;> simp [pkOfJson, Json.asStr, Run.unwrap]
          rename_i s
          cases T.ofStr s <;> simp
        rcases hk with hk | ⟨k, hk⟩
        · simp [mapRun, hk]
        · rcases ih with ih | ⟨f, ih⟩ <;> simp [mapRun, hk, ih]
    have e1 : accountsOfJson T j = .panic ∨ ∃ f, accountsOfJson T j = .ok f := by
      unfold accountsOfJson
      split
      · exact hm _
      · simp
      · simp
    have e2 : programOfJson T j = .panic ∨ ∃ f, programOfJson T j = .ok f := by
      unfold programOfJson
      split
      · rename_i v _
        have := hm [v]
        simp only [mapRun] at this
        cases hk : pkOfJson T v <;> simp_all
      · simp
    have e3 : subFiltersOfJson j = .panic ∨ ∃ f, subFiltersOfJson j = .ok f := by
      unfold subFiltersOfJson
      split
      · rename_i v _
        cases filtersOfJson v <;> simp [Run.unwrap]
      · simp
    rcases e1 with e1 | ⟨x, e1⟩ <;> rcases e2 with e2 | ⟨y, e2⟩ <;> rcases e3 with e3 | ⟨z, e3⟩ <;>
      simp [AccountFilter.ofJson, e1, e2, e3]

/-- Accounts that are not an array and filters that are null read as absent. -/
example : AccountFilter.ofJson ⟨fun pk => pk.bytes, fun _ => none⟩
    (.obj [("accounts", .null), ("filters", .null)]) = .ok ⟨[], none, none⟩ := rfl

/-- "Malformed JSON is reported, not a crash" is false: a numeric account entry panics. -/
theorem C07_malformed_json_panics (T : PkText) :
    AccountFilter.ofJson T (.obj [("accounts", .arr [.num 1])]) = .panic := rfl

end LAM.Props
