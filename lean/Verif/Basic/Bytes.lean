import Verif.Model.Types
/-!
# Little-endian integers and byte codecs

`Decoder α` reads a value from the front of a byte string and returns the rest.  `Exact enc dec ok` says
that `dec` accepts exactly the encodings of the values satisfying `ok`, followed by anything.
-/
namespace LAM

/-- The low `k` bytes of `n`, least significant first. -/
def leBytes : Nat → Nat → Bytes
  | 0, _ => []
  | k + 1, n => UInt8.ofNat n :: leBytes k (n / 256)

/-- The number written least significant byte first. -/
def leNat : Bytes → Nat
  | [] => 0
  | b :: bs => b.toNat + 256 * leNat bs

@[simp] theorem length_leBytes (k n : Nat) : (leBytes k n).length = k := by
  induction k generalizing n with
  | zero => rfl
  | succ k ih => simp [leBytes, ih]

theorem leNat_leBytes (k n : Nat) : leNat (leBytes k n) = n % 256 ^ k := by
  induction k generalizing n with
  | zero => simp [leBytes, leNat, Nat.mod_one]
  | succ k ih =>
    simp only [leBytes, leNat, ih]
    rw [Nat.pow_succ', Nat.mod_mul]
    simp

theorem leNat_leBytes_of_lt {k n : Nat} (h : n < 256 ^ k) : leNat (leBytes k n) = n := by
  rw [leNat_leBytes, Nat.mod_eq_of_lt h]

theorem leNat_lt (bs : Bytes) : leNat bs < 256 ^ bs.length := by
  induction bs with
  | nil => simp [leNat]
  | cons b bs ih =>
    have hb : b.toNat < 256 := by simpa using b.toNat_lt
    simp only [leNat, List.length_cons, Nat.pow_succ']
    omega

theorem leBytes_leNat (bs : Bytes) : leBytes bs.length (leNat bs) = bs := by
  induction bs with
  | nil => rfl
  | cons b bs ih =>
    have hb : b.toNat < 256 := by simpa using b.toNat_lt
    simp only [List.length_cons, leBytes, leNat]
    have h1 : (b.toNat + 256 * leNat bs) / 256 = leNat bs := by omega
    rw [h1, ih]
    congr 1
    apply UInt8.toNat_inj.1
    simp

theorem leBytes_inj {k a b : Nat} (ha : a < 256 ^ k) (hb : b < 256 ^ k)
    (h : leBytes k a = leBytes k b) : a = b := by
  rw [← leNat_leBytes_of_lt ha, h, leNat_leBytes_of_lt hb]

/-- Reads a value from the front of the input; `none` is a decoding error. -/
abbrev Decoder (α : Type) := Bytes → Option (α × Bytes)

/-- `dec` accepts exactly the encodings of values satisfying `ok`, followed by any rest. -/
def Exact (enc : α → Bytes) (dec : Decoder α) (ok : α → Prop) : Prop :=
  ∀ bs a rest, dec bs = some (a, rest) ↔ ok a ∧ bs = enc a ++ rest

/-- The next `k` bytes. -/
def takeN (k : Nat) : Decoder Bytes := fun bs =>
  if bs.length < k then none else some (bs.take k, bs.drop k)

theorem exact_takeN (k : Nat) : Exact id (takeN k) (fun b => b.length = k) := by
  intro bs a rest
  simp only [takeN, id]
  split
  · rename_i h
    simp only [reduceCtorEq, false_iff]
    rintro ⟨rfl, rfl⟩
    simp at h
    omega
  · rename_i h
    simp only [Option.some.injEq, Prod.mk.injEq]
    constructor
    · rintro ⟨rfl, rfl⟩
      simp; omega
    · rintro ⟨rfl, rfl⟩
      simp

/-- An unsigned little-endian integer of `k` bytes. -/
def decNat (k : Nat) : Decoder Nat := fun bs => do
  let (b, rest) ← takeN k bs
  return (leNat b, rest)

theorem exact_nat (k : Nat) : Exact (leBytes k) (decNat k) (fun n => n < 256 ^ k) := by
  intro bs n rest
  simp only [decNat, Option.bind_eq_bind, Option.bind_eq_some_iff, Prod.exists, Option.pure_def,
    Option.some.injEq, Prod.mk.injEq]
  constructor
  · rintro ⟨b, r, h, rfl, rfl⟩
    obtain ⟨hl, rfl⟩ := (exact_takeN k _ _ _).1 h
    refine ⟨?_, ?_⟩
    · have := leNat_lt b; rwa [hl] at this
    · subst hl; simp [leBytes_leNat]
  · rintro ⟨hlt, rfl⟩
    exact ⟨leBytes k n, rest, (exact_takeN k _ _ _).2 ⟨by simp, rfl⟩, leNat_leBytes_of_lt hlt, rfl⟩

/-- A value followed by another one. -/
def decPair (d : Decoder α) (e : Decoder β) : Decoder (α × β) := fun bs => do
  let (a, bs) ← d bs
  let (b, bs) ← e bs
  return ((a, b), bs)

theorem exact_pair {enc : α → Bytes} {d : Decoder α} {p : α → Prop} {enc' : β → Bytes} {e : Decoder β}
    {q : β → Prop} (h : Exact enc d p) (h' : Exact enc' e q) :
    Exact (fun x : α × β => enc x.1 ++ enc' x.2) (decPair d e) (fun x => p x.1 ∧ q x.2) := by
  intro bs x rest
  simp only [decPair, Option.bind_eq_bind, Option.bind_eq_some_iff, Prod.exists, Option.pure_def,
    Option.some.injEq, Prod.mk.injEq]
  constructor
  · rintro ⟨a, r, ha, b, r', hb, rfl, rfl⟩
    obtain ⟨pa, rfl⟩ := (h _ _ _).1 ha
    obtain ⟨qb, rfl⟩ := (h' _ _ _).1 hb
    exact ⟨⟨pa, qb⟩, by simp⟩
  · rintro ⟨⟨pa, qb⟩, rfl⟩
    exact ⟨x.1, enc' x.2 ++ rest, (h _ _ _).2 ⟨pa, by simp⟩, x.2, rest, (h' _ _ _).2 ⟨qb, rfl⟩, rfl, rfl⟩

/-- Convert between a value and the form it is stored in; `f` may reject. -/
def decMap (d : Decoder α) (f : α → Option β) : Decoder β := fun bs => do
  let (a, bs) ← d bs
  let b ← f a
  return (b, bs)

theorem exact_map {enc : α → Bytes} {d : Decoder α} {p : α → Prop} (h : Exact enc d p) (f : α → Option β)
    (g : β → α) (hfg : ∀ a b, p a → (f a = some b ↔ a = g b ∧ f (g b) = some b)) :
    Exact (fun b => enc (g b)) (decMap d f) (fun b => p (g b) ∧ f (g b) = some b) := by
  intro bs b rest
  simp only [decMap, Option.bind_eq_bind, Option.bind_eq_some_iff, Prod.exists, Option.pure_def,
    Option.some.injEq, Prod.mk.injEq]
  constructor
  · rintro ⟨a, r, ha, b', hb, rfl, rfl⟩
    obtain ⟨pa, rfl⟩ := (h _ _ _).1 ha
    obtain ⟨rfl, hg⟩ := (hfg a b' pa).1 hb
    exact ⟨⟨pa, hg⟩, rfl⟩
  · rintro ⟨⟨pb, hg⟩, rfl⟩
    exact ⟨g b, rest, (h _ _ _).2 ⟨pb, rfl⟩, b, hg, rfl, rfl⟩

theorem Exact.mono {enc enc' : α → Bytes} {d : Decoder α} {p q : α → Prop} (h : Exact enc d p)
    (he : ∀ a, enc a = enc' a) (hp : ∀ a, p a ↔ q a) : Exact enc' d q := by
  intro bs a rest
  rw [h, hp, he]

/-- `n` values one after the other. -/
def decTimes (d : Decoder α) : Nat → Decoder (List α)
  | 0, bs => some ([], bs)
  | n + 1, bs => do
    let (a, bs) ← d bs
    let (l, bs) ← decTimes d n bs
    return (a :: l, bs)

theorem exact_times {enc : α → Bytes} {d : Decoder α} {p : α → Prop} (h : Exact enc d p) (n : Nat) :
    Exact (fun l => (l.map enc).flatten) (decTimes d n) (fun l => l.length = n ∧ ∀ a ∈ l, p a) := by
  induction n with
  | zero =>
    intro bs l rest
    simp only [decTimes, Option.some.injEq, Prod.mk.injEq]
    constructor
    · rintro ⟨rfl, rfl⟩; simp
    · rintro ⟨⟨hl, -⟩, rfl⟩
      have : l = [] := List.length_eq_zero_iff.1 hl
      subst this; simp
  | succ n ih =>
    intro bs l rest
    simp only [decTimes, Option.bind_eq_bind, Option.bind_eq_some_iff, Prod.exists, Option.pure_def,
      Option.some.injEq, Prod.mk.injEq]
    constructor
    · rintro ⟨a, r, ha, t, r', ht, rfl, rfl⟩
      obtain ⟨pa, rfl⟩ := (h _ _ _).1 ha
      obtain ⟨⟨hl, hp⟩, rfl⟩ := (ih _ _ _).1 ht
      refine ⟨⟨by simp [hl], ?_⟩, by simp⟩
      intro x hx
      rcases List.mem_cons.1 hx with rfl | hx
      · exact pa
      · exact hp x hx
    · rintro ⟨⟨hl, hp⟩, rfl⟩
      cases l with
      | nil => simp at hl
      | cons a t =>
        refine ⟨a, (t.map enc).flatten ++ rest, (h _ _ _).2 ⟨hp a (by simp), by simp⟩, t, rest, ?_, rfl, rfl⟩
        exact (ih _ _ _).2 ⟨⟨by simpa using hl, fun x hx => hp x (by simp [hx])⟩, rfl⟩

/-- A `Vec`: the length as `u64`, then the elements. -/
def encVec (enc : α → Bytes) (l : List α) : Bytes := leBytes 8 l.length ++ (l.map enc).flatten

/-- A `Vec`: the length as `u64`, then the elements. -/
def decVec (d : Decoder α) : Decoder (List α) := fun bs => do
  let (n, bs) ← decNat 8 bs
  decTimes d n bs

theorem exact_vec {enc : α → Bytes} {d : Decoder α} {p : α → Prop} (h : Exact enc d p) :
    Exact (encVec enc) (decVec d) (fun l => l.length < 256 ^ 8 ∧ ∀ a ∈ l, p a) := by
  intro bs l rest
  simp only [decVec, encVec, Option.bind_eq_bind, Option.bind_eq_some_iff, Prod.exists]
  constructor
  · rintro ⟨n, r, hn, ht⟩
    obtain ⟨hlt, rfl⟩ := (exact_nat 8 _ _ _).1 hn
    obtain ⟨⟨rfl, hp⟩, rfl⟩ := (exact_times h n _ _ _).1 ht
    exact ⟨⟨hlt, hp⟩, by simp⟩
  · rintro ⟨⟨hlt, hp⟩, rfl⟩
    exact ⟨l.length, (l.map enc).flatten ++ rest, (exact_nat 8 _ _ _).2 ⟨hlt, by simp⟩,
      (exact_times h _ _ _ _).2 ⟨⟨rfl, hp⟩, rfl⟩⟩

/-- What an exact codec decodes after encoding. -/
theorem Exact.roundtrip {enc : α → Bytes} {d : Decoder α} {p : α → Prop} (h : Exact enc d p) {a : α}
    (ha : p a) (rest : Bytes) : d (enc a ++ rest) = some (a, rest) := (h _ _ _).2 ⟨ha, rfl⟩

/-- An exact encoding is uniquely readable. -/
theorem Exact.unique {enc : α → Bytes} {d : Decoder α} {p : α → Prop} (h : Exact enc d p) {a b : α}
    (ha : p a) (hb : p b) {r r' : Bytes} (he : enc a ++ r = enc b ++ r') : a = b ∧ r = r' := by
  have h1 := h.roundtrip ha r
  rw [he, h.roundtrip hb r'] at h1
  simp at h1
  exact ⟨h1.1.symm, h1.2.symm⟩

/-- One byte. -/
def decByte : Decoder UInt8
  | [] => none
  | b :: bs => some (b, bs)

theorem exact_byte : Exact (fun b => [b]) decByte (fun _ => True) := by
  intro bs b rest
  cases bs with
  | nil => simp [decByte]
  | cons x xs => simp [decByte]

theorem flatten_singletons (l : Bytes) : (l.map (fun b => [b])).flatten = l := by
  induction l with
  | nil => rfl
  | cons b l ih => simp [ih]

/-- A `Vec<u8>`. -/
def encByteVec (l : Bytes) : Bytes := leBytes 8 l.length ++ l

theorem exact_byteVec : Exact encByteVec (decVec decByte) (fun l => l.length < 256 ^ 8) :=
  (exact_vec exact_byte).mono (fun l => by simp [encVec, encByteVec, flatten_singletons]) (fun l => by simp)

end LAM
