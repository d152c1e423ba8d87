import Verif.Spec.Manifest
/-!
# Reading the manifest
-/
namespace LAM.Manifest
open LAM Spec

theorem bind_ok {α β : Type} {m : Read α} {f : α → Read β} {r r' : Reader} {b : β} :
    (m >>= f) r = (.ok b, r') ↔ ∃ a r1, m r = (.ok a, r1) ∧ f a r1 = (.ok b, r') := by
  show (match m r with | (.ok a, r) => f a r | (.error e, r) => (.error e, r)) = _ ↔ _
  split
  · rename_i a r1 h
    simp only [h, Prod.mk.injEq, Except.ok.injEq]
    constructor
    · intro h'; exact ⟨_, _, ⟨rfl, rfl⟩, h'⟩
    · rintro ⟨_, _, ⟨rfl, rfl⟩, h'⟩; exact h'
  · rename_i h; simp [h]

theorem pure_ok {α : Type} {a b : α} {r r' : Reader} : (pure a : Read α) r = (.ok b, r') ↔ a = b ∧ r = r' := by
  show (Except.ok a, r) = _ ↔ _
  simp

/-- `d` reads exactly the encodings of values satisfying `ok`, and as many bytes of the limit. -/
def Reads {α : Type} (enc : α → Bytes) (d : Read α) (ok : α → Prop) : Prop :=
  ∀ r a r', d r = (.ok a, r') ↔ ok a ∧ r.bytes = enc a ++ r'.bytes ∧ r.left = (enc a).length + r'.left

theorem reads_bytes (k : Nat) : Reads id (bytes k) (fun b => b.length = k) := by
  rintro ⟨bs, n⟩ a ⟨bs', n'⟩
  simp only [bytes, id]
  split
  · rename_i h
    simp only [Prod.mk.injEq, reduceCtorEq, false_and, false_iff]
    rintro ⟨rfl, -, h2⟩
    omega
  · split
    · rename_i h h'
      simp only [Prod.mk.injEq, reduceCtorEq, false_and, false_iff]
      rintro ⟨rfl, h1, -⟩
      simp [h1] at h'
      omega
    · rename_i h h'
      simp only [Prod.mk.injEq, Except.ok.injEq, Reader.mk.injEq]
      simp only [Nat.not_lt] at h h'
      constructor
      · rintro ⟨rfl, rfl, rfl⟩
        simp; omega
      · rintro ⟨rfl, rfl, rfl⟩
        simp

theorem Reads.bind {α β γ : Type} {enc : α → Bytes} {d : Read α} {p : α → Prop} {enc' : β → Bytes} {e : Read β} {q : β → Prop}
    (h : Reads enc d p) (h' : Reads enc' e q) (f : α → β → γ) {r r' : Reader} {c : γ} :
    (d >>= fun a => e >>= fun b => pure (f a b)) r = (.ok c, r') ↔
      ∃ a b, f a b = c ∧ p a ∧ q b ∧ r.bytes = enc a ++ (enc' b ++ r'.bytes) ∧
        r.left = (enc a).length + ((enc' b).length + r'.left) := by
  simp only [bind_ok, pure_ok]
  constructor
  · rintro ⟨a, r1, h1, b, r2, h2, rfl, rfl⟩
    obtain ⟨pa, e1, e2⟩ := (h _ _ _).1 h1
    obtain ⟨qb, e3, e4⟩ := (h' _ _ _).1 h2
    exact ⟨a, b, rfl, pa, qb, by rw [e1, e3], by rw [e2, e4]⟩
  · rintro ⟨a, b, rfl, pa, qb, e1, e2⟩
    exact ⟨a, ⟨enc' b ++ r'.bytes, (enc' b).length + r'.left⟩, (h _ _ _).2 ⟨pa, e1, e2⟩, b, r', (h' _ _ _).2 ⟨qb, rfl, rfl⟩, rfl, rfl⟩

theorem reads_pair {α β : Type} {enc : α → Bytes} {d : Read α} {p : α → Prop} {enc' : β → Bytes} {e : Read β} {q : β → Prop}
    (h : Reads enc d p) (h' : Reads enc' e q) :
    Reads (fun x => enc x.1 ++ enc' x.2) (pair d e) (fun x => p x.1 ∧ q x.2) := by
  rintro r ⟨a, b⟩ r'
  rw [pair, h.bind h']
  simp only [Prod.mk.injEq, List.append_assoc, List.length_append, Nat.add_assoc]
  constructor
  · rintro ⟨a, b, ⟨rfl, rfl⟩, h1, h2, h3⟩; exact ⟨⟨h1, h2⟩, h3⟩
  · rintro ⟨⟨h1, h2⟩, h3⟩; exact ⟨a, b, ⟨rfl, rfl⟩, h1, h2, h3⟩

theorem reads_times {α : Type} {enc : α → Bytes} {d : Read α} {p : α → Prop} (h : Reads enc d p) (n : Nat) :
    Reads (fun l => l.flatMap enc) (times d n) (fun l => l.length = n ∧ ∀ a ∈ l, p a) := by
  induction n with
  | zero =>
    intro r l r'
    rw [times, pure_ok]
    constructor
    · rintro ⟨rfl, rfl⟩; simp
    · rintro ⟨⟨hl, -⟩, h1, h2⟩
      have : l = [] := List.length_eq_zero_iff.1 hl
      subst this
      cases r; cases r'
      simp_all
  | succ n ih =>
    intro r l r'
    rw [times, h.bind ih]
    constructor
    · rintro ⟨a, l, rfl, pa, ⟨hl, hp⟩, e1, e2⟩
      refine ⟨⟨by simp [hl], ?_⟩, by simp [e1], by simp only [e2, List.flatMap_cons, List.length_append]; omega⟩
      intro x hx
      rcases List.mem_cons.1 hx with rfl | hx
      · exact pa
      · exact hp x hx
    · rintro ⟨⟨hl, hp⟩, e1, e2⟩
      cases l with
      | nil => simp at hl
      | cons a t =>
        refine ⟨a, t, rfl, hp a (by simp), ⟨by simpa using hl, fun x hx => hp x (by simp [hx])⟩, by simpa using e1, ?_⟩
        simp only [List.flatMap_cons, List.length_append] at e2
        omega

theorem pow_eq : (256 : Nat) ^ 8 = 2 ^ 64 := by decide

theorem reads_u64 : Reads num u64 (fun n => n < 2 ^ 64) := by
  intro r n r'
  rw [u64, bind_ok]
  simp only [pure_ok]
  constructor
  · rintro ⟨b, r1, h, rfl, rfl⟩
    obtain ⟨hl, e1, e2⟩ := (reads_bytes 8 _ _ _).1 h
    have hb := leBytes_leNat b
    rw [hl] at hb
    have := leNat_lt b
    rw [hl, pow_eq] at this
    exact ⟨this, by rw [e1, num, hb]; rfl, by rw [e2, num, hb]; rfl⟩
  · rintro ⟨hn, e1, e2⟩
    exact ⟨num n, r', (reads_bytes 8 _ _ _).2 ⟨by simp [num], e1, e2⟩, leNat_leBytes_of_lt (by rwa [pow_eq]), rfl⟩

theorem reads_vec {α : Type} {enc : α → Bytes} {d : Read α} {p : α → Prop} (h : Reads enc d p) :
    Reads (fun l => num l.length ++ l.flatMap enc) (vec d) (fun l => l.length < 2 ^ 64 ∧ ∀ a ∈ l, p a) := by
  intro r l r'
  rw [vec, bind_ok]
  constructor
  · rintro ⟨n, r1, h1, h2⟩
    obtain ⟨hn, e1, e2⟩ := (reads_u64 _ _ _).1 h1
    obtain ⟨⟨rfl, hp⟩, e3, e4⟩ := (reads_times h n _ _ _).1 h2
    exact ⟨⟨hn, hp⟩, by rw [e1, e3, List.append_assoc], by rw [e2, e4]; simp only [List.length_append]; omega⟩
  · rintro ⟨⟨hn, hp⟩, e1, e2⟩
    refine ⟨l.length, ⟨l.flatMap enc ++ r'.bytes, (l.flatMap enc).length + r'.left⟩, (reads_u64 _ _ _).2 ⟨hn, by rw [e1, List.append_assoc], ?_⟩,
      (reads_times h _ _ _ _).2 ⟨⟨rfl, hp⟩, rfl, rfl⟩⟩
    rw [e2]; simp only [List.length_append]; omega

theorem flatMap_singletons (b : Bytes) : (b.map (fun x => [x])).flatMap id = b := by
  induction b with
  | nil => rfl
  | cons a b ih => simp only [List.map_cons, List.flatMap_cons, ih]; rfl

theorem flatten_length (l : List Bytes) (h : ∀ a ∈ l, a.length = 1) : l.flatten.length = l.length := by
  induction l with
  | nil => rfl
  | cons a l ih =>
    rw [List.flatten_cons, List.length_append, ih (fun x hx => h x (by simp [hx])), h a (by simp)]
    simp; omega

theorem reads_hash : Reads id hash (fun b => b.length = 32) := by
  intro r b r'
  rw [hash, bind_ok]
  simp only [pure_ok]
  constructor
  · rintro ⟨l, r1, h, rfl, rfl⟩
    obtain ⟨⟨hl, h1⟩, e1, e2⟩ := (reads_times (reads_bytes 1) 32 _ _ _).1 h
    refine ⟨by rw [flatten_length l h1, hl], ?_, ?_⟩
    · rw [e1]; simp only [List.flatMap_id, id]
    · rw [e2]; simp only [List.flatMap_id, id]
  · rintro ⟨hl, e1, e2⟩
    refine ⟨b.map (fun x => [x]), r', (reads_times (reads_bytes 1) 32 _ _ _).2 ⟨⟨by simp [hl], ?_⟩, ?_, ?_⟩, ?_, rfl⟩
    · intro a ha
      obtain ⟨x, -, rfl⟩ := List.mem_map.1 ha
      rfl
    · rw [e1]; simp only [flatMap_singletons, id]
    · rw [e2]; simp only [flatMap_singletons, id]
    · rw [← List.flatMap_id, flatMap_singletons]

/-! ## Fields that may be missing -/

/-- With enough room in the limit, `d` only fails at the end of the stream. -/
def Tame {α : Type} (d : Read α) : Prop :=
  ∀ c r, 8 ≤ c → r.bytes.length + c ≤ r.left →
    (∃ a r', d r = (.ok a, r') ∧ r'.bytes.length + c ≤ r'.left) ∨
    (∃ r', d r = (.error .eof, r') ∧ r'.bytes = [] ∧ c ≤ r'.left + 8)

theorem tame_bytes {k : Nat} (hk : k ≤ 8) : Tame (bytes k) := by
  rintro c ⟨bs, n⟩ hc h
  simp only at h
  simp only [bytes]
  rw [if_neg (by omega)]
  split
  · exact .inr ⟨_, rfl, rfl, by simp only; omega⟩
  · refine .inl ⟨_, _, rfl, ?_⟩
    simp only [List.length_drop]
    omega

theorem tame_bind {α β : Type} {d : Read α} {f : α → Read β} (h : Tame d) (hf : ∀ a, Tame (f a)) : Tame (d >>= f) := by
  intro c r hc hr
  show (∃ a r', (match d r with | (.ok a, r) => f a r | (.error e, r) => (.error e, r)) = _ ∧ _) ∨
    (∃ r', (match d r with | (.ok a, r) => f a r | (.error e, r) => (.error e, r)) = _ ∧ _)
  rcases h c r hc hr with ⟨a, r', e, h'⟩ | ⟨r', e, h'⟩
  · rw [e]; exact hf a c r' hc h'
  · rw [e]; exact .inr ⟨r', rfl, h'⟩

theorem tame_pure {α : Type} (a : α) : Tame (pure a : Read α) := fun _ r _ h => .inl ⟨a, r, rfl, h⟩

theorem tame_times {α : Type} {d : Read α} (h : Tame d) (n : Nat) : Tame (times d n) := by
  induction n with
  | zero => exact tame_pure _
  | succ n ih => exact tame_bind h fun _ => tame_bind ih fun _ => tame_pure _

theorem tame_u64 : Tame u64 := tame_bind (tame_bytes (Nat.le_refl 8)) fun _ => tame_pure _

theorem tame_vec {α : Type} {d : Read α} (h : Tame d) : Tame (vec d) := tame_bind tame_u64 fun n => tame_times h n

theorem tame_pair {α β : Type} {d : Read α} {e : Read β} (h : Tame d) (h' : Tame e) : Tame (pair d e) :=
  tame_bind h fun _ => tame_bind h' fun _ => tame_pure _

theorem tame_hash : Tame hash := tame_bind (tame_times (tame_bytes (by omega)) 32) fun _ => tame_pure _

/-- The two last fields are read from any bytes. -/
theorem tail_read (r : Reader) (h : r.bytes.length + 16 ≤ r.left) :
    ∃ a r1 b r2, defaultOnEof (vec u64) r = (.ok a, r1) ∧ defaultOnEof (vec (pair u64 hash)) r1 = (.ok b, r2) := by
  have second : ∀ r1 : Reader, r1.bytes.length + 8 ≤ r1.left → ∃ b r2, defaultOnEof (vec (pair u64 hash)) r1 = (.ok b, r2) := by
    intro r1 h1
    rcases tame_vec (tame_pair tame_u64 tame_hash) 8 r1 (Nat.le_refl _) h1 with ⟨b, r2, e, -⟩ | ⟨r2, e, -⟩
    · exact ⟨b, r2, by rw [defaultOnEof, e]⟩
    · exact ⟨[], r2, by rw [defaultOnEof, e]⟩
  rcases tame_vec tame_u64 16 r (by omega) h with ⟨a, r1, e, h1⟩ | ⟨r1, e, h1, h2⟩
  · obtain ⟨b, r2, e'⟩ := second r1 (by omega)
    exact ⟨a, r1, b, r2, by rw [defaultOnEof, e], e'⟩
  · obtain ⟨b, r2, e'⟩ := second r1 (by rw [h1, List.length_nil]; omega)
    exact ⟨[], r1, b, r2, by rw [defaultOnEof, e], e'⟩

/-! ## All the fields -/

theorem reads_slot : Reads slotBytes (pair u64 (vec storageEntry))
    (fun p => p.1 < 2 ^ 64 ∧ p.2.length < 2 ^ 64 ∧ ∀ e ∈ p.2, e.1 < 2 ^ 64 ∧ e.2 < 2 ^ 64) :=
  reads_pair reads_u64 (reads_vec (reads_pair reads_u64 reads_u64))

theorem reads_info : Reads (fun x => x.1 ++ (x.2.1 ++ x.2.2.flatMap num)) bankHashInfo
    (fun x => x.1.length = 32 ∧ x.2.1.length = 32 ∧ x.2.2.length = 5 ∧ ∀ n ∈ x.2.2, n < 2 ^ 64) :=
  reads_pair reads_hash (reads_pair reads_hash (reads_times reads_u64 5))

/-- What has been read if the fields have been read. -/
theorem fields_ok {r r' : Reader} {l : List (Nat × List (Nat × Nat))} (h : accountsDbFields r = (.ok l, r')) :
    ∃ f : DbFields, f.Fits ∧ f.storages = l ∧ f.bytes <+: r.bytes := by
  simp only [accountsDbFields, bind_ok, pure_ok] at h
  obtain ⟨s, r1, h1, w, r2, h2, sl, r3, h3, i, r4, h4, a, r5, h5, b, r6, h6, rfl, rfl⟩ := h
  obtain ⟨⟨p1, p2⟩, e1, -⟩ := (reads_vec reads_slot _ _ _).1 h1
  obtain ⟨p3, e3, -⟩ := (reads_u64 _ _ _).1 h2
  obtain ⟨p4, e4, -⟩ := (reads_u64 _ _ _).1 h3
  obtain ⟨⟨p5, p6, p7⟩, e5, -⟩ := (reads_info _ _ _).1 h4
  refine ⟨⟨s, w, sl, i.1, i.2.1, i.2.2⟩, ⟨p1, p2, p3, p4, p5, p6, p7⟩, rfl, r4.bytes, ?_⟩
  rw [e1, e3, e4, e5]
  simp only [DbFields.bytes, List.append_assoc]

/-- What has been read is within the limit. -/
theorem fields_within {r r' : Reader} {l : List (Nat × List (Nat × Nat))} (h : accountsDbFields r = (.ok l, r')) :
    ∃ f : DbFields, f.Fits ∧ f.bytes <+: r.bytes ∧ f.bytes.length ≤ r.left := by
  simp only [accountsDbFields, bind_ok, pure_ok] at h
  obtain ⟨s, r1, h1, w, r2, h2, sl, r3, h3, i, r4, h4, a, r5, h5, b, r6, h6, rfl, rfl⟩ := h
  obtain ⟨⟨p1, p2⟩, e1, l1⟩ := (reads_vec reads_slot _ _ _).1 h1
  obtain ⟨p3, e3, l3⟩ := (reads_u64 _ _ _).1 h2
  obtain ⟨p4, e4, l4⟩ := (reads_u64 _ _ _).1 h3
  obtain ⟨⟨p5, p6, p7⟩, e5, l5⟩ := (reads_info _ _ _).1 h4
  refine ⟨⟨s, w, sl, i.1, i.2.1, i.2.2⟩, ⟨p1, p2, p3, p4, p5, p6, p7⟩, ⟨r4.bytes, ?_⟩, ?_⟩
  · rw [e1, e3, e4, e5]
    simp only [DbFields.bytes, List.append_assoc]
  · rw [l1, l3, l4, l5]
    simp only [DbFields.bytes, List.length_append]
    omega

/-- The fields that have to be there, read from their bytes. -/
theorem core_read {g : DbFields} (hg : g.Fits) (tail : Bytes) (n : Nat) :
    (pair (vec (pair u64 (vec storageEntry))) (pair u64 (pair u64 bankHashInfo))) ⟨g.bytes ++ tail, g.bytes.length + n⟩ =
      (.ok (g.storages, g.writeVersion, g.slot, g.hash, g.snapshotHash, g.stats), ⟨tail, n⟩) := by
  refine (reads_pair (reads_vec reads_slot) (reads_pair reads_u64 (reads_pair reads_u64 reads_info)) _ _ _).2
    ⟨⟨⟨hg.slots, hg.storages⟩, hg.writeVersion, hg.slot, hg.hash, hg.snapshotHash, hg.stats⟩, ?_, ?_⟩
  · simp only [DbFields.bytes, List.append_assoc]
  · simp only [DbFields.bytes, List.append_assoc]

/-- The fields are read from their bytes, whatever follows. -/
theorem fields_read {f : DbFields} (hf : f.Fits) (tail : Bytes) {n : Nat} (hn : f.bytes.length + tail.length + 16 ≤ n) :
    ∃ r', accountsDbFields ⟨f.bytes ++ tail, n⟩ = (.ok f.storages, r') := by
  obtain ⟨k, rfl⟩ : ∃ k, n = f.bytes.length + k := ⟨n - f.bytes.length, by omega⟩
  obtain ⟨a, r5, b, r6, h5, h6⟩ := tail_read ⟨tail, k⟩ (by simp only; omega)
  have h := core_read hf tail k
  simp only [pair, bind_ok, pure_ok, Prod.mk.injEq] at h
  obtain ⟨s, r1, h1, _, r2, ⟨w, _, h2, _, r3, ⟨sl, _, h3, i, r4, h4, rfl, rfl⟩, rfl, rfl⟩, ⟨rfl, -⟩, rfl⟩ := h
  simp only [accountsDbFields, bind_ok, pure_ok]
  exact ⟨r6, _, _, h1, _, _, h2, _, _, h3, _, _, h4, a, r5, h5, b, r6, h6, rfl, rfl⟩

/-- The fields of the beginning of a stream are determined by it. -/
theorem bytes_unique {f f' : DbFields} (hf : f.Fits) (hf' : f'.Fits) {t t' : Bytes} (h : f.bytes ++ t = f'.bytes ++ t') :
    f.bytes = f'.bytes ∧ t = t' := by
  have h1 := core_read hf t (f'.bytes.length)
  have h2 := core_read hf' t' (f.bytes.length)
  rw [h, Nat.add_comm, h2] at h1
  simp only [Prod.mk.injEq, Except.ok.injEq, Reader.mk.injEq] at h1
  obtain ⟨-, h3, -⟩ := h1
  subst h3
  exact ⟨List.append_cancel_right h, rfl⟩

theorem toMap_table (l : List (Nat × List (Nat × Nat))) : TableOf l (toMap l) := by
  intro slot
  unfold toMap
  cases h : l.reverse.find? (fun p => p.1 = slot) with
  | none =>
    refine .inr ⟨rfl, fun p hp e => ?_⟩
    have := List.find?_eq_none.1 h p (by simpa using hp)
    simp [e] at this
  | some p =>
    obtain ⟨hp, as, bs, e, hb⟩ := List.find?_eq_some_iff_append.1 h
    refine .inl ⟨bs.reverse, as.reverse, ?_, ?_⟩
    · have e' := congrArg List.reverse e
      rw [List.reverse_reverse, List.reverse_append, List.reverse_cons, List.append_assoc] at e'
      have : slot = p.1 := by simpa using (by simpa using hp : p.1 = slot).symm
      simpa [this] using e'
    · intro q hq e
      have := hb q (by simpa using hq)
      simp [e] at this

theorem table_unique {l : List (Nat × List (Nat × Nat))} {m m' : Sim.Manifest} (h : TableOf l m) (h' : TableOf l m') : m = m' := by
  have key : ∀ {slot : Nat} {a b : List (Nat × Nat)} {pre post pre' post' : List (Nat × List (Nat × Nat))},
      pre ++ (slot, a) :: post = pre' ++ (slot, b) :: post' → (∀ p ∈ post, p.1 ≠ slot) → (∀ p ∈ post', p.1 ≠ slot) → a = b := by
    intro slot a b pre post pre' post' e h1 h2
    rcases List.append_eq_append_iff.1 e with ⟨c, e1, e2⟩ | ⟨c, e1, e2⟩
    · cases c with
      | nil => simp at e2; exact e2.1
      | cons x c =>
        simp at e2
        exact absurd rfl (h1 (slot, b) (by rw [e2.2]; simp))
    · cases c with
      | nil => simp at e2; exact e2.1.symm
      | cons x c =>
        simp at e2
        exact absurd rfl (h2 (slot, a) (by rw [e2.2]; simp))
  funext slot
  rcases h slot with ⟨pre, post, e, h1⟩ | ⟨e, h1⟩ <;> rcases h' slot with ⟨pre', post', e', h1'⟩ | ⟨e', h1'⟩
  · exact key (e.symm.trans e') h1 h1'
  · exact absurd rfl (h1' (slot, m slot) (by rw [e]; simp))
  · exact absurd rfl (h1 (slot, m' slot) (by rw [e']; simp))
  · rw [e, e']

/-- The manifest is read exactly if the bank and the fields behind it can be read. -/
theorem readManifest_some {bank : Read Unit} {content : Bytes} {m : Sim.Manifest} (h : readManifest bank content = some m) :
    ∃ rest, BankRead bank content rest ∧ ∃ f : DbFields, f.Fits ∧ f.bytes <+: rest ∧ TableOf f.storages m := by
  unfold readManifest at h
  split at h
  · simp at h
  · rename_i u rest hb
    refine ⟨rest, hb, ?_⟩
    split at h
    · simp at h
    · rename_i l r' hf
      unfold deserializeFrom at hf
      simp only [Prod.mk.injEq] at hf
      obtain ⟨f, f1, f2, f3⟩ := fields_ok (r := ⟨rest, maxStreamSize⟩) (r' := (accountsDbFields ⟨rest, maxStreamSize⟩).2) (l := l)
        (Prod.ext hf.1 rfl)
      refine ⟨f, f1, f3, ?_⟩
      rw [f2, ← Option.some.inj h]
      exact toMap_table l

theorem readManifest_of {bank : Read Unit} {content rest : Bytes} {f : DbFields} {m : Sim.Manifest} (hb : BankRead bank content rest)
    (hl : rest.length + 16 ≤ maxStreamSize) (hf : f.Fits) (hp : f.bytes <+: rest) (ht : TableOf f.storages m) :
    readManifest bank content = some m := by
  obtain ⟨tail, rfl⟩ := hp
  rw [List.length_append] at hl
  obtain ⟨r', hr⟩ := fields_read hf tail hl
  rw [readManifest, hb]
  simp only [deserializeFrom, hr]
  rw [table_unique ht (toMap_table _)]

end LAM.Manifest
