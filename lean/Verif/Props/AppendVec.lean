import Verif.Lemmas.AppendVec
/-!
# C60-C62, C73, C74: account files of Solana snapshots
-/
namespace LAM.Props
open LAM Spec AppendVec

/-! ## C60 -/

/-- C60: for every content and declared length accepted for a file, the iteration ends without a panic, however many more
rounds are allowed.  Every account starts at a multiple of 8 (so the structs read in place are aligned), lies within the
declared length, is the bytes found there, and ends before the next one starts. -/
theorem C60_iteration_is_safe (content : Bytes) (currentLen slot : Nat) (v : AppendVec)
    (hv : newFromFile content currentLen slot = some v) :
    ∃ l : List StoredAccount, (∀ rounds, currentLen / 136 < rounds → iterate v rounds 0 = .ok l) ∧
      (∀ a ∈ l, a.offset % 8 = 0 ∧ a.offset + 136 + a.data.length ≤ currentLen ∧ StoredAt content a.offset a ∧
        a.offset + 136 + a.data.length ≤ a.offset + a.storedSize) ∧
      l.Pairwise (fun a b => a.offset + a.storedSize ≤ b.offset) := by
  obtain ⟨rfl, hs⟩ := newFromFile_sane hv
  obtain ⟨l, el, cl⟩ := iterate_chain hs (currentLen / 136 + 1) 0 rfl (by simp; omega) (by omega)
  refine ⟨l, ?_, ?_, chain_pairwise l 0 rfl cl⟩
  · intro rounds hr
    obtain ⟨l', el', cl'⟩ := iterate_chain hs rounds 0 rfl (by simp; omega) (by omega)
    rw [el', chain_unique _ _ _ cl' cl]
  · intro a ha
    obtain ⟨_, h1, h2, h3, h4, h5⟩ := chain_bounds l 0 rfl cl a ha
    exact ⟨h1, h2, h3, by rw [h5]; simp only [nextStart]; omega⟩

/-- C60 for an archive entry: the same for whatever is read, of any declared length for which memory can be mapped. -/
theorem C60_reader_iteration_is_safe (content : Bytes) (currentLen slot : Nat) (hl : currentLen < 2 ^ 63) :
    ∃ l : List StoredAccount,
      (∀ rounds, currentLen / 136 < rounds → iterate (newFromReader content currentLen slot) rounds 0 = .ok l) ∧
      (∀ a ∈ l, a.offset % 8 = 0 ∧ a.offset + 136 + a.data.length ≤ currentLen ∧
        StoredAt (content.take currentLen ++ List.replicate (currentLen - content.length) 0) a.offset a ∧
        a.offset + 136 + a.data.length ≤ a.offset + a.storedSize) ∧
      l.Pairwise (fun a b => a.offset + a.storedSize ≤ b.offset) := by
  have hs : Sane (newFromReader content currentLen slot) := ⟨by simp [newFromReader]; omega, by simp [newFromReader]; omega⟩
  obtain ⟨l, el, cl⟩ := iterate_chain hs (currentLen / 136 + 1) 0 rfl (by simp [newFromReader]; omega) (by omega)
  refine ⟨l, ?_, ?_, chain_pairwise l 0 rfl cl⟩
  · intro rounds hr
    obtain ⟨l', el', cl'⟩ := iterate_chain hs rounds 0 rfl (by simp [newFromReader]; omega) (by omega)
    rw [el', chain_unique _ _ _ cl' cl]
  · intro a ha
    obtain ⟨_, h1, h2, h3, h4, h5⟩ := chain_bounds l 0 rfl cl a ha
    exact ⟨h1, h2, h3, by rw [h5]; simp only [nextStart]; omega⟩

/-- An account of 3 bytes of data, and one of 8. -/
def twoWritten : List Written :=
  [⟨7, Pubkey.default, 10, 1, Pubkey.default, true, List.replicate 32 9, [1, 2, 3]⟩,
   ⟨8, Pubkey.default, 20, 2, Pubkey.default, false, List.replicate 32 8, [1, 2, 3, 4, 5, 6, 7, 8]⟩]

/-- A file cut in the middle of the second account: the iteration stops before it. -/
example : ((newFromFile ((fileOf twoWritten).take 280) 280 5).map
    (fun v => match iterate v 10 0 with | .ok l => l.map (fun a => (a.offset, a.storedSize, a.data)) | _ => [])) =
    some [(0, 144, [1, 2, 3])] := by decide +kernel

/-- A declared data length near 2⁶⁴ is refused, not wrapped around. -/
example : (newFromFile (List.replicate 8 0 ++ List.replicate 8 255 ++ List.replicate 200 0) 216 5).map
    (fun v => decide (iterate v 10 0 = .ok [])) = some true := by decide +kernel

/-! ## C61 -/

/-- C61: reading a file laid out as `Spec.Layout` yields exactly the written accounts in order, whatever the padding bytes are
and whatever follows the declared length. -/
theorem C61_layout_is_read_back (content : Bytes) (currentLen slot : Nat) (v : AppendVec)
    (hv : newFromFile content currentLen slot = some v) (ws : List Written) (hl : Layout content currentLen 0 ws) :
    ∃ l, (∀ rounds, currentLen / 136 < rounds → iterate v rounds 0 = .ok l) ∧ l.map asWritten = ws.map some := by
  obtain ⟨rfl, hs⟩ := newFromFile_sane hv
  obtain ⟨l, el, cl⟩ := iterate_chain hs (currentLen / 136 + 1) 0 rfl (by simp; omega) (by omega)
  refine ⟨l, ?_, chain_layout ws l 0 hl cl⟩
  intro rounds hr
  obtain ⟨l', el', cl'⟩ := iterate_chain hs rounds 0 rfl (by simp; omega) (by omega)
  rw [el', chain_unique _ _ _ cl' cl]

/-- C61: whatever accounts a validator writes, iterating over the file, with anything behind it, gives them back. -/
theorem C61_roundtrip (ws : List Written) (hf : ∀ w ∈ ws, w.Fits) (hne : ws ≠ []) (rest : Bytes) (slot : Nat)
    (hs : (fileOf ws ++ rest).length ≤ 16 * 2 ^ 30) :
    ∃ v l, newFromFile (fileOf ws ++ rest) (fileOf ws).length slot = some v ∧ v.slot = slot ∧
      (∀ rounds, (fileOf ws).length / 136 < rounds → iterate v rounds 0 = .ok l) ∧ l.map asWritten = ws.map some := by
  have hpos : 0 < (fileOf ws).length := by
    cases ws with
    | nil => exact absurd rfl hne
    | cons w ws => simp [fileOf]; omega
  have hn : newFromFile (fileOf ws ++ rest) (fileOf ws).length slot =
      some ⟨fileOf ws ++ rest, (fileOf ws).length, (fileOf ws ++ rest).length, slot⟩ := by
    have h0 : ¬ (fileOf ws ++ rest).length = 0 := by simp only [List.length_append]; omega
    have h1 : ¬ (fileOf ws ++ rest).length > maxFileSize := by simp only [maxFileSize]; omega
    have h2 : ¬ (fileOf ws).length > (fileOf ws ++ rest).length := by simp
    simp only [newFromFile, sanitize, h0, h1, h2, if_false, if_true]
  have lay := layout_fileOf ws [] rest rfl hf
  simp only [List.nil_append, List.length_nil] at lay
  obtain ⟨l, h1, h2⟩ := C61_layout_is_read_back _ _ slot _ hn ws lay
  exact ⟨_, l, hn, rfl, h1, h2⟩

/-- The two accounts are read back. -/
example : (newFromFile (fileOf twoWritten ++ [5, 5]) 288 5).map
    (fun v => match iterate v 10 0 with | .ok l => l.map asWritten | _ => []) = some (twoWritten.map some) := by
  decide +kernel

/-- C61: the accounts that are handed on are those written, with their lamports, data, owner, executable flag and rent epoch. -/
theorem C61_accounts (content : Bytes) (currentLen slot : Nat) (v : AppendVec) (hv : newFromFile content currentLen slot = some v)
    (ws : List Written) (hl : Layout content currentLen 0 ws) :
    ∃ l, (∀ rounds, currentLen / 136 < rounds → iterate v rounds 0 = .ok l) ∧
      l.map (fun a => (a.info.pubkey, a.toAccount)) =
        ws.map (fun w => (w.pubkey, ⟨w.lamports, .uncompressed w.data, w.owner, w.executable, w.rentEpoch⟩)) := by
  obtain ⟨l, h1, h2⟩ := C61_layout_is_read_back content currentLen slot v hv ws hl
  refine ⟨l, h1, ?_⟩
  clear h1 hl
  induction l generalizing ws with
  | nil => cases ws with
    | nil => rfl
    | cons w ws => simp at h2
  | cons a l ih => cases ws with
    | nil => simp at h2
    | cons w ws =>
      simp only [List.map_cons, List.cons.injEq] at h2 ⊢
      refine ⟨?_, ih ws h2.2⟩
      have h := h2.1
      unfold asWritten at h
      split at h
      · rename_i he
        simp only [Option.some.injEq] at h
        subst h
        simp only [StoredAccount.toAccount, Prod.mk.injEq, Account.mk.injEq, true_and, and_true]
        rcases he with he | he <;> simp [he]
      · cases h

/-- Only the first of the two accounts is executable. -/
example : (newFromFile (fileOf twoWritten ++ [5, 5]) 288 5).map
    (fun v => match iterate v 10 0 with | .ok l => l.map (fun a => a.toAccount.executable) | _ => []) = some [true, false] := by
  decide +kernel

/-! ## C62 -/

/-- C62: a name is accepted exactly if the text before its first dot and the rest are both `u64`s in decimal (a plus sign and
leading zeros are allowed), and the result is these numbers. -/
theorem C62_parse_iff (name : List Char) (slot id : Nat) :
    parseName name = some (slot, id) ↔
      ∃ a b, name = a ++ '.' :: b ∧ '.' ∉ a ∧ IsU64 a slot ∧ IsU64 b id := by
  by_cases hd : '.' ∈ name
  · obtain ⟨a, b, rfl, ha⟩ := List.eq_append_cons_of_mem hd
    have hs := splitDot_some (b := b) ha
    simp only [parseName, hs, Option.getD_some]
    constructor
    · intro h
      split at h
      · rename_i s i h1 h2
        simp only [Option.some.injEq, Prod.mk.injEq] at h
        obtain ⟨rfl, rfl⟩ := h
        exact ⟨a, b, rfl, ha, (parseU64_iff _ _).1 h1, (parseU64_iff _ _).1 h2⟩
      · simp at h
    · rintro ⟨a', b', e, ha', h1, h2⟩
      have e2 := splitDot_some (b := b') ha'
      rw [← e, hs] at e2
      simp only [Prod.mk.injEq, Option.some.injEq] at e2
      obtain ⟨rfl, rfl⟩ := e2
      rw [(parseU64_iff _ _).2 h1, (parseU64_iff _ _).2 h2]
  · simp only [parseName, splitDot_none hd, Option.getD_none]
    constructor
    · intro h
      split at h
      · rename_i h2; simp [parseU64] at h2
      · simp at h
    · rintro ⟨a, b, rfl, _⟩
      exact absurd (by simp) hd

/-- C62: the name `slot.id` of any two `u64`s parses back. -/
theorem C62_names_parse_back (slot id : Nat) (h1 : slot < 2 ^ 64) (h2 : id < 2 ^ 64) :
    parseName (toString slot ++ "." ++ toString id).toList = some (slot, id) := by
  have digits : ∀ n : Nat, n < 2 ^ 64 → IsU64 (Nat.toDigits 10 n) n := fun n hn =>
    ⟨_, .inl rfl, Nat.toDigits_ne_nil,
      fun c hc => (isDigit_iff c).1 (Nat.isDigit_of_mem_toDigits (by omega) (by omega) hc),
      Nat.ofDigitChars_toDigits (b := 10) (by omega) (by omega), hn⟩
  have nodot : '.' ∉ Nat.toDigits 10 slot := fun h =>
    absurd (Nat.isDigit_of_mem_toDigits (by omega) (by omega) h) (by decide)
  refine (C62_parse_iff _ _ _).2 ⟨Nat.toDigits 10 slot, Nat.toDigits 10 id, ?_, nodot, digits _ h1, digits _ h2⟩
  simp [Nat.toString_eq_repr, Nat.repr]

/-- Numbers of 64 bits, no dot, two dots, a sign, an overflow, an empty part. -/
example : parseName "18446744073709551615.0".toList = some (2 ^ 64 - 1, 0) ∧ parseName "12".toList = none ∧
    parseName "1.2.3".toList = none ∧ parseName "+1.02".toList = some (1, 2) ∧
    parseName "18446744073709551616.0".toList = none ∧ parseName ".1".toList = none ∧ parseName "-1.1".toList = none := by
  decide +kernel

/-! ## C73: the executable flag is a valid `bool` -/

/-- C73, as claimed: whatever the file contains, the flag of every account handed out is a valid `bool`. -/
def C73_statement : Prop :=
  ∀ (content : Bytes) (currentLen slot : Nat) (v : AppendVec), newFromFile content currentLen slot = some v →
    ∀ rounds l, iterate v rounds 0 = .ok l → ∀ a ∈ l, a.account.executable = 0 ∨ a.account.executable = 1

/-- An account whose flag byte is 2. -/
def badFlag : Bytes := List.replicate 96 0 ++ [2] ++ List.replicate 39 0

/-- C73 is false: the flag is read in place as a Rust `bool` without a check, so the byte 2 is undefined behaviour. -/
theorem C73_refuted : ¬ C73_statement := by
  intro h
  have := h badFlag 136 5 ⟨badFlag, 136, 136, 5⟩ (by decide +kernel) 2
    [⟨⟨0, 0, Pubkey.default⟩, ⟨0, 0, Pubkey.default, 2⟩, [], 0, 136, List.replicate 32 0⟩] (by decide +kernel) _
    List.mem_cons_self
  revert this
  decide

/-- C73 for what a validator writes. -/
theorem C73_written_partial (content : Bytes) (currentLen slot : Nat) (v : AppendVec)
    (hv : newFromFile content currentLen slot = some v) (ws : List Written) (hl : Layout content currentLen 0 ws) (rounds : Nat)
    (l : List StoredAccount) (h : iterate v rounds 0 = .ok l) :
    ∀ a ∈ l, a.account.executable = 0 ∨ a.account.executable = 1 := by
  obtain ⟨l', h1, h2⟩ := C61_layout_is_read_back content currentLen slot v hv ws hl
  have e : l = l' := by
    have := iterate_more v rounds (currentLen / 136 + 1) 0 l h
    rw [Nat.add_comm, h1 _ (by omega)] at this
    cases this; rfl
  subst e
  intro a ha
  have : asWritten a ∈ ws.map some := by rw [← h2]; exact List.mem_map_of_mem ha
  obtain ⟨w, _, hw⟩ := List.mem_map.1 this
  simp only [asWritten] at hw
  split at hw
  · assumption
  · simp at hw

/-! ## C74: an archive entry shorter than declared -/

/-- C74, as claimed: only accounts that are really in the archive entry are handed out. -/
def C74_statement : Prop :=
  ∀ (content : Bytes) (currentLen slot rounds : Nat) (l : List StoredAccount), currentLen < 2 ^ 63 →
    iterate (newFromReader content currentLen slot) rounds 0 = .ok l →
    ∀ a ∈ l, a.offset + 136 + a.data.length ≤ content.length

/-- C74 is false: a short entry is filled up with zeros, and 136 zeros are an account (of the default public key, without
lamports).  A file is refused instead (`C60_iteration_is_safe`). -/
theorem C74_refuted : ¬ C74_statement := by
  intro h
  have := h [] 136 5 2
    [⟨⟨0, 0, Pubkey.default⟩, ⟨0, 0, Pubkey.default, 0⟩, [], 0, 136, List.replicate 32 0⟩] (by decide) (by decide +kernel) _
    List.mem_cons_self
  revert this
  decide

/-- C74: however short the entry is, accounts are made up: an empty entry of declared length `136 * n` yields `n` accounts of
the default public key. -/
theorem C74_empty_entry (n slot : Nat) (hn : 136 * n < 2 ^ 63) :
    ∃ l, iterate (newFromReader [] (136 * n) slot) (n + 1) 0 = .ok l ∧ l.length = n ∧
      ∀ a ∈ l, a.info.pubkey = Pubkey.default ∧ a.account.lamports = 0 ∧ a.data = [] := by
  have hs : Sane (newFromReader [] (136 * n) slot) := ⟨by simp [newFromReader], by simp [newFromReader]; omega⟩
  obtain ⟨l, el, cl⟩ := iterate_chain hs (n + 1) 0 rfl (by simp [newFromReader]) (by omega)
  refine ⟨l, el, ?_, ?_⟩
  · exact zeros_chain (by simp [newFromReader]) n l 0 rfl (by simp [newFromReader]) cl
  · intro a ha
    obtain ⟨_, _, h2, h3, h4, _⟩ := chain_bounds l 0 rfl cl a ha
    exact zeros_account (by simpa [newFromReader] using h3) h4

/-- C74 for an entry that is at least as long as declared. -/
theorem C74_long_entry_partial (content : Bytes) (currentLen slot rounds : Nat) (l : List StoredAccount)
    (hl : currentLen < 2 ^ 63) (hc : currentLen ≤ content.length)
    (h : iterate (newFromReader content currentLen slot) rounds 0 = .ok l) :
    ∀ a ∈ l, a.offset + 136 + a.data.length ≤ content.length ∧ StoredAt (content.take currentLen) a.offset a := by
  obtain ⟨l', h1, h2, _⟩ := C60_reader_iteration_is_safe content currentLen slot hl
  have e : l = l' := by
    have := iterate_more _ rounds (currentLen / 136 + 1) 0 l h
    rw [Nat.add_comm, h1 _ (by omega)] at this
    cases this; rfl
  subst e
  intro a ha
  obtain ⟨_, h3, h4, _⟩ := h2 a ha
  have : currentLen - content.length = 0 := by omega
  rw [this] at h4
  exact ⟨by omega, by simpa using h4⟩

end LAM.Props
