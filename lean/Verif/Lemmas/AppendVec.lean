import Verif.Spec.AppendVec
import Verif.Lemmas.Bincode
/-!
# Lemmas about reading append-vec files
-/
namespace LAM.AppendVec
open LAM Spec

theorem readStoredMeta_eq {b : Bytes} (h : b.length = 48) :
    ∃ m, readStoredMeta b = some m ∧ m.writeVersion = leNat (b.take 8) ∧ m.dataLen = leNat ((b.drop 8).take 8) ∧
      m.pubkey.bytes = (b.drop 16).take 32 := by
  refine ⟨⟨leNat (b.take 8), leNat ((b.drop 8).take 8), ⟨(b.drop 16).take 32, by simp; omega⟩⟩, ?_, rfl, rfl, rfl⟩
  simp [readStoredMeta, decPair, Bincode.decU64, decNat, takeN, Bincode.decPubkey, decMap, h]

theorem readAccountMeta_eq {b : Bytes} (h : b.length = 56) :
    ∃ m, readAccountMeta b = some m ∧ m.lamports = leNat (b.take 8) ∧ m.rentEpoch = leNat ((b.drop 8).take 8) ∧
      m.owner.bytes = (b.drop 16).take 32 ∧ [m.executable] = (b.drop 48).take 1 := by
  obtain ⟨x, r, hx⟩ : ∃ x r, b.drop 48 = x :: r := by
    cases hd : b.drop 48 with
    | nil => have := congrArg List.length hd; simp [h] at this
    | cons x r => exact ⟨x, r, rfl⟩
  refine ⟨⟨leNat (b.take 8), leNat ((b.drop 8).take 8), ⟨(b.drop 16).take 32, by simp; omega⟩, x⟩, ?_, rfl, rfl, rfl, ?_⟩
  · simp [readAccountMeta, decPair, Bincode.decU64, decNat, takeN, Bincode.decPubkey, decMap, decByte, h, hx]
  · simp [hx]

theorem length_field {f : Bytes} {off n : Nat} (h : off + n ≤ f.length) : (field f off n).length = n := by
  simp [field]; omega

theorem field_field {f : Bytes} {off n a k : Nat} (h : a + k ≤ n) :
    ((field f off n).drop a).take k = field f (off + a) k := by
  simp only [field, List.drop_take, List.drop_drop, List.take_take]
  congr 1; omega

/-- A file whose declared length fits. -/
structure Sane (v : AppendVec) : Prop where
  fits : v.currentLen ≤ v.map.length
  small : v.currentLen + 7 < 2 ^ 64

theorem newFromFile_sane {content : Bytes} {currentLen slot : Nat} {v : AppendVec}
    (hv : newFromFile content currentLen slot = some v) :
    v = ⟨content, currentLen, content.length, slot⟩ ∧ Sane v := by
  simp only [newFromFile, sanitize] at hv
  by_cases h0 : content.length = 0
  · simp [h0] at hv
  · simp [h0] at hv
    obtain ⟨⟨h1, h2⟩, rfl⟩ := hv
    exact ⟨rfl, h2, by simp only [maxFileSize] at h1; simp only; omega⟩

theorem getSlice_none {v : AppendVec} {off n : Nat} (h : v.currentLen < off + n) : getSlice v off n = .ok none := by
  simp [getSlice, h]

theorem getSlice_some {v : AppendVec} (hv : Sane v) {off n : Nat} (h : off + n ≤ v.currentLen) :
    getSlice v off n = .ok (some (field v.map off n, (off + n + 7) / 8 * 8)) := by
  have h1 := hv.fits
  have h2 := hv.small
  have e : ¬ (off + n ≥ 2 ^ 64 ∨ off + n > v.currentLen) := by omega
  have e2 : off ≤ off + n ∧ off + n ≤ v.map.length := by omega
  have e3 : off + n + 7 < 2 ^ 64 := by omega
  simp only [getSlice, e, if_false, slice, e2, if_true, Run.ok_bind, align, e3, Run.pure_eq, field]
  simp

/-- There is a whole account at `off`. -/
def Whole (v : AppendVec) (off : Nat) : Prop :=
  off + 136 ≤ v.currentLen ∧ off + 136 + leNat (field v.map (off + 8) 8) ≤ v.currentLen

theorem getAccount_whole {v : AppendVec} (hv : Sane v) {off : Nat} (h8 : off % 8 = 0) (h : Whole v off) :
    ∃ a, getAccount v off = .ok (some (a, nextStart off a.data.length)) ∧ StoredAt v.map off a ∧
      a.data.length = a.info.dataLen ∧ a.storedSize = nextStart off a.data.length - off := by
  obtain ⟨h1, h2⟩ := h
  have hf := hv.fits
  obtain ⟨m, em, m1, m2, m3⟩ := readStoredMeta_eq (length_field (f := v.map) (off := off) (n := 48) (by omega))
  obtain ⟨c, ec, c1, c2, c3, c4⟩ := readAccountMeta_eq (length_field (f := v.map) (off := off + 48) (n := 56) (by omega))
  rw [field_field (by omega)] at m2 m3 c2 c3 c4
  have m1' : m.writeVersion = leNat (field v.map off 8) := by
    rw [m1]; have := field_field (f := v.map) (off := off) (n := 48) (a := 0) (k := 8) (by omega); simp at this; rw [this]
  have c1' : c.lamports = leNat (field v.map (off + 48) 8) := by
    rw [c1]; have := field_field (f := v.map) (off := off + 48) (n := 56) (a := 0) (k := 8) (by omega); simp at this; rw [this]
  have n1 : (off + 48 + 7) / 8 * 8 = off + 48 := by omega
  have n2 : (off + 48 + 56 + 7) / 8 * 8 = off + 104 := by omega
  have n3 : (off + 104 + 32 + 7) / 8 * 8 = off + 136 := by omega
  have s4 : off + 136 + m.dataLen ≤ v.currentLen := by rw [m2]; exact h2
  have ld : (field v.map (off + 136) m.dataLen).length = m.dataLen := length_field (by omega)
  refine ⟨⟨m, c, field v.map (off + 136) m.dataLen, off, nextStart off m.dataLen - off, field v.map (off + 104) 32⟩,
    ?_, ?_, ld, ?_⟩
  · simp only [getAccount, getType, getSlice_some hv (show off + 48 ≤ v.currentLen by omega), Run.ok_bind, em,
      Run.unwrap_some, Run.pure_eq, n1, getSlice_some hv (show off + 48 + 56 ≤ v.currentLen by omega), ec, n2,
      getSlice_some hv (show off + 104 + 32 ≤ v.currentLen by omega), n3, getSlice_some hv s4, ld, nextStart]
  · exact ⟨m1'.symm, m2.symm, m3.symm, c1'.symm, c2.symm, c3.symm, c4.symm, rfl, rfl, rfl⟩
  · simp only [ld]

theorem getAccount_none {v : AppendVec} (hv : Sane v) {off : Nat} (h8 : off % 8 = 0) (h : ¬ Whole v off) :
    getAccount v off = .ok none := by
  have hf := hv.fits
  by_cases h1 : off + 48 ≤ v.currentLen
  · obtain ⟨m, em, m1, m2, m3⟩ := readStoredMeta_eq (length_field (f := v.map) (off := off) (n := 48) (by omega))
    rw [field_field (by omega)] at m2
    have n1 : (off + 48 + 7) / 8 * 8 = off + 48 := by omega
    by_cases h2 : off + 48 + 56 ≤ v.currentLen
    · obtain ⟨c, ec, _⟩ := readAccountMeta_eq (length_field (f := v.map) (off := off + 48) (n := 56) (by omega))
      have n2 : (off + 48 + 56 + 7) / 8 * 8 = off + 104 := by omega
      by_cases h3 : off + 104 + 32 ≤ v.currentLen
      · have n3 : (off + 104 + 32 + 7) / 8 * 8 = off + 136 := by omega
        have h4 : v.currentLen < off + 136 + m.dataLen := by
          rw [m2]; simp only [Whole, not_and, Nat.not_le] at h; exact h h3
        simp only [getAccount, getType, getSlice_some hv h1, Run.ok_bind, em, Run.unwrap_some, Run.pure_eq, n1,
          getSlice_some hv h2, ec, n2, getSlice_some hv h3, n3, getSlice_none h4]
      · simp only [getAccount, getType, getSlice_some hv h1, Run.ok_bind, em, Run.unwrap_some, Run.pure_eq, n1,
          getSlice_some hv h2, ec, n2, getSlice_none (Nat.lt_of_not_le h3)]
    · simp only [getAccount, getType, getSlice_some hv h1, Run.ok_bind, em, Run.unwrap_some, Run.pure_eq, n1,
          getSlice_none (Nat.lt_of_not_le h2)]
  · simp only [getAccount, getType, getSlice_none (Nat.lt_of_not_le h1), Run.ok_bind, Run.pure_eq]

/-- The accounts follow each other from `off` to the end. -/
def Chain (v : AppendVec) : Nat → List StoredAccount → Prop
  | off, [] => ¬ Whole v off
  | off, a :: as => StoredAt v.map off a ∧ a.data.length = a.info.dataLen ∧ off + 136 + a.data.length ≤ v.currentLen ∧
      a.storedSize = nextStart off a.data.length - off ∧ Chain v (nextStart off a.data.length) as

theorem iterate_chain {v : AppendVec} (hv : Sane v) : ∀ (rounds off : Nat), off % 8 = 0 →
    v.currentLen < off + 136 * rounds → 0 < rounds → ∃ l, iterate v rounds off = .ok l ∧ Chain v off l
  | 0, _, _, _, h => by omega
  | rounds + 1, off, h8, hr, _ => by
    by_cases hw : Whole v off
    · obtain ⟨a, ea, sa, la, za⟩ := getAccount_whole hv h8 hw
      have hle : off + 136 + a.data.length ≤ v.currentLen := by
        rw [la, ← sa.dataLen]; exact hw.2
      have hn : off + 136 + a.data.length ≤ nextStart off a.data.length := by simp only [nextStart]; omega
      obtain ⟨l, el, cl⟩ := iterate_chain hv rounds (nextStart off a.data.length) (by simp [nextStart]) (by omega)
        (by omega)
      refine ⟨a :: l, ?_, sa, la, hle, za, cl⟩
      simp only [iterate, ea, Run.ok_bind, el, Run.pure_eq]
    · exact ⟨[], by simp only [iterate, getAccount_none hv h8 hw, Run.ok_bind, Run.pure_eq], hw⟩

theorem chain_bounds {v : AppendVec} : ∀ (l : List StoredAccount) (off : Nat), off % 8 = 0 → Chain v off l →
    ∀ a ∈ l, off ≤ a.offset ∧ a.offset % 8 = 0 ∧ a.offset + 136 + a.data.length ≤ v.currentLen ∧ StoredAt v.map a.offset a ∧
      a.data.length = a.info.dataLen ∧ a.offset + a.storedSize = nextStart a.offset a.data.length
  | [], _, _, _, _, h => by simp at h
  | b :: l, off, h8, hc, a, ha => by
    obtain ⟨sb, lb, hb, zb, hc⟩ := hc
    have hn : off + 136 + b.data.length ≤ nextStart off b.data.length := by simp only [nextStart]; omega
    rcases List.mem_cons.1 ha with rfl | ha
    · have e := sb.offset
      subst e
      exact ⟨Nat.le_refl _, h8, hb, sb, lb, by omega⟩
    · obtain ⟨h1, h2⟩ := chain_bounds l _ (by simp [nextStart]) hc a ha
      exact ⟨by omega, h2⟩

theorem chain_pairwise {v : AppendVec} : ∀ (l : List StoredAccount) (off : Nat), off % 8 = 0 → Chain v off l →
    l.Pairwise (fun a b => a.offset + a.storedSize ≤ b.offset)
  | [], _, _, _ => .nil
  | a :: l, off, h8, hc => by
    have ⟨sa, _, _, za, hl⟩ := hc
    have hb := chain_bounds (a :: l) off h8 hc a List.mem_cons_self
    refine .cons (fun b hb' => ?_) (chain_pairwise l _ (by simp [nextStart]) hl)
    have := (chain_bounds l _ (by simp [nextStart]) hl b hb').1
    rw [hb.2.2.2.2.2, sa.offset]; exact this

theorem iterate_more (v : AppendVec) : ∀ (rounds k off : Nat) (l : List StoredAccount), iterate v rounds off = .ok l →
    iterate v (rounds + k) off = .ok l
  | 0, _, _, _, h => by simp [iterate] at h
  | rounds + 1, k, off, l, h => by
    rw [show rounds + 1 + k = rounds + k + 1 by omega]
    simp only [iterate] at h ⊢
    obtain ⟨r, hr, h⟩ := Run.bind_eq_ok.1 h
    rw [hr, Run.ok_bind]
    cases r with
    | none => exact h
    | some an =>
      obtain ⟨as, has, h⟩ := Run.bind_eq_ok.1 h
      simp only [iterate_more v rounds k _ _ has, Run.ok_bind]
      exact h

theorem storedAt_unique {f : Bytes} {off : Nat} {a b : StoredAccount} (ha : StoredAt f off a) (hb : StoredAt f off b)
    (hz : a.storedSize = b.storedSize) : a = b := by
  have d : a.info.dataLen = b.info.dataLen := ha.dataLen.symm.trans hb.dataLen
  obtain ⟨⟨w, n, ⟨p, hp⟩⟩, ⟨lam, r, ⟨o, ho⟩, e⟩, dat, of, z, h⟩ := a
  obtain ⟨⟨w', n', ⟨p', hp'⟩⟩, ⟨lam', r', ⟨o', ho'⟩, e'⟩, dat', of', z', h'⟩ := b
  have h1 := ha.writeVersion.symm.trans hb.writeVersion
  have h2 := ha.pubkey.symm.trans hb.pubkey
  have h3 := ha.lamports.symm.trans hb.lamports
  have h4 := ha.rentEpoch.symm.trans hb.rentEpoch
  have h5 := ha.owner.symm.trans hb.owner
  have h6 := ha.executable.symm.trans hb.executable
  have h7 := ha.hash.symm.trans hb.hash
  have h8 := ha.data
  have h9 := hb.data
  have h10 := ha.offset.trans hb.offset.symm
  simp only at d h1 h2 h3 h4 h5 h6 h7 h8 h9 h10 hz
  subst d
  have := h8.symm.trans h9
  simp_all

theorem chain_unique {v : AppendVec} : ∀ (l m : List StoredAccount) (off : Nat), Chain v off l → Chain v off m → l = m
  | [], [], _, _, _ => rfl
  | [], a :: m, off, h, hm => by
    obtain ⟨s, la, hb, _⟩ := hm
    refine absurd ⟨by omega, ?_⟩ h
    rw [s.dataLen, ← la]; exact hb
  | a :: l, [], off, hl, h => by
    obtain ⟨s, la, hb, _⟩ := hl
    refine absurd ⟨by omega, ?_⟩ h
    rw [s.dataLen, ← la]; exact hb
  | a :: l, b :: m, off, hl, hm => by
    obtain ⟨s, la, _, z, hl⟩ := hl
    obtain ⟨s', la', _, z', hm⟩ := hm
    have e : a.data.length = b.data.length := by rw [la, la', ← s.dataLen, s'.dataLen]
    have : a = b := storedAt_unique s s' (by rw [z, z', e])
    subst this
    rw [chain_unique l m _ hl hm]

theorem leNat_zeros (n : Nat) : leNat (List.replicate n 0) = 0 := by
  induction n with
  | zero => rfl
  | succ n ih => simp [List.replicate_succ, leNat, ih]

theorem field_zeros (n off k : Nat) : field (List.replicate n 0) off k = List.replicate (min k (n - off)) 0 := by
  simp [field]

theorem zeros_account {n off : Nat} {a : StoredAccount} (h : StoredAt (List.replicate n 0) off a)
    (hd : a.data.length = a.info.dataLen) : a.info.pubkey = Pubkey.default ∧ a.account.lamports = 0 ∧ a.data = [] := by
  have h1 := h.dataLen
  have h2 := h.pubkey
  have h3 := h.lamports
  rw [field_zeros] at h1 h2 h3
  rw [leNat_zeros] at h1 h3
  refine ⟨?_, h3.symm, ?_⟩
  · have hl := congrArg List.length h2
    rw [a.info.pubkey.size] at hl
    simp only [List.length_replicate] at hl
    rw [hl] at h2
    cases hp : a.info.pubkey with
    | mk b hb => rw [hp] at h2; simp only at h2; subst h2; rfl
  · apply List.eq_nil_of_length_eq_zero; omega

theorem zeros_chain {v : AppendVec} (hm : v.map = List.replicate v.currentLen 0) : ∀ (n : Nat) (l : List StoredAccount)
    (off : Nat), off % 8 = 0 → v.currentLen = off + 136 * n → Chain v off l → l.length = n
  | 0, [], _, _, _, _ => rfl
  | 0, a :: l, off, _, hl, hc => by
    obtain ⟨_, _, hb, _⟩ := hc; omega
  | n + 1, [], off, _, hl, hc => by
    refine absurd ⟨by omega, ?_⟩ hc
    rw [hm, field_zeros, leNat_zeros]; omega
  | n + 1, a :: l, off, h8, hl, hc => by
    obtain ⟨s, la, _, _, hc⟩ := hc
    have h0 : a.data.length = 0 := by rw [(zeros_account (hm ▸ s) la).2.2]; rfl
    have e : nextStart off a.data.length = off + 136 := by rw [h0]; simp only [nextStart]; omega
    rw [e] at hc
    simp [zeros_chain hm n l (off + 136) (by omega) (by omega) hc]

theorem leNat_field {f : Bytes} {off n x : Nat} (h : field f off n = leBytes n x) (hx : x < 256 ^ n) :
    leNat (field f off n) = x := by rw [h, leNat_leBytes_of_lt hx]

theorem asWritten_of {f : Bytes} {off : Nat} {a : StoredAccount} {w : Written} (hs : StoredAt f off a) (hw : WrittenAt f off w)
    (hf : w.Fits) : asWritten a = some w := by
  have e : a.account.executable = if w.executable then 1 else 0 := by
    have := hs.executable.symm.trans hw.executable; simpa using this
  have l1 := leNat_field hw.writeVersion (by rw [Bincode.pow_eq]; exact hf.writeVersion)
  have l2 := leNat_field hw.dataLen (by rw [Bincode.pow_eq]; exact hf.dataLen)
  have l3 := leNat_field hw.lamports (by rw [Bincode.pow_eq]; exact hf.lamports)
  have l4 := leNat_field hw.rentEpoch (by rw [Bincode.pow_eq]; exact hf.rentEpoch)
  have d : a.data = w.data := by rw [← hs.data, ← hs.dataLen, l2, hw.data]
  have p1 : a.info.pubkey = w.pubkey := by
    have := hs.pubkey.symm.trans hw.pubkey
    cases hx : a.info.pubkey; cases hy : w.pubkey; simp_all
  have p2 : a.account.owner = w.owner := by
    have := hs.owner.symm.trans hw.owner
    cases hx : a.account.owner; cases hy : w.owner; simp_all
  have g1 : a.account.executable = 0 ∨ a.account.executable = 1 := by rw [e]; cases w.executable <;> simp
  have g2 : (a.account.executable == 1) = w.executable := by rw [e]; cases w.executable <;> decide
  rw [asWritten, if_pos g1, g2, d, p1, p2, ← hs.writeVersion, l1, ← hs.lamports, l3, ← hs.rentEpoch, l4, ← hs.hash, hw.hash]

theorem chain_layout {v : AppendVec} : ∀ (ws : List Written) (l : List StoredAccount) (off : Nat),
    Layout v.map v.currentLen off ws → Chain v off l → l.map asWritten = ws.map some
  | [], [], _, _, _ => rfl
  | [], a :: l, off, hl, hc => by
    obtain ⟨_, _, hb, _⟩ := hc
    simp only [Layout] at hl
    omega
  | w :: ws, [], off, hl, hc => by
    obtain ⟨hf, hw, hb, _⟩ := hl
    have l2 := leNat_field hw.dataLen (by rw [Bincode.pow_eq]; exact hf.dataLen)
    exact absurd ⟨by omega, by rw [l2]; exact hb⟩ hc
  | w :: ws, a :: l, off, hl, hc => by
    obtain ⟨hf, hw, hb, hl⟩ := hl
    obtain ⟨hs, la, _, _, hc⟩ := hc
    have l2 := leNat_field hw.dataLen (by rw [Bincode.pow_eq]; exact hf.dataLen)
    have e : a.data.length = w.data.length := by rw [la, ← hs.dataLen, l2]
    rw [e] at hc
    simp [asWritten_of hs hw hf, chain_layout ws l _ hl hc]

/-! ## Written files -/

theorem field_append {p b : Bytes} {k n : Nat} : field (p ++ b) (p.length + k) n = field b k n := by
  simp only [field]
  rw [← List.drop_drop, List.drop_left]

theorem layout_fileOf : ∀ (ws : List Written) (pre rest : Bytes), pre.length % 8 = 0 → (∀ w ∈ ws, w.Fits) →
    Layout (pre ++ fileOf ws ++ rest) (pre ++ fileOf ws).length pre.length ws
  | [], pre, rest, _, _ => by simp [Layout, fileOf]
  | w :: ws, pre, rest, h8, hf => by
    have hw := hf w List.mem_cons_self
    have hh := hw.hash
    have hp := w.pubkey.size
    have ho := w.owner.size
    generalize hpad : (List.replicate (nextStart 0 w.data.length - (136 + w.data.length)) 0 : Bytes) = pad
    have hpl : pad.length = nextStart 0 w.data.length - (136 + w.data.length) := by rw [← hpad]; simp
    have hn : nextStart pre.length w.data.length = pre.length + nextStart 0 w.data.length := by
      simp only [nextStart]; omega
    have hge : 136 + w.data.length ≤ nextStart 0 w.data.length := by simp only [nextStart]; omega
    refine ⟨hw, ?_, ?_, ?_⟩
    · simp only [fileOf, hpad, List.append_assoc]
      constructor
      · have := field_append (p := pre) (k := 0) (n := 8)
          (b := leBytes 8 w.writeVersion ++ (leBytes 8 w.data.length ++ (w.pubkey.bytes ++ (leBytes 8 w.lamports ++
            (leBytes 8 w.rentEpoch ++ (w.owner.bytes ++ ([if w.executable then 1 else 0] ++ (List.replicate 7 0 ++
            (w.hash ++ (w.data ++ (pad ++ (fileOf ws ++ rest))))))))))))
        rw [Nat.add_zero] at this
        rw [this]
        simp [field]
      all_goals
        rw [field_append]
        simp [field, List.drop_append, hp, ho, hh, List.drop_eq_nil_of_le]
    · simp [fileOf, hp, ho, hh]; omega
    · have ih := layout_fileOf ws (pre ++ (fileOf (w :: ws)).take (nextStart 0 w.data.length)) rest
      have key : ∃ h : Bytes, fileOf (w :: ws) = h ++ fileOf ws ∧ h.length = nextStart 0 w.data.length := by
        refine ⟨_, rfl, ?_⟩
        rw [hpad]
        simp [hp, ho, hh, hpl]; omega
      obtain ⟨h, e, eh⟩ := key
      have ih := layout_fileOf ws (pre ++ h) rest (by
        simp only [List.length_append, eh, nextStart]; omega) (fun w' hw' => hf w' (List.mem_cons_of_mem _ hw'))
      rw [e, hn, ← eh]
      simpa [List.append_assoc] using ih

/-! ## File names -/

theorem isDigit_iff (c : Char) : c.isDigit = true ↔ '0' ≤ c ∧ c ≤ '9' := by
  simp [Char.isDigit, Char.le_def]

theorem foldl_ge (cs : List Char) (a : Nat) : a ≤ cs.foldl (fun n c => 10 * n + (c.toNat - 48)) a := by
  induction cs generalizing a with
  | nil => exact Nat.le_refl _
  | cons c cs ih => exact Nat.le_trans (m := 10 * a + (c.toNat - 48)) (by omega) (ih _)

theorem parseDigits_iff (cs : List Char) (acc n : Nat) : parseDigits cs acc = some n ∧ acc < 2 ^ 64 ↔
    (∀ c ∈ cs, '0' ≤ c ∧ c ≤ '9') ∧ cs.foldl (fun n c => 10 * n + (c.toNat - 48)) acc = n ∧ n < 2 ^ 64 := by
  induction cs generalizing acc with
  | nil => simp [parseDigits]; omega
  | cons c cs ih =>
    have z : '0'.toNat = 48 := rfl
    have comm : acc * 10 = 10 * acc := Nat.mul_comm _ _
    have hge := foldl_ge cs (10 * acc + (c.toNat - 48))
    simp only [parseDigits, List.foldl_cons, List.forall_mem_cons, z, comm]
    by_cases hd : c.isDigit = true
    · have hc := (isDigit_iff c).1 hd
      by_cases hlt : 10 * acc + (c.toNat - 48) < 2 ^ 64
      · have h2 : 10 * acc < 2 ^ 64 ∧ 10 * acc + (c.toNat - 48) < 2 ^ 64 := by omega
        rw [if_pos hd, if_pos h2]
        have := ih (10 * acc + (c.toNat - 48))
        constructor
        · rintro ⟨h, _⟩
          have := this.1 ⟨h, hlt⟩
          exact ⟨⟨hc, this.1⟩, this.2⟩
        · rintro ⟨⟨_, h⟩, h3⟩
          exact ⟨(this.2 ⟨h, h3⟩).1, by omega⟩
      · have h2 : ¬ (10 * acc < 2 ^ 64 ∧ 10 * acc + (c.toNat - 48) < 2 ^ 64) := by omega
        rw [if_pos hd, if_neg h2]
        constructor
        · rintro ⟨h, _⟩; simp at h
        · rintro ⟨_, h3, h4⟩; omega
    · rw [if_neg hd]
      constructor
      · rintro ⟨h, _⟩; simp at h
      · rintro ⟨⟨h, _⟩, _⟩; exact absurd ((isDigit_iff c).2 h) hd

theorem parseDigits_zero (cs : List Char) (n : Nat) : parseDigits cs 0 = some n ↔
    (∀ c ∈ cs, '0' ≤ c ∧ c ≤ '9') ∧ decimal cs = n ∧ n < 2 ^ 64 := by
  have := parseDigits_iff cs 0 n
  simp only [Nat.two_pow_pos, and_true] at this
  exact this

theorem parseU64_iff (cs : List Char) (n : Nat) : parseU64 cs = some n ↔ IsU64 cs n := by
  have plus : ¬ ('0' ≤ '+') := by decide
  unfold parseU64
  split
  · simp [IsU64]
  · constructor
    · intro h; simp at h
    · rintro ⟨ds, h | h, hne, hd, _⟩
      · subst h; exact absurd (hd '+' (by simp)).1 plus
      · simp at h; exact absurd h hne
  · rename_i cs hne
    rw [parseDigits_zero]
    constructor
    · rintro ⟨h1, h2, h3⟩; exact ⟨cs, .inr rfl, by intro e; exact hne (by rw [e]), h1, h2, h3⟩
    · rintro ⟨ds, h | h, _, hd, h2, h3⟩
      · subst h; exact absurd (hd '+' (by simp)).1 plus
      · simp at h; subst h; exact ⟨hd, h2, h3⟩
  · rename_i h1 h2 h3
    rw [parseDigits_zero]
    constructor
    · rintro ⟨a, b, c⟩; exact ⟨cs, .inl rfl, h1, a, b, c⟩
    · rintro ⟨ds, h | h, _, hd, a, b⟩
      · subst h; exact ⟨hd, a, b⟩
      · exact absurd h (h3 ds)

theorem splitDot_some {a b : List Char} (h : '.' ∉ a) : splitDot (a ++ '.' :: b) = (a, some b) := by
  have h1 : ∀ x ∈ a, (decide (x ≠ '.')) = true := by
    intro x hx; simp; rintro rfl; exact h hx
  simp only [splitDot]
  rw [List.dropWhile_append_of_pos h1, List.takeWhile_append_of_pos h1]
  simp

theorem splitDot_none {a : List Char} (h : '.' ∉ a) : splitDot a = (a, none) := by
  have h1 : ∀ x ∈ a, (decide (x ≠ '.')) = true := by
    intro x hx; simp; rintro rfl; exact h hx
  have : a.dropWhile (fun x => decide (x ≠ '.')) = [] := by
    have := List.dropWhile_append_of_pos (l₂ := []) h1
    simpa using this
  simp only [splitDot, this]

end LAM.AppendVec
