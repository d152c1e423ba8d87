import Verif.Lemmas.Manifest
import Verif.Props.Simulator
/-!
# Reading the manifest of a snapshot: C95
-/
namespace LAM.Props
open Spec AppendVec Token Sim Manifest
open TokenStore (TOp)

/-- **C95**. A manifest is read exactly if the bank can be read and all of the fields that have to be there follow; it declares for
each slot the append vecs that are listed (last) for it.  What follows these fields does not matter. -/
theorem C95_read_iff (bank : Read Unit) (hb : Forward bank) (content : Bytes) (hc : content.length + 16 ≤ 32 * 2 ^ 30)
    (m : Sim.Manifest) :
    readManifest bank content = some m ↔
      ∃ (rest : Bytes) (f : DbFields) (tail : Bytes), BankRead bank content rest ∧ f.Fits ∧ rest = f.bytes ++ tail ∧ TableOf f.storages m := by
  constructor
  · intro h
    obtain ⟨rest, h1, f, h2, ⟨tail, h3⟩, h4⟩ := readManifest_some h
    exact ⟨rest, f, tail, h1, h2, h3.symm, h4⟩
  · rintro ⟨rest, f, tail, h1, h2, h3, h4⟩
    have := (hb _ _ h1).length_le
    exact readManifest_of h1 (by unfold maxStreamSize; omega) h2 ⟨tail, h3.symm⟩ h4

/-- **C95**. A manifest that breaks off within these fields is not read; it never gives a part of the table. -/
theorem C95_truncated (bank : Read Unit) (content rest : Bytes) (hb : BankRead bank content rest) (f : DbFields) (hf : f.Fits)
    (missing : Bytes) (hm : missing ≠ []) (he : rest ++ missing = f.bytes) : readManifest bank content = none := by
  cases h : readManifest bank content with
  | none => rfl
  | some m =>
    obtain ⟨rest', h1, f', h2, ⟨tail, h3⟩, -⟩ := readManifest_some h
    have e : rest' = rest := by
      unfold BankRead at hb h1
      rw [hb] at h1
      exact (Prod.mk.inj h1).2.symm
    subst e
    have := (bytes_unique h2 hf (t := tail ++ missing) (t' := []) (by rw [← List.append_assoc, h3, he, List.append_nil])).2
    exact absurd (List.append_eq_nil_iff.1 this).2 hm

/-- **C95**. Fields of more than 32 GiB are not read. -/
theorem C95_limited (bank : Read Unit) (content rest : Bytes) (hb : BankRead bank content rest) (f : DbFields) (hf : f.Fits)
    (tail : Bytes) (he : rest = f.bytes ++ tail) (hl : 32 * 2 ^ 30 < f.bytes.length) : readManifest bank content = none := by
  cases h : readManifest bank content with
  | none => rfl
  | some m =>
    unfold readManifest at h
    rw [hb] at h
    simp only at h
    split at h
    · simp at h
    · rename_i l r' hd
      unfold deserializeFrom at hd
      simp only [Prod.mk.injEq] at hd
      obtain ⟨g, g1, ⟨t, g2⟩, g3⟩ := fields_within (r := ⟨rest, maxStreamSize⟩)
        (r' := (accountsDbFields ⟨rest, maxStreamSize⟩).2) (l := l) (Prod.ext hd.1 rfl)
      simp only at g2 g3
      rw [he] at g2
      have := (bytes_unique g1 hf g2).1
      rw [this] at g3
      unfold maxStreamSize at g3
      omega

/-- A table of 2^31 slots without append vecs. -/
example : ∃ f : DbFields, f.Fits ∧ 32 * 2 ^ 30 < f.bytes.length := by
  obtain ⟨n, hn⟩ : ∃ n, n = 2 ^ 31 := ⟨_, rfl⟩
  refine ⟨⟨List.replicate n (0, []), 0, 0, List.replicate 32 0, List.replicate 32 0, [0, 0, 0, 0, 0]⟩,
    ⟨by simp; omega, ?_, by simp, by simp, by simp, by simp, by simp⟩, ?_⟩
  · intro p hp
    simp only [List.eq_of_mem_replicate hp]
    simp
  · have : ((List.replicate n ((0, []) : Nat × List (Nat × Nat))).flatMap slotBytes).length = 16 * n := by
      clear hn
      induction n with
      | zero => rfl
      | succ n ih =>
        rw [List.replicate_succ, List.flatMap_cons, List.length_append, ih]
        simp [slotBytes, num]; omega
    simp only [DbFields.bytes, List.length_append, this, List.length_replicate]
    omega
/-- **C95**. Two tables that differ have different bytes, however they go on. -/
theorem C95_unambiguous (f f' : DbFields) (hf : f.Fits) (hf' : f'.Fits) (tail tail' : Bytes)
    (h : f.bytes ++ tail = f'.bytes ++ tail') (m m' : Sim.Manifest) (hm : TableOf f.storages m) (hm' : TableOf f'.storages m') :
    m = m' ∧ tail = tail' := by
  have h1 := core_read hf tail (f'.bytes.length)
  have h2 := core_read hf' tail' (f.bytes.length)
  rw [h, Nat.add_comm, h2] at h1
  simp only [Prod.mk.injEq, Except.ok.injEq, Reader.mk.injEq] at h1
  obtain ⟨⟨e, -⟩, e', -⟩ := h1
  rw [e] at hm'
  exact ⟨table_unique hm hm', e'.symm⟩

/-- **C95**. An archive given by its bytes is loaded: the manifest has the bytes of the bank and of the fields, and the files that
it declares hold accounts. -/
theorem C95_archive (X : Codecs) (bank : Read Unit) (hb : Forward bank) (pre post : List Item) (path : Path) (content tail : Bytes)
    (f : DbFields) (m : Sim.Manifest) (ws : List (Nat × Written))
    (h1 : ∀ i ∈ pre, ∃ p c, i = .entry p c ∧ ¬ ManifestPath p ∧ ¬ AccountsPath p) (h2 : ManifestPath path)
    (h3 : BankRead bank content (f.bytes ++ tail)) (h4 : content.length + 16 ≤ 32 * 2 ^ 30) (h5 : f.Fits)
    (h6 : TableOf f.storages m) (h7 : Contains m post ws) (s : TokenStore) :
    loadArchive X (readManifest bank) (pre ++ .entry path (some content) :: post) s =
      TokenStore.run X (((ws.map (·.2)).filter (fun w => w.owner = Spl.tokenId)).map (fun w => TOp.init
        ⟨w.pubkey, ⟨w.lamports, .uncompressed w.data, w.owner, w.executable, w.rentEpoch⟩, 0, 0⟩)) s :=
  C77_loads_exactly X (readManifest bank) _ ws ⟨pre, path, content, m, post, rfl, h1, h2,
    (C95_read_iff bank hb content h4 m).2 ⟨_, f, tail, h3, h5, rfl, h6⟩, h7⟩ s

/-- A bank of three bytes, of which the first is 1. -/
def smallBank : Read Unit := fun r =>
  match bytes 3 r with
  | (.ok b, r) => if b.head? = some 1 then (.ok (), r) else (.error .other, r)
  | (.error e, r) => (.error e, r)

theorem smallBank_forward : Forward smallBank := by
  intro content rest h
  unfold BankRead deserializeFrom smallBank at h
  cases hr : bytes 3 ⟨content, maxStreamSize⟩ with
  | mk a r =>
    rw [hr] at h
    cases a with
    | error e => simp at h
    | ok b =>
      have := ((reads_bytes 3 _ _ _).1 hr).2.1
      simp only at h this
      split at h
      · simp only [Prod.mk.injEq, true_and] at h
        exact ⟨b, by rw [this, ← h]; rfl⟩
      · simp at h

/-- The fields for two files; slot 3 is listed twice. -/
def smallFields : DbFields :=
  ⟨[(3, []), (7, [(1, 448)]), (3, [(0, 224)])], 5, 7, List.replicate 32 1, List.replicate 32 2, [1, 2, 3, 4, 5]⟩

theorem smallFields_fit : smallFields.Fits := ⟨by decide, by decide, by decide, by decide, by decide, by decide, by decide⟩

def smallTable : Sim.Manifest := toMap smallFields.storages

/-- The roots of the last epoch break off. -/
def smallContent : Bytes := [1, 9, 9] ++ (smallFields.bytes ++ [2, 0, 0, 0, 0, 0, 0, 0, 7])

theorem smallContent_read : BankRead smallBank smallContent (smallFields.bytes ++ [2, 0, 0, 0, 0, 0, 0, 0, 7]) := by
  unfold BankRead; decide +kernel

example : (readManifest smallBank smallContent).map (fun m => (m 3, m 7, m 8)) = some ([(0, 224)], [(1, 448)], []) := by
  decide +kernel

/-- Broken off within the five numbers. -/
example : readManifest smallBank (smallContent.take 200) = none :=
  C95_truncated smallBank _ (smallFields.bytes.take 197) (by unfold BankRead; decide +kernel) smallFields smallFields_fit
    (smallFields.bytes.drop 197) (by decide +kernel) (List.take_append_drop _ _)

/-- The archive with its manifest in bytes, and what is loaded from it. -/
example (s : TokenStore) :
    loadArchive Toy.codecs (readManifest smallBank) ([.entry [.normal "version".toList] (some [49])] ++
      .entry manifestPath (some smallContent) :: sampleFiles.map (fun f => .entry (pathOf f.1 f.2.1) (some (fileOf f.2.2)))) s =
    TokenStore.run Toy.codecs [.init (wToken Toy.alice 12).submitted, .init wMint.submitted] s := by
  refine (C95_archive Toy.codecs smallBank smallBank_forward _ _ manifestPath smallContent _ smallFields (manifestOf sampleFiles)
    sampleAccounts ?_ manifestPath_ok smallContent_read (by decide +kernel) smallFields_fit ?_ ?_ s).trans ?_
  · intro i hi
    simp only [List.mem_singleton] at hi
    refine ⟨_, _, hi, ?_, ?_⟩
    · rw [← isManifest_iff]; decide
    · rw [← isAppendVec_iff]; decide
  · have e : manifestOf sampleFiles = toMap smallFields.storages := by
      funext slot
      by_cases h3 : slot = 3
      · subst h3; decide +kernel
      by_cases h7 : slot = 7
      · subst h7; decide +kernel
      have h3' : ¬ 3 = slot := fun e => h3 e.symm
      have h7' : ¬ 7 = slot := fun e => h7 e.symm
      simp [manifestOf, sampleFiles, toMap, smallFields, h3', h7']
    rw [e]
    exact toMap_table _
  · exact contains_files sampleFiles (by decide) sampleFiles_fit
  · have e : ((sampleAccounts.map (·.2)).filter (fun w => w.owner = Spl.tokenId)) = [wToken Toy.alice 12, wMint] := by
      decide +kernel
    rw [e]
    rfl

end LAM.Props
