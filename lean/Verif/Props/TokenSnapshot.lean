import Verif.Lemmas.TokenSnapshot
import Verif.Props.TokenQuery
/-!
# Token snapshots: C58, C72
-/
namespace LAM.Props
open Spec Token
open TokenStore (TOp)

/-- **C58**, the full claim: what create_snapshot made is loaded into an empty store, and every finalized account of the
program is read there as before, with slot 0. -/
def C58_statement (L : Lz4Block) (σ : SnapshotOrders) : Prop :=
  ∀ (X : Codecs) (ops : List TOp) (s : TokenStore) (p : Program) (c : Bytes), X.Lawful → ops.length < 2 ^ 31 - 1 →
    TokenStore.run X ops .empty = .ok s → s.createSnapshot L σ p.id = .ok (.ok c) →
    ∃ s', TokenStore.empty.loadFromSnapshot L c = .ok (s', .ok ()) ∧
      ∀ pk a, s.getAccount pk .finalized = .ok (some a) → a.account.owner = p.id →
        s'.getAccount pk .finalized = .ok (some { a with slot := 0 })

/-! ## What fails -/

theorem loadMultisigs_index (l : List MultiSig) : ∀ s : TokenStore, (TokenStore.loadMultisigs l s).table = s.table := by
  induction l with
  | nil => intro s; rfl
  | cons m l ih => intro s; rw [TokenStore.loadMultisigs, ih]

theorem loadMints_index (l : List (Nat × MintAccount)) : ∀ (mapping : AMap Nat Nat) (s : TokenStore),
    (TokenStore.loadMints l mapping s).2.table.index = s.table.index := by
  induction l with
  | nil => intro _ _; rfl
  | cons e l ih =>
    obtain ⟨i, m⟩ := e
    intro mapping s
    simp only [TokenStore.loadMints]
    split <;> rw [ih]

theorem loadTokens_index {mapping : AMap Nat Nat} (l : List Bytes) : ∀ {s s' : TokenStore},
    TokenStore.loadTokens mapping l s = .ok s' → s'.table = s.table := by
  induction l with
  | nil => intro s s' h; simp [TokenStore.loadTokens] at h; rw [← h]
  | cons b l ih =>
    intro s s' h
    simp only [TokenStore.loadTokens] at h
    obtain ⟨t, -, h⟩ := Run.bind_eq_ok.1 h
    obtain ⟨i, -, h⟩ := Run.bind_eq_ok.1 h
    obtain ⟨⟨⟨k, added⟩, tokens⟩, -, h⟩ := Run.bind_eq_ok.1 h
    rw [ih h]
    simp only
    split <;> rfl

/-- **C58**. Whatever is loaded into an empty store, no mint can be read from it: everything it returns has at least 165
bytes of data. -/
theorem C58_no_mint_is_loaded (L : Lz4Block) (c : Bytes) (s' : TokenStore) (r : Except LoadError Unit)
    (h : TokenStore.empty.loadFromSnapshot L c = .ok (s', r)) (pk : Pubkey) (a : AccountData)
    (ha : s'.getAccount pk .finalized = .ok (some a)) : 165 ≤ a.account.data.len := by
  have hidx : s'.table.index = [] := by
    unfold TokenStore.loadFromSnapshot at h
    split at h
    · simp at h; rw [← h.1]; rfl
    · split at h
      · simp at h; rw [← h.1]; rfl
      · obtain ⟨s1, h1, h2⟩ := Run.bind_eq_ok.1 h
        simp at h2
        rw [← h2.1]
        unfold TokenStore.loadSnapshot at h1
        rw [loadTokens_index _ h1, loadMints_index, loadMultisigs_index]
        rfl
  have hg : s'.getFinalized pk = .ok (some a) := by simpa [TokenStore.getAccount] using ha
  unfold TokenStore.getFinalized at hg
  split at hg
  · rename_i m hm
    obtain ⟨y, hy, e⟩ := Run.bind_eq_ok.1 hg
    simp at e; subst e
    unfold multisigToSolana multisigBytes at hy
    split at hy
    · rename_i hs
      simp at hy
      rw [← hy]
      simp only [solanaAccount, Data.len, Spl.Multisig.pack, Bincode.encBool, List.length_append, List.length_singleton,
        List.length_flatten, List.map_map]
      have : ∀ l : List Pubkey, (l.map (List.length ∘ Pubkey.bytes)).sum = 32 * l.length := by
        intro l
        induction l with
        | nil => rfl
        | cons k l ih => simp [ih, k.size]; omega
      rw [this]
      simp
      omega
    · simp at hy
  · rw [hidx] at hg
    simp only [AMap.find_nil] at hg
    obtain ⟨t, -, hg⟩ := Run.bind_eq_ok.1 hg
    cases t with
    | none => simp at hg
    | some t =>
      simp only at hg
      split at hg
      · simp at hg
      · unfold tokenToSolana at hg
        split at hg
        · simp at hg
        · obtain ⟨m, -, hg⟩ := Run.bind_eq_ok.1 hg
          simp at hg
          rw [← hg]
          simp only [solanaAccount, Data.len, tokenData]
          split
          · rw [Spl.length_pack]
            exact Nat.le_refl _
          · simp [Spl.length_pack]

/-- The snapshot of the store `loaded`. -/
def loadedSnapshot : TokenSnapshot := ⟨[(0, aMint)], [], loaded.tokens.accounts⟩

theorem loadedSnapshot_eq (σ : SnapshotOrders) : loaded.snapshotOf σ .tokenProgram = .ok loadedSnapshot := by
  have h1 : loaded.mints.filter (fun e => e.2.program = .tokenProgram) = [(0, aMint)] := by decide +kernel
  have h2 : loaded.multisigs.map (·.2) = [] := by decide +kernel
  have h3 : loaded.tokens.createSnapshot .tokenProgram = .ok loaded.tokens.accounts := by decide +kernel
  have h4 : σ.mints [(0, aMint)] = [(0, aMint)] := List.perm_singleton.1 (σ.mints_perm _)
  have h5 : σ.multisigs [] = [] := (σ.multisigs_perm []).eq_nil
  simp [TokenStore.snapshotOf, h1, h2, h3, h4, h5, loadedSnapshot]

/-- The full claim is false whatever LZ4 does: a mint is not read back. -/
theorem C58_refuted (L : Lz4Block) (hL : L.Lawful) (σ : SnapshotOrders) : ¬ C58_statement L σ := by
  intro h
  obtain ⟨c, hc⟩ := hL.compresses (encSnapshot loadedSnapshot) (by
    have : (encSnapshot loadedSnapshot).length ≤ 1000 := by decide +kernel
    omega)
  have hcr : loaded.createSnapshot L σ Program.tokenProgram.id = .ok (.ok c) := by
    simp [TokenStore.createSnapshot, TokenStore.programOf, Program.id, loadedSnapshot_eq, hc]
  obtain ⟨s', h1, h2⟩ := h Toy.codecs _ loaded .tokenProgram c Toy.lawful (by decide) loaded_eq hcr
  have h3 := h2 Toy.prog (mintToSolana aMint 0 0) (by decide +kernel) (by decide)
  have h4 := C58_no_mint_is_loaded L c s' _ h1 _ _ h3
  revert h4
  decide

/-- LZ4 that stores the data as it is. -/
def plainLz4 : Lz4Block := ⟨some, fun n c => if c.length ≤ n then some c else none⟩

theorem plainLz4_lawful : plainLz4.Lawful := by
  constructor
  · intro x _; exact ⟨x, rfl⟩
  · intro x c n h hn
    simp [plainLz4] at h ⊢
    subst h; simp [hn]

/-- **C58**. Snapshots are compressed without a size in front and decompressed as if there were one: with this LZ4, loading
fails. -/
theorem C58_size_refuted (σ : SnapshotOrders) : plainLz4.Lawful ∧ ∃ c,
    loaded.createSnapshot plainLz4 σ Program.tokenProgram.id = .ok (.ok c) ∧
    TokenStore.empty.loadFromSnapshot plainLz4 c = .ok (.empty, .error .compressionIssues) := by
  refine ⟨plainLz4_lawful, encSnapshot loadedSnapshot, ?_, ?_⟩
  · simp [TokenStore.createSnapshot, TokenStore.programOf, Program.id, loadedSnapshot_eq, plainLz4]
  · have : plainLz4.decompressPrefixed (encSnapshot loadedSnapshot) = none := by decide +kernel
    simp [TokenStore.loadFromSnapshot, this]

/-- **C58**. The snapshot of a store with a token account of an unknown mint is created, but loading it panics. -/
theorem C58_unknown_mint_refuted (σ : SnapshotOrders) : ∃ x,
    TokenStore.run Toy.codecs [.init (tokenAcct Toy.alice 1 1)] .empty = .ok mintless ∧
    mintless.snapshotOf σ .tokenProgram = .ok x ∧ SnapshotFits x ∧ TokenStore.empty.loadSnapshot x = .panic := by
  have h1 : mintless.mints.filter (fun e => e.2.program = .tokenProgram) = [] := by decide +kernel
  have h2 : mintless.multisigs.map (·.2) = [] := by decide +kernel
  have h3 : mintless.tokens.createSnapshot .tokenProgram = .ok mintless.tokens.accounts := by decide +kernel
  have h4 : σ.mints [] = [] := (σ.mints_perm []).eq_nil
  have h5 : σ.multisigs [] = [] := (σ.multisigs_perm []).eq_nil
  have h6 : TokenStore.empty.loadSnapshot ⟨[], [], mintless.tokens.accounts⟩ = .panic := by decide +kernel
  have ha : mintless.tokens.accounts.length ≤ 10 ∧ ∀ b ∈ mintless.tokens.accounts, b.length ≤ 1000 := by decide +kernel
  revert h3 h6 ha
  generalize mintless.tokens.accounts = acc
  intro h3 h6 ha
  refine ⟨⟨[], [], acc⟩, mintless_eq, by simp [TokenStore.snapshotOf, h1, h2, h3, h4, h5], ?_, h6⟩
  have hu : U64 0 := by decide
  refine ⟨hu, by simp, hu, by simp, ?_, fun b hb => ?_⟩
  · have := ha.1
    show acc.length < 2 ^ 64
    omega
  · have := ha.2 b hb
    show b.length < 2 ^ 64
    omega

/-- The token accounts of `alice` and of a key with the same first four bytes are loaded, the other one is closed, then
`alice` is closed. -/
def closedHistory : List TOp := [.init mintAcct, .init (tokenAcct Toy.alice 1 1), .init (tokenAcct aliceTwin 1 1),
  .init (closedAcct aliceTwin 2 2), .init (closedAcct Toy.alice 3 3)]

/-- The store after `closedHistory`. -/
def closedBoth : TokenStore := okStore (TokenStore.run Toy.codecs closedHistory .empty)

/-- The token account of `alice` as it is read. -/
def aliceAccount : AccountData := match loaded.getAccount Toy.alice .finalized with | .ok (some a) => a | _ => mintAcct

/-- **C58**. A closed account is back after loading the snapshot. -/
theorem C58_closed_is_back (σ : SnapshotOrders) : ∃ x s',
    TokenStore.run Toy.codecs closedHistory .empty = .ok closedBoth ∧
    closedBoth.getAccount Toy.alice .finalized = .ok none ∧ closedBoth.snapshotOf σ .tokenProgram = .ok x ∧
    TokenStore.empty.loadSnapshot x = .ok s' ∧ ∃ a, s'.getAccount Toy.alice .finalized = .ok (some a) := by
  have h1 : closedBoth.mints.filter (fun e => e.2.program = .tokenProgram) = [(0, aMint)] := by decide +kernel
  have h2 : closedBoth.multisigs.map (·.2) = [] := by decide +kernel
  have h3 : closedBoth.tokens.createSnapshot .tokenProgram = .ok (closedBoth.tokens.accounts.take 1) := by decide +kernel
  have h4 : σ.mints [(0, aMint)] = [(0, aMint)] := List.perm_singleton.1 (σ.mints_perm _)
  have h5 : σ.multisigs [] = [] := (σ.multisigs_perm []).eq_nil
  refine ⟨⟨[(0, aMint)], [], closedBoth.tokens.accounts.take 1⟩,
    okStore (TokenStore.empty.loadSnapshot ⟨[(0, aMint)], [], closedBoth.tokens.accounts.take 1⟩), by decide +kernel,
    by decide +kernel, by simp [TokenStore.snapshotOf, h1, h2, h3, h4, h5], by decide +kernel,
    aliceAccount, by decide +kernel⟩
/-- **C58**. After loading the snapshot of `loaded`, the token account of `alice` is readable; after the next finalized update of
it (valid, and of the mint that was in the snapshot) reading it panics. -/
theorem C58_update_after_load_panics : ∃ s' s'' r, TokenStore.empty.loadSnapshot loadedSnapshot = .ok s' ∧
    s'.getAccount Toy.alice .finalized = .ok (some r) ∧
    s'.updateAccount Toy.codecs (tokenAcct Toy.alice 2 2) .finalized = .ok (true, s'') ∧
    s''.getAccount Toy.alice .finalized = .panic := by
  refine ⟨okStore (TokenStore.empty.loadSnapshot loadedSnapshot),
    (match (okStore (TokenStore.empty.loadSnapshot loadedSnapshot)).updateAccount Toy.codecs (tokenAcct Toy.alice 2 2) .finalized with
      | .ok (_, s) => s | _ => .empty), aliceAccount, ?_, ?_, ?_, ?_⟩ <;> decide +kernel

/-! ## What holds -/

/-- **C58**. The bytes before compression are read back as the same snapshot. -/
theorem C58_encoding (x : TokenSnapshot) (h : SnapshotFits x) : (decSnapshot (encSnapshot x)).map (·.1) = some x :=
  decSnapshot_enc h

theorem load_of_parts {L : Lz4Block} {c : Bytes} {x : TokenSnapshot} {s s' : TokenStore} (hf : SnapshotFits x)
    (hc : L.decompressPrefixed c = some (encSnapshot x)) (h1 : s.loadSnapshot x = .ok s') :
    s.loadFromSnapshot L c = .ok (s', .ok ()) := by
  simp [TokenStore.loadFromSnapshot, hc, decSnapshot_enc hf, h1]

/-- **C58**. With its size in four bytes in front, what was compressed is decompressed. -/
theorem C58_with_size (L : Lz4Block) (hL : L.Lawful) (x c : Bytes) (hx : x.length ≤ 0x7E000000) (hc : L.compress x = some c) :
    L.decompressPrefixed (leBytes 4 x.length ++ c) = some x := by
  have h1 : (leBytes 4 x.length ++ c).take 4 = leBytes 4 x.length := List.take_left' (by simp)
  have h2 : (leBytes 4 x.length ++ c).drop 4 = c := List.drop_left' (by simp)
  unfold Lz4Block.decompressPrefixed
  rw [h1, h2, leNat_leBytes_of_lt (by omega)]
  rw [if_neg (by simp), if_neg (by omega)]
  exact hL.back x c _ hc (Nat.le_refl _)

example : plainLz4.decompressPrefixed [2, 0, 0, 0, 7, 8] = some [7, 8] :=
  C58_with_size plainLz4 plainLz4_lawful [7, 8] [7, 8] (by decide) rfl

/-- **C58**. If decompression gives the data back and every token account in the snapshot has a stored mint of the same
program, then loading into an empty store succeeds, and every multisig and every finalized account of the program that is not a
mint is read as before, with slot 0. -/
theorem C58_accounts_partial (L : Lz4Block) (σ : SnapshotOrders) (X : Codecs) (ops : List TOp) (s : TokenStore) (p : Program)
    (x : TokenSnapshot) (hn : ops.length < 2 ^ 31) (hr : TokenStore.run X ops .empty = .ok s)
    (hx : s.snapshotOf σ p = .ok x) (hf : SnapshotFits x)
    (hk : ∀ b ∈ x.tokens, ∃ t m, TokenAccount.fromBytes b = .ok t ∧ s.mints.find t.mint = some m ∧ m.program = p) :
    ∃ s', (∀ c, L.decompressPrefixed c = some (encSnapshot x) → TokenStore.empty.loadFromSnapshot L c = .ok (s', .ok ())) ∧
      ∀ pk a, s.getAccount pk .finalized = .ok (some a) →
        s.multisigs.find pk ≠ none ∨ (a.account.owner = p.id ∧ s.table.index.find pk = none) →
        s'.getAccount pk .finalized = .ok (some { a with slot := 0 }) := by
  obtain ⟨slots, orig, inv⟩ := reach_inv (by omega) hr
  have hb := inv.bound
  have hcb := inv.cbound
  have hx' := hx
  rw [snapshotOf_eq inv.fin] at hx'
  have hk' : ∀ t ∈ chosen p slots, ∃ m, s.mints.find t.mint = some m ∧ m.program = p := by
    intro t ht
    have hmem : t.toBytes ∈ x.tokens := by cases hx'; exact List.mem_map_of_mem ht
    obtain ⟨t', m, h1, h2⟩ := hk _ hmem
    rw [fromBytes_toBytes (inv.fin.holds.fits t (List.mem_filter.1 ht).1)] at h1
    cases h1
    exact ⟨m, h2⟩
  obtain ⟨s', h1, h2, h3, -, h5, h6, -⟩ := loadSnapshot_spec inv.fin (by omega) (by omega) σ p hx hk'
  refine ⟨s', ?_, ?_⟩
  · intro c hc
    simp [TokenStore.loadFromSnapshot, hc, decSnapshot_enc hf, h1]
  · intro pk a ha hi
    simp only [TokenStore.getAccount, if_true] at ha ⊢
    unfold TokenStore.getFinalized at ha ⊢
    rw [h5]
    cases hm : s.multisigs.find pk with
    | some m =>
      simp only [hm] at ha ⊢
      rw [multisigToSolana_ok (inv.fin.multis pk m hm).1] at ha ⊢
      simp at ha ⊢
      subst ha
      simp [h3]
    | none =>
      obtain ⟨ho, hi⟩ := hi.resolve_left (by simp [hm])
      simp only [hm, hi] at ha ⊢
      rw [h2]
      simp only [AMap.find_nil]
      rw [getByPubkey_eq inv.fin.holds] at ha
      cases hv : view s.tokens slots pk with
      | none => simp [hv] at ha
      | some t =>
        obtain ⟨rfl, i, hst⟩ := (view_eq_some inv.fin.holds).1 hv
        have hd := inv.fin.live i t hst
        simp only [hv, Run.ok_bind, hd, Bool.false_eq_true, if_false] at ha
        cases hmt : s.mints.find t.mint with
        | none => simp [tokenToSolana, hd, hmt] at ha
        | some m =>
          rw [tokenToSolana_ok hd hmt] at ha
          simp at ha
          have hp : t.program = p := by
            rw [← ha] at ho
            simp only [solanaAccount] at ho
            revert ho
            cases t.program <;> cases p <;> decide
          obtain ⟨j, hj, hj'⟩ := h6 i t hst hp
          rw [hj]
          simp only [Run.ok_bind, hd, Bool.false_eq_true, if_false]
          rw [tokenToSolana_ok (t := { t with mint := j, isDeleted := false }) rfl (by rw [hj', hmt]), ← ha, h3]
          rfl

example : ∃ s', (∀ L c, Lz4Block.decompressPrefixed L c = some (encSnapshot loadedSnapshot) →
      TokenStore.empty.loadFromSnapshot L c = .ok (s', .ok ())) ∧ s'.getAccount Toy.alice .finalized ≠ .ok none := by
  have ha : loadedSnapshot.tokens.length ≤ 10 ∧ ∀ b ∈ loadedSnapshot.tokens, b.length ≤ 1000 := by decide +kernel
  have hf : SnapshotFits loadedSnapshot := by
    refine ⟨by simp [U64, loadedSnapshot], ?_, by simp [U64, loadedSnapshot], by simp [loadedSnapshot],
      by simp only [U64]; omega, fun b hb => by have := ha.2 b hb; simp only [U64]; omega⟩
    intro e he
    simp [loadedSnapshot] at he
    subst he
    exact ⟨by decide, by simp [U64, aMint], by simp [U64, aMint], by simp [aMint]⟩
  refine ⟨okStore (TokenStore.empty.loadSnapshot loadedSnapshot), ?_, by decide +kernel⟩
  intro L c hc
  have h1 : TokenStore.empty.loadSnapshot loadedSnapshot = .ok (okStore (TokenStore.empty.loadSnapshot loadedSnapshot)) := by
    decide +kernel
  exact load_of_parts hf hc h1

/-! ## Loading into a store in use -/

/-- **C72**, the full claim: loading a snapshot made by some store leaves the finalized reads of all other public keys as
they are. -/
def C72_statement : Prop :=
  ∀ (X X' : Codecs) (ops ops' : List TOp) (s s' s2 : TokenStore) (σ : SnapshotOrders) (p : Program) (x : TokenSnapshot),
    ops.length < 2 ^ 30 → ops'.length < 2 ^ 30 → TokenStore.run X ops .empty = .ok s → TokenStore.run X' ops' .empty = .ok s2 →
    s2.snapshotOf σ p = .ok x → s.loadSnapshot x = .ok s' → ∀ pk, ¬ InSnapshot x pk →
    s'.getAccount pk .finalized = s.getAccount pk .finalized

/-- **C72**. If no mint of the snapshot is known to the store, loading leaves the finalized reads of all other public keys as
they are. (Any snapshot, also one that no store made.) -/
theorem C72_unknown_mints_partial (X : Codecs) (ops : List TOp) (s s' : TokenStore) (x : TokenSnapshot)
    (h1 : ops.length < 2 ^ 30) (h2 : x.mints.length < 2 ^ 30) (h3 : x.tokens.length < 2 ^ 30)
    (hr : TokenStore.run X ops .empty = .ok s) (hu : ∀ e ∈ x.mints, s.table.index.find e.2.pubkey = none)
    (hl : s.loadSnapshot x = .ok s') (pk : Pubkey) (hpk : ¬ InSnapshot x pk) :
    s'.getAccount pk .finalized = s.getAccount pk .finalized := by
  obtain ⟨slots, orig, inv⟩ := reach_inv (by omega) hr
  have hb := inv.bound
  have hcb := inv.cbound
  obtain ⟨M, m1, -, m3, -⟩ := loadMultisigs_other x.multisigs s
  obtain ⟨map', mints', e1, e2, e3, e4, e5⟩ := loadMints_fresh x.mints [] { s with multisigs := M } hu (by simp; omega)
  unfold TokenStore.loadSnapshot at hl
  rw [m1, e1] at hl
  obtain ⟨slots', k1, k2, k3, k4, k5, k6⟩ := loadTokens_frame (mapping := map') (slots := slots) (by
    intro i j hj
    rcases e5 i j hj with h | h
    · simp at h
    · simp at h; omega) x.tokens (by exact inv.fin.holds) (by omega) hl
  have hv := k6 pk (fun b hb t ht e => hpk (.token b hb t ht e))
  have hM : s'.multisigs.find pk = s.multisigs.find pk := by
    rw [k4]
    exact m3 pk (fun m hm e => hpk (.multisig m hm e))
  simp only [TokenStore.getAccount, if_true]
  unfold TokenStore.getFinalized
  rw [hM, k5, k3, k2, getByPubkey_eq k1, hv, getByPubkey_eq inv.fin.holds]
  simp only
  cases s.multisigs.find pk with
  | some m => rfl
  | none =>
    simp only
    cases hi : s.table.index.find pk with
    | some i =>
      simp only
      rw [e2 i (inv.fin.idx_lt _ _ hi)]
    | none =>
      simp only [Run.ok_bind]
      cases hvw : view s.tokens slots pk with
      | none => rfl
      | some t =>
        simp only
        obtain ⟨-, i, hst⟩ := (view_eq_some inv.fin.holds).1 hvw
        have hd := inv.fin.live i t hst
        obtain ⟨-, -, -, hsl⟩ := hst
        have hlt : t.mint < s.table.counter := by
          rcases inv.fin.slotsQ t (List.mem_of_getElem? hsl) with h | h
          · subst h; simp [TokenStorage.tombstone] at hd
          · exact h.2.2
        simp only [hd, Bool.false_eq_true, if_false, tokenToSolana, e2 t.mint hlt]

/-- A third mint. -/
def cMint : MintAccount := { aMint with pubkey := Toy.bob }

/-- A store that knows `aMint` and `bMint`. -/
def twoMints : TokenStore := okStore (TokenStore.run Toy.codecs [.init mintAcct, .init (mintToSolana bMint 1 1)] .empty)

/-- A store that knows `cMint` and `aMint`. -/
def otherMints : TokenStore := okStore (TokenStore.run Toy.codecs [.init (mintToSolana cMint 1 1), .init mintAcct] .empty)

/-- One order of the entries in a snapshot. -/
def plainSnapshotOrders : SnapshotOrders := ⟨id, fun _ => .refl _, id, fun _ => .refl _⟩

/-- The snapshot of `otherMints`. -/
def otherSnapshot : TokenSnapshot :=
  match otherMints.snapshotOf plainSnapshotOrders .tokenProgram with | .ok x => x | _ => ⟨[], [], []⟩

/-- The full claim is false: after loading, the mint `bMint`, which is not in the snapshot, is read as `aMint`. -/
theorem C72_refuted : ¬ C72_statement := by
  intro h
  have := h Toy.codecs Toy.codecs [.init mintAcct, .init (mintToSolana bMint 1 1)]
    [.init (mintToSolana cMint 1 1), .init mintAcct] twoMints (okStore (twoMints.loadSnapshot otherSnapshot)) otherMints
    plainSnapshotOrders .tokenProgram otherSnapshot (by decide) (by decide) (by decide +kernel) (by decide +kernel)
    (by decide +kernel) (by decide +kernel) Toy.prog2 (by
      rintro (⟨m, hm, e⟩ | ⟨m, hm, e⟩ | ⟨b, hb, t, ht, e⟩)
      · have hall : ∀ m ∈ otherSnapshot.multisigs, m.pubkey ≠ Toy.prog2 := by decide +kernel
        exact hall _ hm e
      · have hall : ∀ m ∈ otherSnapshot.mints, m.2.pubkey ≠ Toy.prog2 := by decide +kernel
        exact hall _ hm e
      · have hall : otherSnapshot.tokens = [] := by decide +kernel
        rw [hall] at hb
        simp at hb)
  revert this
  decide +kernel

example : (okStore (twoMints.loadSnapshot otherSnapshot)).getAccount Toy.prog2 .finalized = .ok (some (mintToSolana aMint 0 0)) := by
  decide +kernel

/-- The hypotheses of `C72_unknown_mints_partial` hold for loading the snapshot of `loaded` into a store that knows only `bMint`. -/
example : (okStore ((okStore (TokenStore.run Toy.codecs [.init (mintToSolana bMint 1 1)] .empty)).loadSnapshot loadedSnapshot)).getAccount
      Toy.prog2 .finalized =
    (okStore (TokenStore.run Toy.codecs [.init (mintToSolana bMint 1 1)] .empty)).getAccount Toy.prog2 .finalized := by
  refine C72_unknown_mints_partial Toy.codecs [.init (mintToSolana bMint 1 1)] _ _ loadedSnapshot (by decide) (by decide)
    (by decide +kernel) (by decide +kernel) (by decide +kernel) (by decide +kernel) _ ?_
  rintro (⟨m, hm, e⟩ | ⟨m, hm, e⟩ | ⟨b, hb, t, ht, e⟩)
  · simp [loadedSnapshot] at hm
  · have hall : ∀ m ∈ loadedSnapshot.mints, m.2.pubkey ≠ Toy.prog2 := by decide +kernel
    exact hall _ hm e
  · have hall : ∀ b ∈ loadedSnapshot.tokens, (match TokenAccount.fromBytes b with | .ok t => t.pubkey | _ => Toy.alice) ≠ Toy.prog2 := by
      decide +kernel
    have := hall b hb
    rw [ht] at this
    exact this e

end LAM.Props
