import Verif.Model.TokenStore
/-!
# Snapshots of the token program store (`token_account_storage/src/inmemory_token_storage.rs` 550-555, 740-845)

`bincode` as in `Model/Bincode.lean`: an `Option` is a byte 0 or 1 and then the value.
-/
namespace LAM.Token
open Bincode
open Spl (tokenId token2022Id)

/-- The LZ4 block functions (external): the compressor without a size in front, and the decompressor into a buffer of a
given size. -/
structure Lz4Block where
  compress : Bytes → Option Bytes
  decompress : Nat → Bytes → Option Bytes

/-- Assumed of LZ4: at most `LZ4_MAX_INPUT_SIZE` bytes are compressed, and a large enough buffer gets them back. -/
structure Lz4Block.Lawful (L : Lz4Block) : Prop where
  compresses : ∀ x, x.length ≤ 0x7E000000 → ∃ c, L.compress x = some c
  back : ∀ x c n, L.compress x = some c → x.length ≤ n → L.decompress n c = some x

/-- `lz4::block::decompress(src, None)` (external crate `lz4`): the first four bytes are the size of the result, at most
`LZ4_MAX_INPUT_SIZE`. -/
def Lz4Block.decompressPrefixed (L : Lz4Block) (src : Bytes) : Option Bytes :=
  if src.length < 4 then none
  else if leNat (src.take 4) > 0x7E000000 then none
  else L.decompress (leNat (src.take 4)) (src.drop 4)

/-- `Option` with its `Serialize`. -/
def encOption (enc : α → Bytes) : Option α → Bytes
  | none => [0]
  | some a => 1 :: enc a

/-- `Option` with its `Deserialize`. -/
def decOption (d : Decoder α) : Decoder (Option α) := fun bs => do
  let (b, bs) ← decByte bs
  if b = 0 then return (none, bs)
  else if b = 1 then
    let (a, bs) ← d bs
    return (some a, bs)
  else none

/-- `account_types.rs` 7-12 with its derived `Serialize`. -/
def encProgram : Program → Bytes
  | .tokenProgram => leBytes 4 0
  | .token2022Program => leBytes 4 1

/-- `account_types.rs` 7-12 with its derived `Deserialize`. -/
def decProgram : Decoder Program :=
  decMap (decNat 4) fun n => if n = 0 then some .tokenProgram else if n = 1 then some .token2022Program else none

/-- `account_types.rs` 81-92 with its derived `Serialize`. -/
def encMint (m : MintAccount) : Bytes :=
  encProgram m.program ++ (encPubkey m.pubkey ++ (encU64 m.lamports ++ (encU64 m.supply ++ ([m.decimals] ++
    (encBool m.isInitialized ++ (encOption encPubkey m.mintAuthority ++ (encOption encPubkey m.freezeAuthority ++
      encOption encByteVec m.additionalData)))))))

/-- `account_types.rs` 81-92 with its derived `Deserialize`. -/
def decMint : Decoder MintAccount :=
  decMap (decPair decProgram (decPair decPubkey (decPair decU64 (decPair decU64 (decPair decByte (decPair decBool
    (decPair (decOption decPubkey) (decPair (decOption decPubkey) (decOption (decVec decByte))))))))))
    fun (p, k, l, s, d, i, a, f, x) => some ⟨p, k, l, s, d, i, a, f, x⟩

/-- `account_types.rs` 94-103 with its derived `Serialize`. -/
def encMultiSig (m : MultiSig) : Bytes :=
  encProgram m.program ++ (encPubkey m.pubkey ++ (encU64 m.lamports ++ ([m.m] ++ ([m.n] ++
    (encBool m.isInitialized ++ encVec encPubkey m.signers)))))

/-- `account_types.rs` 94-103 with its derived `Deserialize`. -/
def decMultiSig : Decoder MultiSig :=
  decMap (decPair decProgram (decPair decPubkey (decPair decU64 (decPair decByte (decPair decByte (decPair decBool
    (decVec decPubkey)))))))
    fun (p, k, l, m, n, i, s) => some ⟨p, k, l, m, n, i, s⟩

/-- `inmemory_token_storage.rs` 550-555. -/
structure TokenSnapshot where
  mints : List (Nat × MintAccount)
  multisigs : List MultiSig
  tokens : List Bytes
deriving DecidableEq, Repr

/-- `inmemory_token_storage.rs` 550-555 with its derived `Serialize`. -/
def encSnapshot (x : TokenSnapshot) : Bytes :=
  encVec (fun e : Nat × MintAccount => leBytes 4 e.1 ++ encMint e.2) x.mints ++
    (encVec encMultiSig x.multisigs ++ encVec encByteVec x.tokens)

/-- `inmemory_token_storage.rs` 550-555 with its derived `Deserialize`. -/
def decSnapshot : Decoder TokenSnapshot :=
  decMap (decPair (decVec (decPair (decNat 4) decMint)) (decPair (decVec decMultiSig) (decVec (decVec decByte))))
    fun (m, s, t) => some ⟨m, s, t⟩

/-- Iteration orders of the two hash maps in `create_snapshot`: arbitrary. -/
structure SnapshotOrders where
  mints : List (Nat × MintAccount) → List (Nat × MintAccount)
  mints_perm : ∀ l, (mints l).Perm l
  multisigs : List MultiSig → List MultiSig
  multisigs_perm : ∀ l, (multisigs l).Perm l

namespace TokenStore

/-- `inmemory_token_storage.rs` 749-768. -/
def snapshotOf (σ : SnapshotOrders) (s : TokenStore) (program : Program) : Run TokenSnapshot := do
  let tokens ← s.tokens.createSnapshot program
  return ⟨σ.mints (s.mints.filter (fun e => e.2.program = program)), σ.multisigs (s.multisigs.map (·.2)), tokens⟩

/-- `inmemory_token_storage.rs` 741-747. -/
def programOf (id : Pubkey) : Option Program :=
  if id = tokenId then some .tokenProgram else if id = token2022Id then some .token2022Program else none

/-- `inmemory_token_storage.rs` 740-777. -/
def createSnapshot (L : Lz4Block) (σ : SnapshotOrders) (s : TokenStore) (id : Pubkey) : Run (Except LoadError Bytes) :=
  match programOf id with
  | none => .ok (.error .wrongIndex)
  | some program => do
    let x ← s.snapshotOf σ program
    match L.compress (encSnapshot x) with
    | none => return .error .compressionIssues
    | some b => return .ok b

/-- The loop of `inmemory_token_storage.rs` 795-797. -/
def loadMultisigs : List MultiSig → TokenStore → TokenStore
  | [], s => s
  | m :: l, s => loadMultisigs l { s with multisigs := s.multisigs.insert m.pubkey m }

/-- The loop of `inmemory_token_storage.rs` 799-812, with `mint_mapping`. -/
def loadMints : List (Nat × MintAccount) → AMap Nat Nat → TokenStore → AMap Nat Nat × TokenStore
  | [], mapping, s => (mapping, s)
  | (index, m) :: l, mapping, s =>
    match s.table.index.find m.pubkey with
    | some value => loadMints l (mapping.insert index value) { s with mints := s.mints.insert index m }
    | none =>
      let i := s.table.counter
      loadMints l (mapping.insert index i)
        { s with
          table := ⟨s.table.index, wrap32 (i + 1)⟩
          mints := s.mints.insert i m }

/-- The loop of `inmemory_token_storage.rs` 814-842. -/
def loadTokens (mapping : AMap Nat Nat) : List Bytes → TokenStore → Run TokenStore
  | [], s => .ok s
  | b :: l, s => do
    let t ← TokenAccount.fromBytes b
    let i ← Run.unwrap (mapping.find t.mint)
    let t := { t with mint := i }
    let ((k, added), tokens) ← s.tokens.save t
    loadTokens mapping l (if added then
      { s with
        tokens := tokens
        byOwner := push s.byOwner (prefix4 t.owner) k
        byMint := push s.byMint i k }
      else { s with tokens := tokens })

/-- `inmemory_token_storage.rs` 787-844. -/
def loadSnapshot (s : TokenStore) (x : TokenSnapshot) : Run TokenStore :=
  let (mapping, s) := loadMints x.mints [] (loadMultisigs x.multisigs s)
  loadTokens mapping x.tokens s

/-- `inmemory_token_storage.rs` 779-845 (the program id is not used). -/
def loadFromSnapshot (L : Lz4Block) (s : TokenStore) (snapshot : Bytes) : Run (TokenStore × Except LoadError Unit) :=
  match L.decompressPrefixed snapshot with
  | none => .ok (s, .error .compressionIssues)
  | some binary =>
    match (decSnapshot binary).map (·.1) with
    | none => .ok (s, .error .deserializationIssues)
    | some x => do
      let s ← s.loadSnapshot x
      return (s, .ok ())

end TokenStore
end LAM.Token
