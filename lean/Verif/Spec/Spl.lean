import Verif.Model.Spl
/-!
# The SPL token layouts by offsets

Written from the layout tables of the token program, independently of the packing and unpacking functions.
-/
namespace LAM.Spec
open Token (TokenState)

/-- `len` bytes at offset `off`. -/
def field (bs : Bytes) (off len : Nat) : Bytes := (bs.drop off).take len

/-- Four bytes of tag (0 absent, 1 present) and, if present, a public key. -/
def KeyAt (bs : Bytes) (off : Nat) (k : Option Pubkey) : Prop :=
  leNat (field bs off 4) = (if k.isSome then 1 else 0) ∧ ∀ x, k = some x → field bs (off + 4) 32 = x.bytes

/-- Four bytes of tag (0 absent, 1 present) and, if present, a `u64`. -/
def OptU64At (bs : Bytes) (off : Nat) (n : Option Nat) : Prop :=
  leNat (field bs off 4) = (if n.isSome then 1 else 0) ∧ ∀ x, n = some x → leNat (field bs (off + 4) 8) = x

/-- The state byte. -/
def stateCode : TokenState → Nat
  | .uninitialized => 0
  | .initialized => 1
  | .frozen => 2

/-- `bs` is a token account with these fields. -/
structure AccountLayout (bs : Bytes) (a : Spl.Account) : Prop where
  length : bs.length = 165
  mint : field bs 0 32 = a.mint.bytes
  owner : field bs 32 32 = a.owner.bytes
  amount : leNat (field bs 64 8) = a.amount
  delegate : KeyAt bs 72 a.delegate
  state : leNat (field bs 108 1) = stateCode a.state
  native : OptU64At bs 109 a.isNative
  delegatedAmount : leNat (field bs 121 8) = a.delegatedAmount
  close : KeyAt bs 129 a.closeAuthority

/-- `bs` is a mint with these fields. -/
structure MintLayout (bs : Bytes) (m : Spl.Mint) : Prop where
  length : bs.length = 82
  mintAuthority : KeyAt bs 0 m.mintAuthority
  supply : leNat (field bs 36 8) = m.supply
  decimals : field bs 44 1 = [m.decimals]
  initialized : leNat (field bs 45 1) = if m.isInitialized then 1 else 0
  freeze : KeyAt bs 46 m.freezeAuthority

/-- `bs` is a multisig with these fields. -/
structure MultisigLayout (bs : Bytes) (m : Spl.Multisig) : Prop where
  length : bs.length = 355
  required : field bs 0 1 = [m.m]
  total : field bs 1 1 = [m.n]
  initialized : leNat (field bs 2 1) = if m.isInitialized then 1 else 0
  count : m.signers.length = 11
  signers : ∀ i (h : i < m.signers.length), field bs (3 + 32 * i) 32 = (m.signers[i]).bytes

/-- The integers of a token account fit in 64 bits. -/
structure AccountFits (a : Spl.Account) : Prop where
  amount : a.amount < 2 ^ 64
  native : ∀ n, a.isNative = some n → n < 2 ^ 64
  delegatedAmount : a.delegatedAmount < 2 ^ 64

end LAM.Spec

namespace LAM.Spec
open Token

/-- Owned by one of the token programs and funded. -/
def TokenProgramOwned (a : AccountData) (p : Program) : Prop :=
  a.account.lamports ≠ 0 ∧ a.account.owner = (match p with | .tokenProgram => Spl.tokenId | .token2022Program => Spl.token2022Id)

/-- The data decodes to `bs` and the recorded length is right (as for data made by `Data::new`). -/
def HonestData (X : Codecs) (d : Data) (bs : Bytes) : Prop := d.data X = .ok bs ∧ d.len = bs.length

/-- `t` has the fields of the SPL token account `s`. -/
structure TokenMatches (s : Spl.Account) (mintIndex : Nat) (t : TokenAccount) : Prop where
  owner : t.owner = s.owner
  mint : t.mint = mintIndex
  amount : t.amount = s.amount
  state : t.state = s.state
  noDelegate : s.delegate = none → t.delegate = none
  delegate : ∀ k, s.delegate = some k → t.delegate = some (k, s.delegatedAmount)
  native : t.isNative = s.isNative
  close : t.closeAuthority = s.closeAuthority
  live : t.isDeleted = false
  plain : t.additionalData = none

/-- `m` has the fields of the SPL mint `s`. -/
structure MintMatches (s : Spl.Mint) (lamports : Nat) (m : MintAccount) : Prop where
  lamports : m.lamports = lamports
  supply : m.supply = s.supply
  decimals : m.decimals = s.decimals
  initialized : m.isInitialized = s.isInitialized
  mintAuthority : m.mintAuthority = s.mintAuthority
  freeze : m.freezeAuthority = s.freezeAuthority
  plain : m.additionalData = none

/-- `m` has the fields of the SPL multisig `s`; the signers are those that are not all zero. -/
structure MultisigMatches (s : Spl.Multisig) (lamports : Nat) (m : MultiSig) : Prop where
  lamports : m.lamports = lamports
  required : m.m = s.m
  total : m.n = s.n
  initialized : m.isInitialized = s.isInitialized
  signers : m.signers = s.signers.filter (fun k => k ≠ Pubkey.default)

/-- The distinct mints of a list of requests in the order in which they first occur. -/
def firstSeen : List Pubkey → List Pubkey
  | [] => []
  | m :: ms => m :: (firstSeen ms).filter (fun x => x ≠ m)

/-- The digits of base 58 texts. -/
def base58Digits : List Char := "123456789ABCDEFGHJKLMNPQRSTUVWXYZabcdefghijkmnopqrstuvwxyz".toList

/-- The number written as a base 58 text, most significant digit first. -/
def base58Value (text : String) : Nat := text.toList.foldl (fun n c => 58 * n + base58Digits.idxOf c) 0

/-- The number written as bytes, most significant byte first. -/
def bytesValue (bs : Bytes) : Nat := bs.foldl (fun n b => 256 * n + b.toNat) 0

end LAM.Spec
