import Verif.Spec.Spl
import Verif.Spec.Token
import Verif.Spec.Processed
import Verif.Model.TokenStore
/-!
# What the token program store should do

Stated on accounts as they are submitted and read, and on the tables of the store.
-/
namespace LAM.Spec
open Token

/-- `bs` holds the token account `a` and then the extension bytes `ext` (none, or starting with account type 2). -/
structure TokenContent (bs : Bytes) (a : Spl.Account) (ext : Bytes) : Prop where
  base : AccountLayout (bs.take 165) a
  rest : bs.drop 165 = ext
  kind : ext = [] ∨ ext.head? = some 2

/-- The same content; the delegated amount only counts if there is a delegate. -/
structure SameToken (a b : Spl.Account) : Prop where
  mint : a.mint = b.mint
  owner : a.owner = b.owner
  amount : a.amount = b.amount
  delegate : a.delegate = b.delegate
  state : a.state = b.state
  native : a.isNative = b.isNative
  delegatedAmount : a.delegate ≠ none → a.delegatedAmount = b.delegatedAmount
  close : a.closeAuthority = b.closeAuthority

/-- The mint account of this public key is stored. -/
def KnownMint (s : TokenStore) (mint : Pubkey) : Prop :=
  ∃ i m, s.table.index.find mint = some i ∧ s.mints.find i = some m

/-- The finalized tables hold exactly the state `x` for its public key. -/
def Holding (s : TokenStore) : ProgramAccount → Prop
  | .token t => s.tokens.getByPubkey t.pubkey = .ok (some t)
  | .mint m => ∃ i, s.table.index.find m.pubkey = some i ∧ s.mints.find i = some m
  | .multisig m pk => s.multisigs.find pk = some m
  | .deleted pk => s.table.index.find pk = none ∧ s.multisigs.find pk = none ∧ s.tokens.getByPubkey pk = .ok none

/-- The finalized tables hold the same for `pk`. -/
structure SameFinalized (s s' : TokenStore) (pk : Pubkey) : Prop where
  multisig : s'.multisigs.find pk = s.multisigs.find pk
  mint : (s'.table.index.find pk).map s'.mints.find = (s.table.index.find pk).map s.mints.find
  token : s'.tokens.getByPubkey pk = s.tokens.getByPubkey pk

/-- Nothing is stored for `pk`. -/
def NotStored (s : TokenStore) (pk : Pubkey) : Prop :=
  s.multisigs.find pk = none ∧ s.table.index.find pk = none ∧ s.tokens.getByPubkey pk = .ok none

end LAM.Spec
