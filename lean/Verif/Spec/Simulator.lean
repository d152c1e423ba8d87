import Verif.Model.Simulator
import Verif.Spec.AppendVec
import Verif.Spec.TokenStore
/-!
# What a snapshot archive holds, and what should be readable after loading it
-/
namespace LAM.Spec
open AppendVec (StoredAccount)
open Sim Token

/-- `name` is `SLOT.ID`. -/
def NameOf (name : List Char) (slot id : Nat) : Prop :=
  ∃ a b, name = a ++ '.' :: b ∧ '.' ∉ a ∧ IsU64 a slot ∧ IsU64 b id

/-- The file name of `path` is `SLOT.ID`. -/
def AppendVecPath (path : Path) (slot id : Nat) : Prop :=
  ∃ dir name, path = dir ++ [.normal name] ∧ NameOf name slot id

/-- `path` is `snapshots/SLOT/SLOT`. -/
def ManifestPath (path : Path) : Prop :=
  ∃ name slot, IsU64 name slot ∧ path = [.normal "snapshots".toList, .normal name, .normal name]

/-- `path` is `accounts/SLOT.ID`. -/
def AccountsPath (path : Path) : Prop :=
  ∃ name slot id, NameOf name slot id ∧ path = [.normal "accounts".toList, .normal name]

/-- The first length declared for this id in this slot. -/
def Declared (m : Manifest) (slot id len : Nat) : Prop :=
  ∃ l l', m slot = l ++ (id, len) :: l' ∧ ∀ e ∈ l, e.1 ≠ id

/-- The name of this directory entry is a number. -/
def Numbered (f : Option (List Char) × Option Bytes) : Prop := ∃ name n, f.1 = some name ∧ IsU64 name n

/-- The first entry of the directory whose name is a number has this content. -/
def FirstNumbered (files : List (Option (List Char) × Option Bytes)) (content : Option Bytes) : Prop :=
  ∃ pre name post, files = pre ++ (name, content) :: post ∧ Numbered (name, content) ∧ ∀ f ∈ pre, ¬ Numbered f

/-- The entries behind the manifest hold exactly these accounts (with the slot of their file), in this order. -/
inductive Contains (m : Manifest) : List Item → List (Nat × Written) → Prop
  | nil : Contains m [] []
  | other {path : Path} {content : Option Bytes} {items : List Item} {ws : List (Nat × Written)}
      (hp : ∀ slot id, ¬ AppendVecPath path slot id) (h : Contains m items ws) : Contains m (.entry path content :: items) ws
  | file {path : Path} {slot id len : Nat} {content : Bytes} {items : List Item} {ws : List Written} {ws' : List (Nat × Written)}
      (hp : AppendVecPath path slot id) (hd : Declared m slot id len) (hc : len ≤ content.length) (hl : len < 2 ^ 63)
      (hw : Layout content len 0 ws) (h : Contains m items ws') :
      Contains m (.entry path (some content) :: items) (ws.map (fun w => (slot, w)) ++ ws')

/-- A complete archive: other files, the manifest, and then the accounts. -/
def WellFormedArchive (decode : Bytes → Option Manifest) (items : List Item) (ws : List (Nat × Written)) : Prop :=
  ∃ pre path content m post, items = pre ++ .entry path (some content) :: post ∧
    (∀ i ∈ pre, ∃ p c, i = .entry p c ∧ ¬ ManifestPath p ∧ ¬ AccountsPath p) ∧
    ManifestPath path ∧ decode content = some m ∧ Contains m post ws

/-- A written account as it is given to the store: as of slot 0 and write version 0. -/
def Written.submitted (w : Written) : AccountData :=
  ⟨w.pubkey, ⟨w.lamports, .uncompressed w.data, w.owner, w.executable, w.rentEpoch⟩, 0, 0⟩

/-- The accounts of the token program. -/
def tokenOwned (ws : List Written) : List Written := ws.filter (fun w => w.owner = Spl.tokenId)

/-- An entry that cannot be loaded: it cannot be read, or its name is `SLOT.ID` and nothing is declared for it. -/
def BadEntry (m : Manifest) (i : Item) : Prop :=
  i = .broken ∨ i = .badPath ∨ ∃ path content slot id, i = .entry path content ∧ AppendVecPath path slot id ∧
    ((∀ len, ¬ Declared m slot id len) ∨ content = none)

/-- The data as a sender puts it into a message with this compression type. -/
def payload (X : Codecs) (d : Bytes) : CompressionType → Option Bytes
  | .none => some d
  | .lz4Fast v => X.lz4c v d
  | .lz4 v => X.lz4c v d

/-- The accounts of the token program in a snapshot fit together: they are live, a public key is used for one size of account,
and the mints of all token accounts are there. -/
structure Consistent (ws : List Written) : Prop where
  live : ∀ w ∈ ws, w.lamports ≠ 0
  one_kind : ∀ w ∈ ws, ∀ w' ∈ ws, w.pubkey = w'.pubkey → w.data.length = w'.data.length
  mints : ∀ w ∈ ws, ∀ a, AccountLayout w.data a → ∃ w' ∈ ws, w'.pubkey = a.mint ∧ ∃ m, MintLayout w'.data m

/-- `w` is the last account of its public key. -/
def LastOf (ws : List Written) (w : Written) : Prop :=
  ∃ l l', ws = l ++ w :: l' ∧ ∀ w' ∈ l', w'.pubkey ≠ w.pubkey

/-- The multisig as it is given back: the signers that are zero are moved to the end. -/
def SameMultisig (a b : Spl.Multisig) : Prop :=
  a.m = b.m ∧ a.n = b.n ∧ a.isInitialized = b.isInitialized ∧
    a.signers.filter (· ≠ Pubkey.default) = b.signers.filter (· ≠ Pubkey.default)

/-- `bs'` has the content of `bs`: the same token account, the same mint or the same multisig. -/
def SameContent (bs bs' : Bytes) : Prop :=
  (∃ a a', AccountLayout bs a ∧ AccountLayout bs' a' ∧ SameToken a a') ∨
  (∃ m, MintLayout bs m ∧ MintLayout bs' m) ∨
  (∃ m m', MultisigLayout bs m ∧ MultisigLayout bs' m' ∧ SameMultisig m m')

/-- `bs` is a token account, a mint or a multisig. -/
def TokenProgramContent (bs : Bytes) : Prop :=
  (∃ a, AccountLayout bs a) ∨ (∃ m, MintLayout bs m) ∨ ∃ m, MultisigLayout bs m

/-- How many accounts an append vec has room for (136 bytes each at least). -/
def roomFor : Except SnapshotError AppendVec.AppendVec → Nat
  | .ok v => v.currentLen / 136
  | .error _ => 0

end LAM.Spec
