import Verif.Model.Program
import Verif.Spec.Simulator
import Verif.Spec.TokenSafe
import Verif.Spec.TokenStream
/-!
# What the simulator program should answer

Read off the archive, the messages and their order; no function of the store is used.
-/
namespace LAM.Spec
open Sim Token
open TokenStore (TOp)

/-- What an uncompressed message reports: a state, or a confirmed or finalized slot. -/
def reported (σ : Orders) : Message → Option TOp
  | .account pubkey lamports data _ owner executable rentEpoch slot writeVersion =>
    some (.update ⟨pubkey, ⟨lamports, .uncompressed data, owner, executable, rentEpoch⟩, slot, writeVersion⟩ .processed)
  | .slot slot parent .confirmed => some (.slot σ ⟨slot, parent, 0⟩ .confirmed)
  | .slot slot parent .finalized => some (.slot σ ⟨slot, parent, 0⟩ .finalized)
  | _ => none

/-- What the stream reports, in order. -/
def streamed (evs : List Event) : List TOp :=
  evs.filterMap (fun e => match e with | .message σ m => reported σ m | _ => none)

/-- The data of messages is not compressed. -/
def Plain (evs : List Event) : Prop :=
  ∀ σ pubkey lamports data compression owner executable rentEpoch slot writeVersion,
    Event.message σ (.account pubkey lamports data compression owner executable rentEpoch slot writeVersion) ∈ evs →
    compression = .none

/-- The submissions of the loader. -/
def archived (ws : List (Nat × Written)) : List TOp := (tokenOwned (ws.map (·.2))).map (fun w => TOp.init w.submitted)

/-- `l` is made of `a` and `b`, each in its order. -/
inductive Interleaved {α : Type} : List α → List α → List α → Prop where
  | nil : Interleaved [] [] []
  | left {x a b l} : Interleaved a b l → Interleaved (x :: a) b (x :: l)
  | right {x a b l} : Interleaved a b l → Interleaved a (x :: b) (x :: l)

/-- The mints of the archive. -/
def ArchiveMint (ws : List (Nat × Written)) (pk : Pubkey) : Prop :=
  ∃ w ∈ tokenOwned (ws.map (·.2)), w.pubkey = pk ∧ ∃ m, MintLayout w.data m

/-- Token accounts of the stream belong to mints of the archive, and these are not closed. -/
def StreamRespects (X : Codecs) (ws : List (Nat × Written)) (evs : List Event) : Prop :=
  ∀ a c, TOp.update a c ∈ streamed evs → Respects X (ArchiveMint ws) (fun _ _ _ => True) a

/-- The stream does not finalize (`all = false`), or not even confirm (`all = true`) a slot before the archive is loaded. -/
def LoadsFirst (X : Codecs) (decode : Bytes → Option Manifest) (all : Bool) (evs : List Event) (w : Main) : Prop :=
  ∀ pre σ slot parent level post, evs = pre ++ .message σ (.slot slot parent level) :: post →
    level = .finalized ∨ (all = true ∧ level = .confirmed) → ∃ w', w.run X decode pre = .ok w' ∧ w'.serves

/-- `pk` is a token account in the archive and in the stream, where it may also be closed; it stays with the token programs. -/
structure TokenKey (ws : List (Nat × Written)) (evs : List Event) (pk : Pubkey) : Prop where
  archive : ∀ w ∈ tokenOwned (ws.map (·.2)), w.pubkey = pk → ∃ sa, AccountLayout w.data sa
  stream : ∀ a c, TOp.update a c ∈ streamed evs → a.pubkey = pk →
    (a.account.owner = Spl.tokenId ∨ a.account.owner = Spl.token2022Id) ∧
    (a.account.lamports = 0 ∨ ∃ bs sa, a.account.data = .uncompressed bs ∧ AccountLayout bs sa)
  twins : ∀ a c, TOp.update a c ∈ streamed evs → a.pubkey ≠ pk → prefix4 a.pubkey = prefix4 pk →
    a.account.lamports ≠ 0 ∧ (a.account.owner = Spl.tokenId ∨ a.account.owner = Spl.token2022Id)

/-- The stream is in order for `pk`: parents are true, states come before their slots are finalized, and slots are finalized
along one chain whose links were reported. -/
structure InOrder (X : Codecs) (par : Nat → Nat) (evs : List Event) (pk : Pubkey) : Prop where
  older : ∀ i, par i ≤ i
  parents : TrueParents par (streamed evs)
  onTime : OnTime (streamed evs)
  chained : Chained X par pk (streamed evs)

/-- The owner and the data to be shown for `pk` at the last finalized slot, if any: those of the newest state of the stream on
the finalized chain; if there is none, those of the last version in the archive. -/
inductive Current (ws : List (Nat × Written)) (evs : List Event) (par : Nat → Nat) (pk : Pubkey) : Option (Pubkey × Bytes) → Prop where
  | open {a k bs} : NewestTrue (streamed evs) par pk (lastFinal (streamed evs)) a k →
      a.account.lamports ≠ 0 → a.account.data = .uncompressed bs → Current ws evs par pk (some (a.account.owner, bs))
  | closed {a k} : NewestTrue (streamed evs) par pk (lastFinal (streamed evs)) a k →
      a.account.lamports = 0 → Current ws evs par pk none
  | archive {w} : (∀ a k, ¬ NewestTrue (streamed evs) par pk (lastFinal (streamed evs)) a k) →
      LastOf (tokenOwned (ws.map (·.2))) w → w.pubkey = pk → Current ws evs par pk (some (w.owner, w.data))
  | absent : (∀ a k, ¬ NewestTrue (streamed evs) par pk (lastFinal (streamed evs)) a k) →
      (∀ w ∈ tokenOwned (ws.map (·.2)), w.pubkey ≠ pk) → Current ws evs par pk none

end LAM.Spec
