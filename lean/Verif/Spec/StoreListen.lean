import Verif.Spec.StoreChain
/-!
# A listener to the answers of `process_slot_data`
-/
namespace LAM.Spec

/-- What a listener knows: a state per pubkey; nothing for an account without lamports. -/
abbrev Heard := Pubkey → Option AccountData

/-- The listener takes over every state it is told. -/
def learn (v : Heard) : List AccountData → Heard
  | [] => v
  | a :: r => learn (fun pk => if pk = a.pubkey then shown a else v pk) r

/-- The calls on the store, and a listener that is handed the answers of `process_slot_data` at commitment `c`. -/
def listen (c : Commitment) (s : Store) (v : Heard) : List Op → Run (Store × Heard)
  | [] => .ok (s, v)
  | .update F a d :: ops => do
    let (s', _) ← s.updateAccount F a d
    listen c s' v ops
  | .slot F σ info d :: ops => do
    let (s', r) ← s.processSlotData F σ info d
    listen c s' (if d = c then learn v r else v) ops

/-- The states of `pk` in `h3`, which follows `h`, arrive as processed and before their slot has commitment `c`. -/
def BeforeSlot (par : Nat → Nat) (c : Commitment) (pk : Pubkey) (h h3 : List Op) : Prop :=
  ∀ pre F a d post, h3 = pre ++ Op.update F a d :: post → a.pubkey = pk →
    d = .processed ∧ ¬ OnChainOf par c (h ++ pre) a.slot

end LAM.Spec
