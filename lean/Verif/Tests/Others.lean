import Verif.Tests.Harness
import Verif.Model.FilterJson
/-!
# The remaining unit tests of the code, transcribed by hand

Two are not repeated, because what they sample is proved: `fuzzy_test_token_account_serialization`
(`account_types.rs` 296-343, C42) and `workspace_write_your_own_filter` (`account_filter.rs` 355-594, C07).
-/
namespace LAM.Tests.Others

open LAM.Tests LAM.Tests.Accounts

/-- A source store, a store to load snapshots into, and the snapshots taken. -/
structure Two where
  source : Both
  target : Both
  bytes : List Bytes

/-- A step on the source store. -/
def onSource (f : Step Both) : Step Two := fun t => do let r ← f t.source; return ({ t with source := r.1 }, r.2)

/-- A step on the store the snapshots are loaded into. -/
def onTarget (f : Step Both) : Step Two := fun t => do let r ← f t.target; return ({ t with target := r.1 }, r.2)

/-- `store.create_snapshot(program).unwrap()`. -/
def take (program : Pubkey) : Step Two := fun t => do
  match ← t.source.store.createSnapshot Toy.codecs t.source.filters (fun _ => false) program with
  | .ok b => return ({ t with bytes := t.bytes ++ [b] }, true)
  | .error _ => .panic

/-- `snapshot_store.load_from_snapshot(program, snapshot).unwrap()`. -/
def load (i : Nat) : Step Two := fun t => do
  let b ← Run.unwrap t.bytes[i]?
  match ← t.target.store.loadFromSnapshot t.target.filters b with
  | (s, .ok ()) => return ({ t with target := { t.target with store := s } }, true)
  | (_, .error _) => .panic

instance : Fresh Two := ⟨⟨Fresh.fresh, Fresh.fresh, []⟩⟩

/-- The filters of the snapshot test. -/
def useFilters : Step Both :=
  act fun b => do return { b with filters := seen (← SimpleFilterStore.empty.addFilters Toy.codecs
    [⟨[], some (K 1), none⟩, ⟨[], some (K 2), none⟩]) }

/-- `inmemory_account_store.rs` 2305-2413. -/
def test_snapshot_creation_and_loading : List (Step Two) :=
  [onSource useFilters,
   onSource (init (rnd 1 1 (K 3) (K 1) 0)),
   onSource (init (rnd 2 1 (K 4) (K 1) 0)),
   onSource (init (rnd 3 1 (K 5) (K 2) 0)),
   onSource (init (rnd 4 1 (K 6) (K 2) 0)),
   onSource (update (rnd 5 2 (K 3) (K 1) 0) .processed),
   onSource (update (rnd 6 2 (K 4) (K 1) 0) .processed),
   onSource (update (rnd 7 2 (K 5) (K 2) 0) .processed),
   onSource (update (rnd 8 2 (K 6) (K 2) 0) .processed),
   onSource (update (rnd 9 3 (K 3) (K 1) 0) .processed),
   onSource (update (rnd 10 3 (K 5) (K 2) 0) .processed),
   onSource (slot ⟨2, 1, 0⟩ .finalized),
   onSource (gpaOneOf (K 1) none .processed [rnd 9 3 (K 3) (K 1) 0, rnd 6 2 (K 4) (K 1) 0]
     [rnd 6 2 (K 4) (K 1) 0, rnd 9 3 (K 3) (K 1) 0]),
   onSource (gpaOneOf (K 2) none .processed [rnd 10 3 (K 5) (K 2) 0, rnd 8 2 (K 6) (K 2) 0]
     [rnd 8 2 (K 6) (K 2) 0, rnd 10 3 (K 5) (K 2) 0]),
   take (K 1),
   take (K 2),
   onTarget useFilters,
   onTarget (gpaIs (K 1) none .processed []),
   onTarget (gpaIs (K 2) none .processed []),
   load 0,
   load 1,
   onTarget (gpaOneOf (K 1) none .processed [rnd 5 2 (K 3) (K 1) 0, rnd 6 2 (K 4) (K 1) 0]
     [rnd 6 2 (K 4) (K 1) 0, rnd 5 2 (K 3) (K 1) 0]),
   onTarget (gpaOneOf (K 2) none .processed [rnd 7 2 (K 5) (K 2) 0, rnd 8 2 (K 6) (K 2) 0]
     [rnd 8 2 (K 6) (K 2) 0, rnd 7 2 (K 5) (K 2) 0])]

example : failsAt test_snapshot_creation_and_loading = none := by decide +kernel

/-- `account_types.rs` 278-293. -/
example : (Token.TokenAccount.mk .tokenProgram false (K 1) (K 2) 0 10 .initialized none none none none).toBytes.length = 78 := by
  decide +kernel

/-- The two keys of the JSON test; their text is taken to be their bytes. -/
def keyText : PkText := ⟨fun pk => pk.bytes, fun s => if h : s.length = 32 then some ⟨s, h⟩ else none⟩

/-- The bytes of the JSON test. -/
def serum : List Nat := [115, 101, 114, 117, 109, 5, 0, 0, 0, 0, 0, 0, 0]

/-- `account_filter.rs` 206-282: the JSON tree of the text. -/
def config : List Json :=
  let mango := ("programId", Json.str (K 1).bytes)
  let size := Json.obj [("datasize", .num 200)]
  let window := Json.obj [("memcmp", .obj [("offset", .num 100), ("data", .obj [("bytes", .arr (serum.map .num))])])]
  [.obj [mango, ("filters", .arr [size])],
   .obj [mango, ("filters", .arr [window])],
   .obj [mango],
   .obj [mango, ("filters", .arr [size, window])],
   .obj [("accounts", .arr [.str (K 1).bytes, .str (K 2).bytes])]]

/-- `account_filter.rs` 284-352: the filters it reads as. -/
example : mapRun (AccountFilter.ofJson keyText) config = .ok
    [⟨[], some (K 1), some [.datasize 200]⟩,
     ⟨[], some (K 1), some [.memcmp ⟨100, .bytes (serum.map UInt8.ofNat)⟩]⟩,
     ⟨[], some (K 1), none⟩,
     ⟨[], some (K 1), some [.datasize 200, .memcmp ⟨100, .bytes (serum.map UInt8.ofNat)⟩]⟩,
     ⟨[K 1, K 2], none, none⟩] := by decide +kernel

end LAM.Tests.Others
