import Verif.Model.TokenConc
import Verif.Model.TokenSnapshot
/-!
# Snapshots of the token program store, taken and loaded while other calls run
(`token_account_storage/src/inmemory_token_storage.rs` 740-845)

The transition system of `Model/TokenConc` with further threads, which call `create_snapshot` and `load_from_snapshot`.  As
there, a program counter (`SPc`) stands in front of the next lock.

Simplifications, besides those of `Model/TokenConc`: encoding and compressing the snapshot, and their inverses, touch nothing
shared and are left out (they are in `Model/TokenSnapshot`), the snapshot is the value in between.  Iterating over a `DashMap`
locks one shard after the other; what is done with one shard is one step.
-/
namespace LAM.TokConc
open Token

/-- The environment of the other calls, and the number of shards of `multisigs`. -/
structure SnapEnv where
  base : Env
  multisigShards : Nat
  multisigShard_lt : ∀ pk, base.multisigShard pk < multisigShards

/-- The calls; what program a snapshot is of is checked before (741-747). -/
inductive SCall where
  | create (program : Program)
  | load (x : TokenSnapshot)

/-- What they return.  A panic ends the call too. -/
inductive SReply where
  | created (x : TokenSnapshot)
  | loaded
  | panicked

/-- What can be seen from outside. -/
inductive SEvent where
  | call (k : SCall)
  | ret (r : SReply)

/-- Where a thread is, with its local variables. -/
inductive SPc where
  /-- not in a call -/
  | idle
  /-- `create_snapshot`: about to lock the next of the remaining shards of `mints_by_index` (749-759) -/
  | mints (p : Program) (shards : List Nat) (out : List (Nat × MintAccount))
  /-- about to lock the next of the remaining shards of `multisigs` (761) -/
  | multisigs (p : Program) (shards : List Nat) (mints : List (Nat × MintAccount)) (out : List MultiSig)
  /-- about to lock `token_accounts` (762, `inmemory_token_account_storage.rs` 163) -/
  | accounts (p : Program) (mints : List (Nat × MintAccount)) (multisigs : List MultiSig)
  /-- `load_from_snapshot`: about to lock `multisigs` for the first of these (795-797) -/
  | putMultisig (l : List MultiSig) (mints : List (Nat × MintAccount)) (tokens : List Bytes)
  /-- about to look for the index of the first of these mints (801-802) -/
  | findMint (l : List (Nat × MintAccount)) (mapping : AMap Nat Nat) (tokens : List Bytes)
  /-- the first mint is unknown: about to increment `mint_counter` (808) -/
  | newMint (i : Nat) (m : MintAccount) (l : List (Nat × MintAccount)) (mapping : AMap Nat Nat) (tokens : List Bytes)
  /-- about to lock `mints_by_index` to store the mint there; if it was known, its index is still locked (805, 810) -/
  | putMint (i : Nat) (m : MintAccount) (known : Bool) (l : List (Nat × MintAccount)) (mapping : AMap Nat Nat) (tokens : List Bytes)
  /-- about to decode the first token account, and to look for its mint (814-818) -/
  | decode (l : List Bytes) (mapping : AMap Nat Nat)
  /-- `save_or_update`: about to lock the bucket (820) -/
  | bucket (t : TokenAccount) (l : List Bytes) (mapping : AMap Nat Nat)
  /-- has the bucket, about to lock `token_accounts` -/
  | save (t : TokenAccount) (l : List Bytes) (mapping : AMap Nat Nat)
  /-- about to lock `account_by_owner_pubkey` (822) -/
  | pushOwner (t : TokenAccount) (i : Nat) (l : List Bytes) (mapping : AMap Nat Nat)
  /-- the owner is not there: about to lock `account_by_owner_pubkey` again (825-826) -/
  | newOwner (t : TokenAccount) (i : Nat) (l : List Bytes) (mapping : AMap Nat Nat)
  /-- about to lock `accounts_index_by_mint` (830) -/
  | pushMint (t : TokenAccount) (i : Nat) (l : List Bytes) (mapping : AMap Nat Nat)
  /-- the mint is not there: about to lock `accounts_index_by_mint` again (837) -/
  | newByMint (t : TokenAccount) (i : Nat) (l : List Bytes) (mapping : AMap Nat Nat)

/-- The locks a thread has. -/
def SPc.holds (E : SnapEnv) : SPc → List (Lock × Mode)
  | .putMint _ m true .. => [(.index (E.base.indexShard m.pubkey), .write)]
  | .save t .. => [(.bucket (E.base.bucketShard (prefix4 t.pubkey)), .write)]
  | _ => []

/-- The lock a thread asks for. -/
def SPc.wants (E : SnapEnv) : SPc → Option (Lock × Mode)
  | .mints _ (n :: _) _ => some (.mints n, .read)
  | .multisigs _ (n :: _) _ _ => some (.multisig n, .read)
  | .accounts .. => some (.accounts, .read)
  | .putMultisig (m :: _) _ _ => some (.multisig (E.base.multisigShard m.pubkey), .write)
  | .findMint ((_, m) :: _) _ _ => some (.index (E.base.indexShard m.pubkey), .write)
  | .putMint i _ _ _ _ _ => some (.mints (E.base.mintsShard i), .write)
  | .bucket t _ _ => some (.bucket (E.base.bucketShard (prefix4 t.pubkey)), .write)
  | .save .. => some (.accounts, .write)
  | .pushOwner t _ _ _ => some (.byOwner (E.base.byOwnerShard (prefix4 t.owner)), .write)
  | .newOwner t _ _ _ => some (.byOwner (E.base.byOwnerShard (prefix4 t.owner)), .write)
  | .pushMint t _ _ _ => some (.byMint (E.base.byMintShard t.mint), .write)
  | .newByMint t _ _ _ => some (.byMint (E.base.byMintShard t.mint), .write)
  | _ => none

/-- How a step goes on. -/
inductive SNext where
  | go (p : SPc)
  | ret (r : SReply)

/-- What a thread does in one step once it has the lock it wants (`idle` does nothing). -/
def SPc.exec (E : SnapEnv) (σ : SnapshotOrders) (s : TokenStore) : SPc → Run (TokenStore × SNext)
  | .idle => .diverge
  | .mints p [] out => .ok (s, .go (.multisigs p (List.range E.multisigShards) out []))
  | .mints p (n :: shards) out =>
    .ok (s, .go (.mints p shards (out ++ σ.mints (s.mints.filter fun e => E.base.mintsShard e.1 = n ∧ e.2.program = p))))
  | .multisigs p [] ms out => .ok (s, .go (.accounts p ms out))
  | .multisigs p (n :: shards) ms out =>
    .ok (s, .go (.multisigs p shards ms
      (out ++ σ.multisigs ((s.multisigs.filter fun e => E.base.multisigShard e.1 = n).map (·.2)))))
  | .accounts p ms mus => do
    let tokens ← s.tokens.createSnapshot p
    return (s, .ret (.created ⟨ms, mus, tokens⟩))
  | .putMultisig [] ms tokens => .ok (s, .go (.findMint ms [] tokens))
  | .putMultisig (m :: l) ms tokens =>
    .ok ({ s with multisigs := s.multisigs.insert m.pubkey m }, .go (.putMultisig l ms tokens))
  | .findMint [] mapping tokens => .ok (s, .go (.decode tokens mapping))
  | .findMint ((index, m) :: l) mapping tokens =>
    match s.table.index.find m.pubkey with
    | some value => .ok (s, .go (.putMint index m true l (mapping.insert index value) tokens))
    | none => .ok (s, .go (.newMint index m l mapping tokens))
  | .newMint index m l mapping tokens =>
    .ok ({ s with table := { s.table with counter := wrap32 (s.table.counter + 1) } },
      .go (.putMint s.table.counter m false l (mapping.insert index s.table.counter) tokens))
  | .putMint i m _ l mapping tokens => .ok ({ s with mints := s.mints.insert i m }, .go (.findMint l mapping tokens))
  | .decode [] _ => .ok (s, .ret .loaded)
  | .decode (b :: l) mapping => do
    let t ← TokenAccount.fromBytes b
    let i ← Run.unwrap (mapping.find t.mint)
    return (s, .go (.bucket { t with mint := i } l mapping))
  | .bucket t l mapping => .ok (s, .go (.save t l mapping))
  | .save t l mapping => do
    let ((i, added), tokens) ← s.tokens.save t
    return ({ s with tokens := tokens }, .go (if added then .pushOwner t i l mapping else .decode l mapping))
  | .pushOwner t i l mapping =>
    match s.byOwner.find (prefix4 t.owner) with
    | some is => .ok ({ s with byOwner := s.byOwner.insert (prefix4 t.owner) (is ++ [i]) }, .go (.pushMint t i l mapping))
    | none => .ok (s, .go (.newOwner t i l mapping))
  | .newOwner t i l mapping =>
    .ok ({ s with byOwner := s.byOwner.insert (prefix4 t.owner) [i] }, .go (.pushMint t i l mapping))
  | .pushMint t i l mapping =>
    match s.byMint.find t.mint with
    | some is => .ok ({ s with byMint := s.byMint.insert t.mint (is ++ [i]) }, .go (.decode l mapping))
    | none => .ok (s, .go (.newByMint t i l mapping))
  | .newByMint t i l mapping => .ok ({ s with byMint := s.byMint.insert t.mint [i] }, .go (.decode l mapping))

/-- The store and the threads of the other calls, the threads of these, and what happened so far in these (only recorded). -/
structure SWorld where
  w : World
  sp : Nat → SPc
  log : List (Nat × SEvent)

/-- Function update. -/
def supd (f : Nat → SPc) (t : Nat) (p : SPc) : Nat → SPc := fun x => if x = t then p else f x

/-- Where a call begins. -/
def SCall.start (E : SnapEnv) : SCall → SPc
  | .create p => .mints p (List.range E.base.mintsShards) []
  | .load x => .putMultisig x.multisigs x.mints x.tokens

/-- The lock that is asked for, if any, can be given: readers share a lock, a writer is alone. -/
def SWorld.Granted (E : SnapEnv) (W : SWorld) (ask : Option (Lock × Mode)) : Prop :=
  ∀ l m, ask = some (l, m) →
    (∀ u m', (l, m') ∈ (W.w.pc u).holds E.base → m = .read ∧ m' = .read) ∧
    (∀ u m', (l, m') ∈ (W.sp u).holds E → m = .read ∧ m' = .read) ∧
    (m = .read → E.base.writersFirst = true →
      (∀ u, (W.w.pc u).wants E.base ≠ some (l, .write)) ∧ ∀ u, (W.sp u).wants E ≠ some (l, .write))

/-- The result of a step of thread `t`; a panic ends the call and leaves the store as it is. -/
def SWorld.after (W : SWorld) (t : Nat) : Run (TokenStore × SNext) → SWorld
  | .ok (s, .go p) => { W with w := { W.w with st := s }, sp := supd W.sp t p }
  | .ok (s, .ret r) => { w := { W.w with st := s }, sp := supd W.sp t .idle, log := W.log ++ [(t, .ret r)] }
  | .panic => { W with sp := supd W.sp t .idle, log := W.log ++ [(t, .ret .panicked)] }
  | .diverge => W

/-- A step of a thread that is in a call. -/
inductive SWork (E : SnapEnv) : SWorld → SWorld → Prop where
  | other (W t σ) : (W.w.pc t).active → W.Granted E ((W.w.pc t).wants E.base) →
      SWork E W { W with w := W.w.after E.base t ((W.w.pc t).exec E.base σ W.w.st) }
  | snap (W t σ) : W.sp t ≠ .idle → W.Granted E ((W.sp t).wants E) → SWork E W (W.after t ((W.sp t).exec E σ W.w.st))

/-- A step of a thread, or a new call. -/
inductive SStep (E : SnapEnv) : SWorld → SWorld → Prop where
  | work {W W'} : SWork E W W' → SStep E W W'
  | call (W t k) : W.w.pc t = .idle →
      SStep E W { W with w := { W.w with pc := upd W.w.pc t (Call.start k), log := W.w.log ++ [(t, .call k)] } }
  | scall (W t k) : W.sp t = .idle → SStep E W { W with sp := supd W.sp t (SCall.start E k), log := W.log ++ [(t, .call k)] }

/-- Any number of steps. -/
inductive SSteps (E : SnapEnv) : SWorld → SWorld → Prop where
  | refl (W) : SSteps E W W
  | tail {W W' W''} : SSteps E W W' → SStep E W' W'' → SSteps E W W''

/-- An empty store that nobody has called yet. -/
def SWorld.init : SWorld := ⟨World.init, fun _ => .idle, []⟩

/-- Reachable from a new store. -/
def SReachable (E : SnapEnv) (W : SWorld) : Prop := SSteps E SWorld.init W

end LAM.TokConc
