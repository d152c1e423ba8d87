# Formal model of solana-lite-account-manager

This directory holds a Lean 4 model of the code in `/repo` and machine-checked proofs of the properties listed in
`properties.jsonl`.  `MANIFEST.json` gives the status of each property and the names of its theorems, `AXIOMS.md` the axioms
each of these theorems depends on, `seeded/LOG.jsonl` the wrong programs the theorems were tested against.

`seeded/LOG.jsonl` has two kinds of entries.  Those named `R…` are wrong programs written by hand, with the claims they make
false and the theorems that no longer hold.  Those named `A-…` are small edits of the model made by a script: a number, a
comparison or a constant is changed, and edits that do not compile are left out.  The script stops at the first module that no
longer compiles, which is often a helper lemma.  So for these entries a failure shows that some proof noticed the edit, not
which claim became false.  Edits that nothing noticed were looked at one by one; they are logged as equivalent, with the reason,
or with the theorem that was added for them.  About two thirds of the possible edits were tried.

## 1. Modelling approach

* Every Rust function that matters for a property is transcribed as a total Lean function over explicit state; each
  definition carries a comment with file and lines in `/repo`, and says what was simplified.
* A Rust panic, and an endless loop, are explicit outcomes of the type `Run` (`ok` / `panic` / `diverge`), never a default
  value.  Loops that need not end have a fuel argument; running out of it is `diverge`, and theorems show either that the
  fuel suffices or (C53) that the loop is endless for every amount of fuel.
* Maps: `BTreeMap<Slot, _>` is a strictly sorted association list (`BMap`), with sortedness a proved invariant;
  `BTreeSet<usize>` is a strictly sorted list; hash maps that are never iterated are functions `K → Option V`, iterated ones
  are association lists (`AMap`).  Iteration orders of hash maps are *parameters* (an arbitrary permutation: `Order`,
  `Orders`, `SnapshotOrders`), so theorems hold for all of them.
* Integers: slots, lamports, write versions and rent epochs are natural numbers in the stores, which only compare them; where
  bytes or wrap-around matter (token amounts, mint index, bincode, append-vec) the range is an explicit hypothesis
  (`Fits`, `TokenFits`, ...) or the wrap-around is modelled (`wrap32`).
* External code is a parameter structure; the laws used are hypotheses of the theorems, and an instance is exhibited
  (`Toy`) so that they are satisfiable.  Section 5 lists them.
* A history is a list of calls; a call that panics ends the history.  Calls are atomic in the store models: each one takes
  its locks and the model runs calls one after the other.  Concurrency is modelled where a property is about it: `OnDemand`,
  `StoreConc` and `TokenConc` are transition systems of any number of threads, and parallel iteration (C83) quantifies over all
  schedules.  `StoreConc` splits the calls of the in-memory account store into the steps between its locks; C89_one_writer_partial
  and C89_different_accounts_partial tie it to the atomic calls of `Store`.  `TokenConc` does the same for the token store, with all of its locks (tied by C92).
* Properties that are *false of the code* keep their full statement (`def Cnn_statement`); the negation is proved with a
  concrete witness (`..._refuted`) and the part that holds is proved under the name `..._partial`.

## 2. Layout of `lean/Verif`

| directory | content |
|---|---|
| `Basic/` | `Run`, sorted maps and sets, byte encodings, toy codecs for examples |
| `Model/` | transcription of the Rust code |
| `Spec/` | independent definitions used to state the properties |
| `Lemmas/` | invariants and helper lemmas |
| `Props/` | the property theorems, each with a concrete example next to it |
| `Tests/` | the unit tests of the Rust code, run against the model (checks, not proofs) |

## 3. What is modelled

| code | model | properties |
|---|---|---|
| `common/src/commitment.rs`, `account_data.rs`, `slot_info.rs`, `account_store_interface.rs` | `Model/Types` | C09, C64 |
| `common/src/account_filter.rs`, `simple_filter_store.rs`, `except_filter_store.rs`, `mutable_filter_store.rs` | `Model/Filter`, `Model/FilterJson` | C01-C08, C147 |
| `account_storage/src/account_data_by_commitment.rs` | `Model/ByCommitment` | C11-C31, C34 |
| `account_storage/src/inmemory_account_store.rs` | `Model/Store`; snapshots in `Model/Bincode` | C10-C34, C120, C127-C130 |
| the same, calls split into steps | `Model/StoreConc` | C87-C89, C93, C140-C142, C150, C151, C153–C155 |
| `account_storage/src/storage_by_program_id.rs` | `Model/Dispatch`; with the two stores of the repository `Model/Composed` | C35-C37, C100-C102, C133, C134 |
| `accounts_on_demand/src/accounts_on_demand.rs` | `Model/OnDemand` | C38-C41, C66, C67 |
| the same with `InmemoryAccountStore` and `common/src/mutable_filter_store.rs`, calls one after the other | `Model/OnDemandStore`, with panics and poisoned locks `Model/Poison` | C96-C98, C124 |
| `token_account_storage/src/account_types.rs` | `Model/TokenAccount` | C42-C44 |
| `token_account_storage/src/token_program_utils.rs` and the SPL layouts it uses | `Model/TokenUtils`, `Model/Spl` | C45-C47, C71 |
| `token_account_storage/src/inmemory_token_account_storage.rs` | `Model/TokenStorage` | C48-C50 |
| `token_account_storage/src/inmemory_token_storage.rs` | `Model/Processed` (44-301), `Model/TokenStore` (303-738), `Model/TokenSnapshot` (740-845), `Model/TokenPanic` (695-738 after a panic) | C51-C59, C68-C70, C72, C85, C86, C99, C121, C131, C132 |
| the Prometheus gauges of `inmemory_account_store.rs`, `inmemory_token_account_storage.rs`, `inmemory_token_storage.rs` | `Model/Gauges` | C135-C139 |
| the same and `inmemory_token_account_storage.rs`, calls split into steps | `Model/TokenConc`, with snapshots `Model/TokenSnapConc` | C90-C92, C103-C105, C143-C146, C148, C149, C152, C156-C160 |
| `simulate_from_snapshot/src/snapshot_utils/append_vec.rs`, `mod.rs` | `Model/AppendVec` | C60-C62, C73, C74 |
| `simulate_from_snapshot/src/snapshot_utils/archived.rs`, `unpacked.rs`, `parallel.rs`, `main.rs` | `Model/Simulator` | C77-C84, C94 |
| `simulate_from_snapshot/src/snapshot_utils/solana.rs` (41-53, 100-127) | `Model/Manifest` | C95 |
| `simulate_from_snapshot/src/rpc_server.rs` | `Model/Rpc` | C63, C75, C76 |
| `simulate_from_snapshot/src/main.rs` (27-168): stream, loader and server on one token store | `Model/Program` | C106-C116, C118, C119, C122, C123, C125, C126 |

Not modelled:

* logging, progress tracking, gauges that are registered but never written (`TOTAL_PROCESSED_ACCOUNTS` of the account store, the two of
  `accounts_on_demand.rs`), `cli.rs`, starting the HTTP server, command-line handling;
* `DeserializableVersionedBank` of `snapshot_utils/solana.rs` (55-98): types of Solana that are read and dropped (a parameter
  says how many bytes they take and when reading them fails);
* the text syntax of JSON (`serde_json`), the JSON form of RPC requests and answers (`jsonrpsee`);
* `tar` and `zstd` streams (an archive is a list of entries, each of which may fail to be read), memory-mapping errors;
* the QUIC transport (a stream is a list of messages), `tokio` task scheduling beyond what C83 and C106-C108 quantify over
  (in the latter, calls to the store are made one after the other; for overlapping calls see C90-C92);
* in the account store, interleavings between steps under a lock that is only held while nothing else is waited for
  (`slots_status`, `accounts_by_owner`, reads of a shard); weak memory orderings (all shared data is behind locks, except the two
  slot numbers and the mint counter of the token store);
* poisoned locks, except the lock of the filters and the table of loading accounts (C98) and the locks of the token store (C91).

## 4. How the proofs work

| id | proof idea |
|---|---|
| C01 | case analysis, list windows |
| C02-C06 | fold invariant: accepted = some added filter accepts; `contains` by prefix sets |
| C07, C08 | structural recursion on the JSON tree; case analysis over encodings |
| C09, C10 | codec laws |
| C11-C31, C34 | inductive invariant over all histories of calls with ghost logs of submitted updates and processed slots; explicit lineage relation for finalized slots |
| C32, C33 | encoder/decoder pair by induction; loading is a fold of finalized updates |
| C98 | the same model with the locks that a panic poisons; without undecodable text it goes as the model of C96, C97 |
| C99 | the store invariant holds for what a panicking notification leaves behind; unfinalized states come from updates |
| C100-C102 | token store invariant for keys that nothing submitted looks like; the calls that reach the default storage form a history of it |
| C35-C37 | induction over the dispatch table |
| C38-C41, C66, C67 | inductive invariants of the transition system, shape of event histories |
| C42-C47 | byte-list lemmas, bit masks by exhaustive finite case split, induction over allocation requests |
| C48-C50 | refinement of the bucket structure to a map, exact up to prefix collisions |
| C51-C59, C68-C70 | store invariant (`Inv`): every index list, mint table and account record is tied to the abstract finalized map; unfinalized states as a tree of slots |
| C58, C72 | encoding round-trip, loading as three folds |
| C60-C62, C73, C74 | arithmetic over offsets, induction over the remaining length |
| C63, C75, C76 | list lemmas |
| C77-C84, C94 | induction over the archive and the stream; schedules of the parallel iteration |
| C96, C97 | the storage invariant and the meaning of the filter store, over one shared set of filters; loading is a fold of finalized updates |
| C95 | exact readers composed (`Reads`), and readers that only fail at the end of the stream (`Tame`) |
| C85, C86, C52_stream | induction over a whole stream, combining the invariants above into one statement about submissions, true parents and reads |
| C87-C89, C93 | invariant of the transition system (which index belongs to which pubkey, which locks are held, what each thread still has to do), a well-founded measure for returning as long as every shard that a notification waits for is free (`DropsFree`; `C88_shards_partial` keeps it by where calls can be: `Lemmas/StoreConcShards`), simulation of the atomic calls; for updates of different accounts at the same time (`C89_different_accounts_partial`) a simulation up to the numbering of the accounts (`Sim`, `Up`): an update takes effect when it looks at its slot, and what it still has to do (`finish`) only depends on its own account |
| C90 | locks are asked for in the order of a rank; a well-founded measure of what each thread has left to do, for all schedules |
| C91 | an invariant of the store and of what every thread has in hand (`StoreOK`, `Serves`): every entry comes from a submitted account; indices of mints are never given twice before 2^31 submissions |
| C92 | the rest of a call done at once is unchanged by its steps (`rest_step`) and, without other writers, by steps of other threads; two concrete interleavings for the refutations |
| C103-C105 | the transition system of C90 with threads that make and load snapshots: what was collected so far comes from moments of the call (`Creating`); the rest of a load done at once is unchanged by its steps; ranks and measure as for C90 |
| C106-C108 | what the loader has left to do is counted down (`Left`); the calls made are an interleaving of archive and stream (`main_feed`), and what holds of the stream alone carries over to it; loading makes every mint known, so notifications find theirs (`loading_ready`) |
| C109, C110 | the calls made are an interleaving (as for C106), states from the archive only reach the finalized store, so what the stream alone leaves unfinalized is what is read (`feed_at`) |
| C111, C112 | in a served program every mint of the archive resolves (`served_ready`); what an owner query lists is what a read shows (`listed_read`), and the reverse is C69; reads end by C53 |
| C113 | a token account keeps the position it has in the list of its mint (`run_mint`: by induction over the history, as long as its mint does not change and is not closed) |
| C114-C116 | a mint or multisig that stays one is classified alike by the archive loader and the stream (`steady_*`); what is stored is the newest state as of the last finalized slot (`mint_read`, `multisig_read`), and the key of a mint appears once among the mints |
| C117 | by cases; the round trip of C09 |
| C118 | every account listed comes from the list of finalized accounts (C69); its state is read again at the commitment (C109, C110) |
| C119 | what is stored by the served program (C106, C115) goes through encoding, LZ4 and loading (C58); the stored mints are those of the Token program (`run_stocked`) |
| C120 | entries belong to tracked accounts or are vacated (invariant of C01 ff.), counted by the pigeonhole principle; the growth by induction on the number of openings |
| C121 | as C120 with the positions of the token storage (C48); the growth by induction, the loss at 2^32 from it |
| C122, C123 | as C109 and C110, with the classification of mints and multisigs of C114 and C115 |
| C124 | encoding as in C32; loading is a list of finalized updates under the receiving filters, as in C96 |
| C125, C126 | as C118, with the lists of C113 and C116 and the reads of C109, C110 and C122 |
| C127 | invariant: statuses of slots from the first confirmed one agree with the chain (`ChainOK`), from it what a walk raises (`Walk.chain`), then per account the newest visible states (`KeyOK`) |
| C128 | invariant: the index and the states of the key are untouched while the states that come are older (`HeldAt`, `update_get_late`); queries over one key (`mem_query`) |
| C129 | on top of C127: every open state of the entry that is not older than the finalized one is listed under its owner (`Listed`), through updates (`listed_update`) and promotions (`listed_slot`) |
| C130 | from C127 (reads are the newest visible submission, which is unique) for calls that notify nothing, and C20 for notifications of the commitment |
| C131 | call by call: the token account that reads show (newest state on the recorded confirmed chain, else the stored one) changes only with notifications that list it; the chain is compared slot by slot before and after the call, and the mint keeps its index (C68) |
| C132 | the table above the finalized slot holds the best submission (lemma of C86), whose write version the answer compares; the answer false leaves all but the mint table as it is |
| C133 | the write version of a recorded state was submitted for its slot, so a higher one is answered with true (C132) and not passed on; the history of the default storage has no update of the account (C12) |
| C134 | a refused update is refused again without effect, so the token store behind the dispatcher ran the history with notifications doubled; that history has the same submissions, confirmed and finalized slots, and every notified link is kept; then C52 and C86 |
| C135-C139 | the calls with their gauges do to the stores what the calls without do (`store_erase`, `token_erase`); a relation of store and gauges is kept by every call if it is kept by the few places that count (`Keeps`) |
| C140 | an invariant of the executions without overlapping updates of one account (`Wait`): every account with a state of the slot is recorded for it, or the thread that stores the state will still look at the slot; at rest the invariant `Inv` of the sequential proofs holds (`reachable_inv`) |
| C141 | an entry that belongs to an account only grows (`entry_step`: updates and promotions keep or replace states by newer ones, entries are emptied only after the index has left them); a read is what the entry was at one moment of the call (C87, C93), an update is in the entry when it returns (`update_during`) |
| C142 | invariant `Traced` of the steps: statuses, links, entries, and what threads have in hand between locks (the commitment of an update, the accounts to promote) are due to calls made so far; `Walk.linked` as for C16 |
| C143 | the invariant of C91, with the slots that were notified: parents kept in `processed` are notified ones, the confirmed and finalized cells hold notified slots, and each item in hand carries the slot it was found under |
| C144, C145 | on top of the invariant of C143: what every call in flight has seen so far is as new as each update accepted before the call, by the step the call is at (`Lemmas/TokenConcDue`) |
| C146 | a ghost history of what was stored when (`Past`): whatever a read has in hand was stored by then, and what was stored stays as new until its slot is finalized or overtaken (`Lemmas/TokenConcSteady`) |
| C147 | the sort key is the order of the specification; a sorted list is a prefix of another one exactly if its members come first (`Lemmas/FilterOrder`) |
| C148 | the state is stored until the notification collects it; then it is among what has to be converted, and then in the reply that is kept while the states are written (`FinPc`, `Lemmas/TokenConcFinal`) |
| C149 | no step makes states: those reported, stored and in the hands of the threads are together at most those submitted (`out_count`, `Counted`, `Lemmas/TokenConcOnce`) |
| C150 | an entry that stores the state can report it at a commitment only while what it holds there is of an earlier slot, and reporting ends that; such entries, the threads that have the state, and the reports are together at most the submissions (`pending_promote`, `Counted`, `Lemmas/StoreConcCount`) |
| C151 | every state an entry holds as confirmed or finalized is in a report, or in the answer that a notification being executed is collecting, or came with an update whose slot had that commitment; each step keeps this (`AllKnown`, `known_step`, `Lemmas/StoreConcHeard`) |
| C152 | every finalized account in the store stems from a finalized submission or is converted to an account in the answer of a notification, returned or still being executed; the answer is complete before the first account is stored, and storing does not panic, so the answer is returned (`AllTold`, `out_tells`, `pool_step`, `Lemmas/TokenConcTold`) |
| C153 | the index, and the threads between the check under the shard lock and the insertion, only have accounts that were accepted; entries, collected answers and the log only have states of such accounts (`AllTaken`, `AllSaid`, `Lemmas/StoreConcTaken`) |
| C154 | an entry with states is that of the index, is being inserted or is being deleted, and for one account only one of these is the case (`OneEntry`: nothing is pushed while a notification has `accounts_store` read-locked); entries and calls that can still add one are no more than the updates (`Pc.adds`, `Lemmas/StoreConcMemory`) |
| C155 | no thread moves the account away from its owner, since both states it compares were submitted, and a thread that adds the account lists it before it inserts it (`StaysListed`, `Lemmas/StoreConcListed`); then C93 and C141 |
| C156 | no thread drops the bucket of the account or entombs its place, a place that is found stays found (`FoundAt`), and is in the index by owner unless a thread is about to enter it (`Keeps`, `Lists`, `Lemmas/TokenConcKeeps`) |
| C157 | no thread removes the index or the state of the mint, because an index belongs to one address (`Issued.unique`); a mint that has an index and a state keeps both (`MintAt`, `KeepsMint`, `Lemmas/TokenConcMints`) |
| C158 | the state of the mint stays at its index, so the walk over the shards finds it in the shard of the index (`ListingMint`, `ListsMint`, `Lemmas/TokenConcMintList`) |
| C159 | no step removes a multisig, and a read asks for multisigs first (`SignersAt`, `KeepsSigners`, `Lemmas/TokenConcMultisigs`) |
| C160 | without loads the other calls run as if no snapshot were made (`base_steps`); the index of a mint stays in use (`MintStays`), so it is filled at the moment its shard is read (`create_moments`) |

## 5. Trusted base

* The Lean kernel.  Every theorem depends on at most `propext`, `Classical.choice` and `Quot.sound` (`AXIOMS.md`, generated by
  `tools/gen_axioms.py`).  No axiom is declared, and neither `sorry`, `native_decide` nor `bv_decide` is used.
* The faithfulness of the hand transcription (`Model/`) to the Rust text and of `Spec/` to the English statements.  As a check
  of the former, `Tests/` runs the unit and integration tests of the Rust code against the model: `tools/gen_tests.py` translates
  23 tests (572 statements and assertions) from the Rust text, three more are transcribed by hand (`Tests/Others.lean`), and the
  remaining two sample what C42 and C07 prove.  All of them pass.
* What is assumed of external code:
  * compression (`Codecs.Lawful`): decompressing what `lz4`/`zstd` produced gives the input back, for zstd exactly when it
    fits the capacity;  `Lz4Block.Lawful` likewise for the block form used by token snapshots;
  * base58 and base64 decoders and `Pubkey::from_str`/`to_string` are arbitrary functions, with the round-trip law as a
    hypothesis where it is needed;
  * `bincode` 1.3.3 with default settings: fixed-size little-endian integers, `u64` lengths, `u32` enum tags, `bool` and
    `Option` tags 0 or 1, trailing bytes allowed; fields in declaration order;
  * `default_on_eof` gives the default exactly if the stream ends while the field is read; `BankHashStats` has five `u64`; a
    failed `read_exact` uses up the stream;
  * the packed layouts of `spl-token` 4.0.0 / `spl-token-2022` 3.0.4 accounts, mints and multisigs;
  * `StoredMeta` (48 bytes), `AccountMeta` (56) and `AccountHash` (32) as `repr(C)` structs of `solana_accounts_db`,
    64-bit little-endian machine;
  * `quic_geyser_common` messages: account data is sent compressed with the declared method, as its sender does;
  * `Condvar::wait_timeout` returns `Ok` also on time-out; `JoinSet` and `flatten_ok` as documented;
  * calls of sub-storages, sources and filters return (their answers are arbitrary).
* Bounds in hypotheses: `ops.length < 2^31` (a `u32` mint index does not wrap around; C47_wraps_around shows what happens if
  it does) and the ranges of the Rust integer types.

Restrictions worth knowing when reading the statements: JSON object keys are distinct; slot 0 is excluded from `OnTime`
(0 stands for "nothing finalized yet"); `TrueParents` says that slot notifications tell the truth about parents.

## 6. Properties that are false of the code

Each row is a finding about `/repo`, proved with a concrete witness.

<!-- refuted:begin -->
| id | property | what is false, and what is proved instead | refutation |
|---|---|---|---|
| C05 | A filter that was added is contained | The full claim is false of the code; refuted with a witness, proved for the filters it does hold for. | `C05_added_is_contained_refuted` |
| C06 | ExceptFilterStore is the complement of the excluded filters | The soundness half is false of the code; refuted with a witness. | `C06_contains_sound_refuted` |
| C08 | RPC filter conversion preserves the verdict | The reverse conversion is false of the code for some inputs; refuted with a witness. | `C08_from_rpc_refuted` |
| C100 | Behind the dispatcher, updates of accounts of other programs reach the default storage | False: the token store takes an update of an account that left the token program, or whose key only starts like that of a token account, as a deletion. Proved if no account of a token program starts like the key or names it as its mint. C100_is_the_dispatcher ties the composition to the model of the dispatcher. | `C100_refuted`, `C100_refuted_twin` |
| C101 | Behind the dispatcher, get_account finds the accounts of the default storage | False of get_account: the token store answers first, and its answer that there is no such account ends the search; C101_never shows that no account unrelated to tokens is ever returned. Proved of get_program_accounts, as far as it is proved of the default storage (C28). | `C101_refuted` |
| C102 | Behind the dispatcher, slot notifications have the effect they have on each storage | False: the token store is called twice; what it reports for a confirmed slot is reported twice, and a processed slot gets its parent recorded by the second call. Proved for finalized slots, for the state after confirmed slots, and for the default storage. | `C102_refuted`, `C102_refuted_processed` |
| C103 | A token snapshot made while other calls run can be loaded | False: mints, multisigs and token accounts are read one after the other; a mint and a token account stored in between give a snapshot whose loading panics. Proved: it always returns, each part is that of a moment, it loads if the mints were stored all the time, and it is that of the store if nothing else writes. | `C103_refuted` |
| C104 | Loading a token snapshot while an account is updated has the effect of one after the other | False: the list of accounts of an owner that was stored between get_mut and insert is overwritten, so an account is not found by its owner any more. Proved if no other call writes meanwhile. | `C104_refuted` |
| C106 | The simulator answers with the state of the chain | False: an account of the archive is stored whenever the loader gets to it, also over a newer finalized state. Proved, from the archive and the messages to the answer, if no slot is finalized before the archive is loaded; accounts that are only in the archive or only in the stream need no such condition. | `C106_refuted` |
| C107 | The simulator goes on following the stream | False: a slot that is confirmed before the mint of one of its token accounts is loaded ends the stream task. Proved if notifications come after loading. When the task is gone, later answers never change; account messages themselves never end it. | `C107_refuted` |
| C109 | The simulator answers with confirmed states | False: a confirmed slot in which no token account changed cuts the chain, and the answer falls back to finalized data. Proved if every slot between the confirmed slot and the newest state was noted when it had already occurred; loading first is only needed where the finalized state is shown. | `C109_refuted` |
| C110 | The simulator answers with processed states | False: above the confirmed slot the store does not look at forks. Proved if the confirmed slot and the states of the account above it are on the chain of the highest slot. | `C110_refuted` |
| C111 | The simulator lists the token accounts of an owner | False in three ways: an account that changes its owner is listed for nobody, accounts of the other token program are listed, and filters other than owner and mint are not looked at. Proved: accounts that keep their owner are listed; whatever is listed has the owner and the mint asked for, is as of the last finalized slot, and is listed once. | `C111_refuted` |
| C112 | The simulator answers every request | False: the filter for the token account state and a query for an owner and an unknown mint panic. Proved for all other requests at every commitment. | `C112_refuted` |
| C113 | The simulator lists the token accounts of a mint | False: accounts of the other token program are listed, filters other than the mint are not looked at, and an account created again for another mint within a slot stays listed for its first mint. Proved: an account that stays with its mint is listed for it and for no other, as of the last finalized slot, and once. | `C113_refuted` |
| C116 | The simulator lists the mints of a token program | False: the program asked for is not looked at, so mints of the Token program are listed for Token-2022. Proved: the mints of both programs that pass the filters are listed, once each, as of the last finalized slot. | `C116_refuted` |
| C117 | States of accounts are equal when they say the same | False: states with the same contents compressed in different ways are not equal. Proved: equality is an equivalence, equal states say the same, and states made by the same method are equal if and only if they say the same. | `C117_refuted` |
| C118 | The simulator lists the token accounts of an owner as of unfinalized slots | False: accounts opened since the last finalized slot are not listed, and an account handed over since is listed for its former owner. Proved: accounts that keep their owner and had it as of the last finalized slot are listed in their state as of the commitment's slot, unless closed then; whatever is listed is in this state and listed once. | `C118_refuted` |
| C119 | A store made from the simulator's snapshot shows the accounts as of the last finalized slot | False: the loader takes the first bytes of the answer for the size of the snapshot, and mints are not shown after loading. Proved with the size put in front: loading succeeds and shows the token accounts and multisigs as of the last finalized slot, and no account where there is none. | `C119_refuted` |
| C120 | The account store keeps no more than one entry for each account | False: one account opened and closed k times leaves k entries without a state, and the states of n abandoned slots are kept after finalization, for all k and n. Proved: entries with a state are at most the accounts, entries are at most the updates and, if no account is closed or leaves the filters, at most the accounts; statuses of slots before the finalized one are dropped. | `C120_refuted` |
| C121 | The token store keeps no more than one entry for each token account | False: one token account opened and closed k times leaves k entries and k positions for its owner, for all k up to 2^32; the opening after that is stored under position 0 and not found. Proved: entries are at most the updates, and entries of open accounts are at most the accounts if no two keys share their first four bytes. | `C121_refuted` |
| C122 | The simulator shows mints as of the confirmed and the highest slot | False: after a confirmed slot in which no token account changed, the mint of the archive is shown. Proved if every slot between the confirmed slot and the newest state was noted with its parent and, for processed, the states above the confirmed slot are on the chain of the highest slot; loading first is only needed where the finalized state is shown. | `C122_refuted` |
| C123 | The simulator shows multisigs as of the confirmed and the highest slot | False: after a confirmed slot in which no token account changed, a new multisig is not shown. Proved under the conditions of C122. | `C123_refuted` |
| C124 | The snapshot of one on-demand storage restores its accounts in another | False: accounts that no filter of the receiving storage asks for are dropped, and loading reports success; and a snapshot of a program that was not queried is an error, not loaded on demand. Proved for receiving storages of which a filter asks for each account. | `C124_refuted` |
| C125 | The simulator lists the token accounts of a mint as of unfinalized slots | False: accounts opened since the last finalized slot are not listed. Proved: an account that stays with its mint and is open as of the last finalized slot is listed for this mint and no other, in its state as of the commitment's slot, unless closed then; whatever is listed is in this state and listed once. | `C125_refuted` |
| C126 | The simulator lists the mints of a token program as of unfinalized slots | False: mints opened since the last finalized slot are not listed, filters are matched with the finalized state, and the program is not looked at. Proved: the mints of both programs that pass the filters as of the last finalized slot are listed, once each, as they are as of the commitment's slot. | `C126_refuted` |
| C127 | Confirmed and finalized reads of the account store follow the chain | False: a slot updated before it is announced loses its parent, so confirming a descendant does not confirm its ancestors; and when everything confirmed is finalized, the next confirmation makes up a link through which an unfinalized slot is later finalized. Proved for histories in which slots are announced before their updates (where a descendant is confirmed first) and a slot is finalized only after a later one is confirmed. | `C127_refuted`, `C127_premature_refuted` |
| C128 | Loading a snapshot older than what is known does not disturb it | False: the store does not tell an older finalized state from a newer one when it looks at owners: an older state of another owner takes the account out of the list of its present owner, and if the older state has no lamports or is not asked for by the filters, the account is dropped altogether. Proved: reads stay the same if older states have the same owner or are live and asked for; queries too if they have the same owner. | `C128_refuted` |
| C129 | Confirmed and finalized program queries follow the chain | False: an account that moves to another program and back is missing once the first move is finalized; so is one that is opened again by the owner it was closed under, and one of a snapshot that was already updated with another owner. Proved for accounts that do not return to an owner they left, whatever the number of moves, forks and late updates (conditions of OwnersSettle), at every commitment as far as reads are concerned. | `C129_refuted` |
| C130 | A listener to slot notifications knows what reads show | False: an update of an already confirmed slot changes confirmed reads without a notification, and the store drops an account that left the filters while listeners still show it. Proved for histories on one chain (conditions of C127) as long as updates of the account come before their slot has the commitment and the account stays tracked. | `C130_refuted`, `C130_untracked_refuted` |
| C131 | A listener to slot notifications of the token store knows what reads show | False: the answers leave out closed accounts, so that a listener keeps showing them, and a confirmed notification only lists the states of that very slot, so that states of slots confirmed through a descendant are missed. Proved for token accounts that are never closed and whose mints stay, for finalized slots in any order, and for confirmed slots that are confirmed in turn. | `C131_refuted`, `C131_skipping_refuted` |
| C132 | The token store's answer to an update tells whether it was news | False in its second half: a refused update of a token account enters its mint into the index table all the same, and a read of that mint panics from then on where it answered none before. Proved: the first half, and that nothing else changes after the answer false. An update at finalized commitment is answered with true even if it changes nothing. | `C132_refuted`, `C132_refuted_read` |
| C133 | Behind the dispatcher, accounts of the token programs are kept out of the default storage | False: a state that arrives late or twice is refused by the token store, and the dispatcher takes the refusal as a sign that the account belongs elsewhere and hands it to the default storage. When its slot is finalized, the dispatcher reports the older state after the newer one. Proved if the states of the account for a slot arrive in the order of their write versions, each once. | `C133_refuted`, `C133_refuted_reported` |
| C135 | The gauge of accounts in memory shows the accounts the store tracks | False: the gauge counts entries of the store, and entries of accounts that are gone stay; with nothing tracked it may show any number. Proved: it never shows too few, and it is right as long as no account leaves the store. | `C135_refuted` |
| C136 | The gauge of the latest update shows the highest slot of an update | False: the gauge shows the slot of the update submitted last, so it goes back. Proved: that, and the claim for updates in the order of their slots. | `C136_refuted` |
| C137 | The gauges of token accounts show the token accounts stored | False: closing a token account removes the bucket of its first four key bytes, so another account in it is no longer found but still counted (C48). Proved: the gauges count records and deleted records exactly, never show too few accounts, and are right if no account is closed that shares the first four bytes of another. | `C137_refuted` |
| C138 | The gauge of processed accounts shows the states that wait for finalization | False: states of skipped slots are dropped without counting them down, so the gauge drifts up. Proved: it never shows too few, and it is right if every slot with states is an ancestor of the slot that is finalized after it. | `C138_refuted` |
| C139 | The gauge of mints shows the mints stored | False: a mint that comes after a token account of it is not counted, but is counted down when it is closed, so the gauge can be negative; mints loaded from a snapshot are not counted. Proved: it never shows too many, and it is right if every mint is stored before its token accounts are submitted. | `C139_refuted` |
| C140 | A notification confirms the states that reads show, however their updates overlapped | False: if the first two updates of an account are executed at the same time, the one that finds the account made known by the other stores its state without recording the account for its slot, so confirming that slot does not confirm it. Proved if no two updates of the same account are executed at the same time, with any other concurrency (updates of other accounts, notifications of earlier slots, reads). | `C140_refuted` |
| C145 | After a slot of the token store was confirmed, concurrent confirmed reads show its updates | False of the code: confirmed_slot is loaded, compared and stored without compare-and-swap, so two confirmed notifications executed at the same time can put the confirmed slot back, and confirmed reads then show the state before the later slot (C145_refuted). Proved if no confirmed notification of an earlier slot was executed at the same time as that of the slot; others of the same slot may be (C145_partial). | `C145_refuted` |
| C15 | Finalized is never ahead of confirmed, confirmed never ahead of processed | Proved as stated; the stronger reading by write version between confirmed and finalized is refuted. | `C15_by_write_version_refuted` |
| C156 | With concurrent calls the token store keeps showing finalized token accounts that are not closed | Proved for get_account (C156_get). False of the code for queries: add_account_finalized saves a new token account before it enters it in the index by owner, so another update of the account can return true in between, and a query of the owner does not find the account (C156_refuted). Proved for queries if no writing call was being executed at some moment between the update and the query (C156_query_partial). | `C156_refuted` |
| C17 | Finalized reads only show slots that were finalized | False of the code: a made-up parent can finalize a later slot. Proved up to made-up parents and for histories without Confirmed notifications. | `C17_finalized_reads_refuted` |
| C19 | An update for an already confirmed slot is immediately visible as confirmed | False for accounts seen for the first time; proved for tracked ones. | `C19_late_update_visible_refuted` |
| C22 | Re-submitting an update is a no-op | False for accounts first seen in an already confirmed slot; proved for pubkeys tracked before and after. | `C22_resubmission_refuted` |
| C23 | update_account returning false means nothing visible changed | False when the confirmed state is older than the finalized one; proved otherwise. | `C23_false_means_unchanged_refuted` |
| C26 | Deleted accounts are not returned | False for program queries without a filter list; proved for get_account and filtered queries. | `C26_deleted_hidden_refuted` |
| C28 | get_program_accounts is complete | False for accounts whose owner changed; proved for accounts with a stable owner. | `C28_query_complete_refuted`, `C28_moved_back_refuted` |
| C31 | States of later slots survive the finalization of an earlier slot | False when finalization removes the account; proved when it stays tracked. | `C31_later_states_survive_refuted` |
| C36 | get_account finds an account held by any sub-storage | False when an earlier storage answers with None or an unrelated error; the exact condition is proved. | `C36_found_anywhere_refuted` |
| C37 | Updates reach an accepting storage; slot notifications reach all | A storage registered for two programs is notified twice (refuted); everything else is proved. | `C37_slot_once_refuted` |
| C40 | A failed load can be retried | False: a failed key is never loaded again in any continuation (proved); the failure itself is reported to its caller. | `C40_retry_refuted` |
| C45 | SPL account layouts round-trip | False for Token-2022 accounts with extensions, which are rejected; proved for accounts of the base length. | `C45_refuted` |
| C48 | The token account storage behaves like a map from pubkey to token account | Deleting a key forgets every key with the same first four bytes (C48_exact states this for all histories); the map claim holds when no delete collides. | `C48_refuted` |
| C49 | contains answers membership | A bucket with one entry is not checked: false positives, characterised exactly by C49_exact; no false negatives. | `C49_refuted` |
| C50 | Token storage snapshots contain exactly the live accounts of the program | Accounts orphaned by a colliding delete stay in the snapshot; exact when no delete collides; complete always. | `C50_refuted` |
| C51 | A finalized token account is read back | False when the pubkey was a multisig before (multisigs shadow token accounts), on prefix collisions, and for extended Token-2022 accounts; proved for base-length token accounts and mints in every reachable store otherwise. | `C51_refuted`, `C51_extended_refuted` |
| C52 | Confirmed token reads return the newest state on the confirmed chain | False: a slot whose first notice is its own notification loses its parent. Proved when each slot on the way was notified after it had occurred; unconditionally no state from a fork is shown, and the recorded chain is followed exactly. | `C52_refuted` |
| C53 | Token reads terminate | False: a slot recorded as its own ancestor makes confirmed reads loop for ever; proved when notified parents are older than their slots. Finalized reads, submissions and notifications always end. | `C53_refuted` |
| C54 | Finalization applies the newest state of each account on the finalized chain and drops forks | False when finalized pubkeys collide on four bytes; proved for all reachable stores without collision; for mints and multisigs also with collisions. Dropping of forks and keeping of later slots is unconditional. | `C54_refuted` |
| C55 | Deleted token-program accounts disappear from finalized reads | False for multisigs, which no deletion removes; proved for mints and token accounts. | `C55_refuted` |
| C56 | Token store reads do not panic | False: token accounts of a mint that was never seen panic on read, as do reads of such a mint and owner-and-mint queries with it (C56_finalized_iff says exactly when). Proved when mints are loaded first, later token accounts belong to them and none of them is closed. | `C56_refuted` |
| C57 | Token get_program_accounts by owner / mint | False: filters other than owner and mint and the program itself are ignored, the mint index is not updated when an account changes mint, and unfinalized states are not filtered at all. Proved: owner (and mint) of every finalized answer in every reachable store; the mint of every account whose own mint neither changes nor is closed; queries for mints are exact; which queries are refused. | `C57_refuted` |
| C58 | Token snapshot round-trip | False for every LZ4: no mint can be read after loading into an empty store. Also: the compressed bytes have no size prefix but decompress(None) expects one; a token account of an unknown mint makes loading panic; a closed account can come back; the next update of a loaded token account makes reads of it panic. Proved: the bincode encoding is read back exactly, token accounts and multisigs survive if decompression gives the data back and all mints are stored, what was absent stays so unless an account with the same first four bytes of its key was closed, and all numbers fit if lamports do. | `C58_refuted`, `C58_size_refuted`, `C58_unknown_mint_refuted` |
| C59 | An update of an unrelated account does not disturb stored token accounts | False on 4-byte prefix collisions: an unrelated account is accepted and destroys the stored one; proved without collisions. | `C59_refuted`, `C59_refuted_read` |
| C66 | Program queries are not answered from storage before their load completes | False: the filter is added before the snapshot is saved. | `C66_answered_early_refuted` |
| C68 | Mint indexes are stable | False: a mint closed and created again gets a new index, and its token accounts then panic on read. Indexes are never reused, and a mint that is not closed keeps its index. | `C68_refuted` |
| C69 | Token get_program_accounts is complete | False: the owner index is not updated when an owner changes, and unfinalized accounts are never found. Proved for finalized queries, for each account whose owner does not change (or, for mints, whose own mint neither changes nor is closed); other queries return, for each account of the finalized answer, what a read of it shows. | `C69_refuted` |
| C70 | Token updates and slot notifications do not panic | False: a notification converts accounts before storing the mints of the same slot. Updates alone never panic; all calls are panic-free when mints are loaded first. | `C70_refuted` |
| C72 | Loading a token snapshot leaves other accounts alone | False: a mint known to the store is written under its index in the snapshot, so another mint is read as it. Proved for any snapshot whose mints are all unknown to the store. | `C72_refuted` |
| C73 | The executable flag of a stored account is a valid bool | False for corrupt files: the byte is not checked. Proved for files in the append-vec layout. | `C73_refuted` |
| C74 | Accounts are only read from bytes that are there | False: short archive entries are filled up with zeros, and 136 zeros are an account. Proved for entries of at least the declared length. | `C74_refuted` |
| C75 | Minimal context slot of getProgramAccounts | False: accounts before the minimal slot are left out, but the request is not refused. Proved for answers that are not empty. | `C75_refuted` |
| C79 | An archive without a declared append vec is rejected | False as stated: missing files go unnoticed. Proved that an archive that breaks off with a read error is not loaded. | `C79_refuted` |
| C80 | The newest version of an account in a snapshot is what is read after loading it | False as stated: the order of the archive decides, and closed accounts are passed over. Proved for the last version of the token program in the archive, and for archives in the order of slots. | `C80_refuted`, `C80_closed_refuted` |
| C82 | The unpacked extractor reports unusable files | False as stated: errors of single files are dropped. Proved which files are handed out. | `C82_refuted` |
| C84 | The messages of the stream reach the storage unchanged | False as stated for data sent compressed. Proved for the payload as sent, for slots and for the sequence of calls. | `C84_refuted` |
| C85 | Finalized token state never goes back in time | False as stated: an older state submitted as finalized, or a late state whose slot is finalized again, replaces the newer one. Proved for slot notifications when states arrive before their slot is passed by a finalized one. | `C85_refuted`, `C85_slot_refuted` |
| C86 | Finalized token reads show the newest state on the finalized chain, end to end | False as stated: a state that arrives after a younger slot was finalized is lost. Proved for whole streams in which states arrive in time, finalized slots form one chain with recorded links, snapshot states come first and keys do not collide; the last is not needed for keys that are never closed and never token accounts. | `C86_refuted` |
| C88 | Concurrent calls of the account store do not deadlock | False: an update and a notification of a finalized slot can wait for each other for ever. Proved for every state in which no update is executed at the same time as a notification of a finalized slot, or only updates of accounts in other shards than those of the accounts that changed their owner; so there is no deadlock as long as no account changes its owner. | `C88_refuted` |
| C89 | Concurrent calls of the account store take effect in some order | False: an update that is stored after its slot was confirmed, but had looked at the slot before, stays unconfirmed. Proved for writing calls made one at a time, and for any number of updates of different accounts at the same time (calls take effect in an order that respects real time and gives every thread its answers), with any number of concurrent reads. | `C89_refuted` |
| C90 | Concurrent calls of the token store do not deadlock | False: a slot notified as its own ancestor makes a read run forever with processed_slot_accounts locked. Proved for notified parents older than their slots. | `C90_refuted` |
| C92 | Concurrent calls of the token store take effect in some order | False: between taking the states of a finalized slot out and storing them, another notification can store newer ones, and a read sees neither. Proved for writing calls made one at a time, with any number of concurrent reads. | `C92_refuted`, `C92_read_refuted` |
| C96 | An account unknown to the storage is found on demand | False: get_account never adds the account to the filters, so the storage drops what the source hands over and every call loads again. Proved when the filters ask for the account after subscribing. | `C96_refuted` |
| C97 | A program query that is not configured is answered with what the source has | False for base58 and base64 filters of a program first seen: the storage answers with an error. Proved for raw filters and for programs that some filter mentions. | `C97_refuted` |
| C98 | A program query does no harm to other calls, whatever its text | False: a text that does not decode poisons the lock of the filters for good if the program is new, and makes updates panic if it is known. If the filters panic on an account from the source, the account or query stays marked as being loaded and no source is asked again (C98_source_panics). Proved for queries whose texts decode. | `C98_refuted` |
| C99 | A notification of a finalized slot that panics loses no account | False: the states up to the slot are removed before accounts are converted, so one token account of an unknown mint makes all accounts of these slots fall back to their last finalized state for good. Proved for finalized reads and for notifications of confirmed slots. | `C99_refuted` |
<!-- refuted:end -->

## 7. Regenerating the lists

`tools/gen_properties.py` writes `properties.jsonl`, `tools/gen_manifest.py` (from `tools/claims.py`) writes `MANIFEST.json`
and reports theorems without a claim, `tools/gen_axioms.py` writes `AXIOMS.md`,
`tools/gen_design.py` the table of section 6.  `tools/gen_tests.py` reads `/repo` and writes `lean/Verif/Tests` (except `Harness`
and `Others`).
