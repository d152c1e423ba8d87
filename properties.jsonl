{"id": "C01", "title": "Memcmp filters decide exactly the byte window", "statement": "AccountFilterType::allows on a memcmp filter returns true exactly when the account data, starting at the filter's offset, begins with the filter's decoded bytes; a Datasize filter returns true exactly when the data has that length. No offset, pattern or data length makes a decodable filter panic, and the verdict depends only on the decoded bytes, not on whether they were given as Bytes, Base58 or Base64.", "quantifier": "every filter (all offsets up to u64::MAX, all patterns, all three encodings) and every account data byte string", "why_tests_cant": "Boundary cases (offset = len, offset + pattern = len, offset > len, empty pattern) are combinatorial; a test samples a few windows.", "anchors": ["common/src/account_filter.rs: MemcmpFilter::bytes_match, MemcmpFilter::bytes, AccountFilterType::allows"]}
{"id": "C02", "title": "A filter store accepts exactly the union of the filters added to it", "statement": "After any sequence of add_account_filter/add_account_filters calls, satisfies_filter(account) is true exactly when at least one added filter matches the account: its pubkey is listed in the filter's accounts, or the filter names the account's owner as program and has no sub-filters or all of its sub-filters allow the data.", "quantifier": "every finite sequence of filters added to an empty SimpleFilterStore / MutableFilterStore, and every account", "why_tests_cant": "The store merges filters (AllowAll absorption, re-encoding on first insert only); the result must equal the union for all sequences, not a sample.", "anchors": ["common/src/simple_filter_store.rs: SimpleFilterStore::add_account_filter, satisfies_filter", "common/src/mutable_filter_store.rs"]}
{"id": "C03", "title": "Adding filters is monotone and order independent for acceptance", "statement": "Adding more filters never makes a previously accepted account rejected, and adding the same filters in another order or several times gives a store accepting the same accounts.", "quantifier": "every filter sequence, every permutation or duplication of it, every extension and every account", "why_tests_cant": "Quantifies over permutations and extensions of unbounded sequences.", "anchors": ["common/src/simple_filter_store.rs: add_account_filter, satisfies_filter"]}
{"id": "C04", "title": "contains_filter is sound: a contained query only asks about tracked accounts", "statement": "If contains_filter(f) is true for a filter store built by adding filters, then every account that matches f is accepted by satisfies_filter (so a getProgramAccounts answer for f is over fully tracked data), and containment is never lost by adding more filters.", "quantifier": "every filter sequence, every query filter and every account", "why_tests_cant": "Implication between two predicates over all accounts; the sorted-prefix comparison is easy to get right on examples and wrong in general.", "anchors": ["common/src/simple_filter_store.rs: contains_filter_internal"]}
{"id": "C05", "title": "A filter that was added is contained", "statement": "After add_account_filter(f), contains_filter(f) is true (for any prior content of the store).", "quantifier": "every prior filter sequence and every filter f (all three memcmp encodings)", "why_tests_cant": "The first filter of a program is stored re-encoded as Bytes but the query is compared verbatim; whether the law holds depends on history and encoding. (False for Base58/Base64: refuted with a witness, proved for Bytes filters.)", "anchors": ["common/src/simple_filter_store.rs: add_account_filter, contains_filter_internal"]}
{"id": "C06", "title": "ExceptFilterStore is the complement of the excluded filters", "statement": "ExceptFilterStore.satisfies(account) is true exactly when none of the excluded filters matches the account; and if its contains_filter(f) is true then every account matching f is accepted.", "quantifier": "every excluded-filter sequence, every query filter and account", "why_tests_cant": "Complement of a union over unbounded sequences. (The contains_filter half is false when an exclusion has sub-filters: refuted; proved for exclusions without sub-filters and queries naming only a program.)", "anchors": ["common/src/except_filter_store.rs: ExceptFilterStore"]}
{"id": "C07", "title": "Filter JSON round-trip", "statement": "Serialising an AccountFilter to JSON and deserialising it yields the same filter, for every combination of present/absent accounts, program id and sub-filters. Exactly the JSON texts of the documented form are read, each as the filter it describes; every other JSON value makes the deserialiser fail.", "quantifier": "every AccountFilter value", "why_tests_cant": "Hand written Serialize/Deserialize with omitted keys; needs all shapes of the value.", "anchors": ["common/src/account_filter.rs: impl Serialize for AccountFilter, impl Deserialize for AccountFilter"]}
{"id": "C08", "title": "RPC filter conversion preserves the verdict", "statement": "Converting filters to RPC filters (get_rpc_filter) and RPC filters back to account filters preserves which account data they allow; an RPC filter whose text does not decode never starts matching accounts.", "quantifier": "every filter list, every encoding, every account data", "why_tests_cant": "Quantifies over all byte patterns and malformed encodings. (Second half is false: an undecodable RPC memcmp becomes an empty pattern that matches everything; refuted.)", "anchors": ["common/src/account_filter.rs: AccountFilter::get_rpc_filter, impl From<&RpcFilterType> for AccountFilterType"]}
{"id": "C09", "title": "Compression is transparent", "statement": "Account::from_solana_account followed by to_solana_account returns the original account for every compression method, and Data::len / is_empty report the uncompressed length without decompressing.", "quantifier": "every account (zstd: data up to MAX_ACCOUNT_SIZE) and every compression method and level", "why_tests_cant": "Needs all byte strings; relies only on the codec's round-trip law, stated as an assumption.", "anchors": ["common/src/account_data.rs: Data::new, Data::data, Data::len, Data::is_empty, Account::from_solana_account, to_solana_account"]}
{"id": "C10", "title": "Filtered program-account reads do not depend on the compression of stored data", "statement": "get_program_accounts with filters selects the same accounts, with the same uncompressed contents, whether account data is stored uncompressed, lz4 or zstd compressed.", "quantifier": "every stored account, every filter list, every compression method", "why_tests_cant": "Two code paths (uncompressed fast path, decompressing path, early data-size exit) must agree on all inputs.", "anchors": ["account_storage/src/account_data_by_commitment.rs: get_account_data_filtered"]}
{"id": "C11", "title": "The in-memory account store never panics and every call terminates", "statement": "For any history of update_account, initilize_or_update_account, process_slot_data and load calls, with arbitrary slots, parents (including cycles and self-parents), owners and filter changes, every further call to update_account, process_slot_data and get_account returns: no out-of-range index, no failed assertion, no endless parent walk.", "quantifier": "every finite history of calls and every argument of the next call", "why_tests_cant": "Panic-freedom needs an inductive invariant over all histories; the parent walk must terminate for arbitrary parent graphs.", "anchors": ["account_storage/src/inmemory_account_store.rs: InmemoryAccountStore (update_account, process_slot_data, get_account, update_owner_delete_if_necessary)"]}
{"id": "C12", "title": "Reads only return data that was submitted for that pubkey", "statement": "Whatever get_account(pk, commitment) returns was passed verbatim to update_account / initilize_or_update_account earlier in the history, with that pubkey.", "quantifier": "every history, pubkey and commitment", "why_tests_cant": "Provenance over unbounded histories.", "anchors": ["account_storage/src/inmemory_account_store.rs: get_account, update_account, process_slot_data"]}
{"id": "C13", "title": "Processed reads return the newest submitted version regardless of arrival order", "statement": "While a pubkey stays tracked, get_account(pk, Processed) returns the submitted version with the greatest (slot, write_version), the first submitted one on ties, and None when that version has zero lamports - whatever the order of submissions and whatever slots were confirmed or finalized in between.", "quantifier": "every history of updates (any order, any slots and write versions) interleaved with any slot notifications", "why_tests_cant": "Order-independence over unbounded permutations and interleavings with pruning.", "anchors": ["account_storage/src/account_data_by_commitment.rs: update, promote_slot_commitment, get_account_data", "account_storage/src/inmemory_account_store.rs: get_account"]}
{"id": "C14", "title": "Confirmed and finalized reads never go back in time", "statement": "While a pubkey stays tracked, the (slot, write_version) of the state returned by get_account at Confirmed, and at Finalized, never decreases.", "quantifier": "every history, every pair of points in it, every pubkey", "why_tests_cant": "Monotonicity over all histories including late, duplicate and out-of-order updates and slot notifications.", "anchors": ["account_storage/src/account_data_by_commitment.rs: update, promote_slot_commitment"]}
{"id": "C15", "title": "Finalized is never ahead of confirmed, confirmed never ahead of processed", "statement": "In every reachable state, for one pubkey the finalized state's slot is at most the confirmed state's slot, and the confirmed state's (slot, write_version) is at most the processed one's; a pubkey with a finalized state has a confirmed one, and one with a confirmed state has a processed one.", "quantifier": "every history and pubkey", "why_tests_cant": "Cross-commitment invariant over all histories. (With write_version included, finalized <= confirmed is false: refuted with a witness; proved for slots.)", "anchors": ["account_storage/src/account_data_by_commitment.rs: update, promote_slot_commitment", "account_storage/src/inmemory_account_store.rs"]}
{"id": "C16", "title": "Confirmed reads only show slots that were confirmed", "statement": "If get_account(pk, Confirmed) returns a state of slot s, then s was reported confirmed or finalized by a slot notification or by the commitment of some update at s, or s is an announced ancestor of such a slot.", "quantifier": "every history, including missing, late, duplicate or contradictory slot notifications", "why_tests_cant": "Safety over all histories of the slot-status bookkeeping.", "anchors": ["account_storage/src/inmemory_account_store.rs: process_slot_data, add_account_index_to_slot_status, update_account"]}
{"id": "C17", "title": "Finalized reads only show slots that were finalized", "statement": "If get_account(pk, Finalized) returns a state of slot s, then s was reported finalized by a slot notification or by the commitment of some update at s, or s is an announced ancestor of such a slot.", "quantifier": "every history", "why_tests_cant": "As C16. (False: when the confirmation walk meets an unknown ancestor it records the wrong parent for it, and a later finalization follows that link onto a slot that is not an ancestor; refuted with a witness, proved when the fabricated links are counted as announced.)", "anchors": ["account_storage/src/inmemory_account_store.rs: process_slot_data (lines 396-406)"]}
{"id": "C18", "title": "Confirming a slot makes its accounts visible at that commitment", "statement": "If a tracked pubkey was updated at slot s, s was not confirmed before and no later slot was finalized before, then after process_slot_data(s, Confirmed or Finalized) the confirmed (resp. also finalized) state of the pubkey has slot >= s, unless finalization removed the pubkey.", "quantifier": "every history satisfying the two side conditions, every slot and pubkey", "why_tests_cant": "Needs an invariant relating slot status, account index sets and per-account maps across all histories.", "anchors": ["account_storage/src/inmemory_account_store.rs: process_slot_data, update_account", "account_storage/src/account_data_by_commitment.rs: promote_slot_commitment"]}
{"id": "C19", "title": "An update for an already confirmed slot is immediately visible as confirmed", "statement": "update_account(a, Processed) for a slot whose status is already Confirmed (Finalized) makes a newer state visible at Confirmed (Finalized) right away.", "quantifier": "every reachable state and every update", "why_tests_cant": "Depends on slot status and tracking state. (False for pubkeys seen for the first time: refuted with a witness; proved for tracked pubkeys.)", "anchors": ["account_storage/src/inmemory_account_store.rs: update_account (lines 217-261)"]}
{"id": "C20", "title": "process_slot_data reports exactly the accounts whose state changed at that commitment", "statement": "The list returned by process_slot_data(slot, c) contains, once each, exactly the new states of the pubkeys whose state at commitment c advanced because of the call (for Processed: nothing).", "quantifier": "every reachable state, slot notification and hash-map iteration order", "why_tests_cant": "Two-sided exactness over all states and iteration orders.", "anchors": ["account_storage/src/inmemory_account_store.rs: process_slot_data"]}
{"id": "C21", "title": "process_slot_data is idempotent", "statement": "Repeating process_slot_data with the same slot info and commitment returns an empty list and changes nothing.", "quantifier": "every reachable state and slot notification", "why_tests_cant": "All states, including missing slot status, self-parents and finalization cleanup.", "anchors": ["account_storage/src/inmemory_account_store.rs: process_slot_data"]}
{"id": "C22", "title": "Re-submitting an update is a no-op", "statement": "Submitting the same account data with the same commitment a second time returns false and changes no read.", "quantifier": "every reachable state and update", "why_tests_cant": "All states and commitments. (False for zero-lamport updates whose finalization removes a pubkey that still satisfies the filters: refuted; proved when the first call leaves the pubkey tracked or rejected it.)", "anchors": ["account_storage/src/inmemory_account_store.rs: update_account", "account_storage/src/account_data_by_commitment.rs: update"]}
{"id": "C23", "title": "update_account returning false means nothing visible changed", "statement": "When update_account returns false no read at any commitment of any pubkey changes.", "quantifier": "every reachable state, update and commitment", "why_tests_cant": "All version relations between the three stored states. (False for a Finalized update older than the finalized but newer than the confirmed state: refuted; proved otherwise.)", "anchors": ["account_storage/src/account_data_by_commitment.rs: update (lines 125-186)", "account_storage/src/inmemory_account_store.rs: update_account"]}
{"id": "C24", "title": "Hash-map iteration order does not matter", "statement": "The state after process_slot_data and the multiset of accounts it returns do not depend on the iteration order of the promoted accounts; the order of lock retries in get_program_accounts only permutes its answer.", "quantifier": "every reachable state and every iteration order", "why_tests_cant": "Quantifies over all permutations.", "anchors": ["account_storage/src/inmemory_account_store.rs: process_slot_data (loop 430-453), get_program_accounts (loops 318-344)"]}
{"id": "C25", "title": "Updates are isolated per pubkey", "statement": "update_account for one pubkey never changes get_account of another pubkey at any commitment.", "quantifier": "every reachable state, update and other pubkey", "why_tests_cant": "Index aliasing (deleted and recreated pubkeys) must be excluded for all histories.", "anchors": ["account_storage/src/inmemory_account_store.rs: update_account"]}
{"id": "C26", "title": "Deleted accounts are not returned", "statement": "get_account never returns an account with zero lamports and get_program_accounts never does either.", "quantifier": "every reachable state, every query", "why_tests_cant": "All histories of deletion. (False for get_program_accounts without filters: refuted; proved for get_account and for filtered queries.)", "anchors": ["account_storage/src/inmemory_account_store.rs: get_account, get_account_with_filtering_from_lock"]}
{"id": "C27", "title": "get_program_accounts is sound and duplicate free", "statement": "Every account returned by get_program_accounts(p, filters, c) has owner p, satisfies all filters, is the pubkey's current state at commitment c (data possibly decompressed), and no pubkey is returned twice.", "quantifier": "every reachable state, program, filter list and commitment", "why_tests_cant": "Needs the index invariant over all histories.", "anchors": ["account_storage/src/inmemory_account_store.rs: get_program_accounts, get_account_with_filtering_from_lock"]}
{"id": "C28", "title": "get_program_accounts is complete", "statement": "Every account that get_account would return at commitment c with owner p and matching filters is in get_program_accounts(p, filters, c).", "quantifier": "every reachable state, program, filters, commitment", "why_tests_cant": "Needs the owner index to cover every stored state in all histories. (False after owner changes: refuted with two witnesses; proved for histories in which each pubkey keeps its owner.)", "anchors": ["account_storage/src/inmemory_account_store.rs: update_account, update_owner_delete_if_necessary, get_program_accounts"]}
{"id": "C29", "title": "Only filtered accounts are ever tracked", "statement": "A pubkey is tracked only if some earlier update for it was accepted by the configured filters at that time; an untracked pubkey is never returned by get_account.", "quantifier": "every history with filters changing arbitrarily between calls", "why_tests_cant": "All histories.", "anchors": ["account_storage/src/inmemory_account_store.rs: update_account, satisfies_filters, account_store_contains_key"]}
{"id": "C30", "title": "Old processed states are pruned on finalization without affecting reads", "statement": "After an account is promoted to finalized at slot s it keeps no processed state older than s except possibly its newest one, and pruning never changes any read.", "quantifier": "every account history and finalized slot", "why_tests_cant": "Loop over an unbounded map; must never drop the newest entry.", "anchors": ["account_storage/src/account_data_by_commitment.rs: promote_slot_commitment (lines 244-272)"]}
{"id": "C31", "title": "States of later slots survive the finalization of an earlier slot", "statement": "If a pubkey was updated at slot t then finalizing a slot s < t leaves get_account(pk, Processed) unchanged.", "quantifier": "every reachable state and finalized slot", "why_tests_cant": "Depends on deletion and ownership history. (False when the finalized state deletes the account or leaves the filters: everything newer is dropped too; refuted; proved otherwise.)", "anchors": ["account_storage/src/inmemory_account_store.rs: process_slot_data (lines 435-449)", "account_storage/src/account_data_by_commitment.rs: delete"]}
{"id": "C32", "title": "Snapshot encoding round-trip", "statement": "bincode decoding of create_snapshot's output yields exactly the accounts that were serialised, in order; malformed input is reported as DeserializationIssues and changes nothing.", "quantifier": "every list of accounts representable in the Rust types, every malformed byte string", "why_tests_cant": "All values of all fields and all three data encodings.", "anchors": ["account_storage/src/inmemory_account_store.rs: create_snapshot, load_from_snapshot"]}
{"id": "C33", "title": "Loading a snapshot into an empty store reproduces the finalized program accounts", "statement": "Loading create_snapshot(p) of any store into an empty store whose filters accept the accounts makes get_account at every commitment return exactly the snapshotted accounts (absent if they have no lamports) and get_program_accounts(p) return the snapshotted list.", "quantifier": "every reachable source store, program and accepting filter set", "why_tests_cant": "All stores; relies on C27 and on the creation path.", "anchors": ["account_storage/src/inmemory_account_store.rs: create_snapshot, load_from_snapshot, initilize_or_update_account"]}
{"id": "C34", "title": "Program queries outside the subscribed filters are rejected", "statement": "get_program_accounts fails with ConfigDoesnotContainRequiredFilters exactly when the configured filters do not contain the query; otherwise it succeeds.", "quantifier": "every reachable state and query with decodable filters and data", "why_tests_cant": "All queries and states.", "anchors": ["account_storage/src/inmemory_account_store.rs: get_program_accounts"]}
{"id": "C35", "title": "Program-keyed calls are routed to the registered storage only", "statement": "StorageByProgramId sends get_program_accounts, create_snapshot and load_from_snapshot for program p, and initialisation of an account owned by p, to exactly the storage registered for p, or to the default one if none is; no other storage is touched.", "quantifier": "every registration table, every sub-storage behaviour and every call", "why_tests_cant": "Quantifies over arbitrary sub-storages.", "anchors": ["account_storage/src/storage_by_program_id.rs: StorageByProgramId"]}
{"id": "C36", "title": "get_account finds an account held by any sub-storage", "statement": "If some sub-storage (registered or default) would return the account, StorageByProgramId.get_account returns an account.", "quantifier": "every registration table, iteration order, sub-storage behaviour and pubkey", "why_tests_cant": "All sub-storage behaviours. (False: the first registered storage answering Ok(None) ends the search; refuted; proved: the answer is the first Ok answer.)", "anchors": ["account_storage/src/storage_by_program_id.rs: get_account (lines 48-59)"]}
{"id": "C37", "title": "Updates reach an accepting storage; slot notifications reach all", "statement": "update_account returns true iff some storage accepted the update, offering it in order and stopping at the first acceptance; process_slot_data is delivered exactly once to every storage and returns the concatenation of their answers.", "quantifier": "every table, iteration order, sub-storage behaviour", "why_tests_cant": "All sub-storage behaviours and orders.", "anchors": ["account_storage/src/storage_by_program_id.rs: update_account, process_slot_data"]}
{"id": "C38", "title": "Accounts already stored are served without contacting the source", "statement": "AccountsOnDemand.get_account returns the storage's answer without subscribing when the storage has the account; when it returns Ok(None) for an account that is neither loading nor filtered it has subscribed it and loaded a snapshot first.", "quantifier": "every storage, source and filter behaviour", "why_tests_cant": "Quantifies over arbitrary storage and source behaviours.", "anchors": ["accounts_on_demand/src/accounts_on_demand.rs: get_account"]}
{"id": "C39", "title": "At most one load per key is in flight under any interleaving", "statement": "However many threads call get_account / get_program_accounts concurrently, at any time at most one of them is subscribing to or loading a given key.", "quantifier": "every number of threads, every interleaving, every environment behaviour", "why_tests_cant": "Schedules cannot be enumerated by tests.", "anchors": ["accounts_on_demand/src/accounts_on_demand.rs: get_account, get_program_accounts (accounts_in_loading / gpa_in_loading)"]}
{"id": "C40", "title": "A failed load can be retried", "statement": "After subscribing or snapshotting fails for a key, a later call for the key tries again.", "quantifier": "every execution", "why_tests_cant": "Error path over all continuations. (False: the loading entry is left behind, so no thread ever loads the key again; refuted for every continuation.)", "anchors": ["accounts_on_demand/src/accounts_on_demand.rs: get_account (lines 92-109), get_program_accounts (167-180)"]}
{"id": "C41", "title": "Waiters are not lost", "statement": "A thread waiting for a key's load is waiting on a load that is still in flight or has been notified, unless that load failed.", "quantifier": "every interleaving of any number of threads", "why_tests_cant": "Lost wake-ups depend on schedules.", "anchors": ["accounts_on_demand/src/accounts_on_demand.rs: get_account (lines 76-118)"]}
{"id": "C42", "title": "Token account binary round-trip", "statement": "TokenAccount::from_bytes(to_bytes(t)) = t for every token account whose additional data is shorter than 2^32 bytes.", "quantifier": "every TokenAccount value", "why_tests_cant": "The fuzz test fixes state = Initialized and samples; bit-packing must be right for all 2^7 flag combinations and all field values.", "anchors": ["token_account_storage/src/account_types.rs: TokenAccount::to_bytes, from_bytes"]}
{"id": "C43", "title": "Binary accessors agree with the decoder", "statement": "get_pubkey_from_binary, get_owner_from_binary and get_mint_index_from_binary of to_bytes(t) return t's fields, and to_bytes is injective with the documented length. On arbitrary bytes each accessor panics exactly if the bytes end before its field does.", "quantifier": "every TokenAccount value", "why_tests_cant": "Offsets must hold for all values.", "anchors": ["token_account_storage/src/account_types.rs: get_pubkey_from_binary, get_owner_from_binary, get_mint_index_from_binary"]}
{"id": "C44", "title": "from_bytes accepts exactly the well-formed binaries", "statement": "from_bytes panics (never misreads) on any input that is too short for its flags, has state bits 3 or a deleted byte above 1, and otherwise decodes; re-encoding a decoded canonical binary gives back its bytes.", "quantifier": "every byte string", "why_tests_cant": "All byte strings.", "anchors": ["token_account_storage/src/account_types.rs: TokenAccount::from_bytes"]}
{"id": "C45", "title": "SPL account layouts round-trip", "statement": "Packing a token account, mint or multisig into SPL bytes and classifying/unpacking them again yields the same fields.", "quantifier": "every token account, mint and multisig value of both token programs, with and without extension data", "why_tests_cant": "All field values and option combinations.", "anchors": ["token_account_storage/src/token_program_utils.rs: token_account_to_solana_account, token_mint_to_solana_account, token_multisig_to_solana_account, get_token_program_account_type"]}
{"id": "C46", "title": "Classification of token program accounts", "statement": "An account is classified Deleted exactly when it has zero lamports or is not owned by a token program; otherwise its kind is determined by data length (and the account-type byte for Token-2022) and its pubkey is preserved.", "quantifier": "every account data value", "why_tests_cant": "All lengths and contents.", "anchors": ["token_account_storage/src/token_program_utils.rs: get_token_program_account_type"]}
{"id": "C47", "title": "Mint indexes are stable and unique", "statement": "A mint pubkey keeps the index it was first given, and two different mints never share an index until 2^32 mints have been seen.", "quantifier": "every sequence of index requests", "why_tests_cant": "Unbounded sequences and the u32 wrap-around.", "anchors": ["token_account_storage/src/token_program_utils.rs: get_or_create_mint_index"]}
{"id": "C48", "title": "The token account storage behaves like a map from pubkey to token account", "statement": "get_by_pubkey(pk) returns the token account most recently saved for pk unless it was deleted since; operations on other pubkeys do not affect it.", "quantifier": "every sequence of save_or_update and delete calls", "why_tests_cant": "All histories; the index is keyed by a 4-byte prefix. (False when two pubkeys share the prefix and one is deleted: refuted; proved for saves in general and for deletes when no live pubkey shares the prefix.)", "anchors": ["token_account_storage/src/inmemory_token_account_storage.rs: save_or_update, get_by_pubkey, delete"]}
{"id": "C49", "title": "contains answers membership", "statement": "contains(pk) returns an index exactly when pk is stored.", "quantifier": "every sequence of calls and every pubkey", "why_tests_cant": "Prefix collisions. (False: a bucket of length one is not checked; refuted; proved for pubkeys not sharing a prefix with a different stored one.)", "anchors": ["token_account_storage/src/inmemory_token_account_storage.rs: contains"]}
{"id": "C50", "title": "Token storage snapshots contain exactly the live accounts of the program", "statement": "create_snapshot(program) of the token account storage returns the encodings of exactly the stored, non-deleted accounts of that program.", "quantifier": "every history", "why_tests_cant": "Bit masks over encoded binaries, all histories.", "anchors": ["token_account_storage/src/inmemory_token_account_storage.rs: create_snapshot"]}
{"id": "C51", "title": "A finalized token account is read back", "statement": "After a token account or mint is submitted as finalized, get_account(pk, Finalized) returns an account with the same SPL content (owner, mint, amount, state, delegate, native flag, close authority, extension bytes).", "quantifier": "every reachable store state without prefix collisions and every valid token account whose mint is known", "why_tests_cant": "End-to-end over classification, binary storage and re-packing for all values.", "anchors": ["token_account_storage/src/inmemory_token_storage.rs: initilize_or_update_account, get_account_finalized"]}
{"id": "C52", "title": "Confirmed token reads return the newest state on the confirmed chain", "statement": "get_account(pk, Confirmed) returns the state of pk at the newest slot on the ancestor chain of the confirmed slot that updated it.", "quantifier": "every history of updates and slot notifications", "why_tests_cant": "Chain walk over all histories. (False: a slot first seen through a slot notification loses its parent link; refuted; proved relative to the recorded links.)", "anchors": ["token_account_storage/src/inmemory_token_storage.rs: ProcessedAccountStore::update_slot_info, get_confirmed_accounts"]}
{"id": "C53", "title": "Token reads terminate", "statement": "get_account and get_program_accounts return for every history of slot notifications.", "quantifier": "every history", "why_tests_cant": "Termination of a pointer chase. (False: a self-parent or parent cycle makes a confirmed read loop forever; refuted for every step count; proved when parents are smaller than their slots.)", "anchors": ["token_account_storage/src/inmemory_token_storage.rs: get_confirmed_accounts"]}
{"id": "C54", "title": "Finalization applies the newest state of each account on the finalized chain and drops forks", "statement": "process_slot_data(s, Finalized) moves to finalized storage, for every pubkey updated on the recorded ancestor chain of s, its newest state on that chain; states of other slots <= s are dropped and never become finalized, later slots are untouched.", "quantifier": "every state of the processed store", "why_tests_cant": "Loop over arbitrary chains and maps.", "anchors": ["token_account_storage/src/inmemory_token_storage.rs: ProcessedAccountStore::finalize, process_slot_data"]}
{"id": "C55", "title": "Deleted token-program accounts disappear from finalized reads", "statement": "After a Deleted state of pk is finalized, get_account(pk, Finalized) is None.", "quantifier": "every reachable state and kind of account", "why_tests_cant": "All kinds and states. (False for multisigs: refuted; proved for mints and, without prefix collisions, token accounts.)", "anchors": ["token_account_storage/src/inmemory_token_storage.rs: add_account_finalized (lines 387-397)"]}
{"id": "C56", "title": "Token store reads do not panic", "statement": "get_account and get_program_accounts never panic.", "quantifier": "every history of updates", "why_tests_cant": "All histories. (False: a token account whose mint was never seen panics on read; refuted; proved when every referenced mint is present.)", "anchors": ["token_account_storage/src/token_program_utils.rs: token_account_to_solana_account (line 257)", "token_account_storage/src/inmemory_token_storage.rs: get_program_accounts_finalized (line 468)"]}
{"id": "C57", "title": "Token get_program_accounts by owner / mint", "statement": "Accounts returned for an owner (and mint) query have that owner (and mint) and match all other filters given.", "quantifier": "every reachable state and filter list", "why_tests_cant": "All states and filters. (False for additional filters, which are ignored: refuted; proved for the owner and mint part.)", "anchors": ["token_account_storage/src/inmemory_token_storage.rs: get_program_accounts_finalized", "token_account_storage/src/token_program_utils.rs: get_spl_token_owner_mint_filter"]}
{"id": "C58", "title": "Token snapshot round-trip", "statement": "Loading a created token snapshot into an empty store reproduces the finalized reads.", "quantifier": "every store", "why_tests_cant": "All stores. (False: mints loaded from a snapshot are not entered in the pubkey index, the size prefix that decompress expects is not written, an unknown mint panics; refuted; proved for token accounts and multisigs.)", "anchors": ["token_account_storage/src/inmemory_token_storage.rs: create_snapshot, load_from_snapshot"]}
{"id": "C59", "title": "An update of an unrelated account does not disturb stored token accounts", "statement": "update_account / initilize_or_update_account for an account that is not a token program account is rejected (false) and changes no read of any other pubkey.", "quantifier": "every reachable state and account", "why_tests_cant": "All states. (False on 4-byte prefix collisions: the stored token account becomes unreadable; refuted; proved without collisions.)", "anchors": ["token_account_storage/src/inmemory_token_storage.rs: is_token_program_account, add_account_finalized", "token_account_storage/src/inmemory_token_account_storage.rs: contains, delete"]}
{"id": "C60", "title": "Append-vec iteration is memory safe and terminates", "statement": "For every file content and length, append_vec_iter yields finitely many accounts, every slice it hands out lies inside the first current_len bytes, and successive accounts do not overlap.", "quantifier": "every byte string and declared length", "why_tests_cant": "Arbitrary (corrupt) files, 64-bit overflow.", "anchors": ["simulate_from_snapshot/src/snapshot_utils/append_vec.rs: get_slice, get_type, get_account", "simulate_from_snapshot/src/snapshot_utils/mod.rs: append_vec_iter"]}
{"id": "C61", "title": "Append-vec round-trip", "statement": "Iterating over a file written in the append-vec layout yields exactly the accounts that were written, in order.", "quantifier": "every list of stored accounts", "why_tests_cant": "All lists and data lengths (alignment).", "anchors": ["simulate_from_snapshot/src/snapshot_utils/append_vec.rs: get_account", "simulate_from_snapshot/src/snapshot_utils/mod.rs: append_vec_iter"]}
{"id": "C62", "title": "Append-vec file names parse back", "statement": "parse_append_vec_name returns (slot, id) for the name 'slot.id' of any u64 pair and rejects names with a part that is not a u64.", "quantifier": "every pair and every string", "why_tests_cant": "All strings.", "anchors": ["simulate_from_snapshot/src/snapshot_utils/mod.rs: parse_append_vec_name"]}
{"id": "C63", "title": "RPC getProgramAccounts context", "statement": "The RPC context slot is the maximum updated slot of the program accounts, and with a context every returned account has updated slot >= min_context_slot; no other account is dropped and order is kept.", "quantifier": "every storage answer and request configuration", "why_tests_cant": "All answers and configurations.", "anchors": ["simulate_from_snapshot/src/rpc_server.rs: get_program_accounts"]}
{"id": "C64", "title": "Commitment conversion and ordering", "statement": "Commitment levels are totally ordered Processed < Confirmed < Finalized, and converting an RPC commitment maps finalized-like levels to Finalized, confirmed-like to Confirmed and everything else to Processed.", "quantifier": "every commitment level", "why_tests_cant": "Finite table; included because every other property is stated over it.", "anchors": ["common/src/commitment.rs"]}
{"id": "C66", "title": "Program queries are not answered from storage before their load completes", "statement": "While one thread is still loading the snapshot of a program query, no other call for the same query reads the storage as if it were loaded. (False: the filter is added before the snapshot is saved; refuted; what precedes an answer from storage is proved.)", "quantifier": "every interleaving of any number of threads", "why_tests_cant": "Needs a particular interleaving of two threads.", "anchors": ["accounts_on_demand/src/accounts_on_demand.rs: get_program_accounts (lines 125-192)"]}
{"id": "C67", "title": "On-demand calls cannot deadlock", "statement": "From every reachable state of the on-demand storage every call in progress can still return, and each of its mutexes is held by at most one thread.", "quantifier": "every interleaving of any number of threads, with failures and time-outs", "why_tests_cant": "All interleavings.", "anchors": ["accounts_on_demand/src/accounts_on_demand.rs: get_account, get_program_accounts"]}
{"id": "C68", "title": "Mint indexes are stable", "statement": "A mint public key keeps its index, and no other mint ever gets this index. (False when a mint is closed and created again; refuted; never-reuse is proved, stability is proved for mints that are not closed.)", "quantifier": "every history of fewer than 2^31 calls and every continuation", "why_tests_cant": "All histories.", "anchors": ["token_account_storage/src/inmemory_token_storage.rs: add_account_finalized", "token_account_storage/src/token_program_utils.rs: get_or_create_mint_index"]}
{"id": "C69", "title": "Token get_program_accounts is complete", "statement": "Every account that can be read, belongs to the program and passes the filters of a query by owner or mint is returned by that query. (False when owners change and for unfinalized accounts; refuted; proved for finalized queries with unchanging owners or mints.)", "quantifier": "every reachable state and filter list", "why_tests_cant": "All histories and filters.", "anchors": ["token_account_storage/src/inmemory_token_storage.rs: add_account_finalized, get_program_accounts_finalized, get_program_accounts"]}
{"id": "C71", "title": "Owner and mint of a query are recognised", "statement": "get_spl_token_owner_mint_filter returns exactly the last 32-byte raw patterns at offsets 32 and 0, provided the last size asked for is 165 or (Token-2022) the last raw pattern at offset 165 is [2].", "quantifier": "every program and filter list", "why_tests_cant": "All filter lists.", "anchors": ["token_account_storage/src/token_program_utils.rs: get_spl_token_owner_mint_filter"]}
{"id": "C70", "title": "Token updates and slot notifications do not panic", "statement": "If all submitted data decodes, no history of updates and slot notifications panics. (False for notifications: accounts are converted before the mints of the same slot are stored; refuted; proved when mints are loaded first, and for updates alone.)", "quantifier": "every history of fewer than 2^31 calls", "why_tests_cant": "All histories and orders of arrival.", "anchors": ["token_account_storage/src/inmemory_token_storage.rs: update_account, initilize_or_update_account, process_slot_data", "token_account_storage/src/token_program_utils.rs: token_account_to_solana_account (line 257)"]}
{"id": "C72", "title": "Loading a token snapshot leaves other accounts alone", "statement": "Loading a snapshot created by any store into a store in use does not change the finalized read of a public key that is not in the snapshot. (False: a known mint is stored under the index it had in the snapshot and can replace another mint; refuted; proved when no mint of the snapshot is known.)", "quantifier": "every pair of reachable stores", "why_tests_cant": "All pairs of stores.", "anchors": ["token_account_storage/src/inmemory_token_storage.rs: load_from_snapshot (lines 799-812)"]}
{"id": "C73", "title": "The executable flag of a stored account is a valid bool", "statement": "Whatever a file contains, the executable byte of every account handed out is 0 or 1 (it is read in place as a Rust bool, so any other value is undefined behaviour). (False for corrupt files; refuted; proved for files in the append-vec layout.)", "quantifier": "every byte string and declared length", "why_tests_cant": "Tests use well-formed files.", "anchors": ["simulate_from_snapshot/src/snapshot_utils/append_vec.rs: get_type, get_account"]}
{"id": "C74", "title": "Accounts are only read from bytes that are there", "statement": "Every account taken from an archive entry lies within the bytes of the entry. (False: an entry shorter than declared is filled up with zeros, which read as accounts; refuted; proved for entries of at least the declared length.)", "quantifier": "every archive entry and declared length", "why_tests_cant": "Truncated entries are not tested.", "anchors": ["simulate_from_snapshot/src/snapshot_utils/append_vec.rs: new_from_reader"]}
{"id": "C75", "title": "Minimal context slot of getProgramAccounts", "statement": "The context slot of an answer is not before min_context_slot of the request. (False: an older state is answered with an empty list; refuted; proved for answers that are not empty.)", "quantifier": "every storage answer and request configuration", "why_tests_cant": "All answers and configurations.", "anchors": ["simulate_from_snapshot/src/rpc_server.rs: get_program_accounts"]}
{"id": "C76", "title": "RPC getAccountInfo and getSnapshot pass on the storage's answer", "statement": "getAccountInfo shows the account stored at the requested commitment (finalized by default) with its updated slot as context slot, and slot 0 if there is none; getSnapshot gives the storage's snapshot in base64.", "quantifier": "every storage and request", "why_tests_cant": "All storages and configurations.", "anchors": ["simulate_from_snapshot/src/rpc_server.rs: get_account_info, get_snapshot, convert_account_data_to_ui_account"]}
{"id": "C77", "title": "A well-formed snapshot archive is loaded completely", "statement": "Loading a well-formed archive gives the token storage exactly the accounts of the token program that are written in its account files, each once, in the order of the archive and with their content, whatever the storage held before.", "quantifier": "every archive, manifest, account and storage", "why_tests_cant": "Archives of any size and content; a test loads one archive.", "anchors": ["simulate_from_snapshot/src/snapshot_utils/archived.rs: from_reader, process_entry, unboxed_iter", "simulate_from_snapshot/src/main.rs: main"]}
{"id": "C78", "title": "What cannot be loaded is not loaded", "statement": "The manifest is found exactly if only other files come before it. Without a manifest, with account files before it, with an unreadable entry or with an account file that the manifest does not declare nothing is loaded. Every append vec handed out has the declared length, the slot of its name and the bytes of its entry.", "quantifier": "every sequence of archive entries and every manifest", "why_tests_cant": "Damaged archives of every kind.", "anchors": ["simulate_from_snapshot/src/snapshot_utils/archived.rs: from_reader, process_entry, unboxed_iter", "simulate_from_snapshot/src/snapshot_utils/mod.rs: parse_append_vec_name"]}
{"id": "C79", "title": "An archive without a declared append vec is rejected", "statement": "If an archive is loaded, every append vec that its manifest declares was in it. (False: nobody checks that all declared files were seen; refuted; proved that an archive that breaks off with a read error is never loaded.)", "quantifier": "every archive", "why_tests_cant": "The absence of a check is not visible in tests with complete archives.", "anchors": ["simulate_from_snapshot/src/snapshot_utils/archived.rs: unboxed_iter", "simulate_from_snapshot/src/main.rs: main"]}
{"id": "C80", "title": "The newest version of an account in a snapshot is what is read after loading it", "statement": "After loading an archive into an empty storage a finalized read of an account gives the content of its newest version in the archive, and nothing if that version is not of the token program. (False: the later entry wins whatever its slot, and closed accounts are read in their older version; refuted; proved that the last version of the token program in the order of the archive is read, and the newest by slot if the versions are in order of their slots.)", "quantifier": "every archive, account and order of the files", "why_tests_cant": "Needs archives with several versions in an unusual order.", "anchors": ["simulate_from_snapshot/src/main.rs: main", "token_account_storage/src/inmemory_token_storage.rs: initialize_or_update_account, add_account_finalized, get_account_finalized"]}
{"id": "C81", "title": "Loading a snapshot does not panic", "statement": "As long as the extractor reports no error, loading ends without a panic whatever bytes are in the account files (lengths below 2^63, room for fewer than 2^31 accounts).", "quantifier": "every archive content", "why_tests_cant": "Arbitrary garbage in the files.", "anchors": ["simulate_from_snapshot/src/main.rs: main", "simulate_from_snapshot/src/snapshot_utils/append_vec.rs: get_account, append_vec_iter"]}
{"id": "C82", "title": "The unpacked extractor reports unusable files", "statement": "A file of the accounts directory that is named SLOT.ID and is undeclared, unreadable, empty or too short gives an error. (False: the second flatten_ok drops these errors and no error is ever reported; refuted; proved that exactly the usable files are handed out, in order, and that an unreadable directory is reported.)", "quantifier": "every directory and manifest", "why_tests_cant": "Errors are swallowed silently; tests with good directories pass.", "anchors": ["simulate_from_snapshot/src/snapshot_utils/unpacked.rs: unboxed_iter, iter_streams, open_append_vec"]}
{"id": "C83", "title": "Parallel iteration gives every append vec to one consumer", "statement": "If par_iter_append_vecs succeeds, every append vec was given to exactly one of at most num_threads consumers, each saw its own in the order of the iterator, and no consumer failed. An error comes from the iterator or a consumer; an error of the iterator is never swallowed. With at least one thread there is no panic; without threads the first append vec panics.", "quantifier": "every iterator, consumer, number of threads and order in which tasks end", "why_tests_cant": "All schedules.", "anchors": ["simulate_from_snapshot/src/snapshot_utils/parallel.rs: par_iter_append_vecs"]}
{"id": "C84", "title": "The messages of the stream reach the storage unchanged", "statement": "An account message gives the storage the account with the data the validator has; confirmed and finalized slot messages, and no others, are passed on with their commitment; following the stream makes exactly these calls in order. (False for data sent compressed: it is compressed again and its length is taken for the length of the data; refuted; proved for the payload as sent, and so for uncompressed data.)", "quantifier": "every message and stream", "why_tests_cant": "All messages and compression settings.", "anchors": ["simulate_from_snapshot/src/main.rs: main", "common/src/account_data.rs: Data::new"]}
{"id": "C85", "title": "Finalized token state never goes back in time", "statement": "Once a finalized state of an account was taken, neither an older finalized state nor a finalized slot notification that is not newer than the last one changes what finalized reads show. (False: the finalized store replaces states without comparing slots; refuted for both; proved for notifications when every state arrives before its slot is passed by a finalized one.)", "quantifier": "every history, account and notification", "why_tests_cant": "All orders of states and notifications.", "anchors": ["token_account_storage/src/inmemory_token_storage.rs: update_account, process_slot_data, add_account_finalized"]}
{"id": "C86", "title": "Finalized token reads show the newest state on the finalized chain, end to end", "statement": "After any stream of states and slot notifications, a finalized read of a token account shows the newest state submitted for it on the chain of the last finalized slot, with the mint, owner, amount and other fields it was submitted with. (False: a state that arrives late is lost; refuted; proved for streams in which states arrive in time, finalized slots form one chain whose links were recorded, snapshot states come first and, for token accounts, no key with the same first four bytes is closed.)", "quantifier": "every stream of submissions and notifications, every account", "why_tests_cant": "All streams, forks and interleavings.", "anchors": ["token_account_storage/src/inmemory_token_storage.rs: update_account, process_slot_data, get_account, add_account_finalized"]}
{"id": "C87", "title": "Concurrent calls of the account store do not panic and only show submitted states", "statement": "Whatever the interleaving of any number of threads that update, notify, read and query, and of changes of the filters: no call panics (except a query whose filter text does not decode, or over a submitted account whose data does not decompress); every state returned or reported was submitted before, for the pubkey or owner asked for, and passes the filters asked for; in every intermediate state finalized is not ahead of confirmed and confirmed not ahead of processed; and get_account returns what it would have returned on its own at some moment during the call.", "quantifier": "every number of threads, every interleaving, every call", "why_tests_cant": "Interleavings cannot be enumerated; races need particular timing.", "anchors": ["account_storage/src/inmemory_account_store.rs: update_account, process_slot_data, get_account, get_program_accounts"]}
{"id": "C88", "title": "Concurrent calls of the account store do not deadlock", "statement": "From every state that concurrent calls can reach, all calls can still return. (False: update_account holds the shard of the pubkey and waits for the account, process_slot_data holds the account and waits for the shard to remove the pubkey; refuted; proved whenever no update is executed at the same time as a notification of a finalized slot, or only updates of accounts in other shards than those of the accounts that changed their owner.)", "quantifier": "every number of threads, every interleaving, every call", "why_tests_cant": "Deadlocks need particular timing.", "anchors": ["account_storage/src/inmemory_account_store.rs: update_account 220-236, process_slot_data 429-447, get_account, get_program_accounts"]}
{"id": "C89", "title": "Concurrent calls of the account store take effect in some order", "statement": "When concurrent calls have all returned, reads are as if the writing calls had been made one after the other in some order. (False: an update that looked at the status of its slot before the slot was confirmed is stored after it as processed only, and stays so; refuted; proved for writing calls made one at a time with any number of concurrent reads: store and answers are those of the calls one after the other.)", "quantifier": "every number of threads, every interleaving, every call", "why_tests_cant": "Races need particular timing.", "anchors": ["account_storage/src/inmemory_account_store.rs: update_account 141-158, 205-264, process_slot_data 349-455"]}
{"id": "C90", "title": "Concurrent calls of the token store do not deadlock", "statement": "From every state that concurrent calls of the token store can reach, all calls can still return: whichever thread the scheduler picks, calls that have begun end after finitely many steps. The locks exclude each other. (False when a slot is notified as its own ancestor: the read that runs into it never ends and keeps processed_slot_accounts locked, and every later update and notification waits for it; refuted; proved whenever notified parents are older than their slots.)", "quantifier": "every number of threads, every interleaving, every call", "why_tests_cant": "Deadlocks need particular timing.", "anchors": ["token_account_storage/src/inmemory_token_storage.rs: update_account, initilize_or_update_account, process_slot_data, get_account, get_program_accounts", "token_account_storage/src/inmemory_token_account_storage.rs"]}
{"id": "C91", "title": "Concurrent calls of the token store answer with what was submitted", "statement": "Every answer of the token store, whatever calls run at the same time (and as long as at most 2^31 accounts were submitted), fits the call it answers: an account that get_account or get_program_accounts returns was submitted before, has the content it was submitted with and is not a closed one; get_account returns the account asked for; a finalized query for the token accounts of an owner returns only such accounts; a query fails exactly when it asks for something the store cannot look up; a notification reports only accounts submitted as processed or confirmed, with their slot and write version, and for a confirmed slot only accounts of this slot; an account of a token program is reported as updated only when it can be read as a token account, mint or multisig account, and a finalized one that can be read is never passed over. A call that panics leaves no lock poisoned.", "quantifier": "every number of threads, every interleaving, every call, up to 2^31 submitted accounts", "why_tests_cant": "Interleavings of several maps, two locks and three counters cannot be enumerated.", "anchors": ["token_account_storage/src/inmemory_token_storage.rs: update_account, initilize_or_update_account, process_slot_data, get_account, get_program_accounts", "token_account_storage/src/inmemory_token_account_storage.rs"]}
{"id": "C92", "title": "Concurrent calls of the token store take effect in some order", "statement": "When concurrent calls of the token store have all returned and none panicked, reads are as if the writing calls had been made one after the other in some order, and a read during a writing call returns what it would return before or after it. (False both: a notification that a slot is finalized takes the states of the slot out of processed_slot_accounts and stores them later. If the next slot is finalized in between, the older state replaces the newer one for good; a confirmed get_account in between finds the state from before, with the new slot. Refuted. Proved: a call during which no other writing call is executed has the answer and the effect of the call executed at once, and panics only then; as long as writing calls are made one at a time, with any number of concurrent reads, store and answers are those of the calls one after the other.)", "quantifier": "every number of threads, every interleaving, every call, every iteration order", "why_tests_cant": "Races need particular timing.", "anchors": ["token_account_storage/src/inmemory_token_storage.rs: process_slot_data 711-736, update_account, initilize_or_update_account, get_account, get_program_accounts", "token_account_storage/src/inmemory_token_account_storage.rs"]}
{"id": "C93", "title": "Concurrent queries of the account store miss no account and return none twice", "statement": "A get_program_accounts call, whatever runs at the same time: it is refused, with the error that says so, only if the filters did not cover the query at some moment of the call. Each account returned was, at some moment of the call, the state at the commitment asked for of an account in the set of the owner, with this owner and passing the filters asked for. An account that at every moment of the call is found by its pubkey, is in the set of the owner, belongs to the owner and passes the filters is in the answer, with its state of one of these moments. No pubkey is returned twice. If no writing call is executed meanwhile, the answer is, up to order, what the call would give executed at once, and it panics exactly if that would.", "quantifier": "every number of threads, every interleaving, every query", "why_tests_cant": "Accounts that are locked during the first pass are visited in a second one; accounts can be removed and added at a new index meanwhile. Which of this happens depends on timing.", "anchors": ["account_storage/src/inmemory_account_store.rs: get_program_accounts"]}
{"id": "C94", "title": "Opening an unpacked snapshot takes the manifest of the first numbered entry", "statement": "UnpackedSnapshotExtractor::open succeeds with the manifest m exactly if the status cache is a file, the directory snapshots can be read, and the first of its entries whose name is a number has a manifest file that decodes to m. Each way to fail has its own error: no status cache, no numbered entry, something cannot be read, the manifest does not decode.", "quantifier": "every directory and manifest", "why_tests_cant": "All names and all orders in which a directory is listed.", "anchors": ["simulate_from_snapshot/src/snapshot_utils/unpacked.rs: open"]}
{"id": "C95", "title": "Reading the snapshot manifest gives the declared append vecs or an error, never a part of them", "statement": "Reading the manifest (bank fields, then AccountsDbFields) succeeds exactly if the bank can be read and the bytes behind it begin with the table of append vecs, write version, slot and bank hash info in bincode's fixed-width layout. The result declares for each slot the ids and lengths that are listed last for it, and none for a slot that is not listed. The two trailing lists may be missing, broken off or anything else. If the bytes break off before the end of the bank hash info, reading fails. Different tables have different bytes, and one of more than 32 GiB is refused. So an archive whose manifest has these bytes is loaded as C77 says.", "quantifier": "every manifest, every way of reading the bank that only moves forward", "why_tests_cant": "All tables, all truncation points, all trailing bytes; duplicate slots.", "anchors": ["simulate_from_snapshot/src/snapshot_utils/solana.rs: deserialize_from, AccountsDbFields", "simulate_from_snapshot/src/snapshot_utils/archived.rs: from_reader", "simulate_from_snapshot/src/snapshot_utils/unpacked.rs: open"]}
{"id": "C96", "title": "An account unknown to the storage is found on demand", "statement": "AccountsOnDemand around InmemoryAccountStore, both with the same MutableFilterStore: get_account of an account that is neither stored, loading nor configured, and which the source hands over, returns this account and keeps it stored. A stored account is returned without asking the source. Every account returned has the pubkey asked for and was submitted before or handed over by the source.", "quantifier": "every state reached by calls one after the other, every set of filters, every account, every commitment", "why_tests_cant": "Depends on whether the storage's filters accept the account at the moment it is handed over.", "anchors": ["accounts_on_demand/src/accounts_on_demand.rs: get_account", "account_storage/src/inmemory_account_store.rs: update_account", "common/src/mutable_filter_store.rs"]}
{"id": "C97", "title": "A program query that is not configured is answered with what the source has", "statement": "AccountsOnDemand around InmemoryAccountStore, both with the same MutableFilterStore: get_program_accounts of a query that is neither configured nor loading is answered with all accounts the source hands over for it; no pubkey is returned twice, and every account returned is of the program, passes the filters, and was submitted before or handed over. Afterwards the query is configured for good: it is answered without the source, and an update of an account it selects is accepted even if the account was never seen, and is found by the query.", "quantifier": "every state reached by calls one after the other, every program, every list of decodable filters, every commitment", "why_tests_cant": "Depends on the configured filters in their stored form and on every earlier call.", "anchors": ["accounts_on_demand/src/accounts_on_demand.rs: get_program_accounts", "account_storage/src/inmemory_account_store.rs: get_program_accounts", "common/src/simple_filter_store.rs: add_account_filters, contains_filter"]}
{"id": "C98", "title": "A program query does no harm to other calls, whatever its text", "statement": "AccountsOnDemand around InmemoryAccountStore, both with the same MutableFilterStore: after any get_program_accounts, also one whose memcmp text does not decode, updates of accounts that decompress are taken as before and do not panic.", "quantifier": "every state reached by calls one after the other, every program, every list of filters, every account", "why_tests_cant": "The damage depends on whether the program was seen before and shows only in later calls by others: a poisoned lock, or a filter stored undecoded that panics when an account reaches it.", "anchors": ["accounts_on_demand/src/accounts_on_demand.rs: get_program_accounts", "common/src/mutable_filter_store.rs: add_account_filters, satisfies", "common/src/simple_filter_store.rs: add_account_filters", "common/src/account_filter.rs: bytes"]}
{"id": "C99", "title": "A notification of a finalized slot that panics loses no account", "statement": "InmemoryTokenStorage::process_slot_data panics if a token account cannot be converted because its mint is not stored. No lock is poisoned by that and other calls go on; every account that could be read before the notification can be read after it.", "quantifier": "every state reached by calls one after the other, in which earlier notifications may have panicked; every slot, every account, every iteration order", "why_tests_cant": "Needs a panic in the middle of a call, and then looking at accounts that have nothing to do with it.", "anchors": ["token_account_storage/src/inmemory_token_storage.rs: process_slot_data, finalize, get_account", "token_account_storage/src/token_program_utils.rs: token_account_to_solana_account"]}
{"id": "C100", "title": "Behind the dispatcher, updates of accounts of other programs reach the default storage", "statement": "With an InmemoryTokenStorage registered for both token programs and an InmemoryAccountStore as the default storage of StorageByProgramId, an update of an account that no token program owns is given to the default storage.", "quantifier": "every state reached by calls made to the dispatcher, every account and commitment", "why_tests_cant": "Depends on what the token store makes of accounts it does not own, over all histories. (False: refuted for an account that leaves the token program, and for one that shares four bytes of its key with a token account.)", "anchors": ["account_storage/src/storage_by_program_id.rs: update_account", "token_account_storage/src/inmemory_token_storage.rs: update_account, is_token_program_account"]}
{"id": "C101", "title": "Behind the dispatcher, get_account finds the accounts of the default storage", "statement": "In the same composition, an account that the default storage has at a commitment is returned by get_account, and by get_program_accounts for its owner.", "quantifier": "every state reached by calls made to the dispatcher, every account and commitment", "why_tests_cant": "The claim about all accounts; a test of one storage alone does not see it. (False of get_account: the token store answers Ok(None), so the default storage is never asked. Proved of get_program_accounts.)", "anchors": ["account_storage/src/storage_by_program_id.rs: get_account, get_program_accounts", "token_account_storage/src/inmemory_token_storage.rs: get_account"]}
{"id": "C102", "title": "Behind the dispatcher, slot notifications have the effect they have on each storage", "statement": "In the same composition, process_slot_data changes each storage as one direct call would, and returns the accounts that the token store reports followed by those that the default storage reports.", "quantifier": "every state reached by calls made to the dispatcher, every slot, commitment and iteration order", "why_tests_cant": "The token store is called once per registered program, so what a repeated call does must be known in every state. (False: confirmed accounts are reported twice, and a processed slot gets the parent that a single call drops.)", "anchors": ["account_storage/src/storage_by_program_id.rs: process_slot_data", "token_account_storage/src/inmemory_token_storage.rs: process_slot_data"]}
{"id": "C103", "title": "A token snapshot made while other calls run can be loaded", "statement": "If at all moments during create_snapshot of InmemoryTokenStorage every token account that is not deleted has its mint stored, what it returns can be loaded into a new store.", "quantifier": "every reachable state, every interleaving of create_snapshot with any number of other calls, every iteration order and distribution over shards", "why_tests_cant": "Depends on what other threads do between the locks of three collections. (False: mints are read before token accounts, so a mint and an account stored in between give a snapshot on which load_from_snapshot panics. Proved: what the snapshot has of each collection, and that it loads if the mints were there all the time.)", "anchors": ["token_account_storage/src/inmemory_token_storage.rs: create_snapshot", "token_account_storage/src/inmemory_token_account_storage.rs: create_snapshot"]}
{"id": "C104", "title": "Loading a token snapshot while an account is updated has the effect of one after the other", "statement": "When load_from_snapshot of InmemoryTokenStorage runs at the same time as a finalized update, finalized program queries are answered afterwards as if one call had been made after the other.", "quantifier": "every reachable state with no call running, every snapshot and account, every interleaving", "why_tests_cant": "The window between get_mut and insert is a few instructions wide. (False: the list of accounts of an owner is overwritten. Proved if nothing else writes meanwhile.)", "anchors": ["token_account_storage/src/inmemory_token_storage.rs: load_from_snapshot, update_account, get_program_accounts"]}
{"id": "C105", "title": "Making and loading token snapshots does not deadlock with other calls", "statement": "With any number of create_snapshot and load_from_snapshot calls among the other calls of InmemoryTokenStorage: if notified parents are older than their slots, some call can always go on, every execution without new calls ends, locks exclude each other, and no panic poisons a lock.", "quantifier": "every reachable state of every number of threads, every distribution of keys over shards, lock policies with and without preference for writers", "why_tests_cant": "Deadlocks depend on the interleaving and on keys sharing a shard; unbounded threads and histories.", "anchors": ["token_account_storage/src/inmemory_token_storage.rs: create_snapshot, load_from_snapshot, update_account, process_slot_data, get_account, get_program_accounts", "token_account_storage/src/inmemory_token_account_storage.rs"]}
{"id": "C106", "title": "The simulator answers with the state of the chain", "statement": "Once the snapshot archive is loaded, and while the stream is followed and in order, getAccountInfo at the finalized commitment shows a token account as of the last finalized slot: in its newest state on the finalized chain, or as the archive has it if the stream has no state of it, and nothing if it was closed or never existed.", "quantifier": "every well-formed archive, every sequence of plain messages of the stream and turns of the loader, every chain of parents, every token account, every request", "why_tests_cant": "Joins the archive reader, the token store and the RPC server over unbounded histories; whether the loader or the stream comes first is a race. (False: the loader may overwrite a finalized state with the older one of the archive. Proved if no slot is finalized before the archive is loaded.)", "anchors": ["simulate_from_snapshot/src/main.rs: main", "simulate_from_snapshot/src/rpc_server.rs: get_account_info", "token_account_storage/src/inmemory_token_storage.rs"]}
{"id": "C107", "title": "The simulator goes on following the stream", "statement": "As long as the validator sends plain messages about token accounts whose mints are in the archive, the task that takes them goes on.", "quantifier": "every well-formed archive, every sequence of messages and turns of the loader", "why_tests_cant": "The task is spawned before the archive is loaded and its handle is dropped, so its panic is not noticed. (False: confirming a slot with a token account whose mint is not loaded yet panics; from then on the data served is frozen. Proved if no slot is confirmed or finalized before the archive is loaded.)", "anchors": ["simulate_from_snapshot/src/main.rs: main", "token_account_storage/src/inmemory_token_storage.rs: process_slot_data, update_account"]}
{"id": "C108", "title": "The simulator loads and serves exactly what can be loaded", "statement": "With a well-formed archive the program serves after as many turns of the loader as the archive has entries and accounts and two more, whatever the stream does; with an archive that has no manifest or an unreadable or undeclared entry it never serves. Without a stream the store is what the archive alone gives; with one, it is what archive and stream give in some order that keeps each in its own, and every such order can occur.", "quantifier": "every archive, every sequence of messages, disconnections and turns of the loader", "why_tests_cant": "Quantifies over all archives and all schedules of two tasks; that no order is excluded cannot be tested.", "anchors": ["simulate_from_snapshot/src/main.rs: main", "simulate_from_snapshot/src/snapshot_utils/archived.rs"]}
{"id": "C109", "title": "The simulator answers with confirmed states", "statement": "Once the snapshot archive is loaded, and while the stream is followed and in order, getAccountInfo at the confirmed commitment shows a token account in its newest state on the chain of the highest confirmed slot, with the slot of that state; if that state is not above the last finalized slot, as of the last finalized slot.", "quantifier": "every well-formed archive, every sequence of plain messages of the stream and turns of the loader, every chain of parents, every token account, every request", "why_tests_cant": "Which slots are empty of token accounts depends on the whole chain. (False: a confirmed slot in which no token account changed has no entry when it is confirmed, so the walk to its ancestors ends there and older data is shown. Proved if every slot between was noted with its parent.)", "anchors": ["simulate_from_snapshot/src/main.rs: main", "simulate_from_snapshot/src/rpc_server.rs: get_account_info", "token_account_storage/src/inmemory_token_storage.rs: get_account_info", "token_account_storage/src/account_types.rs"]}
{"id": "C110", "title": "The simulator answers with processed states", "statement": "Under the same conditions, getAccountInfo at the processed commitment shows a token account in its newest state on the chain of the highest slot the stream has mentioned.", "quantifier": "every well-formed archive, every sequence of plain messages of the stream and turns of the loader, every chain of parents, every token account, every request", "why_tests_cant": "Needs forks above the confirmed slot. (False: above the confirmed slot the store takes the highest slot with a state of the account, also one on an abandoned fork. Proved if the states above the confirmed slot are on one chain.)", "anchors": ["simulate_from_snapshot/src/main.rs: main", "simulate_from_snapshot/src/rpc_server.rs: get_account_info", "token_account_storage/src/inmemory_token_storage.rs: get_account_info"]}
{"id": "C111", "title": "The simulator lists the token accounts of an owner", "statement": "Once the snapshot archive is loaded, and while the stream is followed and in order, getProgramAccounts for the token accounts of an owner at the finalized commitment answers with a list that has, once each, the token accounts of that program that pass all filters as of the last finalized slot, as they are then, and no others.", "quantifier": "every well-formed archive, every sequence of plain messages of the stream and turns of the loader, every chain of parents, every request for an owner (and a mint of the archive), every token account", "why_tests_cant": "The list depends on the whole history of every account. (False: an account that changes its owner is listed neither for the old nor for the new one; accounts of the other token program are listed too; filters other than owner and mint are not looked at. Proved: accounts that keep their owner are listed, and whatever is listed has the owner and mint asked for, as of the last finalized slot, once.)", "anchors": ["simulate_from_snapshot/src/main.rs: main", "simulate_from_snapshot/src/rpc_server.rs: get_program_accounts", "token_account_storage/src/inmemory_token_storage.rs: get_program_accounts_finalized"]}
{"id": "C112", "title": "The simulator answers every request", "statement": "Once the snapshot archive is loaded, and while the stream is followed and names older parents, every request (getAccountInfo, getProgramAccounts, getSnapshot) is answered, be it with an error: no request panics or runs forever.", "quantifier": "every well-formed archive, every sequence of plain messages of the stream and turns of the loader, every request with every commitment and all filters", "why_tests_cant": "Needs that every mint index and every stored account resolves in every reachable store. (False: the filter for the token account state and a query for an owner and an unknown mint panic. Proved for all other requests.)", "anchors": ["simulate_from_snapshot/src/main.rs: main", "simulate_from_snapshot/src/rpc_server.rs: get_program_accounts, get_account_info, get_snapshot", "token_account_storage/src/inmemory_token_storage.rs: get_program_accounts, get_account, create_snapshot"]}
{"id": "C113", "title": "The simulator lists the token accounts of a mint", "statement": "Once the snapshot archive is loaded, and while the stream is followed and in order, getProgramAccounts for the token accounts of a mint at the finalized commitment answers with a list that has, once each, the token accounts of that program that pass all filters as of the last finalized slot, as they are then, and no others.", "quantifier": "every well-formed archive, every sequence of plain messages of the stream and turns of the loader, every chain of parents, every request for a mint, every token account", "why_tests_cant": "The list depends on the whole history of every account. (False: accounts of the other token program are listed; filters other than the mint are not looked at; an account closed and created again for another mint within a slot stays listed for its first mint only. Proved: an account that stays with its mint is listed for it and for no other, as of the last finalized slot, once.)", "anchors": ["simulate_from_snapshot/src/main.rs: main", "simulate_from_snapshot/src/rpc_server.rs: get_program_accounts", "token_account_storage/src/inmemory_token_storage.rs: get_program_accounts_finalized"]}
{"id": "C114", "title": "The simulator shows mints as of the last finalized slot", "statement": "Once the snapshot archive is loaded, and while the stream is followed and in order, getAccountInfo at the finalized commitment shows every account that is and stays a mint as it is as of the last finalized slot, with the program that owns it and its lamports; the slot given is the last finalized one.", "quantifier": "every well-formed archive, every sequence of plain messages of the stream and turns of the loader, every chain of parents, every mint and its history, every request", "why_tests_cant": "What is shown is decoded and encoded again on the way, from the archive or the stream, whichever is newer; the history is unbounded.", "anchors": ["simulate_from_snapshot/src/main.rs: main", "simulate_from_snapshot/src/rpc_server.rs: get_account_info", "token_account_storage/src/inmemory_token_storage.rs: get_account"]}
{"id": "C115", "title": "The simulator shows multisigs as of the last finalized slot", "statement": "Once the snapshot archive is loaded, and while the stream is followed and in order, getAccountInfo at the finalized commitment shows every account that is and stays a multisig as it is as of the last finalized slot, with its owner and lamports, up to the place of signers that are zero; the slot given is the last finalized one.", "quantifier": "every well-formed archive, every sequence of plain messages of the stream and turns of the loader, every chain of parents, every multisig and its history, every request", "why_tests_cant": "What is shown is decoded and encoded again on the way, from the archive or the stream, whichever is newer; the history is unbounded.", "anchors": ["simulate_from_snapshot/src/main.rs: main", "simulate_from_snapshot/src/rpc_server.rs: get_account_info", "token_account_storage/src/inmemory_token_storage.rs: get_account"]}
{"id": "C116", "title": "The simulator lists the mints of a token program", "statement": "Once the snapshot archive is loaded, and while the stream is followed and in order, getProgramAccounts for the mints of a token program (data size 82) at the finalized commitment answers with a list that has, once each, the mints of that program that pass all filters as of the last finalized slot, as they are then, and no others.", "quantifier": "every well-formed archive, every sequence of plain messages of the stream and turns of the loader, every chain of parents, every request, every mint", "why_tests_cant": "The list depends on the whole history of every mint. (False: the program asked for is not looked at, the mints of both programs are listed. Proved but for that.)", "anchors": ["simulate_from_snapshot/src/main.rs: main", "simulate_from_snapshot/src/rpc_server.rs: get_program_accounts", "token_account_storage/src/inmemory_token_storage.rs: get_program_accounts_finalized"]}
{"id": "C117", "title": "States of accounts are equal when they say the same", "statement": "Two states of accounts are equal, as decided by the PartialEq of AccountData, if and only if they are of the same account at the same slot with the same contents; the write version does not matter.", "quantifier": "all states, all compression methods, all lawful codecs", "why_tests_cant": "All pairs of states. (False: the same contents compressed in different ways are not equal. Proved: equality is an equivalence, equal states say the same, and states made by the same method are equal if and only if they say the same.)", "anchors": ["common/src/account_data.rs: PartialEq for AccountData"]}
{"id": "C118", "title": "The simulator lists the token accounts of an owner as of unfinalized slots", "statement": "Once the snapshot archive is loaded, and while the stream is followed and in order, getProgramAccounts for the token accounts of an owner at the confirmed or processed commitment answers with a list that has, once each, the accounts of the program asked for that pass all filters as of the slot of that commitment, as they are then, and no others.", "quantifier": "every well-formed archive, every sequence of plain messages of the stream and turns of the loader, every chain of parents, every request, every token account", "why_tests_cant": "The list depends on the whole history of every account and on the forks above the last finalized slot. (False: accounts opened since the last finalized slot are missing and accounts handed over since are listed for the former owner. Proved but for that: the accounts that had the owner as of the last finalized slot are listed in their newest state, unless they are closed.)", "anchors": ["simulate_from_snapshot/src/main.rs: main", "simulate_from_snapshot/src/rpc_server.rs: get_program_accounts", "token_account_storage/src/inmemory_token_storage.rs: get_program_accounts"]}
{"id": "C119", "title": "A store made from the simulator's snapshot shows the accounts as of the last finalized slot", "statement": "Once the snapshot archive is loaded, and while the stream is followed and in order, getSnapshot for the Token program answers with the base64 text of bytes that can be loaded into an empty token store, which then shows every token account, mint and multisig of the program as it is as of the last finalized slot, and no account where there is none.", "quantifier": "every well-formed archive, every sequence of plain messages of the stream and turns of the loader, every chain of parents, every account and its history, every lawful LZ4", "why_tests_cant": "The snapshot depends on the whole history of every account; it is encoded, compressed, decoded and indexed anew. (False: the loader expects the size in front, which the answer does not have, and shows no mint. Proved with the size put in front: token accounts and multisigs are shown, and nothing where there is no account.)", "anchors": ["simulate_from_snapshot/src/main.rs: main", "simulate_from_snapshot/src/rpc_server.rs: get_snapshot", "token_account_storage/src/inmemory_token_storage.rs: create_snapshot, load_from_snapshot"]}
{"id": "C120", "title": "The account store keeps no more than one entry for each account", "statement": "However long the history, the list of accounts has at most as many entries as there are accounts submitted, and once a slot is finalized every entry has at most one state of a slot up to it and no status of an earlier slot is kept.", "quantifier": "every history of account and slot updates with every filter, every list of keys, every finalized slot and every order of the hash maps", "why_tests_cant": "The growth shows only after long histories in which accounts come and go or forks are abandoned. (False: the entry of a closed account stays and a new one is made when it opens again, without bound, and states of abandoned slots stay. Proved: entries with a state are at most the accounts, entries are at most the updates and, if no account is closed or leaves the filters, at most the accounts; statuses are dropped.)", "anchors": ["account_storage/src/inmemory_account_store.rs: add_account_owner, remove_from_indexes, delete, initialize_account, update_account, process_slot_data"]}
{"id": "C121", "title": "The token store keeps no more than one entry for each token account", "statement": "However long the history, the storage of token accounts has at most as many entries as there are accounts submitted, and for an owner at most as many positions are listed.", "quantifier": "every history of account updates, snapshot accounts and slots, every list of keys, every decoder of account data", "why_tests_cant": "The growth shows only after long histories; that positions wrap shows only after 2^32 of them. (False: a closed account leaves its entry and position behind, and after 2^32 openings an account that is opened and finalized is not found. Proved: entries are at most the updates, and entries of open accounts are at most the accounts if no two keys share their first four bytes.)", "anchors": ["token_account_storage/src/inmemory_token_storage.rs: add_account_finalized", "token_account_storage/src/inmemory_token_account_storage.rs: save_or_update, delete"]}
{"id": "C122", "title": "The simulator shows mints as of the confirmed and the highest slot", "statement": "Once the snapshot archive is loaded, and while the stream is followed and in order, getAccountInfo at the confirmed (processed) commitment shows every account that is and stays a mint in its newest state on the chain of the highest confirmed slot (the highest slot mentioned), with the slot of that state, the program that owns it and its lamports; if that state is not above the last finalized slot, as of the last finalized slot.", "quantifier": "every well-formed archive, every sequence of plain messages of the stream and turns of the loader, every chain of parents, every mint and its history, every request", "why_tests_cant": "What is shown depends on the whole chain and on which of its slots are empty of token accounts. (False: after an empty confirmed slot the mint of the archive is shown. Proved if every slot between was noted with its parent and, for processed, the states above the confirmed slot are on the chain of the highest slot.)", "anchors": ["simulate_from_snapshot/src/main.rs: main", "simulate_from_snapshot/src/rpc_server.rs: get_account_info", "token_account_storage/src/inmemory_token_storage.rs: get_account", "token_account_storage/src/account_types.rs"]}
{"id": "C123", "title": "The simulator shows multisigs as of the confirmed and the highest slot", "statement": "Under the same conditions as C122, getAccountInfo shows every account that is and stays a multisig in its newest state, with the slot of that state, its owner and its lamports, up to the place of signers that are zero.", "quantifier": "every well-formed archive, every sequence of plain messages of the stream and turns of the loader, every chain of parents, every multisig and its history, every request", "why_tests_cant": "What is shown depends on the whole chain and on which of its slots are empty of token accounts. (False: after an empty confirmed slot a new multisig is not shown. Proved under the conditions of C122.)", "anchors": ["simulate_from_snapshot/src/main.rs: main", "simulate_from_snapshot/src/rpc_server.rs: get_account_info", "token_account_storage/src/inmemory_token_storage.rs: get_account", "token_account_storage/src/account_types.rs"]}
{"id": "C124", "title": "The snapshot of one on-demand storage restores its accounts in another", "statement": "AccountsOnDemand around InmemoryAccountStore: what create_snapshot of a program contains (the finalized accounts with lamports) is found by get_account without asking the source, at every commitment, in every other AccountsOnDemand that did not know the accounts and for which load_from_snapshot of these bytes returned Ok.", "quantifier": "every two states reached by calls one after the other, every program, every source, every commitment, any locks held by others", "why_tests_cant": "Loading returns Ok in every case; whether the accounts arrived depends on the filters the receiving storage happened to collect from earlier queries.", "anchors": ["accounts_on_demand/src/accounts_on_demand.rs: create_snapshot, load_from_snapshot, get_account", "account_storage/src/inmemory_account_store.rs: create_snapshot, load_from_snapshot, update_account"]}
{"id": "C125", "title": "The simulator lists the token accounts of a mint as of unfinalized slots", "statement": "Once the archive is loaded, and while the stream is followed and in order, getProgramAccounts for the token accounts of a mint at the confirmed or processed commitment lists, once each, the accounts of the program that pass the filters as of the slot of that commitment, as they are then, and no others.", "quantifier": "every well-formed archive, every sequence of plain messages of the stream and turns of the loader, every chain of parents, every mint, every filter list, both commitments", "why_tests_cant": "The list is made from the finalized state and each entry is then read again; what is missing shows only for accounts opened between a finalized slot and the slot asked about.", "anchors": ["token_account_storage/src/inmemory_token_storage.rs: get_program_accounts", "simulate_from_snapshot/src/main.rs: main", "simulate_from_snapshot/src/rpc_server.rs: get_program_accounts"]}
{"id": "C126", "title": "The simulator lists the mints of a token program as of unfinalized slots", "statement": "Once the archive is loaded, and while the stream is followed and in order, getProgramAccounts for the mints of a token program (data size 82) at the confirmed or processed commitment lists, once each, those that pass the filters as of the slot of that commitment, as they are then, and no others.", "quantifier": "every well-formed archive, every sequence of plain messages of the stream and turns of the loader, every chain of parents, both programs, every filter list, both commitments", "why_tests_cant": "Needs a mint whose data differ between the finalized slot and the slot asked about, and a filter on what differs.", "anchors": ["token_account_storage/src/inmemory_token_storage.rs: get_program_accounts", "simulate_from_snapshot/src/main.rs: main", "simulate_from_snapshot/src/rpc_server.rs: get_program_accounts"]}
{"id": "C127", "title": "Confirmed and finalized reads of the account store follow the chain", "statement": "If notifications and updates follow one chain of slots (with forks), a confirmed or finalized read of an account shows the newest of its submitted states that is older than the first confirmed slot or belongs to a slot on the chain of a slot notified with that commitment; states of forks are never shown.", "quantifier": "every parent function, every history of updates and notifications that follows one chain from a first confirmed slot, with forks, skipped notifications, late updates and states loaded from snapshots, every account since it is tracked, both commitments", "why_tests_cant": "The store promotes by walking recorded parents; what is recorded depends on the order of updates and notifications, and a wrong link shows only several slots later.", "anchors": ["account_storage/src/inmemory_account_store.rs: process_slot_data", "account_storage/src/inmemory_account_store.rs: update_account", "account_storage/src/inmemory_account_store.rs: get_account", "account_storage/src/account_data_by_commitment.rs: promote_slot_commitment"]}
{"id": "C128", "title": "Loading a snapshot older than what is known does not disturb it", "statement": "If the account store has a finalized state of an account that is newer than everything a snapshot has of it, then after loading the snapshot the account reads the same at every commitment and is listed in the same program queries.", "quantifier": "every history of the store, every byte string that decodes as a snapshot, every account with a newer finalized state, every configuration of filters, every query", "why_tests_cant": "Snapshots are loaded while updates are coming in; whether an older state does harm depends on its owner, its lamports and on which slots are still kept.", "anchors": ["account_storage/src/inmemory_account_store.rs: load_from_snapshot", "account_storage/src/inmemory_account_store.rs: initilize_or_update_account", "account_storage/src/inmemory_account_store.rs: update_owner_delete_if_necessary", "account_storage/src/account_data_by_commitment.rs: update"]}
{"id": "C129", "title": "Confirmed and finalized program queries follow the chain", "statement": "If notifications and updates follow one chain of slots (with forks), a confirmed or finalized program query shows an account exactly if its newest state on the chain of that commitment is an open account of the program that the filters select, and shows this state.", "quantifier": "every parent function, every history that follows one chain from a first confirmed slot with slots announced before their updates, every account since it is tracked, with every sequence of owners, every program, list of filters and set of locks taken, both commitments", "why_tests_cant": "The lists of accounts by owner are kept apart from the states and changed at updates, confirmations and finalizations; a missing entry needs moves between programs that overlap with finalization.", "anchors": ["account_storage/src/inmemory_account_store.rs: get_program_accounts", "account_storage/src/inmemory_account_store.rs: update_owner_delete_if_necessary", "account_storage/src/inmemory_account_store.rs: process_slot_data", "account_storage/src/inmemory_account_store.rs: update_account"]}
{"id": "C130", "title": "A listener to slot notifications knows what reads show", "statement": "Whoever reads an account once and then takes over the answers of process_slot_data at a commitment (confirmed or finalized) knows at any time what get_account would answer at that commitment.", "quantifier": "every parent function, every history that follows one chain (with forks) and every moment in it at which the listener starts, every account since it is tracked, both commitments", "why_tests_cant": "A missed notification shows only when reads and notifications are compared over a whole history, with updates that arrive around the moment their slot is confirmed.", "anchors": ["account_storage/src/inmemory_account_store.rs: process_slot_data", "account_storage/src/inmemory_account_store.rs: get_account", "account_storage/src/inmemory_account_store.rs: update_account", "account_storage/src/account_data_by_commitment.rs: promote_slot_commitment"]}
{"id": "C131", "title": "A listener to slot notifications of the token store knows what reads show", "statement": "Whoever reads a token account once and then takes over the answers of process_slot_data of the token store at a commitment (confirmed or finalized) knows at any time the contents that get_account would answer at that commitment.", "quantifier": "every parent function, every history and every moment in it at which the listener starts, every token account, both commitments, every order in which finalized states are listed", "why_tests_cant": "A missed notification shows only when reads and notifications are compared over a whole history, with closed accounts and slots that are confirmed through their descendants.", "anchors": ["token_account_storage/src/inmemory_token_storage.rs: process_slot_data", "token_account_storage/src/inmemory_token_storage.rs: get_processed_for_slot", "token_account_storage/src/inmemory_token_storage.rs: finalize", "token_account_storage/src/inmemory_token_storage.rs: get_account"]}
{"id": "C132", "title": "The token store's answer to an update tells whether it was news", "statement": "update_account of the token store, called at processed or confirmed commitment for a slot above the finalized one, answers true exactly if the account has a higher write version than every state submitted before for it and that slot; and after the answer false every read shows what it showed before.", "quantifier": "every history, every update that is taken for a token program account, every earlier submission, every key and commitment read afterwards", "why_tests_cant": "The answer has to be compared with all earlier submissions of the slot in any arrival order, and the reads of all other keys before and after.", "anchors": ["token_account_storage/src/inmemory_token_storage.rs: update_account", "token_account_storage/src/inmemory_token_storage.rs: insert_account", "token_account_storage/src/inmemory_token_storage.rs: add_account_finalized", "token_account_storage/src/token_program_utils.rs: get_or_create_mint_index"]}
{"id": "C133", "title": "Behind the dispatcher, accounts of the token programs are kept out of the default storage", "statement": "With an InmemoryTokenStorage registered for both token programs and an InmemoryAccountStore as the default storage of StorageByProgramId, an account that is always submitted as one of a token program is never handed to the default storage.", "quantifier": "every history of updates, initialisations and slot notifications, every filter configuration, every account whose submissions belong to a token program and can be classified, every commitment", "why_tests_cant": "Whether an update is passed on depends on the answer of the token store, which depends on everything that arrived before for that slot.", "anchors": ["account_storage/src/storage_by_program_id.rs: update_account", "account_storage/src/storage_by_program_id.rs: process_slot_data", "token_account_storage/src/inmemory_token_storage.rs: update_account", "token_account_storage/src/inmemory_token_storage.rs: insert_account"]}
{"id": "C134", "title": "Behind the dispatcher, telling the parent of a slot once is enough", "statement": "With an InmemoryTokenStorage registered for both token programs behind StorageByProgramId, a confirmed read of a token account shows the newest state submitted on the chain of the highest confirmed slot if that state is not yet finalized and each slot in between was notified as processed once with its true parent, and is a finalized read otherwise; a finalized read shows the newest state on the chain of the last finalized slot. (The token store alone needs each parent twice.)", "quantifier": "every history of updates, initialisations and slot notifications with true parents and updates that come before their slot is finalized, every iteration order, every filter configuration, every key", "why_tests_cant": "The store is notified twice because it is registered twice; which links it has then depends on the whole history of slots.", "anchors": ["account_storage/src/storage_by_program_id.rs: process_slot_data", "token_account_storage/src/inmemory_token_storage.rs: process_slot_data", "token_account_storage/src/inmemory_token_storage.rs: update_slot_info", "token_account_storage/src/inmemory_token_storage.rs: get_account"]}
{"id": "C135", "title": "The gauge of accounts in memory shows the accounts the store tracks", "statement": "After every history of calls, the gauge lite_accounts_accounts_in_memory equals the number of accounts the account store tracks.", "quantifier": "every history of updates, initialisations and slot notifications, every filter configuration", "why_tests_cant": "The gauge is counted up in one place and never down; whether that is right depends on whether entries can go away.", "anchors": ["account_storage/src/inmemory_account_store.rs: ACCOUNT_STORED_IN_MEMORY", "account_storage/src/inmemory_account_store.rs: update_account", "account_storage/src/inmemory_account_store.rs: process_slot_data"]}
{"id": "C136", "title": "The gauge of the latest update shows the highest slot of an update", "statement": "After every history of calls, the gauge lite_accounts_slot_for_latest_account_update shows the highest slot of an account submitted so far.", "quantifier": "every history of updates, initialisations and slot notifications, every filter configuration", "why_tests_cant": "It is right whenever updates come in the order of their slots, as they do in tests.", "anchors": ["account_storage/src/inmemory_account_store.rs: SLOT_FOR_LATEST_ACCOUNT_UPDATE", "account_storage/src/inmemory_account_store.rs: update_account"]}
{"id": "C137", "title": "The gauges of token accounts show the token accounts stored", "statement": "After every history of calls to the token store, the gauge of token accounts in memory less the gauge of deleted token accounts equals the number of public keys that a finalized token account is found under.", "quantifier": "every history of updates, initialisations and slot notifications of fewer than 2^31 calls, every codec", "why_tests_cant": "The gauges are counted at single records, while lookups go through buckets of keys with the same first four bytes.", "anchors": ["token_account_storage/src/inmemory_token_account_storage.rs: TOKEN_ACCOUNT_STORED_IN_MEMORY", "token_account_storage/src/inmemory_token_account_storage.rs: save_or_update", "token_account_storage/src/inmemory_token_account_storage.rs: delete"]}
{"id": "C138", "title": "The gauge of processed accounts shows the states that wait for finalization", "statement": "After every history of calls to the token store, the gauge of processed accounts in memory equals the number of states held that are not finalized.", "quantifier": "every history of updates, initialisations and slot notifications of fewer than 2^31 calls, every codec, every iteration order", "why_tests_cant": "States leave the store along the chain of a finalized slot and by dropping skipped slots; the count depends on the whole tree of slots.", "anchors": ["token_account_storage/src/inmemory_token_storage.rs: TOKEN_PROGRAM_TOTAL_PROCESSED_ACCOUNTS", "token_account_storage/src/inmemory_token_storage.rs: insert_account", "token_account_storage/src/inmemory_token_storage.rs: finalize"]}
{"id": "C139", "title": "The gauge of mints shows the mints stored", "statement": "After every history of calls to the token store, the gauge of mints in memory equals the number of mints stored.", "quantifier": "every history of updates, initialisations and slot notifications of fewer than 2^31 calls, every codec, every iteration order", "why_tests_cant": "The index of a mint is made by the first token account of it, possibly long before the mint itself comes.", "anchors": ["token_account_storage/src/inmemory_token_storage.rs: TOKEN_MINTS_IN_MEMORY", "token_account_storage/src/inmemory_token_storage.rs: add_account_finalized", "token_account_storage/src/inmemory_token_storage.rs: load_from_snapshot"]}
{"id": "C140", "title": "A notification confirms the states that reads show, however their updates overlapped", "statement": "When a slot is confirmed for the first time, after all its updates have returned, every account whose processed state belongs to that slot is read with that state at confirmed, whatever calls were executed at the same time before.", "quantifier": "every interleaving of the steps of any number of concurrent calls before the notification, every filter configuration, every account", "why_tests_cant": "The failing executions need two first updates of one account interleaved between two lock acquisitions.", "anchors": ["account_storage/src/inmemory_account_store.rs: update_account", "account_storage/src/inmemory_account_store.rs: maybe_update_slot_status", "account_storage/src/inmemory_account_store.rs: process_slot_data"]}
{"id": "C141", "title": "Concurrent reads never go back in time and miss no update that has returned", "statement": "While an account stays tracked, a get_account or get_program_accounts call that begins after a get_account call has returned shows no older state of the account at the same commitment (and no state of an earlier slot at a weaker one, for get_account), and one that begins after an update has returned shows no older state than the update at processed (at every commitment for an update submitted as finalized), whatever other calls are executed at the same time.", "quantifier": "every interleaving of the steps of any number of concurrent calls, every filter configuration, every account and commitment", "why_tests_cant": "Which states a read can meet depends on the interleaving of lock acquisitions of several threads, among them threads that remove the account's old entry.", "anchors": ["account_storage/src/inmemory_account_store.rs: update_account", "account_storage/src/inmemory_account_store.rs: get_account", "account_storage/src/inmemory_account_store.rs: get_program_accounts", "account_storage/src/inmemory_account_store.rs: process_slot_data"]}
{"id": "C142", "title": "Concurrent confirmed and finalized reads only show slots that were confirmed and finalized", "statement": "Whatever calls are executed at the same time: what get_account or get_program_accounts returns for confirmed, and what a notification reports as confirmed, is a state of a slot that calls made before the answer have reported confirmed or finalized (by a notification or by the commitment of an update), or an announced ancestor of such a slot; what is returned or reported for finalized is a state of a slot reported finalized or linked to one by announced parents, or by the parents that confirming a slot below a gap makes up (see C17).", "quantifier": "every interleaving of the steps of any number of concurrent calls, every filter configuration, every account, program and query", "why_tests_cant": "A slot's status, the list of accounts to promote and the commitment of an update are computed under different locks, between which other calls change them.", "anchors": ["account_storage/src/inmemory_account_store.rs: process_slot_data", "account_storage/src/inmemory_account_store.rs: add_account_index_to_slot_status", "account_storage/src/inmemory_account_store.rs: update_account"]}
{"id": "C143", "title": "Concurrent reads of the token store only show slots that were confirmed and finalized", "statement": "Whatever calls are executed at the same time: what get_account or get_program_accounts of the token store returns for confirmed is a state submitted for a slot that a confirmed notification named, or a notified ancestor of such a slot, or else a finalized state, returned with the slot of a finalized notification; what is returned for finalized was submitted as finalized or for a slot that a finalized notification named or an ancestor of one; and what a finalized notification reports belongs to its slot or one of its ancestors. Only notifications made before the answer count. Slot 0, with which both cells begin, counts as confirmed and finalized.", "quantifier": "every interleaving of the steps of any number of concurrent calls, up to 2^31 submissions, every account, program and query", "why_tests_cant": "A read loads the confirmed slot, then walks the slots under a lock of its own, then looks at the finalized tables one lock after the other, while notifications and finalizations go on.", "anchors": ["token_account_storage/src/inmemory_token_storage.rs: get_account_finalized", "token_account_storage/src/inmemory_token_storage.rs: process_slot_data", "token_account_storage/src/inmemory_token_storage.rs: get_confirmed_accounts"]}
{"id": "C144", "title": "Concurrent calls of the token store miss no accepted update", "statement": "Whatever calls are executed at the same time. The report of a confirmed slot holds, for every update of this slot that was accepted before the notification was made, a state of the account that is as new as the update, unless a state of this slot as new as the update is closed. A processed get_account called after an update was accepted shows a state as new as the update, or nothing if a state as new as the update is closed, as long as neither the slot of the update nor a later one is notified as confirmed. In both cases the slot of the update is not finalized or overtaken by a finalized slot meanwhile.", "quantifier": "every interleaving of the steps of any number of concurrent calls, up to 2^31 submissions, every account and slot", "why_tests_cant": "An update writes the index of processed slots, the per-slot table and the account under separate locks; a reader can come between any two of them.", "anchors": ["token_account_storage/src/inmemory_token_storage.rs: process_slot_data", "token_account_storage/src/inmemory_token_storage.rs: get_confirmed_accounts", "token_account_storage/src/inmemory_token_storage.rs: get_account"]}
{"id": "C145", "title": "After a slot of the token store was confirmed, concurrent confirmed reads show its updates", "statement": "Whatever calls are executed at the same time: a confirmed get_account of the token store, called after an update was accepted and after the confirmed notification of its slot has returned, shows a state as new as the update, or nothing if such a state is closed, as long as no later slot is notified as confirmed and the slot is not finalized or overtaken.", "quantifier": "every interleaving of the steps of any number of concurrent calls, up to 2^31 submissions, every account and slot", "why_tests_cant": "The confirmed slot is compared and written in two steps: two notifications executed at the same time can take it back, which takes a particular interleaving.", "anchors": ["token_account_storage/src/inmemory_token_storage.rs: process_slot_data", "token_account_storage/src/inmemory_token_storage.rs: get_account"]}
{"id": "C146", "title": "Concurrent processed reads of the token store do not go back", "statement": "Whatever calls are executed at the same time: if get_account has shown a state of an account for some slot above 0, then a processed get_account that is called afterwards, by any thread, shows a state that is as new as that one (of a later slot, or of the same slot with the same or a later write version), or nothing if a state as new as that one is closed. This holds as long as no slot from that of the state on is notified as confirmed, and the slot is not finalized or overtaken by a finalized slot.", "quantifier": "every interleaving of the steps of any number of concurrent calls, up to 2^31 submissions, every account, slot and pair of reads", "why_tests_cant": "The state shown first may belong to an update that has not returned yet, and between the reads any calls can begin, go on or end.", "anchors": ["token_account_storage/src/inmemory_token_storage.rs: get_account", "token_account_storage/src/inmemory_token_storage.rs: get_accounts"]}
{"id": "C147", "title": "contains_filter covers exactly the queries that begin with an added filter", "statement": "Filters are ordered: data sizes by size, then comparisons by offset, then by the form of the pattern (bytes, base58, base64) and its bytes. After filters are added for a program that has filters already, a query for the program is contained exactly if it was before, or if it asks for all of the added filters and otherwise only for filters that come after all of them. For the first filters of a program the same holds of the filters with their patterns decoded.", "quantifier": "every filter store, program, list of added filters and list of queried filters", "why_tests_cant": "Which queries are covered depends on the derived order of all pairs of filters, not only on the members of the sets.", "anchors": ["common/src/simple_filter_store.rs: contains_filter", "common/src/simple_filter_store.rs: add_account_filters", "common/src/account_filter.rs: AccountFilterType"]}
{"id": "C148", "title": "Concurrent calls of the token store miss no accepted update when its slot is finalized", "statement": "Whatever calls are executed at the same time: the report of a finalized slot holds, for every update of this slot that was accepted before the notification was made, a state of the account that is as new as the update, unless a state of this slot as new as the update is closed. Every other slot notified as finalized, before or meanwhile, is an earlier one and does not descend from this one.", "quantifier": "every interleaving of the steps of any number of concurrent calls, up to 2^31 submissions, every account and slot", "why_tests_cant": "A finalized notification takes the lock of the processed slots several times and collects the accounts only then; updates and other notifications can come between any two of its steps.", "anchors": ["token_account_storage/src/inmemory_token_storage.rs: process_slot_data", "token_account_storage/src/inmemory_token_storage.rs: finalize"]}
{"id": "C149", "title": "The token store reports no update as finalized more often than it was submitted", "statement": "Whatever calls are executed at the same time: a state of an account, of some slot and with some write version, is in the reports of finalized slots, taken together, at most as often as it was submitted as processed or confirmed. In particular a state that was submitted once is in at most one of these reports, and there at most once.", "quantifier": "every interleaving of the steps of any number of concurrent calls, up to 2^31 submissions, every account, slot and write version", "why_tests_cant": "Two notifications of the same slot or of a slot and its descendant can be executed at the same time; that both collect a state takes a particular interleaving.", "anchors": ["token_account_storage/src/inmemory_token_storage.rs: process_slot_data", "token_account_storage/src/inmemory_token_storage.rs: finalize"]}
{"id": "C150", "title": "The account store reports no update at a commitment more often than it was submitted", "statement": "Whatever calls are executed at the same time and however the filters change: a state of an account, of some slot and with some write version, is in the reports of confirmed slots, taken together, at most as often as it was submitted, and likewise in the reports of finalized slots. In particular a state that was submitted once is in at most one report of each commitment, and there at most once.", "quantifier": "every interleaving of the steps of any number of concurrent calls, every commitment, account, slot and write version", "why_tests_cant": "The notifications of two slots collect the accounts of their common ancestors and can be executed at the same time; an account that is removed and added again loses what was remembered of it.", "anchors": ["account_storage/src/inmemory_account_store.rs: process_slot_data, update_account", "account_storage/src/account_data_by_commitment.rs: promote_slot_commitment, update"]}
{"id": "C151", "title": "What reads show as confirmed or finalized is reported by a notification, or was submitted too late for it", "statement": "Whatever calls are executed at the same time: a state that get_account returns as confirmed or finalized, or that get_program_accounts returns (up to the encoding of its data), is, as soon as no update and no notification is being executed, in the report of a notification of that commitment or a higher one, or its slot could already be considered to have that commitment when the update that brought it returned. At the moment of the read this is so, or a notification of that commitment or a higher one, or such an update, is still being executed.", "quantifier": "every interleaving of the steps of any number of concurrent calls, every account, query and commitment other than processed", "why_tests_cant": "A read can see the promoted state before the notification that promotes it has returned; subscribers only learn of what notifications and accepted updates return, so a state must not become visible without one of them.", "anchors": ["account_storage/src/inmemory_account_store.rs: process_slot_data, update_account, get_account, get_program_accounts", "account_storage/src/account_data_by_commitment.rs: promote_slot_commitment, update"]}
{"id": "C152", "title": "What finalized reads of the token store show was submitted as finalized or is in the report of a finalized slot", "statement": "Whatever calls are executed at the same time: an account that get_account or get_program_accounts of the token store returned as finalized has the content of one that was submitted as finalized or without a commitment, or the answer to a notification of a finalized slot has exactly this account (its slot and write version, which the store forgets, aside), or a notification of a finalized slot is being executed. For at most 2^31 submitted accounts.", "quantifier": "every interleaving of the steps of any number of concurrent calls, every account and query", "why_tests_cant": "The accounts of a finalized slot are stored one after the other before the notification returns, so concurrent reads see them first; subscribers only learn of them by the report, which is made of the mints as they are at another time than those of the read.", "anchors": ["token_account_storage/src/inmemory_token_storage.rs: process_slot_data, add_account_finalized, get_account_finalized, get_program_accounts_finalized", "token_account_storage/src/inmemory_token_storage.rs: finalize"]}
{"id": "C153", "title": "With concurrent calls and changing filters, only accounts that the filters accepted are tracked, returned and reported", "statement": "Whatever calls are executed at the same time and however the filters change meanwhile: an account that was not tracked while no update of it was being executed, and is tracked later, was at some moment in between accepted by the filters of that moment, while an update of it was being executed and it was not tracked. The account of every state in the answer of get_account, get_program_accounts or process_slot_data, and of every update_account that returns true, was so accepted before. An account whose updates the filters always refuse is never tracked, returned or reported.", "quantifier": "every interleaving of the steps of any number of concurrent calls and filter changes, every account", "why_tests_cant": "The filters are asked twice, before the shard is locked and under it, and may change in between or while the account is being inserted; accounts in the list of an owner are visible to queries before they are in the index.", "anchors": ["account_storage/src/inmemory_account_store.rs: update_account, process_slot_data, get_account, get_program_accounts", "account_storage/src/inmemory_account_store.rs: satisfies_filters"]}
{"id": "C154", "title": "With concurrent calls the account store has at most one entry with states for each account", "statement": "Whatever calls are executed at the same time: at every moment there is at most one entry with states of an account, entries with states are no more than the accounts submitted, and all entries are no more than the updates submitted. If no submitted state closes its account or is refused by the filters meanwhile, all entries are no more than the accounts submitted.", "quantifier": "every interleaving of the steps of any number of concurrent calls and filter changes, every list of keys", "why_tests_cant": "Two updates of a new account can both find it missing before either adds it, and a notification removes an account from the index before it deletes its entry, while an update adds it again.", "anchors": ["account_storage/src/inmemory_account_store.rs: update_account 147-156, 220-257", "account_storage/src/inmemory_account_store.rs: process_slot_data 429-447"]}
{"id": "C155", "title": "With concurrent calls an account that stays with its owner is in every later answer", "statement": "Whatever calls are executed at the same time and however the filters change: once an update of an account whose submitted states all have the same owner has returned true, the account is tracked at every later moment and its index is in the set of the owner. If moreover no submitted state closes the account, later reads show it, and later queries of the owner that succeed and whose filters all submitted states pass have it in their answer, in a state that is not older than the update: for processed, or for any commitment if the update was submitted as finalized.", "quantifier": "every interleaving of the steps of any number of concurrent calls and filter changes, every account, update, read and query", "why_tests_cant": "A query collects the indexes of an owner and reads the entries later, while updates and notifications of other threads move other accounts between owners and remove them from the index.", "anchors": ["account_storage/src/inmemory_account_store.rs: update_account 205-264", "account_storage/src/inmemory_account_store.rs: process_slot_data 349-455", "account_storage/src/inmemory_account_store.rs: get_program_accounts 294-347"]}
{"id": "C156", "title": "With concurrent calls the token store keeps showing finalized token accounts that are not closed", "statement": "Whatever calls are executed at the same time: once a token account was submitted as finalized or without a commitment and the call has returned true, every later get_account of its address shows it, at every commitment, and every later get_program_accounts query of its owner that succeeds has it in its answer. The query asks for no mint, all submitted token accounts of this address have this owner, and no submitted account whose address begins with the same four bytes is closed. For at most 2^31 submitted accounts and 2^32 stored token accounts.", "quantifier": "every interleaving of the steps of any number of concurrent calls, every account, read and query", "why_tests_cant": "A new token account is saved first and entered in the indexes by mint and owner in later steps; closing another account takes its whole bucket away; both are only seen if another call is made in between.", "anchors": ["token_account_storage/src/inmemory_token_storage.rs: add_account_finalized, get_account, get_account_finalized, get_program_accounts, get_program_accounts_finalized", "token_account_storage/src/inmemory_token_account_storage.rs: save_or_update"]}
{"id": "C157", "title": "With concurrent calls the token store keeps showing finalized mints that are not closed", "statement": "Whatever calls are executed at the same time: once a mint was submitted as finalized or without a commitment and the call has returned true, every later get_account of its address that returns without a panic shows an account of this address, at every commitment, and a finalized read does not panic. No submitted account of this address is closed or given to another program. For at most 2^31 submitted accounts.", "quantifier": "every interleaving of the steps of any number of concurrent calls, every mint and read", "why_tests_cant": "The state of a new mint is stored under an index that another call may have given to the address in the meantime, and closing a mint takes the index and the state away in two steps; the wrong state is only seen by a call made in between.", "anchors": ["token_account_storage/src/inmemory_token_storage.rs: add_account_finalized, get_account, get_account_finalized"]}
{"id": "C158", "title": "With concurrent calls queries for mints show all finalized mints that are not closed", "statement": "Whatever calls are executed at the same time: once a mint was submitted as finalized or without a commitment and the call has returned true, every later get_program_accounts query with the only filter datasize 82 that succeeds has an account of its address in its answer, at every commitment. All submitted accounts of this address belong to the Token program (not to Token-2022) and none is closed. For at most 2^31 submitted accounts.", "quantifier": "every interleaving of the steps of any number of concurrent calls, every mint and query", "why_tests_cant": "The query walks over the shards of mints_by_index one after the other while other calls store and remove mints; an entry that is moved to another index during the walk would be missed only with the right timing.", "anchors": ["token_account_storage/src/inmemory_token_storage.rs: add_account_finalized, get_program_accounts, get_program_accounts_finalized"]}
{"id": "C159", "title": "With concurrent calls the token store keeps showing finalized multisigs", "statement": "Whatever calls are executed at the same time: once a multisig was submitted as finalized or without a commitment and the call has returned true, every later finalized get_account of its address shows an account of this address and does not panic, even if the multisig is closed later. At the other commitments this holds for reads that do not panic, if no submitted account of this address is closed or given to another program. For at most 2^31 submitted accounts.", "quantifier": "every interleaving of the steps of any number of concurrent calls, every multisig and read", "why_tests_cant": "A read asks the multisigs, the mints and the token accounts one after the other while other calls change them; a test can only see some of the interleavings.", "anchors": ["token_account_storage/src/inmemory_token_storage.rs: add_account_finalized, get_account, get_account_finalized"]}
{"id": "C160", "title": "Snapshots of the token store made while other calls run hold all finalized mints and multisigs", "statement": "Whatever calls are executed at the same time, except loading of snapshots: once a mint was submitted as finalized or without a commitment and the call has returned true, every snapshot of its program that is begun later has a mint of its address, if all submitted accounts of this address belong to this program and none is closed. The same holds for multisigs of either program, even if they are closed later. For at most 2^31 submitted accounts.", "quantifier": "every interleaving of the steps of any number of concurrent calls, every snapshot made meanwhile, every mint and multisig", "why_tests_cant": "create_snapshot reads the shards of the maps one after the other while other calls change them; a test can only see some of the interleavings.", "anchors": ["token_account_storage/src/inmemory_token_storage.rs: create_snapshot, add_account_finalized"]}
