c("C01", "proved", "C01_filter_exact C01_panics_iff_malformed C01_encoding_independent")
c("C02", "proved", "C02_store_is_union")
c("C03", "proved", "C03_monotone_and_order_independent")
c("C04", "proved", "C04_contains_sound C04_contains_monotone")
c("C05", "partial", "C05_added_is_contained_refuted C05_added_is_contained_partial",
  "The full claim is false of the code; refuted with a witness, proved for the filters it does hold for.")
c("C06", "partial", "C06_except_is_complement C06_contains_sound_refuted C06_contains_sound_partial",
  "The soundness half is false of the code; refuted with a witness.")
c("C07", "proved", "C07_json_roundtrip C07_malformed_json_panics C07_reads_iff")
c("C08", "partial", "C08_to_rpc_preserves C08_rpc_verdict C08_from_rpc_refuted C08_from_rpc_partial C08_rpc_allows",
  "The reverse conversion is false of the code for some inputs; refuted with a witness.")
c("C09", "proved", "C09_data_roundtrip C09_account_roundtrip C09_compress_total C09_zstd_oversize_panics")
c("C64", "proved", "C64_commitment_order C64_of_config C64_display_injective")
c("C11", "proved", "C11_never_panics_always_returns")
c("C12", "proved", "C12_reads_were_submitted")
c("C13", "proved", "C13_processed_is_newest")
c("C14", "proved", "C14_confirmed_and_finalized_monotone")
c("C15", "proved", "C15_commitments_ordered C15_by_write_version_refuted",
  "Proved as stated; the stronger reading by write version between confirmed and finalized is refuted.")
c("C16", "proved", "C16_confirmed_reads_from_confirmed_slots")
c("C17", "partial", "C17_finalized_reads_refuted C17_finalized_reads_partial C17_finalized_reads_no_confirmed_partial",
  "False of the code: a made-up parent can finalize a later slot. Proved up to made-up parents and for histories without Confirmed notifications.")
c("C18", "proved", "C18_confirming_makes_visible")
c("C19", "partial", "C19_late_update_visible_refuted C19_late_update_visible_partial",
  "False for accounts seen for the first time; proved for tracked ones.")
c("C20", "proved", "C20_reports_exactly_the_changes")
c("C21", "proved", "C21_slot_idempotent")
c("C22", "partial", "C22_resubmission_refuted C22_resubmission_partial",
  "False for accounts first seen in an already confirmed slot; proved for pubkeys tracked before and after.")
c("C23", "partial", "C23_false_means_unchanged_refuted C23_false_means_unchanged_partial",
  "False when the confirmed state is older than the finalized one; proved otherwise.")
c("C25", "proved", "C25_updates_isolated")
c("C29", "proved", "C29_only_accepted_accounts_tracked")
c("C30", "proved", "C30_pruning")
c("C31", "partial", "C31_later_states_survive_refuted C31_later_states_survive_partial",
  "False when finalization removes the account; proved when it stays tracked.")
c("C10", "proved", "C10_compression_irrelevant C10_simple_filters")
c("C24", "proved", "C24_iteration_order_irrelevant C24_lock_order_irrelevant")
c("C26", "partial", "C26_deleted_hidden_refuted C26_deleted_hidden_partial",
  "False for program queries without a filter list; proved for get_account and filtered queries.")
c("C27", "proved", "C27_query_sound")
c("C28", "partial", "C28_query_complete_refuted C28_moved_back_refuted C28_query_complete_partial",
  "False for accounts whose owner changed; proved for accounts with a stable owner.")
c("C34", "proved", "C34_rejected_iff_not_contained")
c("C32", "proved", "C32_decodes_exactly_encodings C32_snapshot_roundtrip C32_malformed_rejected C32_load_is_finalized_updates")
c("C33", "proved", "C33_snapshot_reproduces")
c("C35", "proved", "C35_routed_to_responsible C35_someone_responsible")
c("C36", "partial", "C36_found_anywhere_refuted C36_found_anywhere_partial C36_first_success_decides",
  "False when an earlier storage answers with None or an unrelated error; the exact condition is proved.")
c("C37", "partial",
  "C37_update_offered_in_order C37_update_true_iff_accepted C37_slot_reaches_all C37_slot_once_refuted C37_slot_once_partial",
  "A storage registered for two programs is notified twice (refuted); everything else is proved.")
c("C38", "proved", "C38_call_shapes C38_stored_served_directly C38_none_only_after_loading C38_reads_are_answers")
c("C39", "proved", "C39_one_load_per_key")
c("C40", "partial", "C40_retry_refuted C40_failed_key_is_stuck C40_failure_reported_partial",
  "False: a failed key is never loaded again in any continuation (proved); the failure itself is reported to its caller.")
c("C41", "proved", "C41_waiters_not_lost C41_notified_wakes_all C41_notifies_own_entry")
c("C66", "partial", "C66_answered_early_refuted C66_answered_from_storage_partial",
  "False: the filter is added before the snapshot is saved.")
c("C67", "proved", "C67_calls_can_return C67_mutual_exclusion")
c("C42", "proved", "C42_token_roundtrip C42_decoded_fits")
c("C43", "proved", "C43_accessors C43_short C43_injective C43_length")
c("C44", "proved", "C44_accepts_wellformed C44_canonical_reencodes C44_encodings_canonical")
c("C45", "partial",
  "C45_extended_rejected C45_refuted C45_token_partial C45_mint_partial C45_multisig_partial C45_unpack_is_layout C45_pack_is_layout C45_token_extension_written C45_mint_extension_written",
  "False for Token-2022 accounts with extensions, which are rejected; proved for accounts of the base length.")
c("C46", "proved",
  "C46_deleted_iff C46_deleted C46_mint_iff C46_token_iff C46_multisig_iff C46_other_is_error C46_pubkey C46_program_ids")
c("C47", "proved", "C47_index_is_position C47_stable_and_unique C47_wraps_around")
c("C48", "partial", "C48_refuted C48_exact C48_map_partial",
  "Deleting a key forgets every key with the same first four bytes (C48_exact states this for all histories); the map claim holds when no delete collides.")
c("C49", "partial", "C49_refuted C49_never_misses C49_exact C49_membership_partial",
  "A bucket with one entry is not checked: false positives, characterised exactly by C49_exact; no false negatives.")
c("C50", "partial", "C50_refuted C50_complete C50_exact_partial",
  "Accounts orphaned by a colliding delete stay in the snapshot; exact when no delete collides; complete always.")
c("C51", "partial", "C51_refuted C51_extended_refuted C51_token_partial C51_mint_partial C51_init",
  "False when the pubkey was a multisig before (multisigs shadow token accounts), on prefix collisions, and for extended Token-2022 accounts; proved for base-length token accounts and mints in every reachable store otherwise.")
c("C54", "partial", "C54_refuted C54_newest_partial C54_mints_partial C54_dropped",
  "False when finalized pubkeys collide on four bytes; proved for all reachable stores without collision; for mints and multisigs also with collisions. Dropping of forks and keeping of later slots is unconditional.")
c("C55", "partial", "C55_refuted C55_multisig_stays C55_marked_deleted C55_deleted_partial",
  "False for multisigs, which no deletion removes; proved for mints and token accounts.")
c("C59", "partial", "C59_refuted C59_refuted_read C59_rejected_partial C59_frame",
  "False on 4-byte prefix collisions: an unrelated account is accepted and destroys the stored one; proved without collisions.")
c("C52", "partial", "C52_refuted C52_history_partial C52_stream_partial C52_no_state C52_never_from_fork C52_recorded",
  "False: a slot whose first notice is its own notification loses its parent. Proved when each slot on the way was notified after it had occurred; unconditionally no state from a fork is shown, and the recorded chain is followed exactly.")
c("C53", "partial", "C53_refuted C53_endless C53_diverge_is_endless C53_reads_end_partial C53_other_calls_end",
  "False: a slot recorded as its own ancestor makes confirmed reads loop for ever; proved when notified parents are older than their slots. Finalized reads, submissions and notifications always end.")
c("C56", "partial", "C56_refuted C56_unknown_mint_panics C56_finalized_iff C56_known_mints_partial",
  "False: token accounts of a mint that was never seen panic on read, as do reads of such a mint and owner-and-mint queries with it (C56_finalized_iff says exactly when). Proved when mints are loaded first, later token accounts belong to them and none of them is closed.")
c("C70", "partial", "C70_refuted C70_same_slot_panics C70_known_mints_partial C70_updates",
  "False: a notification converts accounts before storing the mints of the same slot. Updates alone never panic; all calls are panic-free when mints are loaded first.")
c("C57", "partial", "C57_refuted C57_other_program C57_changed_mint C57_changed_owner C57_owner_partial C57_mint_partial C57_mints C57_refused_iff",
  "False: filters other than owner and mint and the program itself are ignored, the mint index is not updated when an account changes mint, and unfinalized states are not filtered at all. Proved: owner (and mint) of every finalized answer in every reachable store; the mint of every account whose own mint neither changes nor is closed; queries for mints are exact; which queries are refused.")
c("C68", "partial", "C68_refuted C68_reopened_panics C68_never_reused C68_stable_partial",
  "False: a mint closed and created again gets a new index, and its token accounts then panic on read. Indexes are never reused, and a mint that is not closed keeps its index.")
c("C69", "partial", "C69_refuted C69_not_finalized C69_per_account C69_owner_partial C69_mint_partial",
  "False: the owner index is not updated when an owner changes, and unfinalized accounts are never found. Proved for finalized queries, for each account whose owner does not change (or, for mints, whose own mint neither changes nor is closed); other queries return, for each account of the finalized answer, what a read of it shows.")
c("C71", "proved", "C71_recognised C71_text_ignored")
c("C58", "partial", "C58_refuted C58_no_mint_is_loaded C58_size_refuted C58_unknown_mint_refuted C58_closed_is_back C58_update_after_load_panics C58_encoding C58_with_size C58_accounts_partial C58_fits C58_absent_partial",
  "False for every LZ4: no mint can be read after loading into an empty store. Also: the compressed bytes have no size prefix but decompress(None) expects one; a token account of an unknown mint makes loading panic; a closed account can come back; the next update of a loaded token account makes reads of it panic. Proved: the bincode encoding is read back exactly, token accounts and multisigs survive if decompression gives the data back and all mints are stored, what was absent stays so unless an account with the same first four bytes of its key was closed, and all numbers fit if lamports do.")
c("C72", "partial", "C72_refuted C72_unknown_mints_partial",
  "False: a mint known to the store is written under its index in the snapshot, so another mint is read as it. Proved for any snapshot whose mints are all unknown to the store.")
c("C60", "proved", "C60_iteration_is_safe C60_reader_iteration_is_safe")
c("C61", "proved", "C61_layout_is_read_back C61_roundtrip C61_accounts")
c("C62", "proved", "C62_parse_iff C62_names_parse_back")
c("C63", "proved", "C63_program_accounts C63_answers")
c("C73", "partial", "C73_refuted C73_written_partial",
  "False for corrupt files: the byte is not checked. Proved for files in the append-vec layout.")
c("C74", "partial", "C74_refuted C74_empty_entry C74_long_entry_partial",
  "False: short archive entries are filled up with zeros, and 136 zeros are an account. Proved for entries of at least the declared length.")
c("C75", "partial", "C75_refuted C75_not_empty_partial",
  "False: accounts before the minimal slot are left out, but the request is not refused. Proved for answers that are not empty.")
c("C76", "proved", "C76_account_info C76_snapshot")
c("C77", "proved", "C77_loads_exactly")
c("C78", "proved", "C78_manifest_iff C78_no_manifest C78_only_declared C78_bad_entry_fails")
c("C79", "partial", "C79_refuted C79_broken_off_partial",
  "False as stated: missing files go unnoticed. Proved that an archive that breaks off with a read error is not loaded.")
c("C80", "partial", "C80_refuted C80_closed_refuted C80_last_partial C80_newest_partial",
  "False as stated: the order of the archive decides, and closed accounts are passed over. Proved for the last version of the token program in the archive, and for archives in the order of slots.")
c("C81", "proved", "C81_total")
c("C82", "partial", "C82_refuted C82_never_reports C82_usable_partial",
  "False as stated: errors of single files are dropped. Proved which files are handed out.")
c("C83", "proved", "C83_once C83_errors C83_total")
c("C84", "partial", "C84_refuted C84_account_partial C84_form C84_slots C84_follow",
  "False as stated for data sent compressed. Proved for the payload as sent, for slots and for the sequence of calls.")
c("C85", "partial", "C85_refuted C85_slot_refuted C85_slot_partial",
  "False as stated: an older state submitted as finalized, or a late state whose slot is finalized again, replaces the newer one. Proved for slot notifications when states arrive before their slot is passed by a finalized one.")
c("C86", "partial", "C86_refuted C86_holds_partial C86_mints_partial C86_read_partial C86_content_partial",
  "False as stated: a state that arrives after a younger slot was finalized is lost. Proved for whole streams in which states arrive in time, finalized slots form one chain with recorded links, snapshot states come first and keys do not collide; the last is not needed for keys that are never closed and never token accounts.")
c("C87", "proved", "C87_answers C87_commitments_ordered C87_get_account_atomic C87_locks_exclusive",
  "Transition system of any number of threads, with the locks that are held while others are waited for.")
c("C88", "partial", "C88_refuted C88_calls_can_return_partial C88_shards_partial C88_same_owners_partial",
  "False: an update and a notification of a finalized slot can wait for each other for ever. Proved for every state in which no update is executed at the same time as a notification of a finalized slot, or only updates of accounts in other shards than those of the accounts that changed their owner; so there is no deadlock as long as no account changes its owner.")
c("C89", "partial", "C89_refuted C89_one_writer_partial C89_different_accounts_partial",
  "False: an update that is stored after its slot was confirmed, but had looked at the slot before, stays unconfirmed. Proved for writing calls made one at a time, and for any number of updates of different accounts at the same time (calls take effect in an order that respects real time and gives every thread its answers), with any number of concurrent reads.")
c("C92", "partial", "C92_refuted C92_read_refuted C92_call_partial C92_one_writer_partial",
  "False: between taking the states of a finalized slot out and storing them, another notification can store newer ones, and a read sees neither. Proved for writing calls made one at a time, with any number of concurrent reads.")
c("C91", "proved", "C91_answers C91_no_poison",
  "Transition system with all locks of the store; an invariant over all interleavings relates what is stored and what threads have in hand to the submitted accounts.")
c("C90", "partial", "C90_refuted C90_loop_blocks_writers C90_no_deadlock_partial C90_finite C90_calls_return_partial C90_locks_exclusive",
  "False: a slot notified as its own ancestor makes a read run forever with processed_slot_accounts locked. Proved for notified parents older than their slots.")
c("C93", "proved", "C93_moments C93_complete C93_alone C93_no_pubkey_twice",
  "Stated over the states an execution passes through while the call is executed. What a query returns need not be the state of one moment; this is claimed only when no writing call runs meanwhile.")
c("C94", "proved", "C94_open")
c("C95", "proved", "C95_read_iff C95_truncated C95_limited C95_unambiguous C95_archive",
  "The fields of the bank are types of Solana that are read and dropped; reading them is a parameter.")
c("C96", "partial", "C96_refuted C96_unregistered C96_loaded_partial C96_stored_direct C96_answers",
  "False: get_account never adds the account to the filters, so the storage drops what the source hands over and every call loads again. Proved when the filters ask for the account after subscribing.")
c("C97", "partial", "C97_refuted C97_loaded_partial C97_contained_direct C97_updates_followed C97_reachable",
  "False for base58 and base64 filters of a program first seen: the storage answers with an error. Proved for raw filters and for programs that some filter mentions.")
c("C98", "partial", "C98_refuted C98_poisons C98_poisoned_forever C98_known_program C98_source_panics C98_source_panics_program C98_decodable_partial",
  "False: a text that does not decode poisons the lock of the filters for good if the program is new, and makes updates panic if it is known. If the filters panic on an account from the source, the account or query stays marked as being loaded and no source is asked again (C98_source_panics). Proved for queries whose texts decode.")
c("C99", "partial", "C99_refuted C99_lost C99_repeat C99_agrees C99_finalized_kept_partial C99_confirmed_kept_partial",
  "False: the states up to the slot are removed before accounts are converted, so one token account of an unknown mint makes all accounts of these slots fall back to their last finalized state for good. Proved for finalized reads and for notifications of confirmed slots.")
c("C100", "partial", "C100_refuted C100_refuted_twin C100_default_partial C100_is_the_dispatcher",
  "False: the token store takes an update of an account that left the token program, or whose key only starts like that of a token account, as a deletion. Proved if no account of a token program starts like the key or names it as its mint. C100_is_the_dispatcher ties the composition to the model of the dispatcher.")
c("C101", "partial", "C101_refuted C101_never C101_queries_partial C101_queries_sound",
  "False of get_account: the token store answers first, and its answer that there is no such account ends the search; C101_never shows that no account unrelated to tokens is ever returned. Proved of get_program_accounts, as far as it is proved of the default storage (C28).")
c("C102", "partial", "C102_refuted C102_refuted_processed C102_finalized_partial C102_confirmed_partial C102_processed_partial",
  "False: the token store is called twice; what it reports for a confirmed slot is reported twice, and a processed slot gets its parent recorded by the second call. Proved for finalized slots, for the state after confirmed slots, and for the default storage.")
c("C103", "partial", "C103_refuted C103_moments C103_loads_partial C103_alone",
  "False: mints, multisigs and token accounts are read one after the other; a mint and a token account stored in between give a snapshot whose loading panics. Proved: it always returns, each part is that of a moment, it loads if the mints were stored all the time, and it is that of the store if nothing else writes.")
c("C104", "partial", "C104_refuted C104_alone_partial",
  "False: the list of accounts of an owner that was stored between get_mut and insert is overwritten, so an account is not found by its owner any more. Proved if no other call writes meanwhile.")
c("C105", "proved", "C105_no_deadlock C105_finite C105_calls_return C105_locks_exclusive C105_no_lock_is_poisoned",
  "Locks are ordered; an execution makes progress in a well-founded measure; only decoding while loading panics, with no lock held.")
c("C106", "partial", "C106_refuted C106_partial",
  "False: an account of the archive is stored whenever the loader gets to it, also over a newer finalized state. Proved, from the archive and the messages to the answer, if no slot is finalized before the archive is loaded; accounts that are only in the archive or only in the stream need no such condition.")
c("C107", "partial", "C107_refuted C107_partial C107_frozen C107_updates_return",
  "False: a slot that is confirmed before the mint of one of its token accounts is loaded ends the stream task. Proved if notifications come after loading. When the task is gone, later answers never change; account messages themselves never end it.")
c("C108", "proved", "C108_serves C108_no_manifest C108_bad_entry C108_alone C108_interleaved C108_every_order",
  "The loader counts down what it has left, whatever the stream leaves in the store; the calls made are an interleaving of archive and stream, and every interleaving without a panic is reached.")
c("C109", "partial", "C109_refuted C109_partial",
  "False: a confirmed slot in which no token account changed cuts the chain, and the answer falls back to finalized data. Proved if every slot between the confirmed slot and the newest state was noted when it had already occurred; loading first is only needed where the finalized state is shown.")
c("C110", "partial", "C110_refuted C110_partial",
  "False: above the confirmed slot the store does not look at forks. Proved if the confirmed slot and the states of the account above it are on the chain of the highest slot.")
c("C111", "partial", "C111_refuted C111_partial C111_new_owner_missed C111_filter_ignored",
  "False in three ways: an account that changes its owner is listed for nobody, accounts of the other token program are listed, and filters other than owner and mint are not looked at. Proved: accounts that keep their owner are listed; whatever is listed has the owner and the mint asked for, is as of the last finalized slot, and is listed once.")
c("C112", "partial", "C112_refuted C112_partial C112_unknown_mint",
  "False: the filter for the token account state and a query for an owner and an unknown mint panic. Proved for all other requests at every commitment.")
c("C113", "partial", "C113_refuted C113_partial C113_other_mint_listed",
  "False: accounts of the other token program are listed, filters other than the mint are not looked at, and an account created again for another mint within a slot stays listed for its first mint. Proved: an account that stays with its mint is listed for it and for no other, as of the last finalized slot, and once.")
c("C114", "proved", "C114_mint", "For every mint that stays one.")
c("C115", "proved", "C115_multisig", "For every multisig that stays one.")
c("C116", "partial", "C116_refuted C116_partial",
  "False: the program asked for is not looked at, so mints of the Token program are listed for Token-2022. Proved: the mints of both programs that pass the filters are listed, once each, as of the last finalized slot.")
c("C117", "partial", "C117_refuted C117_partial",
  "False: states with the same contents compressed in different ways are not equal. Proved: equality is an equivalence, equal states say the same, and states made by the same method are equal if and only if they say the same.")
c("C118", "partial", "C118_refuted C118_partial C118_opened_missed C118_former_owner",
  "False: accounts opened since the last finalized slot are not listed, and an account handed over since is listed for its former owner. Proved: accounts that keep their owner and had it as of the last finalized slot are listed in their state as of the commitment's slot, unless closed then; whatever is listed is in this state and listed once.")
c("C119", "partial", "C119_refuted C119_partial C119_mint_missed",
  "False: the loader takes the first bytes of the answer for the size of the snapshot, and mints are not shown after loading. Proved with the size put in front: loading succeeds and shows the token accounts and multisigs as of the last finalized slot, and no account where there is none.")
c("C120", "partial", "C120_refuted C120_grows C120_forks_kept C120_statuses C120_partial",
  "False: one account opened and closed k times leaves k entries without a state, and the states of n abandoned slots are kept after finalization, for all k and n. Proved: entries with a state are at most the accounts, entries are at most the updates and, if no account is closed or leaves the filters, at most the accounts; statuses of slots before the finalized one are dropped.")
c("C121", "partial", "C121_refuted C121_grows C121_lost C121_partial",
  "False: one token account opened and closed k times leaves k entries and k positions for its owner, for all k up to 2^32; the opening after that is stored under position 0 and not found. Proved: entries are at most the updates, and entries of open accounts are at most the accounts if no two keys share their first four bytes.")
c("C122", "partial", "C122_refuted C122_partial",
  "False: after a confirmed slot in which no token account changed, the mint of the archive is shown. Proved if every slot between the confirmed slot and the newest state was noted with its parent and, for processed, the states above the confirmed slot are on the chain of the highest slot; loading first is only needed where the finalized state is shown.")
c("C123", "partial", "C123_refuted C123_partial",
  "False: after a confirmed slot in which no token account changed, a new multisig is not shown. Proved under the conditions of C122.")
c("C124", "partial", "C124_refuted C124_not_on_demand C124_dropped C124_transfer_partial",
  "False: accounts that no filter of the receiving storage asks for are dropped, and loading reports success; and a snapshot of a program that was not queried is an error, not loaded on demand. Proved for receiving storages of which a filter asks for each account.")
c("C125", "partial", "C125_refuted C125_partial C125_opened_missed",
  "False: accounts opened since the last finalized slot are not listed. Proved: an account that stays with its mint and is open as of the last finalized slot is listed for this mint and no other, in its state as of the commitment's slot, unless closed then; whatever is listed is in this state and listed once.")
c("C126", "partial", "C126_refuted C126_partial C126_opened_missed C126_former_filter",
  "False: mints opened since the last finalized slot are not listed, filters are matched with the finalized state, and the program is not looked at. Proved: the mints of both programs that pass the filters as of the last finalized slot are listed, once each, as they are as of the commitment's slot.")
c("C127", "partial", "C127_refuted C127_premature_refuted C127_follows_chain_partial",
  "False: a slot updated before it is announced loses its parent, so confirming a descendant does not confirm its ancestors; and when everything confirmed is finalized, the next confirmation makes up a link through which an unfinalized slot is later finalized. Proved for histories in which slots are announced before their updates (where a descendant is confirmed first) and a slot is finalized only after a later one is confirmed.")
c("C128", "partial", "C128_refuted C128_dropped C128_dropped_filtered C128_reads_partial C128_partial",
  "False: the store does not tell an older finalized state from a newer one when it looks at owners: an older state of another owner takes the account out of the list of its present owner, and if the older state has no lamports or is not asked for by the filters, the account is dropped altogether. Proved: reads stay the same if older states have the same owner or are live and asked for; queries too if they have the same owner.")
c("C129", "partial", "C129_refuted C129_moved_back C129_reopened C129_before_snapshot C129_found_partial C129_follows_chain_partial",
  "False: an account that moves to another program and back is missing once the first move is finalized; so is one that is opened again by the owner it was closed under, and one of a snapshot that was already updated with another owner. Proved for accounts that do not return to an owner they left, whatever the number of moves, forks and late updates (conditions of OwnersSettle), at every commitment as far as reads are concerned.")
c("C130", "partial", "C130_refuted C130_untracked_refuted C130_listener_partial",
  "False: an update of an already confirmed slot changes confirmed reads without a notification, and the store drops an account that left the filters while listeners still show it. Proved for histories on one chain (conditions of C127) as long as updates of the account come before their slot has the commitment and the account stays tracked.")
c("C131", "partial", "C131_refuted C131_skipping_refuted C131_finalized_partial C131_confirmed_partial",
  "False: the answers leave out closed accounts, so that a listener keeps showing them, and a confirmed notification only lists the states of that very slot, so that states of slots confirmed through a descendant are missed. Proved for token accounts that are never closed and whose mints stay, for finalized slots in any order, and for confirmed slots that are confirmed in turn.")
c("C132", "partial", "C132_refuted C132_refuted_read C132_news_partial C132_false_unchanged_partial C132_taken C132_finalized_always",
  "False in its second half: a refused update of a token account enters its mint into the index table all the same, and a read of that mint panics from then on where it answered none before. Proved: the first half, and that nothing else changes after the answer false. An update at finalized commitment is answered with true even if it changes nothing.")
c("C133", "partial", "C133_refuted C133_refuted_reported C133_kept_out_partial",
  "False: a state that arrives late or twice is refused by the token store, and the dispatcher takes the refusal as a sign that the account belongs elsewhere and hands it to the default storage. When its slot is finalized, the dispatcher reports the older state after the newer one. Proved if the states of the account for a slot arrive in the order of their write versions, each once.")
c("C134", "proved", "C134_confirmed C134_finalized C134_notified_twice C134_not_alone",
  "The token store is in the state of a token store that is notified of every slot twice, and the second notification records the parent that the first one dropped (C52). The finalized part is for a key that is only ever a token account or closed, with no closed account of the same first four key bytes (C86). C134_not_alone: the same calls made to the token store directly lose the state.")
c("C135", "partial", "C135_partial C135_entries C135_counts_removed C135_refuted",
  "False: the gauge counts entries of the store, and entries of accounts that are gone stay; with nothing tracked it may show any number. Proved: it never shows too few, and it is right as long as no account leaves the store.")
c("C136", "partial", "C136_partial C136_goes_back C136_refuted",
  "False: the gauge shows the slot of the update submitted last, so it goes back. Proved: that, and the claim for updates in the order of their slots.")
c("C137", "partial", "C137_partial C137_records C137_refuted",
  "False: closing a token account removes the bucket of its first four key bytes, so another account in it is no longer found but still counted (C48). Proved: the gauges count records and deleted records exactly, never show too few accounts, and are right if no account is closed that shares the first four bytes of another.")
c("C138", "partial", "C138_partial C138_refuted",
  "False: states of skipped slots are dropped without counting them down, so the gauge drifts up. Proved: it never shows too few, and it is right if every slot with states is an ancestor of the slot that is finalized after it.")
c("C139", "partial", "C139_partial C139_negative C139_snapshot C139_refuted",
  "False: a mint that comes after a token account of it is not counted, but is counted down when it is closed, so the gauge can be negative; mints loaded from a snapshot are not counted. Proved: it never shows too many, and it is right if every mint is stored before its token accounts are submitted.")
c("C140", "partial", "C140_apart_partial C140_refuted",
  "False: if the first two updates of an account are executed at the same time, the one that finds the account made known by the other stores its state without recording the account for its slot, so confirming that slot does not confirm it. Proved if no two updates of the same account are executed at the same time, with any other concurrency (updates of other accounts, notifications of earlier slots, reads).")
c("C141", "proved", "C141_reads_do_not_go_back C141_updates_are_not_lost C141_queries_do_not_go_back C141_queries_show_updates C141_weaker_commitments_are_not_behind",
  "For all executions of the steps of StoreConc, also with overlapping updates of the same account; the account is tracked in all states from the first call on.")
c("C142", "proved", "C142_confirmed_reads C142_confirmed_queries C142_finalized_reads C142_finalized_queries C142_reports",
  "For all executions of the steps of StoreConc; the slots are judged by the calls made so far, whether they have returned or not.")
c("C143", "proved", "C143_confirmed_reads C143_confirmed_queries C143_finalized_reads C143_finalized_queries C143_processed_reads C143_finalized_reports",
  "For all executions of the steps of TokenConc with at most 2^31 submissions; the slots are judged by the notifications made before the answer, whether they have returned or not.")
c("C144", "proved", "C144_reports C144_processed_reads",
  "For all executions of the steps of TokenConc with at most 2^31 submissions, about calls that return an answer; accepted updates are those submitted as processed or confirmed whose call has returned true.")
c("C145", "partial", "C145_partial C145_refuted",
  "False of the code: confirmed_slot is loaded, compared and stored without compare-and-swap, so two confirmed notifications executed at the same time can put the confirmed slot back, and confirmed reads then show the state before the later slot (C145_refuted). Proved if no confirmed notification of an earlier slot was executed at the same time as that of the slot; others of the same slot may be (C145_partial).")
c("C146", "proved", "C146_reads",
  "For all executions of the steps of TokenConc with at most 2^31 submissions. The first read may have any commitment and be made by any thread; the second is a processed get_account.")
c("C147", "proved", "C147_first C147_further",
  "The order is defined on its own in Spec/FilterOrder, without the sort key of the model.")
c("C148", "proved", "C148_reports",
  "For all executions of the steps of TokenConc with at most 2^31 submissions, about notifications that return an answer.")
c("C149", "proved", "C149_count C149_one_report C149_once_in_report",
  "For all executions of the steps of TokenConc with at most 2^31 submissions. Reports of confirmed slots are not counted: they do repeat states.")
c("C150", "proved", "C150_count C150_one_report C150_once_in_report",
  "For all executions of the steps of StoreConc. An example shows that a state submitted again after the account was removed is reported again.")
c("C151", "proved", "C151_reads C151_meanwhile C151_queries C151_at_rest",
  "For all executions of the steps of StoreConc. An example shows a late update that is confirmed at once and that no report contains.")
c("C152", "proved", "C152_meanwhile C152_reads C152_queries",
  "For all executions of the steps of TokenConc with at most 2^31 submitted accounts. An example shows a read that returns before the report.")
c("C153", "proved", "C153_tracked C153_answers C153_updates C153_refused",
  "For all executions of the steps of StoreConc. The filters of a moment are those in force at a state of the execution.")
c("C154", "proved", "C154_entries C154_one_entry C154_states C154_none_leave",
  "For all executions of the steps of StoreConc. Entries of closed accounts stay, without states, as in C120.")
c("C155", "proved", "C155_tracked C155_listed C155_read C155_query",
  "For all executions of the steps of StoreConc. Accounts that change their owner are excluded: the store can lose them from the set of an owner.")
c("C156", "partial", "C156_get C156_query_partial C156_refuted",
  "Proved for get_account (C156_get). False of the code for queries: add_account_finalized saves a new token account before it enters it in the index by owner, so another update of the account can return true in between, and a query of the owner does not find the account (C156_refuted). Proved for queries if no writing call was being executed at some moment between the update and the query (C156_query_partial).")
c("C157", "proved", "C157_get C157_finalized",
  "For get_account. Reads of finalized states also do not panic (C157_finalized); at other commitments a read that panics shows nothing.")
c("C158", "proved", "C158_query",
  "For queries with the one filter datasize 82, which is what the store takes as a query for mints. Mints of Token-2022 with extensions are longer and rightly left out.")
c("C159", "proved", "C159_finalized C159_get",
  "No code removes an entry of multisigs; that closed multisigs are still shown is a defect of the code (see C55).")
c("C160", "proved", "C160_mints C160_multisigs",
  "Loading of snapshots at the same time is excluded: it changes the store in steps of its own (see C104).")
