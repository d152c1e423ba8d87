{
 "claims": [
  {
   "property": "C01",
   "status": "proved",
   "theorems": [
    "LAM.Props.C01_filter_exact",
    "LAM.Props.C01_panics_iff_malformed",
    "LAM.Props.C01_encoding_independent"
   ],
   "note": ""
  },
  {
   "property": "C02",
   "status": "proved",
   "theorems": [
    "LAM.Props.C02_store_is_union"
   ],
   "note": ""
  },
  {
   "property": "C03",
   "status": "proved",
   "theorems": [
    "LAM.Props.C03_monotone_and_order_independent"
   ],
   "note": ""
  },
  {
   "property": "C04",
   "status": "proved",
   "theorems": [
    "LAM.Props.C04_contains_sound",
    "LAM.Props.C04_contains_monotone"
   ],
   "note": ""
  },
  {
   "property": "C05",
   "status": "partial",
   "theorems": [
    "LAM.Props.C05_added_is_contained_refuted",
    "LAM.Props.C05_added_is_contained_partial"
   ],
   "note": "The full claim is false of the code; refuted with a witness, proved for the filters it does hold for."
  },
  {
   "property": "C06",
   "status": "partial",
   "theorems": [
    "LAM.Props.C06_except_is_complement",
    "LAM.Props.C06_contains_sound_refuted",
    "LAM.Props.C06_contains_sound_partial"
   ],
   "note": "The soundness half is false of the code; refuted with a witness."
  },
  {
   "property": "C07",
   "status": "proved",
   "theorems": [
    "LAM.Props.C07_json_roundtrip",
    "LAM.Props.C07_malformed_json_panics",
    "LAM.Props.C07_reads_iff"
   ],
   "note": ""
  },
  {
   "property": "C08",
   "status": "partial",
   "theorems": [
    "LAM.Props.C08_to_rpc_preserves",
    "LAM.Props.C08_rpc_verdict",
    "LAM.Props.C08_from_rpc_refuted",
    "LAM.Props.C08_from_rpc_partial",
    "LAM.Props.C08_rpc_allows"
   ],
   "note": "The reverse conversion is false of the code for some inputs; refuted with a witness."
  },
  {
   "property": "C09",
   "status": "proved",
   "theorems": [
    "LAM.Props.C09_data_roundtrip",
    "LAM.Props.C09_account_roundtrip",
    "LAM.Props.C09_compress_total",
    "LAM.Props.C09_zstd_oversize_panics"
   ],
   "note": ""
  },
  {
   "property": "C10",
   "status": "proved",
   "theorems": [
    "LAM.Props.C10_compression_irrelevant",
    "LAM.Props.C10_simple_filters"
   ],
   "note": ""
  },
  {
   "property": "C11",
   "status": "proved",
   "theorems": [
    "LAM.Props.C11_never_panics_always_returns"
   ],
   "note": ""
  },
  {
   "property": "C12",
   "status": "proved",
   "theorems": [
    "LAM.Props.C12_reads_were_submitted"
   ],
   "note": ""
  },
  {
   "property": "C13",
   "status": "proved",
   "theorems": [
    "LAM.Props.C13_processed_is_newest"
   ],
   "note": ""
  },
  {
   "property": "C14",
   "status": "proved",
   "theorems": [
    "LAM.Props.C14_confirmed_and_finalized_monotone"
   ],
   "note": ""
  },
  {
   "property": "C15",
   "status": "proved",
   "theorems": [
    "LAM.Props.C15_commitments_ordered",
    "LAM.Props.C15_by_write_version_refuted"
   ],
   "note": "Proved as stated; the stronger reading by write version between confirmed and finalized is refuted."
  },
  {
   "property": "C16",
   "status": "proved",
   "theorems": [
    "LAM.Props.C16_confirmed_reads_from_confirmed_slots"
   ],
   "note": ""
  },
  {
   "property": "C17",
   "status": "partial",
   "theorems": [
    "LAM.Props.C17_finalized_reads_refuted",
    "LAM.Props.C17_finalized_reads_partial",
    "LAM.Props.C17_finalized_reads_no_confirmed_partial"
   ],
   "note": "False of the code: a made-up parent can finalize a later slot. Proved up to made-up parents and for histories without Confirmed notifications."
  },
  {
   "property": "C18",
   "status": "proved",
   "theorems": [
    "LAM.Props.C18_confirming_makes_visible"
   ],
   "note": ""
  },
  {
   "property": "C19",
   "status": "partial",
   "theorems": [
    "LAM.Props.C19_late_update_visible_refuted",
    "LAM.Props.C19_late_update_visible_partial"
   ],
   "note": "False for accounts seen for the first time; proved for tracked ones."
  },
  {
   "property": "C20",
   "status": "proved",
   "theorems": [
    "LAM.Props.C20_reports_exactly_the_changes"
   ],
   "note": ""
  },
  {
   "property": "C21",
   "status": "proved",
   "theorems": [
    "LAM.Props.C21_slot_idempotent"
   ],
   "note": ""
  },
  {
   "property": "C22",
   "status": "partial",
   "theorems": [
    "LAM.Props.C22_resubmission_refuted",
    "LAM.Props.C22_resubmission_partial"
   ],
   "note": "False for accounts first seen in an already confirmed slot; proved for pubkeys tracked before and after."
  },
  {
   "property": "C23",
   "status": "partial",
   "theorems": [
    "LAM.Props.C23_false_means_unchanged_refuted",
    "LAM.Props.C23_false_means_unchanged_partial"
   ],
   "note": "False when the confirmed state is older than the finalized one; proved otherwise."
  },
  {
   "property": "C24",
   "status": "proved",
   "theorems": [
    "LAM.Props.C24_iteration_order_irrelevant",
    "LAM.Props.C24_lock_order_irrelevant"
   ],
   "note": ""
  },
  {
   "property": "C25",
   "status": "proved",
   "theorems": [
    "LAM.Props.C25_updates_isolated"
   ],
   "note": ""
  },
  {
   "property": "C26",
   "status": "partial",
   "theorems": [
    "LAM.Props.C26_deleted_hidden_refuted",
    "LAM.Props.C26_deleted_hidden_partial"
   ],
   "note": "False for program queries without a filter list; proved for get_account and filtered queries."
  },
  {
   "property": "C27",
   "status": "proved",
   "theorems": [
    "LAM.Props.C27_query_sound"
   ],
   "note": ""
  },
  {
   "property": "C28",
   "status": "partial",
   "theorems": [
    "LAM.Props.C28_query_complete_refuted",
    "LAM.Props.C28_moved_back_refuted",
    "LAM.Props.C28_query_complete_partial"
   ],
   "note": "False for accounts whose owner changed; proved for accounts with a stable owner."
  },
  {
   "property": "C29",
   "status": "proved",
   "theorems": [
    "LAM.Props.C29_only_accepted_accounts_tracked"
   ],
   "note": ""
  },
  {
   "property": "C30",
   "status": "proved",
   "theorems": [
    "LAM.Props.C30_pruning"
   ],
   "note": ""
  },
  {
   "property": "C31",
   "status": "partial",
   "theorems": [
    "LAM.Props.C31_later_states_survive_refuted",
    "LAM.Props.C31_later_states_survive_partial"
   ],
   "note": "False when finalization removes the account; proved when it stays tracked."
  },
  {
   "property": "C32",
   "status": "proved",
   "theorems": [
    "LAM.Props.C32_decodes_exactly_encodings",
    "LAM.Props.C32_snapshot_roundtrip",
    "LAM.Props.C32_malformed_rejected",
    "LAM.Props.C32_load_is_finalized_updates"
   ],
   "note": ""
  },
  {
   "property": "C33",
   "status": "proved",
   "theorems": [
    "LAM.Props.C33_snapshot_reproduces"
   ],
   "note": ""
  },
  {
   "property": "C34",
   "status": "proved",
   "theorems": [
    "LAM.Props.C34_rejected_iff_not_contained"
   ],
   "note": ""
  },
  {
   "property": "C35",
   "status": "proved",
   "theorems": [
    "LAM.Props.C35_routed_to_responsible",
    "LAM.Props.C35_someone_responsible"
   ],
   "note": ""
  },
  {
   "property": "C36",
   "status": "partial",
   "theorems": [
    "LAM.Props.C36_found_anywhere_refuted",
    "LAM.Props.C36_found_anywhere_partial",
    "LAM.Props.C36_first_success_decides"
   ],
   "note": "False when an earlier storage answers with None or an unrelated error; the exact condition is proved."
  },
  {
   "property": "C37",
   "status": "partial",
   "theorems": [
    "LAM.Props.C37_update_offered_in_order",
    "LAM.Props.C37_update_true_iff_accepted",
    "LAM.Props.C37_slot_reaches_all",
    "LAM.Props.C37_slot_once_refuted",
    "LAM.Props.C37_slot_once_partial"
   ],
   "note": "A storage registered for two programs is notified twice (refuted); everything else is proved."
  },
  {
   "property": "C38",
   "status": "proved",
   "theorems": [
    "LAM.Props.C38_call_shapes",
    "LAM.Props.C38_stored_served_directly",
    "LAM.Props.C38_none_only_after_loading",
    "LAM.Props.C38_reads_are_answers"
   ],
   "note": ""
  },
  {
   "property": "C39",
   "status": "proved",
   "theorems": [
    "LAM.Props.C39_one_load_per_key"
   ],
   "note": ""
  },
  {
   "property": "C40",
   "status": "partial",
   "theorems": [
    "LAM.Props.C40_retry_refuted",
    "LAM.Props.C40_failed_key_is_stuck",
    "LAM.Props.C40_failure_reported_partial"
   ],
   "note": "False: a failed key is never loaded again in any continuation (proved); the failure itself is reported to its caller."
  },
  {
   "property": "C41",
   "status": "proved",
   "theorems": [
    "LAM.Props.C41_waiters_not_lost",
    "LAM.Props.C41_notified_wakes_all",
    "LAM.Props.C41_notifies_own_entry"
   ],
   "note": ""
  },
  {
   "property": "C42",
   "status": "proved",
   "theorems": [
    "LAM.Props.C42_token_roundtrip",
    "LAM.Props.C42_decoded_fits"
   ],
   "note": ""
  },
  {
   "property": "C43",
   "status": "proved",
   "theorems": [
    "LAM.Props.C43_accessors",
    "LAM.Props.C43_short",
    "LAM.Props.C43_injective",
    "LAM.Props.C43_length"
   ],
   "note": ""
  },
  {
   "property": "C44",
   "status": "proved",
   "theorems": [
    "LAM.Props.C44_accepts_wellformed",
    "LAM.Props.C44_canonical_reencodes",
    "LAM.Props.C44_encodings_canonical"
   ],
   "note": ""
  },
  {
   "property": "C45",
   "status": "partial",
   "theorems": [
    "LAM.Props.C45_extended_rejected",
    "LAM.Props.C45_refuted",
    "LAM.Props.C45_token_partial",
    "LAM.Props.C45_mint_partial",
    "LAM.Props.C45_multisig_partial",
    "LAM.Props.C45_unpack_is_layout",
    "LAM.Props.C45_pack_is_layout",
    "LAM.Props.C45_token_extension_written",
    "LAM.Props.C45_mint_extension_written"
   ],
   "note": "False for Token-2022 accounts with extensions, which are rejected; proved for accounts of the base length."
  },
  {
   "property": "C46",
   "status": "proved",
   "theorems": [
    "LAM.Props.C46_deleted_iff",
    "LAM.Props.C46_deleted",
    "LAM.Props.C46_mint_iff",
    "LAM.Props.C46_token_iff",
    "LAM.Props.C46_multisig_iff",
    "LAM.Props.C46_other_is_error",
    "LAM.Props.C46_pubkey",
    "LAM.Props.C46_program_ids"
   ],
   "note": ""
  },
  {
   "property": "C47",
   "status": "proved",
   "theorems": [
    "LAM.Props.C47_index_is_position",
    "LAM.Props.C47_stable_and_unique",
    "LAM.Props.C47_wraps_around"
   ],
   "note": ""
  },
  {
   "property": "C48",
   "status": "partial",
   "theorems": [
    "LAM.Props.C48_refuted",
    "LAM.Props.C48_exact",
    "LAM.Props.C48_map_partial"
   ],
   "note": "Deleting a key forgets every key with the same first four bytes (C48_exact states this for all histories); the map claim holds when no delete collides."
  },
  {
   "property": "C49",
   "status": "partial",
   "theorems": [
    "LAM.Props.C49_refuted",
    "LAM.Props.C49_never_misses",
    "LAM.Props.C49_exact",
    "LAM.Props.C49_membership_partial"
   ],
   "note": "A bucket with one entry is not checked: false positives, characterised exactly by C49_exact; no false negatives."
  },
  {
   "property": "C50",
   "status": "partial",
   "theorems": [
    "LAM.Props.C50_refuted",
    "LAM.Props.C50_complete",
    "LAM.Props.C50_exact_partial"
   ],
   "note": "Accounts orphaned by a colliding delete stay in the snapshot; exact when no delete collides; complete always."
  },
  {
   "property": "C51",
   "status": "partial",
   "theorems": [
    "LAM.Props.C51_refuted",
    "LAM.Props.C51_extended_refuted",
    "LAM.Props.C51_token_partial",
    "LAM.Props.C51_mint_partial",
    "LAM.Props.C51_init"
   ],
   "note": "False when the pubkey was a multisig before (multisigs shadow token accounts), on prefix collisions, and for extended Token-2022 accounts; proved for base-length token accounts and mints in every reachable store otherwise."
  },
  {
   "property": "C52",
   "status": "partial",
   "theorems": [
    "LAM.Props.C52_refuted",
    "LAM.Props.C52_history_partial",
    "LAM.Props.C52_stream_partial",
    "LAM.Props.C52_no_state",
    "LAM.Props.C52_never_from_fork",
    "LAM.Props.C52_recorded"
   ],
   "note": "False: a slot whose first notice is its own notification loses its parent. Proved when each slot on the way was notified after it had occurred; unconditionally no state from a fork is shown, and the recorded chain is followed exactly."
  },
  {
   "property": "C53",
   "status": "partial",
   "theorems": [
    "LAM.Props.C53_refuted",
    "LAM.Props.C53_endless",
    "LAM.Props.C53_diverge_is_endless",
    "LAM.Props.C53_reads_end_partial",
    "LAM.Props.C53_other_calls_end"
   ],
   "note": "False: a slot recorded as its own ancestor makes confirmed reads loop for ever; proved when notified parents are older than their slots. Finalized reads, submissions and notifications always end."
  },
  {
   "property": "C54",
   "status": "partial",
   "theorems": [
    "LAM.Props.C54_refuted",
    "LAM.Props.C54_newest_partial",
    "LAM.Props.C54_mints_partial",
    "LAM.Props.C54_dropped"
   ],
   "note": "False when finalized pubkeys collide on four bytes; proved for all reachable stores without collision; for mints and multisigs also with collisions. Dropping of forks and keeping of later slots is unconditional."
  },
  {
   "property": "C55",
   "status": "partial",
   "theorems": [
    "LAM.Props.C55_refuted",
    "LAM.Props.C55_multisig_stays",
    "LAM.Props.C55_marked_deleted",
    "LAM.Props.C55_deleted_partial"
   ],
   "note": "False for multisigs, which no deletion removes; proved for mints and token accounts."
  },
  {
   "property": "C56",
   "status": "partial",
   "theorems": [
    "LAM.Props.C56_refuted",
    "LAM.Props.C56_unknown_mint_panics",
    "LAM.Props.C56_finalized_iff",
    "LAM.Props.C56_known_mints_partial"
   ],
   "note": "False: token accounts of a mint that was never seen panic on read, as do reads of such a mint and owner-and-mint queries with it (C56_finalized_iff says exactly when). Proved when mints are loaded first, later token accounts belong to them and none of them is closed."
  },
  {
   "property": "C57",
   "status": "partial",
   "theorems": [
    "LAM.Props.C57_refuted",
    "LAM.Props.C57_other_program",
    "LAM.Props.C57_changed_mint",
    "LAM.Props.C57_changed_owner",
    "LAM.Props.C57_owner_partial",
    "LAM.Props.C57_mint_partial",
    "LAM.Props.C57_mints",
    "LAM.Props.C57_refused_iff"
   ],
   "note": "False: filters other than owner and mint and the program itself are ignored, the mint index is not updated when an account changes mint, and unfinalized states are not filtered at all. Proved: owner (and mint) of every finalized answer in every reachable store; the mint of every account whose own mint neither changes nor is closed; queries for mints are exact; which queries are refused."
  },
  {
   "property": "C58",
   "status": "partial",
   "theorems": [
    "LAM.Props.C58_refuted",
    "LAM.Props.C58_no_mint_is_loaded",
    "LAM.Props.C58_size_refuted",
    "LAM.Props.C58_unknown_mint_refuted",
    "LAM.Props.C58_closed_is_back",
    "LAM.Props.C58_update_after_load_panics",
    "LAM.Props.C58_encoding",
    "LAM.Props.C58_with_size",
    "LAM.Props.C58_accounts_partial",
    "LAM.Props.C58_fits",
    "LAM.Props.C58_absent_partial"
   ],
   "note": "False for every LZ4: no mint can be read after loading into an empty store. Also: the compressed bytes have no size prefix but decompress(None) expects one; a token account of an unknown mint makes loading panic; a closed account can come back; the next update of a loaded token account makes reads of it panic. Proved: the bincode encoding is read back exactly, token accounts and multisigs survive if decompression gives the data back and all mints are stored, what was absent stays so unless an account with the same first four bytes of its key was closed, and all numbers fit if lamports do."
  },
  {
   "property": "C59",
   "status": "partial",
   "theorems": [
    "LAM.Props.C59_refuted",
    "LAM.Props.C59_refuted_read",
    "LAM.Props.C59_rejected_partial",
    "LAM.Props.C59_frame"
   ],
   "note": "False on 4-byte prefix collisions: an unrelated account is accepted and destroys the stored one; proved without collisions."
  },
  {
   "property": "C60",
   "status": "proved",
   "theorems": [
    "LAM.Props.C60_iteration_is_safe",
    "LAM.Props.C60_reader_iteration_is_safe"
   ],
   "note": ""
  },
  {
   "property": "C61",
   "status": "proved",
   "theorems": [
    "LAM.Props.C61_layout_is_read_back",
    "LAM.Props.C61_roundtrip",
    "LAM.Props.C61_accounts"
   ],
   "note": ""
  },
  {
   "property": "C62",
   "status": "proved",
   "theorems": [
    "LAM.Props.C62_parse_iff",
    "LAM.Props.C62_names_parse_back"
   ],
   "note": ""
  },
  {
   "property": "C63",
   "status": "proved",
   "theorems": [
    "LAM.Props.C63_program_accounts",
    "LAM.Props.C63_answers"
   ],
   "note": ""
  },
  {
   "property": "C64",
   "status": "proved",
   "theorems": [
    "LAM.Props.C64_commitment_order",
    "LAM.Props.C64_of_config",
    "LAM.Props.C64_display_injective"
   ],
   "note": ""
  },
  {
   "property": "C66",
   "status": "partial",
   "theorems": [
    "LAM.Props.C66_answered_early_refuted",
    "LAM.Props.C66_answered_from_storage_partial"
   ],
   "note": "False: the filter is added before the snapshot is saved."
  },
  {
   "property": "C67",
   "status": "proved",
   "theorems": [
    "LAM.Props.C67_calls_can_return",
    "LAM.Props.C67_mutual_exclusion"
   ],
   "note": ""
  },
  {
   "property": "C68",
   "status": "partial",
   "theorems": [
    "LAM.Props.C68_refuted",
    "LAM.Props.C68_reopened_panics",
    "LAM.Props.C68_never_reused",
    "LAM.Props.C68_stable_partial"
   ],
   "note": "False: a mint closed and created again gets a new index, and its token accounts then panic on read. Indexes are never reused, and a mint that is not closed keeps its index."
  },
  {
   "property": "C69",
   "status": "partial",
   "theorems": [
    "LAM.Props.C69_refuted",
    "LAM.Props.C69_not_finalized",
    "LAM.Props.C69_per_account",
    "LAM.Props.C69_owner_partial",
    "LAM.Props.C69_mint_partial"
   ],
   "note": "False: the owner index is not updated when an owner changes, and unfinalized accounts are never found. Proved for finalized queries, for each account whose owner does not change (or, for mints, whose own mint neither changes nor is closed); other queries return, for each account of the finalized answer, what a read of it shows."
  },
  {
   "property": "C70",
   "status": "partial",
   "theorems": [
    "LAM.Props.C70_refuted",
    "LAM.Props.C70_same_slot_panics",
    "LAM.Props.C70_known_mints_partial",
    "LAM.Props.C70_updates"
   ],
   "note": "False: a notification converts accounts before storing the mints of the same slot. Updates alone never panic; all calls are panic-free when mints are loaded first."
  },
  {
   "property": "C71",
   "status": "proved",
   "theorems": [
    "LAM.Props.C71_recognised",
    "LAM.Props.C71_text_ignored"
   ],
   "note": ""
  },
  {
   "property": "C72",
   "status": "partial",
   "theorems": [
    "LAM.Props.C72_refuted",
    "LAM.Props.C72_unknown_mints_partial"
   ],
   "note": "False: a mint known to the store is written under its index in the snapshot, so another mint is read as it. Proved for any snapshot whose mints are all unknown to the store."
  },
  {
   "property": "C73",
   "status": "partial",
   "theorems": [
    "LAM.Props.C73_refuted",
    "LAM.Props.C73_written_partial"
   ],
   "note": "False for corrupt files: the byte is not checked. Proved for files in the append-vec layout."
  },
  {
   "property": "C74",
   "status": "partial",
   "theorems": [
    "LAM.Props.C74_refuted",
    "LAM.Props.C74_empty_entry",
    "LAM.Props.C74_long_entry_partial"
   ],
   "note": "False: short archive entries are filled up with zeros, and 136 zeros are an account. Proved for entries of at least the declared length."
  },
  {
   "property": "C75",
   "status": "partial",
   "theorems": [
    "LAM.Props.C75_refuted",
    "LAM.Props.C75_not_empty_partial"
   ],
   "note": "False: accounts before the minimal slot are left out, but the request is not refused. Proved for answers that are not empty."
  },
  {
   "property": "C76",
   "status": "proved",
   "theorems": [
    "LAM.Props.C76_account_info",
    "LAM.Props.C76_snapshot"
   ],
   "note": ""
  },
  {
   "property": "C77",
   "status": "proved",
   "theorems": [
    "LAM.Props.C77_loads_exactly"
   ],
   "note": ""
  },
  {
   "property": "C78",
   "status": "proved",
   "theorems": [
    "LAM.Props.C78_manifest_iff",
    "LAM.Props.C78_no_manifest",
    "LAM.Props.C78_only_declared",
    "LAM.Props.C78_bad_entry_fails"
   ],
   "note": ""
  },
  {
   "property": "C79",
   "status": "partial",
   "theorems": [
    "LAM.Props.C79_refuted",
    "LAM.Props.C79_broken_off_partial"
   ],
   "note": "False as stated: missing files go unnoticed. Proved that an archive that breaks off with a read error is not loaded."
  },
  {
   "property": "C80",
   "status": "partial",
   "theorems": [
    "LAM.Props.C80_refuted",
    "LAM.Props.C80_closed_refuted",
    "LAM.Props.C80_last_partial",
    "LAM.Props.C80_newest_partial"
   ],
   "note": "False as stated: the order of the archive decides, and closed accounts are passed over. Proved for the last version of the token program in the archive, and for archives in the order of slots."
  },
  {
   "property": "C81",
   "status": "proved",
   "theorems": [
    "LAM.Props.C81_total"
   ],
   "note": ""
  },
  {
   "property": "C82",
   "status": "partial",
   "theorems": [
    "LAM.Props.C82_refuted",
    "LAM.Props.C82_never_reports",
    "LAM.Props.C82_usable_partial"
   ],
   "note": "False as stated: errors of single files are dropped. Proved which files are handed out."
  },
  {
   "property": "C83",
   "status": "proved",
   "theorems": [
    "LAM.Props.C83_once",
    "LAM.Props.C83_errors",
    "LAM.Props.C83_total"
   ],
   "note": ""
  },
  {
   "property": "C84",
   "status": "partial",
   "theorems": [
    "LAM.Props.C84_refuted",
    "LAM.Props.C84_account_partial",
    "LAM.Props.C84_form",
    "LAM.Props.C84_slots",
    "LAM.Props.C84_follow"
   ],
   "note": "False as stated for data sent compressed. Proved for the payload as sent, for slots and for the sequence of calls."
  },
  {
   "property": "C85",
   "status": "partial",
   "theorems": [
    "LAM.Props.C85_refuted",
    "LAM.Props.C85_slot_refuted",
    "LAM.Props.C85_slot_partial"
   ],
   "note": "False as stated: an older state submitted as finalized, or a late state whose slot is finalized again, replaces the newer one. Proved for slot notifications when states arrive before their slot is passed by a finalized one."
  },
  {
   "property": "C86",
   "status": "partial",
   "theorems": [
    "LAM.Props.C86_refuted",
    "LAM.Props.C86_holds_partial",
    "LAM.Props.C86_mints_partial",
    "LAM.Props.C86_read_partial",
    "LAM.Props.C86_content_partial"
   ],
   "note": "False as stated: a state that arrives after a younger slot was finalized is lost. Proved for whole streams in which states arrive in time, finalized slots form one chain with recorded links, snapshot states come first and keys do not collide; the last is not needed for keys that are never closed and never token accounts."
  },
  {
   "property": "C87",
   "status": "proved",
   "theorems": [
    "LAM.Props.C87_answers",
    "LAM.Props.C87_commitments_ordered",
    "LAM.Props.C87_get_account_atomic",
    "LAM.Props.C87_locks_exclusive"
   ],
   "note": "Transition system of any number of threads, with the locks that are held while others are waited for."
  },
  {
   "property": "C88",
   "status": "partial",
   "theorems": [
    "LAM.Props.C88_refuted",
    "LAM.Props.C88_calls_can_return_partial",
    "LAM.Props.C88_shards_partial",
    "LAM.Props.C88_same_owners_partial"
   ],
   "note": "False: an update and a notification of a finalized slot can wait for each other for ever. Proved for every state in which no update is executed at the same time as a notification of a finalized slot, or only updates of accounts in other shards than those of the accounts that changed their owner; so there is no deadlock as long as no account changes its owner."
  },
  {
   "property": "C89",
   "status": "partial",
   "theorems": [
    "LAM.Props.C89_refuted",
    "LAM.Props.C89_one_writer_partial",
    "LAM.Props.C89_different_accounts_partial"
   ],
   "note": "False: an update that is stored after its slot was confirmed, but had looked at the slot before, stays unconfirmed. Proved for writing calls made one at a time, and for any number of updates of different accounts at the same time (calls take effect in an order that respects real time and gives every thread its answers), with any number of concurrent reads."
  },
  {
   "property": "C90",
   "status": "partial",
   "theorems": [
    "LAM.Props.C90_refuted",
    "LAM.Props.C90_loop_blocks_writers",
    "LAM.Props.C90_no_deadlock_partial",
    "LAM.Props.C90_finite",
    "LAM.Props.C90_calls_return_partial",
    "LAM.Props.C90_locks_exclusive"
   ],
   "note": "False: a slot notified as its own ancestor makes a read run forever with processed_slot_accounts locked. Proved for notified parents older than their slots."
  },
  {
   "property": "C91",
   "status": "proved",
   "theorems": [
    "LAM.Props.C91_answers",
    "LAM.Props.C91_no_poison"
   ],
   "note": "Transition system with all locks of the store; an invariant over all interleavings relates what is stored and what threads have in hand to the submitted accounts."
  },
  {
   "property": "C92",
   "status": "partial",
   "theorems": [
    "LAM.Props.C92_refuted",
    "LAM.Props.C92_read_refuted",
    "LAM.Props.C92_call_partial",
    "LAM.Props.C92_one_writer_partial"
   ],
   "note": "False: between taking the states of a finalized slot out and storing them, another notification can store newer ones, and a read sees neither. Proved for writing calls made one at a time, with any number of concurrent reads."
  },
  {
   "property": "C93",
   "status": "proved",
   "theorems": [
    "LAM.Props.C93_moments",
    "LAM.Props.C93_complete",
    "LAM.Props.C93_alone",
    "LAM.Props.C93_no_pubkey_twice"
   ],
   "note": "Stated over the states an execution passes through while the call is executed. What a query returns need not be the state of one moment; this is claimed only when no writing call runs meanwhile."
  },
  {
   "property": "C94",
   "status": "proved",
   "theorems": [
    "LAM.Props.C94_open"
   ],
   "note": ""
  },
  {
   "property": "C95",
   "status": "proved",
   "theorems": [
    "LAM.Props.C95_read_iff",
    "LAM.Props.C95_truncated",
    "LAM.Props.C95_limited",
    "LAM.Props.C95_unambiguous",
    "LAM.Props.C95_archive"
   ],
   "note": "The fields of the bank are types of Solana that are read and dropped; reading them is a parameter."
  },
  {
   "property": "C96",
   "status": "partial",
   "theorems": [
    "LAM.Props.C96_refuted",
    "LAM.Props.C96_unregistered",
    "LAM.Props.C96_loaded_partial",
    "LAM.Props.C96_stored_direct",
    "LAM.Props.C96_answers"
   ],
   "note": "False: get_account never adds the account to the filters, so the storage drops what the source hands over and every call loads again. Proved when the filters ask for the account after subscribing."
  },
  {
   "property": "C97",
   "status": "partial",
   "theorems": [
    "LAM.Props.C97_refuted",
    "LAM.Props.C97_loaded_partial",
    "LAM.Props.C97_contained_direct",
    "LAM.Props.C97_updates_followed",
    "LAM.Props.C97_reachable"
   ],
   "note": "False for base58 and base64 filters of a program first seen: the storage answers with an error. Proved for raw filters and for programs that some filter mentions."
  },
  {
   "property": "C98",
   "status": "partial",
   "theorems": [
    "LAM.Props.C98_refuted",
    "LAM.Props.C98_poisons",
    "LAM.Props.C98_poisoned_forever",
    "LAM.Props.C98_known_program",
    "LAM.Props.C98_source_panics",
    "LAM.Props.C98_source_panics_program",
    "LAM.Props.C98_decodable_partial"
   ],
   "note": "False: a text that does not decode poisons the lock of the filters for good if the program is new, and makes updates panic if it is known. If the filters panic on an account from the source, the account or query stays marked as being loaded and no source is asked again (C98_source_panics). Proved for queries whose texts decode."
  },
  {
   "property": "C99",
   "status": "partial",
   "theorems": [
    "LAM.Props.C99_refuted",
    "LAM.Props.C99_lost",
    "LAM.Props.C99_repeat",
    "LAM.Props.C99_agrees",
    "LAM.Props.C99_finalized_kept_partial",
    "LAM.Props.C99_confirmed_kept_partial"
   ],
   "note": "False: the states up to the slot are removed before accounts are converted, so one token account of an unknown mint makes all accounts of these slots fall back to their last finalized state for good. Proved for finalized reads and for notifications of confirmed slots."
  },
  {
   "property": "C100",
   "status": "partial",
   "theorems": [
    "LAM.Props.C100_refuted",
    "LAM.Props.C100_refuted_twin",
    "LAM.Props.C100_default_partial",
    "LAM.Props.C100_is_the_dispatcher"
   ],
   "note": "False: the token store takes an update of an account that left the token program, or whose key only starts like that of a token account, as a deletion. Proved if no account of a token program starts like the key or names it as its mint. C100_is_the_dispatcher ties the composition to the model of the dispatcher."
  },
  {
   "property": "C101",
   "status": "partial",
   "theorems": [
    "LAM.Props.C101_refuted",
    "LAM.Props.C101_never",
    "LAM.Props.C101_queries_partial",
    "LAM.Props.C101_queries_sound"
   ],
   "note": "False of get_account: the token store answers first, and its answer that there is no such account ends the search; C101_never shows that no account unrelated to tokens is ever returned. Proved of get_program_accounts, as far as it is proved of the default storage (C28)."
  },
  {
   "property": "C102",
   "status": "partial",
   "theorems": [
    "LAM.Props.C102_refuted",
    "LAM.Props.C102_refuted_processed",
    "LAM.Props.C102_finalized_partial",
    "LAM.Props.C102_confirmed_partial",
    "LAM.Props.C102_processed_partial"
   ],
   "note": "False: the token store is called twice; what it reports for a confirmed slot is reported twice, and a processed slot gets its parent recorded by the second call. Proved for finalized slots, for the state after confirmed slots, and for the default storage."
  },
  {
   "property": "C103",
   "status": "partial",
   "theorems": [
    "LAM.Props.C103_refuted",
    "LAM.Props.C103_moments",
    "LAM.Props.C103_loads_partial",
    "LAM.Props.C103_alone"
   ],
   "note": "False: mints, multisigs and token accounts are read one after the other; a mint and a token account stored in between give a snapshot whose loading panics. Proved: it always returns, each part is that of a moment, it loads if the mints were stored all the time, and it is that of the store if nothing else writes."
  },
  {
   "property": "C104",
   "status": "partial",
   "theorems": [
    "LAM.Props.C104_refuted",
    "LAM.Props.C104_alone_partial"
   ],
   "note": "False: the list of accounts of an owner that was stored between get_mut and insert is overwritten, so an account is not found by its owner any more. Proved if no other call writes meanwhile."
  },
  {
   "property": "C105",
   "status": "proved",
   "theorems": [
    "LAM.Props.C105_no_deadlock",
    "LAM.Props.C105_finite",
    "LAM.Props.C105_calls_return",
    "LAM.Props.C105_locks_exclusive",
    "LAM.Props.C105_no_lock_is_poisoned"
   ],
   "note": "Locks are ordered; an execution makes progress in a well-founded measure; only decoding while loading panics, with no lock held."
  },
  {
   "property": "C106",
   "status": "partial",
   "theorems": [
    "LAM.Props.C106_refuted",
    "LAM.Props.C106_partial"
   ],
   "note": "False: an account of the archive is stored whenever the loader gets to it, also over a newer finalized state. Proved, from the archive and the messages to the answer, if no slot is finalized before the archive is loaded; accounts that are only in the archive or only in the stream need no such condition."
  },
  {
   "property": "C107",
   "status": "partial",
   "theorems": [
    "LAM.Props.C107_refuted",
    "LAM.Props.C107_partial",
    "LAM.Props.C107_frozen",
    "LAM.Props.C107_updates_return"
   ],
   "note": "False: a slot that is confirmed before the mint of one of its token accounts is loaded ends the stream task. Proved if notifications come after loading. When the task is gone, later answers never change; account messages themselves never end it."
  },
  {
   "property": "C108",
   "status": "proved",
   "theorems": [
    "LAM.Props.C108_serves",
    "LAM.Props.C108_no_manifest",
    "LAM.Props.C108_bad_entry",
    "LAM.Props.C108_alone",
    "LAM.Props.C108_interleaved",
    "LAM.Props.C108_every_order"
   ],
   "note": "The loader counts down what it has left, whatever the stream leaves in the store; the calls made are an interleaving of archive and stream, and every interleaving without a panic is reached."
  },
  {
   "property": "C109",
   "status": "partial",
   "theorems": [
    "LAM.Props.C109_refuted",
    "LAM.Props.C109_partial"
   ],
   "note": "False: a confirmed slot in which no token account changed cuts the chain, and the answer falls back to finalized data. Proved if every slot between the confirmed slot and the newest state was noted when it had already occurred; loading first is only needed where the finalized state is shown."
  },
  {
   "property": "C110",
   "status": "partial",
   "theorems": [
    "LAM.Props.C110_refuted",
    "LAM.Props.C110_partial"
   ],
   "note": "False: above the confirmed slot the store does not look at forks. Proved if the confirmed slot and the states of the account above it are on the chain of the highest slot."
  },
  {
   "property": "C111",
   "status": "partial",
   "theorems": [
    "LAM.Props.C111_refuted",
    "LAM.Props.C111_partial",
    "LAM.Props.C111_new_owner_missed",
    "LAM.Props.C111_filter_ignored"
   ],
   "note": "False in three ways: an account that changes its owner is listed for nobody, accounts of the other token program are listed, and filters other than owner and mint are not looked at. Proved: accounts that keep their owner are listed; whatever is listed has the owner and the mint asked for, is as of the last finalized slot, and is listed once."
  },
  {
   "property": "C112",
   "status": "partial",
   "theorems": [
    "LAM.Props.C112_refuted",
    "LAM.Props.C112_partial",
    "LAM.Props.C112_unknown_mint"
   ],
   "note": "False: the filter for the token account state and a query for an owner and an unknown mint panic. Proved for all other requests at every commitment."
  },
  {
   "property": "C113",
   "status": "partial",
   "theorems": [
    "LAM.Props.C113_refuted",
    "LAM.Props.C113_partial",
    "LAM.Props.C113_other_mint_listed"
   ],
   "note": "False: accounts of the other token program are listed, filters other than the mint are not looked at, and an account created again for another mint within a slot stays listed for its first mint. Proved: an account that stays with its mint is listed for it and for no other, as of the last finalized slot, and once."
  },
  {
   "property": "C114",
   "status": "proved",
   "theorems": [
    "LAM.Props.C114_mint"
   ],
   "note": "For every mint that stays one."
  },
  {
   "property": "C115",
   "status": "proved",
   "theorems": [
    "LAM.Props.C115_multisig"
   ],
   "note": "For every multisig that stays one."
  },
  {
   "property": "C116",
   "status": "partial",
   "theorems": [
    "LAM.Props.C116_refuted",
    "LAM.Props.C116_partial"
   ],
   "note": "False: the program asked for is not looked at, so mints of the Token program are listed for Token-2022. Proved: the mints of both programs that pass the filters are listed, once each, as of the last finalized slot."
  },
  {
   "property": "C117",
   "status": "partial",
   "theorems": [
    "LAM.Props.C117_refuted",
    "LAM.Props.C117_partial"
   ],
   "note": "False: states with the same contents compressed in different ways are not equal. Proved: equality is an equivalence, equal states say the same, and states made by the same method are equal if and only if they say the same."
  },
  {
   "property": "C118",
   "status": "partial",
   "theorems": [
    "LAM.Props.C118_refuted",
    "LAM.Props.C118_partial",
    "LAM.Props.C118_opened_missed",
    "LAM.Props.C118_former_owner"
   ],
   "note": "False: accounts opened since the last finalized slot are not listed, and an account handed over since is listed for its former owner. Proved: accounts that keep their owner and had it as of the last finalized slot are listed in their state as of the commitment's slot, unless closed then; whatever is listed is in this state and listed once."
  },
  {
   "property": "C119",
   "status": "partial",
   "theorems": [
    "LAM.Props.C119_refuted",
    "LAM.Props.C119_partial",
    "LAM.Props.C119_mint_missed"
   ],
   "note": "False: the loader takes the first bytes of the answer for the size of the snapshot, and mints are not shown after loading. Proved with the size put in front: loading succeeds and shows the token accounts and multisigs as of the last finalized slot, and no account where there is none."
  },
  {
   "property": "C120",
   "status": "partial",
   "theorems": [
    "LAM.Props.C120_refuted",
    "LAM.Props.C120_grows",
    "LAM.Props.C120_forks_kept",
    "LAM.Props.C120_statuses",
    "LAM.Props.C120_partial"
   ],
   "note": "False: one account opened and closed k times leaves k entries without a state, and the states of n abandoned slots are kept after finalization, for all k and n. Proved: entries with a state are at most the accounts, entries are at most the updates and, if no account is closed or leaves the filters, at most the accounts; statuses of slots before the finalized one are dropped."
  },
  {
   "property": "C121",
   "status": "partial",
   "theorems": [
    "LAM.Props.C121_refuted",
    "LAM.Props.C121_grows",
    "LAM.Props.C121_lost",
    "LAM.Props.C121_partial"
   ],
   "note": "False: one token account opened and closed k times leaves k entries and k positions for its owner, for all k up to 2^32; the opening after that is stored under position 0 and not found. Proved: entries are at most the updates, and entries of open accounts are at most the accounts if no two keys share their first four bytes."
  },
  {
   "property": "C122",
   "status": "partial",
   "theorems": [
    "LAM.Props.C122_refuted",
    "LAM.Props.C122_partial"
   ],
   "note": "False: after a confirmed slot in which no token account changed, the mint of the archive is shown. Proved if every slot between the confirmed slot and the newest state was noted with its parent and, for processed, the states above the confirmed slot are on the chain of the highest slot; loading first is only needed where the finalized state is shown."
  },
  {
   "property": "C123",
   "status": "partial",
   "theorems": [
    "LAM.Props.C123_refuted",
    "LAM.Props.C123_partial"
   ],
   "note": "False: after a confirmed slot in which no token account changed, a new multisig is not shown. Proved under the conditions of C122."
  },
  {
   "property": "C124",
   "status": "partial",
   "theorems": [
    "LAM.Props.C124_refuted",
    "LAM.Props.C124_not_on_demand",
    "LAM.Props.C124_dropped",
    "LAM.Props.C124_transfer_partial"
   ],
   "note": "False: accounts that no filter of the receiving storage asks for are dropped, and loading reports success; and a snapshot of a program that was not queried is an error, not loaded on demand. Proved for receiving storages of which a filter asks for each account."
  },
  {
   "property": "C125",
   "status": "partial",
   "theorems": [
    "LAM.Props.C125_refuted",
    "LAM.Props.C125_partial",
    "LAM.Props.C125_opened_missed"
   ],
   "note": "False: accounts opened since the last finalized slot are not listed. Proved: an account that stays with its mint and is open as of the last finalized slot is listed for this mint and no other, in its state as of the commitment's slot, unless closed then; whatever is listed is in this state and listed once."
  },
  {
   "property": "C126",
   "status": "partial",
   "theorems": [
    "LAM.Props.C126_refuted",
    "LAM.Props.C126_partial",
    "LAM.Props.C126_opened_missed",
    "LAM.Props.C126_former_filter"
   ],
   "note": "False: mints opened since the last finalized slot are not listed, filters are matched with the finalized state, and the program is not looked at. Proved: the mints of both programs that pass the filters as of the last finalized slot are listed, once each, as they are as of the commitment's slot."
  },
  {
   "property": "C127",
   "status": "partial",
   "theorems": [
    "LAM.Props.C127_refuted",
    "LAM.Props.C127_premature_refuted",
    "LAM.Props.C127_follows_chain_partial"
   ],
   "note": "False: a slot updated before it is announced loses its parent, so confirming a descendant does not confirm its ancestors; and when everything confirmed is finalized, the next confirmation makes up a link through which an unfinalized slot is later finalized. Proved for histories in which slots are announced before their updates (where a descendant is confirmed first) and a slot is finalized only after a later one is confirmed."
  },
  {
   "property": "C128",
   "status": "partial",
   "theorems": [
    "LAM.Props.C128_refuted",
    "LAM.Props.C128_dropped",
    "LAM.Props.C128_dropped_filtered",
    "LAM.Props.C128_reads_partial",
    "LAM.Props.C128_partial"
   ],
   "note": "False: the store does not tell an older finalized state from a newer one when it looks at owners: an older state of another owner takes the account out of the list of its present owner, and if the older state has no lamports or is not asked for by the filters, the account is dropped altogether. Proved: reads stay the same if older states have the same owner or are live and asked for; queries too if they have the same owner."
  },
  {
   "property": "C129",
   "status": "partial",
   "theorems": [
    "LAM.Props.C129_refuted",
    "LAM.Props.C129_moved_back",
    "LAM.Props.C129_reopened",
    "LAM.Props.C129_before_snapshot",
    "LAM.Props.C129_found_partial",
    "LAM.Props.C129_follows_chain_partial"
   ],
   "note": "False: an account that moves to another program and back is missing once the first move is finalized; so is one that is opened again by the owner it was closed under, and one of a snapshot that was already updated with another owner. Proved for accounts that do not return to an owner they left, whatever the number of moves, forks and late updates (conditions of OwnersSettle), at every commitment as far as reads are concerned."
  },
  {
   "property": "C130",
   "status": "partial",
   "theorems": [
    "LAM.Props.C130_refuted",
    "LAM.Props.C130_untracked_refuted",
    "LAM.Props.C130_listener_partial"
   ],
   "note": "False: an update of an already confirmed slot changes confirmed reads without a notification, and the store drops an account that left the filters while listeners still show it. Proved for histories on one chain (conditions of C127) as long as updates of the account come before their slot has the commitment and the account stays tracked."
  },
  {
   "property": "C131",
   "status": "partial",
   "theorems": [
    "LAM.Props.C131_refuted",
    "LAM.Props.C131_skipping_refuted",
    "LAM.Props.C131_finalized_partial",
    "LAM.Props.C131_confirmed_partial"
   ],
   "note": "False: the answers leave out closed accounts, so that a listener keeps showing them, and a confirmed notification only lists the states of that very slot, so that states of slots confirmed through a descendant are missed. Proved for token accounts that are never closed and whose mints stay, for finalized slots in any order, and for confirmed slots that are confirmed in turn."
  },
  {
   "property": "C132",
   "status": "partial",
   "theorems": [
    "LAM.Props.C132_refuted",
    "LAM.Props.C132_refuted_read",
    "LAM.Props.C132_news_partial",
    "LAM.Props.C132_false_unchanged_partial",
    "LAM.Props.C132_taken",
    "LAM.Props.C132_finalized_always"
   ],
   "note": "False in its second half: a refused update of a token account enters its mint into the index table all the same, and a read of that mint panics from then on where it answered none before. Proved: the first half, and that nothing else changes after the answer false. An update at finalized commitment is answered with true even if it changes nothing."
  },
  {
   "property": "C133",
   "status": "partial",
   "theorems": [
    "LAM.Props.C133_refuted",
    "LAM.Props.C133_refuted_reported",
    "LAM.Props.C133_kept_out_partial"
   ],
   "note": "False: a state that arrives late or twice is refused by the token store, and the dispatcher takes the refusal as a sign that the account belongs elsewhere and hands it to the default storage. When its slot is finalized, the dispatcher reports the older state after the newer one. Proved if the states of the account for a slot arrive in the order of their write versions, each once."
  },
  {
   "property": "C134",
   "status": "proved",
   "theorems": [
    "LAM.Props.C134_confirmed",
    "LAM.Props.C134_finalized",
    "LAM.Props.C134_notified_twice",
    "LAM.Props.C134_not_alone"
   ],
   "note": "The token store is in the state of a token store that is notified of every slot twice, and the second notification records the parent that the first one dropped (C52). The finalized part is for a key that is only ever a token account or closed, with no closed account of the same first four key bytes (C86). C134_not_alone: the same calls made to the token store directly lose the state."
  },
  {
   "property": "C135",
   "status": "partial",
   "theorems": [
    "LAM.Props.C135_partial",
    "LAM.Props.C135_entries",
    "LAM.Props.C135_counts_removed",
    "LAM.Props.C135_refuted"
   ],
   "note": "False: the gauge counts entries of the store, and entries of accounts that are gone stay; with nothing tracked it may show any number. Proved: it never shows too few, and it is right as long as no account leaves the store."
  },
  {
   "property": "C136",
   "status": "partial",
   "theorems": [
    "LAM.Props.C136_partial",
    "LAM.Props.C136_goes_back",
    "LAM.Props.C136_refuted"
   ],
   "note": "False: the gauge shows the slot of the update submitted last, so it goes back. Proved: that, and the claim for updates in the order of their slots."
  },
  {
   "property": "C137",
   "status": "partial",
   "theorems": [
    "LAM.Props.C137_partial",
    "LAM.Props.C137_records",
    "LAM.Props.C137_refuted"
   ],
   "note": "False: closing a token account removes the bucket of its first four key bytes, so another account in it is no longer found but still counted (C48). Proved: the gauges count records and deleted records exactly, never show too few accounts, and are right if no account is closed that shares the first four bytes of another."
  },
  {
   "property": "C138",
   "status": "partial",
   "theorems": [
    "LAM.Props.C138_partial",
    "LAM.Props.C138_refuted"
   ],
   "note": "False: states of skipped slots are dropped without counting them down, so the gauge drifts up. Proved: it never shows too few, and it is right if every slot with states is an ancestor of the slot that is finalized after it."
  },
  {
   "property": "C139",
   "status": "partial",
   "theorems": [
    "LAM.Props.C139_partial",
    "LAM.Props.C139_negative",
    "LAM.Props.C139_snapshot",
    "LAM.Props.C139_refuted"
   ],
   "note": "False: a mint that comes after a token account of it is not counted, but is counted down when it is closed, so the gauge can be negative; mints loaded from a snapshot are not counted. Proved: it never shows too many, and it is right if every mint is stored before its token accounts are submitted."
  },
  {
   "property": "C140",
   "status": "partial",
   "theorems": [
    "LAM.Props.C140_apart_partial",
    "LAM.Props.C140_refuted"
   ],
   "note": "False: if the first two updates of an account are executed at the same time, the one that finds the account made known by the other stores its state without recording the account for its slot, so confirming that slot does not confirm it. Proved if no two updates of the same account are executed at the same time, with any other concurrency (updates of other accounts, notifications of earlier slots, reads)."
  },
  {
   "property": "C141",
   "status": "proved",
   "theorems": [
    "LAM.Props.C141_reads_do_not_go_back",
    "LAM.Props.C141_updates_are_not_lost",
    "LAM.Props.C141_queries_do_not_go_back",
    "LAM.Props.C141_queries_show_updates",
    "LAM.Props.C141_weaker_commitments_are_not_behind"
   ],
   "note": "For all executions of the steps of StoreConc, also with overlapping updates of the same account; the account is tracked in all states from the first call on."
  },
  {
   "property": "C142",
   "status": "proved",
   "theorems": [
    "LAM.Props.C142_confirmed_reads",
    "LAM.Props.C142_confirmed_queries",
    "LAM.Props.C142_finalized_reads",
    "LAM.Props.C142_finalized_queries",
    "LAM.Props.C142_reports"
   ],
   "note": "For all executions of the steps of StoreConc; the slots are judged by the calls made so far, whether they have returned or not."
  },
  {
   "property": "C143",
   "status": "proved",
   "theorems": [
    "LAM.Props.C143_confirmed_reads",
    "LAM.Props.C143_confirmed_queries",
    "LAM.Props.C143_finalized_reads",
    "LAM.Props.C143_finalized_queries",
    "LAM.Props.C143_processed_reads",
    "LAM.Props.C143_finalized_reports"
   ],
   "note": "For all executions of the steps of TokenConc with at most 2^31 submissions; the slots are judged by the notifications made before the answer, whether they have returned or not."
  },
  {
   "property": "C144",
   "status": "proved",
   "theorems": [
    "LAM.Props.C144_reports",
    "LAM.Props.C144_processed_reads"
   ],
   "note": "For all executions of the steps of TokenConc with at most 2^31 submissions, about calls that return an answer; accepted updates are those submitted as processed or confirmed whose call has returned true."
  },
  {
   "property": "C145",
   "status": "partial",
   "theorems": [
    "LAM.Props.C145_partial",
    "LAM.Props.C145_refuted"
   ],
   "note": "False of the code: confirmed_slot is loaded, compared and stored without compare-and-swap, so two confirmed notifications executed at the same time can put the confirmed slot back, and confirmed reads then show the state before the later slot (C145_refuted). Proved if no confirmed notification of an earlier slot was executed at the same time as that of the slot; others of the same slot may be (C145_partial)."
  },
  {
   "property": "C146",
   "status": "proved",
   "theorems": [
    "LAM.Props.C146_reads"
   ],
   "note": "For all executions of the steps of TokenConc with at most 2^31 submissions. The first read may have any commitment and be made by any thread; the second is a processed get_account."
  },
  {
   "property": "C147",
   "status": "proved",
   "theorems": [
    "LAM.Props.C147_first",
    "LAM.Props.C147_further"
   ],
   "note": "The order is defined on its own in Spec/FilterOrder, without the sort key of the model."
  },
  {
   "property": "C148",
   "status": "proved",
   "theorems": [
    "LAM.Props.C148_reports"
   ],
   "note": "For all executions of the steps of TokenConc with at most 2^31 submissions, about notifications that return an answer."
  },
  {
   "property": "C149",
   "status": "proved",
   "theorems": [
    "LAM.Props.C149_count",
    "LAM.Props.C149_one_report",
    "LAM.Props.C149_once_in_report"
   ],
   "note": "For all executions of the steps of TokenConc with at most 2^31 submissions. Reports of confirmed slots are not counted: they do repeat states."
  },
  {
   "property": "C150",
   "status": "proved",
   "theorems": [
    "LAM.Props.C150_count",
    "LAM.Props.C150_one_report",
    "LAM.Props.C150_once_in_report"
   ],
   "note": "For all executions of the steps of StoreConc. An example shows that a state submitted again after the account was removed is reported again."
  },
  {
   "property": "C151",
   "status": "proved",
   "theorems": [
    "LAM.Props.C151_reads",
    "LAM.Props.C151_meanwhile",
    "LAM.Props.C151_queries",
    "LAM.Props.C151_at_rest"
   ],
   "note": "For all executions of the steps of StoreConc. An example shows a late update that is confirmed at once and that no report contains."
  },
  {
   "property": "C152",
   "status": "proved",
   "theorems": [
    "LAM.Props.C152_meanwhile",
    "LAM.Props.C152_reads",
    "LAM.Props.C152_queries"
   ],
   "note": "For all executions of the steps of TokenConc with at most 2^31 submitted accounts. An example shows a read that returns before the report."
  },
  {
   "property": "C153",
   "status": "proved",
   "theorems": [
    "LAM.Props.C153_tracked",
    "LAM.Props.C153_answers",
    "LAM.Props.C153_updates",
    "LAM.Props.C153_refused"
   ],
   "note": "For all executions of the steps of StoreConc. The filters of a moment are those in force at a state of the execution."
  },
  {
   "property": "C154",
   "status": "proved",
   "theorems": [
    "LAM.Props.C154_entries",
    "LAM.Props.C154_one_entry",
    "LAM.Props.C154_states",
    "LAM.Props.C154_none_leave"
   ],
   "note": "For all executions of the steps of StoreConc. Entries of closed accounts stay, without states, as in C120."
  },
  {
   "property": "C155",
   "status": "proved",
   "theorems": [
    "LAM.Props.C155_tracked",
    "LAM.Props.C155_listed",
    "LAM.Props.C155_read",
    "LAM.Props.C155_query"
   ],
   "note": "For all executions of the steps of StoreConc. Accounts that change their owner are excluded: the store can lose them from the set of an owner."
  },
  {
   "property": "C156",
   "status": "partial",
   "theorems": [
    "LAM.Props.C156_get",
    "LAM.Props.C156_query_partial",
    "LAM.Props.C156_refuted"
   ],
   "note": "Proved for get_account (C156_get). False of the code for queries: add_account_finalized saves a new token account before it enters it in the index by owner, so another update of the account can return true in between, and a query of the owner does not find the account (C156_refuted). Proved for queries if no writing call was being executed at some moment between the update and the query (C156_query_partial)."
  },
  {
   "property": "C157",
   "status": "proved",
   "theorems": [
    "LAM.Props.C157_get",
    "LAM.Props.C157_finalized"
   ],
   "note": "For get_account. Reads of finalized states also do not panic (C157_finalized); at other commitments a read that panics shows nothing."
  },
  {
   "property": "C158",
   "status": "proved",
   "theorems": [
    "LAM.Props.C158_query"
   ],
   "note": "For queries with the one filter datasize 82, which is what the store takes as a query for mints. Mints of Token-2022 with extensions are longer and rightly left out."
  },
  {
   "property": "C159",
   "status": "proved",
   "theorems": [
    "LAM.Props.C159_finalized",
    "LAM.Props.C159_get"
   ],
   "note": "No code removes an entry of multisigs; that closed multisigs are still shown is a defect of the code (see C55)."
  },
  {
   "property": "C160",
   "status": "proved",
   "theorems": [
    "LAM.Props.C160_mints",
    "LAM.Props.C160_multisigs"
   ],
   "note": "Loading of snapshots at the same time is excluded: it changes the store in steps of its own (see C104)."
  }
 ]
}
