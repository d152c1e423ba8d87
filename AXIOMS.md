# Axioms of each theorem

Generated by `tools/gen_axioms.py` from `#print axioms`.

| property | theorem | axioms |
|---|---|---|
| C01 | `LAM.Props.C01_filter_exact` | Classical.choice, Quot.sound, propext |
| C01 | `LAM.Props.C01_panics_iff_malformed` | Classical.choice, Quot.sound, propext |
| C01 | `LAM.Props.C01_encoding_independent` | propext |
| C02 | `LAM.Props.C02_store_is_union` | Classical.choice, Quot.sound, propext |
| C03 | `LAM.Props.C03_monotone_and_order_independent` | Classical.choice, Quot.sound, propext |
| C04 | `LAM.Props.C04_contains_sound` | Classical.choice, Quot.sound, propext |
| C04 | `LAM.Props.C04_contains_monotone` | Quot.sound, propext |
| C05 | `LAM.Props.C05_added_is_contained_refuted` | propext |
| C05 | `LAM.Props.C05_added_is_contained_partial` | Classical.choice, Quot.sound, propext |
| C06 | `LAM.Props.C06_except_is_complement` | Classical.choice, Quot.sound, propext |
| C06 | `LAM.Props.C06_contains_sound_refuted` | Quot.sound, propext |
| C06 | `LAM.Props.C06_contains_sound_partial` | Classical.choice, Quot.sound, propext |
| C07 | `LAM.Props.C07_json_roundtrip` | Classical.choice, Quot.sound, propext |
| C07 | `LAM.Props.C07_malformed_json_panics` | propext |
| C07 | `LAM.Props.C07_reads_iff` | Classical.choice, Quot.sound, propext |
| C08 | `LAM.Props.C08_to_rpc_preserves` | Quot.sound, propext |
| C08 | `LAM.Props.C08_rpc_verdict` | Classical.choice, Quot.sound, propext |
| C08 | `LAM.Props.C08_from_rpc_refuted` | propext |
| C08 | `LAM.Props.C08_from_rpc_partial` | Quot.sound, propext |
| C08 | `LAM.Props.C08_rpc_allows` | Classical.choice, Quot.sound, propext |
| C09 | `LAM.Props.C09_data_roundtrip` | Quot.sound, propext |
| C09 | `LAM.Props.C09_account_roundtrip` | Quot.sound, propext |
| C09 | `LAM.Props.C09_compress_total` | propext |
| C09 | `LAM.Props.C09_zstd_oversize_panics` | Quot.sound, propext |
| C10 | `LAM.Props.C10_compression_irrelevant` | Classical.choice, Quot.sound, propext |
| C10 | `LAM.Props.C10_simple_filters` | Quot.sound, propext |
| C11 | `LAM.Props.C11_never_panics_always_returns` | Classical.choice, Quot.sound, propext |
| C12 | `LAM.Props.C12_reads_were_submitted` | Classical.choice, Quot.sound, propext |
| C13 | `LAM.Props.C13_processed_is_newest` | Classical.choice, Quot.sound, propext |
| C14 | `LAM.Props.C14_confirmed_and_finalized_monotone` | Classical.choice, Quot.sound, propext |
| C15 | `LAM.Props.C15_commitments_ordered` | Classical.choice, Quot.sound, propext |
| C15 | `LAM.Props.C15_by_write_version_refuted` | propext |
| C16 | `LAM.Props.C16_confirmed_reads_from_confirmed_slots` | Classical.choice, Quot.sound, propext |
| C17 | `LAM.Props.C17_finalized_reads_refuted` | Quot.sound, propext |
| C17 | `LAM.Props.C17_finalized_reads_partial` | Classical.choice, Quot.sound, propext |
| C17 | `LAM.Props.C17_finalized_reads_no_confirmed_partial` | Classical.choice, Quot.sound, propext |
| C18 | `LAM.Props.C18_confirming_makes_visible` | Classical.choice, Quot.sound, propext |
| C19 | `LAM.Props.C19_late_update_visible_refuted` | Quot.sound, propext |
| C19 | `LAM.Props.C19_late_update_visible_partial` | Classical.choice, Quot.sound, propext |
| C20 | `LAM.Props.C20_reports_exactly_the_changes` | Classical.choice, Quot.sound, propext |
| C21 | `LAM.Props.C21_slot_idempotent` | Classical.choice, Quot.sound, propext |
| C22 | `LAM.Props.C22_resubmission_refuted` | propext |
| C22 | `LAM.Props.C22_resubmission_partial` | Classical.choice, Quot.sound, propext |
| C23 | `LAM.Props.C23_false_means_unchanged_refuted` | propext |
| C23 | `LAM.Props.C23_false_means_unchanged_partial` | Classical.choice, Quot.sound, propext |
| C24 | `LAM.Props.C24_iteration_order_irrelevant` | Classical.choice, Quot.sound, propext |
| C24 | `LAM.Props.C24_lock_order_irrelevant` | Quot.sound, propext |
| C25 | `LAM.Props.C25_updates_isolated` | Classical.choice, Quot.sound, propext |
| C26 | `LAM.Props.C26_deleted_hidden_refuted` | propext |
| C26 | `LAM.Props.C26_deleted_hidden_partial` | Classical.choice, Quot.sound, propext |
| C27 | `LAM.Props.C27_query_sound` | Classical.choice, Quot.sound, propext |
| C28 | `LAM.Props.C28_query_complete_refuted` | propext |
| C28 | `LAM.Props.C28_moved_back_refuted` | propext |
| C28 | `LAM.Props.C28_query_complete_partial` | Classical.choice, Quot.sound, propext |
| C29 | `LAM.Props.C29_only_accepted_accounts_tracked` | Classical.choice, Quot.sound, propext |
| C30 | `LAM.Props.C30_pruning` | Classical.choice, Quot.sound, propext |
| C31 | `LAM.Props.C31_later_states_survive_refuted` | propext |
| C31 | `LAM.Props.C31_later_states_survive_partial` | Classical.choice, Quot.sound, propext |
| C32 | `LAM.Props.C32_decodes_exactly_encodings` | Classical.choice, Quot.sound, propext |
| C32 | `LAM.Props.C32_snapshot_roundtrip` | Classical.choice, Quot.sound, propext |
| C32 | `LAM.Props.C32_malformed_rejected` | Classical.choice, Quot.sound, propext |
| C32 | `LAM.Props.C32_load_is_finalized_updates` | Classical.choice, Quot.sound, propext |
| C33 | `LAM.Props.C33_snapshot_reproduces` | Classical.choice, Quot.sound, propext |
| C34 | `LAM.Props.C34_rejected_iff_not_contained` | Classical.choice, Quot.sound, propext |
| C35 | `LAM.Props.C35_routed_to_responsible` | Quot.sound, propext |
| C35 | `LAM.Props.C35_someone_responsible` | Classical.choice, Quot.sound, propext |
| C36 | `LAM.Props.C36_found_anywhere_refuted` | Quot.sound, propext |
| C36 | `LAM.Props.C36_found_anywhere_partial` | Quot.sound, propext |
| C36 | `LAM.Props.C36_first_success_decides` | Quot.sound, propext |
| C37 | `LAM.Props.C37_update_offered_in_order` | propext |
| C37 | `LAM.Props.C37_update_true_iff_accepted` | Quot.sound, propext |
| C37 | `LAM.Props.C37_slot_reaches_all` | propext |
| C37 | `LAM.Props.C37_slot_once_refuted` | Classical.choice, Quot.sound, propext |
| C37 | `LAM.Props.C37_slot_once_partial` | Classical.choice, Quot.sound, propext |
| C38 | `LAM.Props.C38_call_shapes` | propext |
| C38 | `LAM.Props.C38_stored_served_directly` | Quot.sound, propext |
| C38 | `LAM.Props.C38_none_only_after_loading` | Quot.sound, propext |
| C38 | `LAM.Props.C38_reads_are_answers` | propext |
| C39 | `LAM.Props.C39_one_load_per_key` | Classical.choice, Quot.sound, propext |
| C40 | `LAM.Props.C40_retry_refuted` | Classical.choice, Quot.sound, propext |
| C40 | `LAM.Props.C40_failed_key_is_stuck` | Classical.choice, Quot.sound, propext |
| C40 | `LAM.Props.C40_failure_reported_partial` | propext |
| C41 | `LAM.Props.C41_waiters_not_lost` | Classical.choice, Quot.sound, propext |
| C41 | `LAM.Props.C41_notified_wakes_all` | Classical.choice, Quot.sound, propext |
| C41 | `LAM.Props.C41_notifies_own_entry` | Classical.choice, Quot.sound, propext |
| C42 | `LAM.Props.C42_token_roundtrip` | Classical.choice, Quot.sound, propext |
| C42 | `LAM.Props.C42_decoded_fits` | Classical.choice, Quot.sound, propext |
| C43 | `LAM.Props.C43_accessors` | Classical.choice, Quot.sound, propext |
| C43 | `LAM.Props.C43_short` | Quot.sound, propext |
| C43 | `LAM.Props.C43_injective` | Classical.choice, Quot.sound, propext |
| C43 | `LAM.Props.C43_length` | Quot.sound, propext |
| C44 | `LAM.Props.C44_accepts_wellformed` | Classical.choice, Quot.sound, propext |
| C44 | `LAM.Props.C44_canonical_reencodes` | Classical.choice, Quot.sound, propext |
| C44 | `LAM.Props.C44_encodings_canonical` | Classical.choice, Quot.sound, propext |
| C45 | `LAM.Props.C45_extended_rejected` | Quot.sound, propext |
| C45 | `LAM.Props.C45_refuted` | Quot.sound, propext |
| C45 | `LAM.Props.C45_token_partial` | Classical.choice, Quot.sound, propext |
| C45 | `LAM.Props.C45_mint_partial` | Classical.choice, Quot.sound, propext |
| C45 | `LAM.Props.C45_multisig_partial` | Classical.choice, Quot.sound, propext |
| C45 | `LAM.Props.C45_unpack_is_layout` | Classical.choice, Quot.sound, propext |
| C45 | `LAM.Props.C45_pack_is_layout` | Classical.choice, Quot.sound, propext |
| C45 | `LAM.Props.C45_token_extension_written` | Classical.choice, Quot.sound, propext |
| C45 | `LAM.Props.C45_mint_extension_written` | Classical.choice, Quot.sound, propext |
| C46 | `LAM.Props.C46_deleted_iff` | Quot.sound, propext |
| C46 | `LAM.Props.C46_deleted` | propext |
| C46 | `LAM.Props.C46_mint_iff` | Classical.choice, Quot.sound, propext |
| C46 | `LAM.Props.C46_token_iff` | Classical.choice, Quot.sound, propext |
| C46 | `LAM.Props.C46_multisig_iff` | Classical.choice, Quot.sound, propext |
| C46 | `LAM.Props.C46_other_is_error` | Classical.choice, Quot.sound, propext |
| C46 | `LAM.Props.C46_pubkey` | Quot.sound, propext |
| C46 | `LAM.Props.C46_program_ids` | Classical.choice, Quot.sound, propext |
| C47 | `LAM.Props.C47_index_is_position` | Classical.choice, Quot.sound, propext |
| C47 | `LAM.Props.C47_stable_and_unique` | Classical.choice, Quot.sound, propext |
| C47 | `LAM.Props.C47_wraps_around` | Classical.choice, Quot.sound, propext |
| C48 | `LAM.Props.C48_refuted` | Classical.choice, Quot.sound, propext |
| C48 | `LAM.Props.C48_exact` | Classical.choice, Quot.sound, propext |
| C48 | `LAM.Props.C48_map_partial` | Classical.choice, Quot.sound, propext |
| C49 | `LAM.Props.C49_refuted` | Classical.choice, Quot.sound, propext |
| C49 | `LAM.Props.C49_never_misses` | Classical.choice, Quot.sound, propext |
| C49 | `LAM.Props.C49_exact` | Classical.choice, Quot.sound, propext |
| C49 | `LAM.Props.C49_membership_partial` | Classical.choice, Quot.sound, propext |
| C50 | `LAM.Props.C50_refuted` | Quot.sound, propext |
| C50 | `LAM.Props.C50_complete` | Classical.choice, Quot.sound, propext |
| C50 | `LAM.Props.C50_exact_partial` | Classical.choice, Quot.sound, propext |
| C51 | `LAM.Props.C51_refuted` | Classical.choice, Quot.sound, propext |
| C51 | `LAM.Props.C51_extended_refuted` | Quot.sound, propext |
| C51 | `LAM.Props.C51_token_partial` | Classical.choice, Quot.sound, propext |
| C51 | `LAM.Props.C51_mint_partial` | Classical.choice, Quot.sound, propext |
| C51 | `LAM.Props.C51_init` | Quot.sound, propext |
| C52 | `LAM.Props.C52_refuted` | Classical.choice, Quot.sound, propext |
| C52 | `LAM.Props.C52_history_partial` | Classical.choice, Quot.sound, propext |
| C52 | `LAM.Props.C52_stream_partial` | Classical.choice, Quot.sound, propext |
| C52 | `LAM.Props.C52_no_state` | Classical.choice, Quot.sound, propext |
| C52 | `LAM.Props.C52_never_from_fork` | Classical.choice, Quot.sound, propext |
| C52 | `LAM.Props.C52_recorded` | Classical.choice, Quot.sound, propext |
| C53 | `LAM.Props.C53_refuted` | Classical.choice, Quot.sound, propext |
| C53 | `LAM.Props.C53_endless` | Classical.choice, Quot.sound, propext |
| C53 | `LAM.Props.C53_diverge_is_endless` | Classical.choice, Quot.sound, propext |
| C53 | `LAM.Props.C53_reads_end_partial` | Classical.choice, Quot.sound, propext |
| C53 | `LAM.Props.C53_other_calls_end` | Classical.choice, Quot.sound, propext |
| C54 | `LAM.Props.C54_refuted` | Classical.choice, Quot.sound, propext |
| C54 | `LAM.Props.C54_newest_partial` | Classical.choice, Quot.sound, propext |
| C54 | `LAM.Props.C54_mints_partial` | Classical.choice, Quot.sound, propext |
| C54 | `LAM.Props.C54_dropped` | Classical.choice, Quot.sound, propext |
| C55 | `LAM.Props.C55_refuted` | Quot.sound, propext |
| C55 | `LAM.Props.C55_multisig_stays` | Classical.choice, Quot.sound, propext |
| C55 | `LAM.Props.C55_marked_deleted` | Quot.sound, propext |
| C55 | `LAM.Props.C55_deleted_partial` | Classical.choice, Quot.sound, propext |
| C56 | `LAM.Props.C56_refuted` | Quot.sound, propext |
| C56 | `LAM.Props.C56_unknown_mint_panics` | Classical.choice, Quot.sound, propext |
| C56 | `LAM.Props.C56_finalized_iff` | Classical.choice, Quot.sound, propext |
| C56 | `LAM.Props.C56_known_mints_partial` | Classical.choice, Quot.sound, propext |
| C57 | `LAM.Props.C57_refuted` | Classical.choice, Quot.sound, propext |
| C57 | `LAM.Props.C57_other_program` | Classical.choice, Quot.sound, propext |
| C57 | `LAM.Props.C57_changed_mint` | Classical.choice, Quot.sound, propext |
| C57 | `LAM.Props.C57_changed_owner` | Classical.choice, Quot.sound, propext |
| C57 | `LAM.Props.C57_owner_partial` | Classical.choice, Quot.sound, propext |
| C57 | `LAM.Props.C57_mint_partial` | Classical.choice, Quot.sound, propext |
| C57 | `LAM.Props.C57_mints` | Classical.choice, Quot.sound, propext |
| C57 | `LAM.Props.C57_refused_iff` | Quot.sound, propext |
| C58 | `LAM.Props.C58_refuted` | Quot.sound, propext |
| C58 | `LAM.Props.C58_no_mint_is_loaded` | Quot.sound, propext |
| C58 | `LAM.Props.C58_size_refuted` | Quot.sound, propext |
| C58 | `LAM.Props.C58_unknown_mint_refuted` | Quot.sound, propext |
| C58 | `LAM.Props.C58_closed_is_back` | Quot.sound, propext |
| C58 | `LAM.Props.C58_update_after_load_panics` | Quot.sound, propext |
| C58 | `LAM.Props.C58_encoding` | Classical.choice, Quot.sound, propext |
| C58 | `LAM.Props.C58_with_size` | Classical.choice, Quot.sound, propext |
| C58 | `LAM.Props.C58_accounts_partial` | Classical.choice, Quot.sound, propext |
| C58 | `LAM.Props.C58_fits` | Classical.choice, Quot.sound, propext |
| C58 | `LAM.Props.C58_absent_partial` | Classical.choice, Quot.sound, propext |
| C59 | `LAM.Props.C59_refuted` | Quot.sound, propext |
| C59 | `LAM.Props.C59_refuted_read` | Quot.sound, propext |
| C59 | `LAM.Props.C59_rejected_partial` | Classical.choice, Quot.sound, propext |
| C59 | `LAM.Props.C59_frame` | Classical.choice, Quot.sound, propext |
| C60 | `LAM.Props.C60_iteration_is_safe` | Classical.choice, Quot.sound, propext |
| C60 | `LAM.Props.C60_reader_iteration_is_safe` | Classical.choice, Quot.sound, propext |
| C61 | `LAM.Props.C61_layout_is_read_back` | Classical.choice, Quot.sound, propext |
| C61 | `LAM.Props.C61_roundtrip` | Classical.choice, Quot.sound, propext |
| C61 | `LAM.Props.C61_accounts` | Classical.choice, Quot.sound, propext |
| C62 | `LAM.Props.C62_parse_iff` | Classical.choice, Quot.sound, propext |
| C62 | `LAM.Props.C62_names_parse_back` | Classical.choice, Quot.sound, propext |
| C63 | `LAM.Props.C63_program_accounts` | Classical.choice, Quot.sound, propext |
| C63 | `LAM.Props.C63_answers` | Quot.sound, propext |
| C64 | `LAM.Props.C64_commitment_order` | none |
| C64 | `LAM.Props.C64_of_config` | propext |
| C64 | `LAM.Props.C64_display_injective` | none |
| C66 | `LAM.Props.C66_answered_early_refuted` | propext |
| C66 | `LAM.Props.C66_answered_from_storage_partial` | propext |
| C67 | `LAM.Props.C67_calls_can_return` | Classical.choice, Quot.sound, propext |
| C67 | `LAM.Props.C67_mutual_exclusion` | Classical.choice, Quot.sound, propext |
| C68 | `LAM.Props.C68_refuted` | Quot.sound, propext |
| C68 | `LAM.Props.C68_reopened_panics` | Quot.sound, propext |
| C68 | `LAM.Props.C68_never_reused` | Classical.choice, Quot.sound, propext |
| C68 | `LAM.Props.C68_stable_partial` | Classical.choice, Quot.sound, propext |
| C69 | `LAM.Props.C69_refuted` | Classical.choice, Quot.sound, propext |
| C69 | `LAM.Props.C69_not_finalized` | Classical.choice, Quot.sound, propext |
| C69 | `LAM.Props.C69_per_account` | Classical.choice, Quot.sound, propext |
| C69 | `LAM.Props.C69_owner_partial` | Classical.choice, Quot.sound, propext |
| C69 | `LAM.Props.C69_mint_partial` | Classical.choice, Quot.sound, propext |
| C70 | `LAM.Props.C70_refuted` | Classical.choice, Quot.sound, propext |
| C70 | `LAM.Props.C70_same_slot_panics` | Classical.choice, Quot.sound, propext |
| C70 | `LAM.Props.C70_known_mints_partial` | Classical.choice, Quot.sound, propext |
| C70 | `LAM.Props.C70_updates` | Classical.choice, Quot.sound, propext |
| C71 | `LAM.Props.C71_recognised` | Quot.sound, propext |
| C71 | `LAM.Props.C71_text_ignored` | propext |
| C72 | `LAM.Props.C72_refuted` | Quot.sound, propext |
| C72 | `LAM.Props.C72_unknown_mints_partial` | Classical.choice, Quot.sound, propext |
| C73 | `LAM.Props.C73_refuted` | propext |
| C73 | `LAM.Props.C73_written_partial` | Classical.choice, Quot.sound, propext |
| C74 | `LAM.Props.C74_refuted` | propext |
| C74 | `LAM.Props.C74_empty_entry` | Classical.choice, Quot.sound, propext |
| C74 | `LAM.Props.C74_long_entry_partial` | Classical.choice, Quot.sound, propext |
| C75 | `LAM.Props.C75_refuted` | Quot.sound, propext |
| C75 | `LAM.Props.C75_not_empty_partial` | Classical.choice, Quot.sound, propext |
| C76 | `LAM.Props.C76_account_info` | Quot.sound, propext |
| C76 | `LAM.Props.C76_snapshot` | Quot.sound, propext |
| C77 | `LAM.Props.C77_loads_exactly` | Classical.choice, Quot.sound, propext |
| C78 | `LAM.Props.C78_manifest_iff` | Classical.choice, Quot.sound, propext |
| C78 | `LAM.Props.C78_no_manifest` | Classical.choice, Quot.sound, propext |
| C78 | `LAM.Props.C78_only_declared` | Classical.choice, Quot.sound, propext |
| C78 | `LAM.Props.C78_bad_entry_fails` | Classical.choice, Quot.sound, propext |
| C79 | `LAM.Props.C79_refuted` | Classical.choice, Quot.sound, propext |
| C79 | `LAM.Props.C79_broken_off_partial` | Classical.choice, Quot.sound, propext |
| C80 | `LAM.Props.C80_refuted` | Classical.choice, Quot.sound, propext |
| C80 | `LAM.Props.C80_closed_refuted` | Classical.choice, Quot.sound, propext |
| C80 | `LAM.Props.C80_last_partial` | Classical.choice, Quot.sound, propext |
| C80 | `LAM.Props.C80_newest_partial` | Classical.choice, Quot.sound, propext |
| C81 | `LAM.Props.C81_total` | Classical.choice, Quot.sound, propext |
| C82 | `LAM.Props.C82_refuted` | Classical.choice, Quot.sound, propext |
| C82 | `LAM.Props.C82_never_reports` | Quot.sound, propext |
| C82 | `LAM.Props.C82_usable_partial` | Classical.choice, Quot.sound, propext |
| C83 | `LAM.Props.C83_once` | Classical.choice, Quot.sound, propext |
| C83 | `LAM.Props.C83_errors` | Classical.choice, Quot.sound, propext |
| C83 | `LAM.Props.C83_total` | Quot.sound, propext |
| C84 | `LAM.Props.C84_refuted` | Classical.choice, Quot.sound, propext |
| C84 | `LAM.Props.C84_account_partial` | Quot.sound, propext |
| C84 | `LAM.Props.C84_form` | Quot.sound, propext |
| C84 | `LAM.Props.C84_slots` | propext |
| C84 | `LAM.Props.C84_follow` | Classical.choice, Quot.sound, propext |
| C85 | `LAM.Props.C85_refuted` | Quot.sound, propext |
| C85 | `LAM.Props.C85_slot_refuted` | Classical.choice, Quot.sound, propext |
| C85 | `LAM.Props.C85_slot_partial` | Classical.choice, Quot.sound, propext |
| C86 | `LAM.Props.C86_refuted` | Classical.choice, Quot.sound, propext |
| C86 | `LAM.Props.C86_holds_partial` | Classical.choice, Quot.sound, propext |
| C86 | `LAM.Props.C86_mints_partial` | Classical.choice, Quot.sound, propext |
| C86 | `LAM.Props.C86_read_partial` | Classical.choice, Quot.sound, propext |
| C86 | `LAM.Props.C86_content_partial` | Classical.choice, Quot.sound, propext |
| C87 | `LAM.Props.C87_answers` | Classical.choice, Quot.sound, propext |
| C87 | `LAM.Props.C87_commitments_ordered` | Classical.choice, Quot.sound, propext |
| C87 | `LAM.Props.C87_get_account_atomic` | Classical.choice, Quot.sound, propext |
| C87 | `LAM.Props.C87_locks_exclusive` | Classical.choice, Quot.sound, propext |
| C88 | `LAM.Props.C88_refuted` | Classical.choice, Quot.sound, propext |
| C88 | `LAM.Props.C88_calls_can_return_partial` | Classical.choice, Quot.sound, propext |
| C88 | `LAM.Props.C88_shards_partial` | Classical.choice, Quot.sound, propext |
| C88 | `LAM.Props.C88_same_owners_partial` | Classical.choice, Quot.sound, propext |
| C89 | `LAM.Props.C89_refuted` | Classical.choice, Quot.sound, propext |
| C89 | `LAM.Props.C89_one_writer_partial` | Classical.choice, Quot.sound, propext |
| C89 | `LAM.Props.C89_different_accounts_partial` | Classical.choice, Quot.sound, propext |
| C90 | `LAM.Props.C90_refuted` | Classical.choice, Quot.sound, propext |
| C90 | `LAM.Props.C90_loop_blocks_writers` | Classical.choice, Quot.sound, propext |
| C90 | `LAM.Props.C90_no_deadlock_partial` | Classical.choice, Quot.sound, propext |
| C90 | `LAM.Props.C90_finite` | Classical.choice, Quot.sound, propext |
| C90 | `LAM.Props.C90_calls_return_partial` | Classical.choice, Quot.sound, propext |
| C90 | `LAM.Props.C90_locks_exclusive` | Classical.choice, Quot.sound, propext |
| C91 | `LAM.Props.C91_answers` | Classical.choice, Quot.sound, propext |
| C91 | `LAM.Props.C91_no_poison` | Classical.choice, Quot.sound, propext |
| C92 | `LAM.Props.C92_refuted` | Classical.choice, Quot.sound, propext |
| C92 | `LAM.Props.C92_read_refuted` | Classical.choice, Quot.sound, propext |
| C92 | `LAM.Props.C92_call_partial` | Classical.choice, Quot.sound, propext |
| C92 | `LAM.Props.C92_one_writer_partial` | Classical.choice, Quot.sound, propext |
| C93 | `LAM.Props.C93_moments` | Classical.choice, Quot.sound, propext |
| C93 | `LAM.Props.C93_complete` | Classical.choice, Quot.sound, propext |
| C93 | `LAM.Props.C93_alone` | Classical.choice, Quot.sound, propext |
| C93 | `LAM.Props.C93_no_pubkey_twice` | Classical.choice, Quot.sound, propext |
| C94 | `LAM.Props.C94_open` | Classical.choice, Quot.sound, propext |
| C95 | `LAM.Props.C95_read_iff` | Classical.choice, Quot.sound, propext |
| C95 | `LAM.Props.C95_truncated` | Classical.choice, Quot.sound, propext |
| C95 | `LAM.Props.C95_limited` | Classical.choice, Quot.sound, propext |
| C95 | `LAM.Props.C95_unambiguous` | Classical.choice, Quot.sound, propext |
| C95 | `LAM.Props.C95_archive` | Classical.choice, Quot.sound, propext |
| C96 | `LAM.Props.C96_refuted` | Quot.sound, propext |
| C96 | `LAM.Props.C96_unregistered` | Classical.choice, Quot.sound, propext |
| C96 | `LAM.Props.C96_loaded_partial` | Classical.choice, Quot.sound, propext |
| C96 | `LAM.Props.C96_stored_direct` | Quot.sound, propext |
| C96 | `LAM.Props.C96_answers` | Classical.choice, Quot.sound, propext |
| C97 | `LAM.Props.C97_refuted` | Quot.sound, propext |
| C97 | `LAM.Props.C97_loaded_partial` | Classical.choice, Quot.sound, propext |
| C97 | `LAM.Props.C97_contained_direct` | Quot.sound, propext |
| C97 | `LAM.Props.C97_updates_followed` | Classical.choice, Quot.sound, propext |
| C97 | `LAM.Props.C97_reachable` | Classical.choice, Quot.sound, propext |
| C98 | `LAM.Props.C98_refuted` | Quot.sound, propext |
| C98 | `LAM.Props.C98_poisons` | Quot.sound, propext |
| C98 | `LAM.Props.C98_poisoned_forever` | Quot.sound, propext |
| C98 | `LAM.Props.C98_known_program` | Classical.choice, Quot.sound, propext |
| C98 | `LAM.Props.C98_source_panics` | Quot.sound, propext |
| C98 | `LAM.Props.C98_source_panics_program` | Quot.sound, propext |
| C98 | `LAM.Props.C98_decodable_partial` | Classical.choice, Quot.sound, propext |
| C99 | `LAM.Props.C99_refuted` | Classical.choice, Quot.sound, propext |
| C99 | `LAM.Props.C99_lost` | Classical.choice, Quot.sound, propext |
| C99 | `LAM.Props.C99_repeat` | Classical.choice, Quot.sound, propext |
| C99 | `LAM.Props.C99_agrees` | Classical.choice, Quot.sound, propext |
| C99 | `LAM.Props.C99_finalized_kept_partial` | Classical.choice, Quot.sound, propext |
| C99 | `LAM.Props.C99_confirmed_kept_partial` | Classical.choice, Quot.sound, propext |
| C100 | `LAM.Props.C100_refuted` | Quot.sound, propext |
| C100 | `LAM.Props.C100_refuted_twin` | Quot.sound, propext |
| C100 | `LAM.Props.C100_default_partial` | Classical.choice, Quot.sound, propext |
| C100 | `LAM.Props.C100_is_the_dispatcher` | Quot.sound, propext |
| C101 | `LAM.Props.C101_refuted` | Quot.sound, propext |
| C101 | `LAM.Props.C101_never` | Classical.choice, Quot.sound, propext |
| C101 | `LAM.Props.C101_queries_partial` | Classical.choice, Quot.sound, propext |
| C101 | `LAM.Props.C101_queries_sound` | Classical.choice, Quot.sound, propext |
| C102 | `LAM.Props.C102_refuted` | Classical.choice, Quot.sound, propext |
| C102 | `LAM.Props.C102_refuted_processed` | Classical.choice, Quot.sound, propext |
| C102 | `LAM.Props.C102_finalized_partial` | Classical.choice, Quot.sound, propext |
| C102 | `LAM.Props.C102_confirmed_partial` | Classical.choice, Quot.sound, propext |
| C102 | `LAM.Props.C102_processed_partial` | Classical.choice, Quot.sound, propext |
| C103 | `LAM.Props.C103_refuted` | Classical.choice, Quot.sound, propext |
| C103 | `LAM.Props.C103_moments` | Classical.choice, Quot.sound, propext |
| C103 | `LAM.Props.C103_loads_partial` | Classical.choice, Quot.sound, propext |
| C103 | `LAM.Props.C103_alone` | Classical.choice, Quot.sound, propext |
| C104 | `LAM.Props.C104_refuted` | Classical.choice, Quot.sound, propext |
| C104 | `LAM.Props.C104_alone_partial` | Classical.choice, Quot.sound, propext |
| C105 | `LAM.Props.C105_no_deadlock` | Classical.choice, Quot.sound, propext |
| C105 | `LAM.Props.C105_finite` | Classical.choice, Quot.sound, propext |
| C105 | `LAM.Props.C105_calls_return` | Classical.choice, Quot.sound, propext |
| C105 | `LAM.Props.C105_locks_exclusive` | Classical.choice, Quot.sound, propext |
| C105 | `LAM.Props.C105_no_lock_is_poisoned` | Classical.choice, Quot.sound, propext |
| C106 | `LAM.Props.C106_refuted` | Classical.choice, Quot.sound, propext |
| C106 | `LAM.Props.C106_partial` | Classical.choice, Quot.sound, propext |
| C107 | `LAM.Props.C107_refuted` | Classical.choice, Quot.sound, propext |
| C107 | `LAM.Props.C107_partial` | Classical.choice, Quot.sound, propext |
| C107 | `LAM.Props.C107_frozen` | Classical.choice, Quot.sound, propext |
| C107 | `LAM.Props.C107_updates_return` | Classical.choice, Quot.sound, propext |
| C108 | `LAM.Props.C108_serves` | Classical.choice, Quot.sound, propext |
| C108 | `LAM.Props.C108_no_manifest` | Classical.choice, Quot.sound, propext |
| C108 | `LAM.Props.C108_bad_entry` | Classical.choice, Quot.sound, propext |
| C108 | `LAM.Props.C108_alone` | Classical.choice, Quot.sound, propext |
| C108 | `LAM.Props.C108_interleaved` | Classical.choice, Quot.sound, propext |
| C108 | `LAM.Props.C108_every_order` | Classical.choice, Quot.sound, propext |
| C109 | `LAM.Props.C109_refuted` | Classical.choice, Quot.sound, propext |
| C109 | `LAM.Props.C109_partial` | Classical.choice, Quot.sound, propext |
| C110 | `LAM.Props.C110_refuted` | Classical.choice, Quot.sound, propext |
| C110 | `LAM.Props.C110_partial` | Classical.choice, Quot.sound, propext |
| C111 | `LAM.Props.C111_refuted` | Classical.choice, Quot.sound, propext |
| C111 | `LAM.Props.C111_partial` | Classical.choice, Quot.sound, propext |
| C111 | `LAM.Props.C111_new_owner_missed` | Classical.choice, Quot.sound, propext |
| C111 | `LAM.Props.C111_filter_ignored` | Classical.choice, Quot.sound, propext |
| C112 | `LAM.Props.C112_refuted` | Classical.choice, Quot.sound, propext |
| C112 | `LAM.Props.C112_partial` | Classical.choice, Quot.sound, propext |
| C112 | `LAM.Props.C112_unknown_mint` | Classical.choice, Quot.sound, propext |
| C113 | `LAM.Props.C113_refuted` | Classical.choice, Quot.sound, propext |
| C113 | `LAM.Props.C113_partial` | Classical.choice, Quot.sound, propext |
| C113 | `LAM.Props.C113_other_mint_listed` | Classical.choice, Quot.sound, propext |
| C114 | `LAM.Props.C114_mint` | Classical.choice, Quot.sound, propext |
| C115 | `LAM.Props.C115_multisig` | Classical.choice, Quot.sound, propext |
| C116 | `LAM.Props.C116_refuted` | Classical.choice, Quot.sound, propext |
| C116 | `LAM.Props.C116_partial` | Classical.choice, Quot.sound, propext |
| C117 | `LAM.Props.C117_refuted` | Quot.sound, propext |
| C117 | `LAM.Props.C117_partial` | Quot.sound, propext |
| C118 | `LAM.Props.C118_refuted` | Classical.choice, Quot.sound, propext |
| C118 | `LAM.Props.C118_partial` | Classical.choice, Quot.sound, propext |
| C118 | `LAM.Props.C118_opened_missed` | Classical.choice, Quot.sound, propext |
| C118 | `LAM.Props.C118_former_owner` | Classical.choice, Quot.sound, propext |
| C119 | `LAM.Props.C119_refuted` | Classical.choice, Quot.sound, propext |
| C119 | `LAM.Props.C119_partial` | Classical.choice, Quot.sound, propext |
| C119 | `LAM.Props.C119_mint_missed` | Classical.choice, Quot.sound, propext |
| C120 | `LAM.Props.C120_refuted` | Classical.choice, Quot.sound, propext |
| C120 | `LAM.Props.C120_grows` | Classical.choice, Quot.sound, propext |
| C120 | `LAM.Props.C120_forks_kept` | Classical.choice, Quot.sound, propext |
| C120 | `LAM.Props.C120_statuses` | Classical.choice, Quot.sound, propext |
| C120 | `LAM.Props.C120_partial` | Classical.choice, Quot.sound, propext |
| C121 | `LAM.Props.C121_refuted` | Classical.choice, Quot.sound, propext |
| C121 | `LAM.Props.C121_grows` | Classical.choice, Quot.sound, propext |
| C121 | `LAM.Props.C121_lost` | Classical.choice, Quot.sound, propext |
| C121 | `LAM.Props.C121_partial` | Classical.choice, Quot.sound, propext |
| C122 | `LAM.Props.C122_refuted` | Classical.choice, Quot.sound, propext |
| C122 | `LAM.Props.C122_partial` | Classical.choice, Quot.sound, propext |
| C123 | `LAM.Props.C123_refuted` | Classical.choice, Quot.sound, propext |
| C123 | `LAM.Props.C123_partial` | Classical.choice, Quot.sound, propext |
| C124 | `LAM.Props.C124_refuted` | Classical.choice, Quot.sound, propext |
| C124 | `LAM.Props.C124_not_on_demand` | Quot.sound, propext |
| C124 | `LAM.Props.C124_dropped` | Classical.choice, Quot.sound, propext |
| C124 | `LAM.Props.C124_transfer_partial` | Classical.choice, Quot.sound, propext |
| C125 | `LAM.Props.C125_refuted` | Classical.choice, Quot.sound, propext |
| C125 | `LAM.Props.C125_partial` | Classical.choice, Quot.sound, propext |
| C125 | `LAM.Props.C125_opened_missed` | Classical.choice, Quot.sound, propext |
| C126 | `LAM.Props.C126_refuted` | Classical.choice, Quot.sound, propext |
| C126 | `LAM.Props.C126_partial` | Classical.choice, Quot.sound, propext |
| C126 | `LAM.Props.C126_opened_missed` | Classical.choice, Quot.sound, propext |
| C126 | `LAM.Props.C126_former_filter` | Classical.choice, Quot.sound, propext |
| C127 | `LAM.Props.C127_refuted` | Classical.choice, Quot.sound, propext |
| C127 | `LAM.Props.C127_premature_refuted` | Classical.choice, Quot.sound, propext |
| C127 | `LAM.Props.C127_follows_chain_partial` | Classical.choice, Quot.sound, propext |
| C128 | `LAM.Props.C128_refuted` | Classical.choice, Quot.sound, propext |
| C128 | `LAM.Props.C128_dropped` | Classical.choice, Quot.sound, propext |
| C128 | `LAM.Props.C128_dropped_filtered` | Classical.choice, Quot.sound, propext |
| C128 | `LAM.Props.C128_reads_partial` | Classical.choice, Quot.sound, propext |
| C128 | `LAM.Props.C128_partial` | Classical.choice, Quot.sound, propext |
| C129 | `LAM.Props.C129_refuted` | Classical.choice, Quot.sound, propext |
| C129 | `LAM.Props.C129_moved_back` | Classical.choice, Quot.sound, propext |
| C129 | `LAM.Props.C129_reopened` | Classical.choice, Quot.sound, propext |
| C129 | `LAM.Props.C129_before_snapshot` | Classical.choice, Quot.sound, propext |
| C129 | `LAM.Props.C129_found_partial` | Classical.choice, Quot.sound, propext |
| C129 | `LAM.Props.C129_follows_chain_partial` | Classical.choice, Quot.sound, propext |
| C130 | `LAM.Props.C130_refuted` | Classical.choice, Quot.sound, propext |
| C130 | `LAM.Props.C130_untracked_refuted` | Classical.choice, Quot.sound, propext |
| C130 | `LAM.Props.C130_listener_partial` | Classical.choice, Quot.sound, propext |
| C131 | `LAM.Props.C131_refuted` | Classical.choice, Quot.sound, propext |
| C131 | `LAM.Props.C131_skipping_refuted` | Classical.choice, Quot.sound, propext |
| C131 | `LAM.Props.C131_finalized_partial` | Classical.choice, Quot.sound, propext |
| C131 | `LAM.Props.C131_confirmed_partial` | Classical.choice, Quot.sound, propext |
| C132 | `LAM.Props.C132_refuted` | Classical.choice, Quot.sound, propext |
| C132 | `LAM.Props.C132_refuted_read` | Quot.sound, propext |
| C132 | `LAM.Props.C132_news_partial` | Classical.choice, Quot.sound, propext |
| C132 | `LAM.Props.C132_false_unchanged_partial` | Classical.choice, Quot.sound, propext |
| C132 | `LAM.Props.C132_taken` | Quot.sound, propext |
| C132 | `LAM.Props.C132_finalized_always` | Quot.sound, propext |
| C133 | `LAM.Props.C133_refuted` | Classical.choice, Quot.sound, propext |
| C133 | `LAM.Props.C133_refuted_reported` | Classical.choice, Quot.sound, propext |
| C133 | `LAM.Props.C133_kept_out_partial` | Classical.choice, Quot.sound, propext |
| C134 | `LAM.Props.C134_confirmed` | Classical.choice, Quot.sound, propext |
| C134 | `LAM.Props.C134_finalized` | Classical.choice, Quot.sound, propext |
| C134 | `LAM.Props.C134_notified_twice` | Classical.choice, Quot.sound, propext |
| C134 | `LAM.Props.C134_not_alone` | Classical.choice, Quot.sound, propext |
| C135 | `LAM.Props.C135_partial` | Classical.choice, Quot.sound, propext |
| C135 | `LAM.Props.C135_entries` | Classical.choice, Quot.sound, propext |
| C135 | `LAM.Props.C135_counts_removed` | Classical.choice, Quot.sound, propext |
| C135 | `LAM.Props.C135_refuted` | Classical.choice, Quot.sound, propext |
| C136 | `LAM.Props.C136_partial` | Classical.choice, Quot.sound, propext |
| C136 | `LAM.Props.C136_goes_back` | propext |
| C136 | `LAM.Props.C136_refuted` | propext |
| C137 | `LAM.Props.C137_partial` | Classical.choice, Quot.sound, propext |
| C137 | `LAM.Props.C137_records` | Classical.choice, Quot.sound, propext |
| C137 | `LAM.Props.C137_refuted` | Classical.choice, Quot.sound, propext |
| C138 | `LAM.Props.C138_partial` | Classical.choice, Quot.sound, propext |
| C138 | `LAM.Props.C138_refuted` | Classical.choice, Quot.sound, propext |
| C139 | `LAM.Props.C139_partial` | Classical.choice, Quot.sound, propext |
| C139 | `LAM.Props.C139_negative` | Classical.choice, Quot.sound, propext |
| C139 | `LAM.Props.C139_snapshot` | Quot.sound, propext |
| C139 | `LAM.Props.C139_refuted` | Quot.sound, propext |
| C140 | `LAM.Props.C140_apart_partial` | Classical.choice, Quot.sound, propext |
| C140 | `LAM.Props.C140_refuted` | Classical.choice, Quot.sound, propext |
| C141 | `LAM.Props.C141_reads_do_not_go_back` | Classical.choice, Quot.sound, propext |
| C141 | `LAM.Props.C141_updates_are_not_lost` | Classical.choice, Quot.sound, propext |
| C141 | `LAM.Props.C141_queries_do_not_go_back` | Classical.choice, Quot.sound, propext |
| C141 | `LAM.Props.C141_queries_show_updates` | Classical.choice, Quot.sound, propext |
| C141 | `LAM.Props.C141_weaker_commitments_are_not_behind` | Classical.choice, Quot.sound, propext |
| C142 | `LAM.Props.C142_confirmed_reads` | Classical.choice, Quot.sound, propext |
| C142 | `LAM.Props.C142_confirmed_queries` | Classical.choice, Quot.sound, propext |
| C142 | `LAM.Props.C142_finalized_reads` | Classical.choice, Quot.sound, propext |
| C142 | `LAM.Props.C142_finalized_queries` | Classical.choice, Quot.sound, propext |
| C142 | `LAM.Props.C142_reports` | Classical.choice, Quot.sound, propext |
| C143 | `LAM.Props.C143_confirmed_reads` | Classical.choice, Quot.sound, propext |
| C143 | `LAM.Props.C143_confirmed_queries` | Classical.choice, Quot.sound, propext |
| C143 | `LAM.Props.C143_finalized_reads` | Classical.choice, Quot.sound, propext |
| C143 | `LAM.Props.C143_finalized_queries` | Classical.choice, Quot.sound, propext |
| C143 | `LAM.Props.C143_processed_reads` | Classical.choice, Quot.sound, propext |
| C143 | `LAM.Props.C143_finalized_reports` | Classical.choice, Quot.sound, propext |
| C144 | `LAM.Props.C144_reports` | Classical.choice, Quot.sound, propext |
| C144 | `LAM.Props.C144_processed_reads` | Classical.choice, Quot.sound, propext |
| C145 | `LAM.Props.C145_partial` | Classical.choice, Quot.sound, propext |
| C145 | `LAM.Props.C145_refuted` | Classical.choice, Quot.sound, propext |
| C146 | `LAM.Props.C146_reads` | Classical.choice, Quot.sound, propext |
| C147 | `LAM.Props.C147_first` | Classical.choice, Quot.sound, propext |
| C147 | `LAM.Props.C147_further` | Classical.choice, Quot.sound, propext |
| C148 | `LAM.Props.C148_reports` | Classical.choice, Quot.sound, propext |
| C149 | `LAM.Props.C149_count` | Classical.choice, Quot.sound, propext |
| C149 | `LAM.Props.C149_one_report` | Classical.choice, Quot.sound, propext |
| C149 | `LAM.Props.C149_once_in_report` | Classical.choice, Quot.sound, propext |
| C150 | `LAM.Props.C150_count` | Classical.choice, Quot.sound, propext |
| C150 | `LAM.Props.C150_one_report` | Classical.choice, Quot.sound, propext |
| C150 | `LAM.Props.C150_once_in_report` | Classical.choice, Quot.sound, propext |
| C151 | `LAM.Props.C151_reads` | Classical.choice, Quot.sound, propext |
| C151 | `LAM.Props.C151_meanwhile` | Classical.choice, Quot.sound, propext |
| C151 | `LAM.Props.C151_queries` | Classical.choice, Quot.sound, propext |
| C151 | `LAM.Props.C151_at_rest` | Classical.choice, Quot.sound, propext |
| C152 | `LAM.Props.C152_meanwhile` | Classical.choice, Quot.sound, propext |
| C152 | `LAM.Props.C152_reads` | Classical.choice, Quot.sound, propext |
| C152 | `LAM.Props.C152_queries` | Classical.choice, Quot.sound, propext |
| C153 | `LAM.Props.C153_tracked` | Classical.choice, Quot.sound, propext |
| C153 | `LAM.Props.C153_answers` | Classical.choice, Quot.sound, propext |
| C153 | `LAM.Props.C153_updates` | Classical.choice, Quot.sound, propext |
| C153 | `LAM.Props.C153_refused` | Classical.choice, Quot.sound, propext |
| C154 | `LAM.Props.C154_entries` | Quot.sound, propext |
| C154 | `LAM.Props.C154_one_entry` | Classical.choice, Quot.sound, propext |
| C154 | `LAM.Props.C154_states` | Classical.choice, Quot.sound, propext |
| C154 | `LAM.Props.C154_none_leave` | Classical.choice, Quot.sound, propext |
| C155 | `LAM.Props.C155_tracked` | Classical.choice, Quot.sound, propext |
| C155 | `LAM.Props.C155_listed` | Classical.choice, Quot.sound, propext |
| C155 | `LAM.Props.C155_read` | Classical.choice, Quot.sound, propext |
| C155 | `LAM.Props.C155_query` | Classical.choice, Quot.sound, propext |
| C156 | `LAM.Props.C156_get` | Classical.choice, Quot.sound, propext |
| C156 | `LAM.Props.C156_query_partial` | Classical.choice, Quot.sound, propext |
| C156 | `LAM.Props.C156_refuted` | Classical.choice, Quot.sound, propext |
| C157 | `LAM.Props.C157_get` | Classical.choice, Quot.sound, propext |
| C157 | `LAM.Props.C157_finalized` | Classical.choice, Quot.sound, propext |
| C158 | `LAM.Props.C158_query` | Classical.choice, Quot.sound, propext |
| C159 | `LAM.Props.C159_finalized` | Classical.choice, Quot.sound, propext |
| C159 | `LAM.Props.C159_get` | Classical.choice, Quot.sound, propext |
| C160 | `LAM.Props.C160_mints` | Classical.choice, Quot.sound, propext |
| C160 | `LAM.Props.C160_multisigs` | Classical.choice, Quot.sound, propext |
