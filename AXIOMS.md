# Axioms of the theorems in MANIFEST.json

Generated by `tools/gen_axioms.py` from `#print axioms`.

| theorem | axioms |
|---|---|
| Dragonstash.Blocklist.C01_mark_partial | propext, Classical.choice, Quot.sound |
| Dragonstash.Blocklist.C01_blocks_partial | propext, Classical.choice, Quot.sound |
| Dragonstash.Blocklist.C01_present_partial | propext, Classical.choice, Quot.sound |
| Dragonstash.Blocklist.C01_exact | propext, Classical.choice, Quot.sound |
| Dragonstash.Blocklist.C01_counterexample | propext, Classical.choice, Quot.sound |
| Dragonstash.Blocklist.C01_before_counterexample | propext |
| Dragonstash.Blocklist.C01_last_block_counterexample | propext |
| Dragonstash.Blocklist.C02_history_partial | propext, Classical.choice, Quot.sound |
| Dragonstash.Blocklist.C02_single_blocks_partial | propext, Classical.choice, Quot.sound |
| Dragonstash.Blocklist.C02_blocks_partial | propext, Classical.choice, Quot.sound |
| Dragonstash.Blocklist.C02_no_absent | propext, Classical.choice, Quot.sound |
| Dragonstash.Blocklist.C02_sound_partial | propext, Classical.choice, Quot.sound |
| Dragonstash.Blocklist.C02_unskipped_partial | propext, Classical.choice, Quot.sound |
| Dragonstash.Blocklist.C02_counterexample | propext, Classical.choice, Quot.sound |
| Dragonstash.Blocklist.C02_counterexample_present | propext |
| Dragonstash.Blocklist.C03_counters_partial | propext, Classical.choice, Quot.sound |
| Dragonstash.Blocklist.C03_at_least_partial | propext, Classical.choice, Quot.sound |
| Dragonstash.Blocklist.C03_exact | propext, Classical.choice, Quot.sound |
| Dragonstash.Blocklist.C03_counterexample | propext, Classical.choice, Quot.sound |
| Dragonstash.Blocklist.C04_fsck_partial | propext, Classical.choice, Quot.sound |
| Dragonstash.Blocklist.C04_exact | propext, Classical.choice, Quot.sound |
| Dragonstash.Blocklist.C04_counterexample | propext, Classical.choice, Quot.sound |
| Dragonstash.Blocklist.C05_fsck_partial | propext, Classical.choice, Quot.sound |
| Dragonstash.Blocklist.C05_counterexample | propext |
| Dragonstash.Blocklist.C06_maintenance | propext, Classical.choice, Quot.sound |
| Dragonstash.Blocklist.C06_shrink_any_file | propext, Quot.sound |
| Dragonstash.Blocklist.C06_fsck_any_file | propext, Quot.sound |
| Dragonstash.Blocklist.C06_truncate_access_counterexample | propext |
| Dragonstash.Blocklist.C07_shrink | propext, Classical.choice, Quot.sound |
| Dragonstash.Blocklist.C07_shrink_any_file | propext, Quot.sound |
| Dragonstash.Blocklist.C07_odd_size_counterexample | none |
| Dragonstash.Blocklist.C08_no_crash | propext, Classical.choice, Quot.sound |
| Dragonstash.Blocklist.C08_wrap_counterexample | propext |
| Dragonstash.Blocklist.C09_truncate_partial | propext, Classical.choice, Quot.sound |
| Dragonstash.Blocklist.C09_exact | propext, Classical.choice, Quot.sound |
| Dragonstash.Blocklist.C09_unaligned_counterexample | propext, Classical.choice, Quot.sound |
| Dragonstash.Blocklist.C09_stale_counterexample | propext |
| Dragonstash.Blocklist.C10_truncate_partial | propext, Classical.choice, Quot.sound |
| Dragonstash.Blocklist.C10_whole | propext, Classical.choice, Quot.sound |
| Dragonstash.Blocklist.C10_exact | propext, Classical.choice, Quot.sound |
| Dragonstash.Blocklist.C10_counterexample | propext, Classical.choice, Quot.sound |
| Dragonstash.Blocklist.C10_crash_counterexample | propext |
| Dragonstash.Blocklist.C10_overlap_counterexample | propext |
| Dragonstash.Blocklist.C11_reopen | propext, Classical.choice, Quot.sound |
| Dragonstash.Blocklist.C11_open_empty | propext, Quot.sound |
| Dragonstash.Blocklist.C11_reject | none |
| Dragonstash.Blocklist.C12_pieces | propext, Classical.choice, Quot.sound |
| Dragonstash.Blocklist.C12_covers_partial | propext, Classical.choice, Quot.sound |
| Dragonstash.Blocklist.C12_covers_present | propext, Classical.choice, Quot.sound |
| Dragonstash.RefMap.C13_count | propext, Classical.choice, Quot.sound |
| Dragonstash.RefMap.C13_decrement | propext, Classical.choice, Quot.sound |
| Dragonstash.RefMap.C13_increment | propext |
| Dragonstash.RefMap.C13_others | propext, Quot.sound |
| Dragonstash.Refs.C13_table | propext, Quot.sound |
| Dragonstash.RefMap.C14_exclusive | propext, Quot.sound |
| Dragonstash.RefMap.C14_doom | propext, Classical.choice, Quot.sound |
| Dragonstash.RefMap.C14_doomed_forever | propext, Classical.choice, Quot.sound |
| Dragonstash.RefMap.C14_doomed_iff | propext, Quot.sound |
| Dragonstash.Hooks.C15_commit | propext |
| Dragonstash.Hooks.C16_failure | propext, Classical.choice, Quot.sound |
| Dragonstash.Hooks.C16_exhaustive | none |
| Dragonstash.Hooks.C16_abort | propext, Classical.choice, Quot.sound |
| Dragonstash.Hooks.C17_nested_commit | propext, Classical.choice, Quot.sound |
| Dragonstash.Hooks.C17_flat | propext, Classical.choice, Quot.sound |
| Dragonstash.Hooks.C17_nested_abort | propext, Classical.choice, Quot.sound |
| Dragonstash.Codec.C35_inode_roundtrip | propext, Quot.sound |
| Dragonstash.Codec.C35_direntry_roundtrip | propext, Quot.sound |
| Dragonstash.Codec.C35_inode_total | propext, Quot.sound |
| Dragonstash.Codec.C35_direntry_total | propext, Quot.sound |
| Dragonstash.Codec.C35_keys | propext, Quot.sound |
| Dragonstash.Cache.C18_emplace_partial | propext, Classical.choice, Quot.sound |
| Dragonstash.Cache.C18_entry_kept | propext, Classical.choice, Quot.sound |
| Dragonstash.Cache.C18_absent_kept | propext, Classical.choice, Quot.sound |
| Dragonstash.Cache.C18_transactions | propext, Classical.choice, Quot.sound |
| Dragonstash.Cache.C18_orphan_counterexample | propext, Classical.choice, Quot.sound |
| Dragonstash.Cache.C19_same_inode | propext, Classical.choice, Quot.sound |
| Dragonstash.Cache.C19_new_inode | propext, Classical.choice, Quot.sound |
| Dragonstash.Cache.C19_attributes | propext, Classical.choice, Quot.sound |
| Dragonstash.Cache.C19_no_flags | propext, Quot.sound |
| Dragonstash.Cache.C21_lookup | propext, Classical.choice, Quot.sound |
| Dragonstash.Cache.C21_parent | propext, Classical.choice, Quot.sound |
| Dragonstash.Cache.C21_missing | propext, Classical.choice, Quot.sound |
| Dragonstash.Cache.C21_name_in | propext, Classical.choice, Quot.sound |
| Dragonstash.Cache.C22_path | propext, Classical.choice, Quot.sound |
| Dragonstash.Cache.C22_names | propext, Classical.choice, Quot.sound |
| Dragonstash.Cache.C22_cycle_counterexample | propext, Classical.choice, Quot.sound |
| Dragonstash.Cache.C23_consistent | propext, Classical.choice, Quot.sound |
| Dragonstash.Cache.C23_directories | propext, Classical.choice, Quot.sound |
| Dragonstash.Cache.C23_invalid_parent_counterexample | propext, Classical.choice, Quot.sound |
| Dragonstash.Cache.C24_unlink_inode | propext, Classical.choice, Quot.sound |
| Dragonstash.Cache.C24_unlink_name | propext, Classical.choice, Quot.sound |
| Dragonstash.Cache.C24_missing | propext, Classical.choice, Quot.sound |
| Dragonstash.Cache.C24_not_listed | propext, Classical.choice, Quot.sound |
| Dragonstash.Cache.C25_step | propext, Classical.choice, Quot.sound |
| Dragonstash.Cache.C25_locked_survive | propext, Classical.choice, Quot.sound |
| Dragonstash.Cache.C26_clean | propext, Classical.choice, Quot.sound |
| Dragonstash.Cache.C26_safe | propext, Classical.choice, Quot.sound |
| Dragonstash.Cache.C27_readdir_partial | propext, Classical.choice, Quot.sound |
| Dragonstash.Cache.C27_unique | none |
| Dragonstash.Cache.C27_orphan_counterexample | propext, Classical.choice, Quot.sound |
| Dragonstash.Cache.C28_writelink | propext, Classical.choice, Quot.sound |
| Dragonstash.Cache.C28_writelink_result | propext, Classical.choice, Quot.sound |
| Dragonstash.Cache.C28_kept | propext, Classical.choice, Quot.sound |
| Dragonstash.Cache.C28_readlink | propext, Classical.choice, Quot.sound |
| Dragonstash.Cache.C30_update | propext, Classical.choice, Quot.sound |
| Dragonstash.Cache.C30_missing | propext, Classical.choice, Quot.sound |
| Dragonstash.Cache.C30_kept | propext, Classical.choice, Quot.sound |
| Dragonstash.Cache.C33_names | propext, Classical.choice, Quot.sound |
| Dragonstash.Cache.C33_rejected | propext, Classical.choice, Quot.sound |
| Dragonstash.Cache.C33_accepted | propext, Classical.choice, Quot.sound |
| Dragonstash.Cache.C34_root | propext, Classical.choice, Quot.sound |
| Dragonstash.Cache.C34_unlink | propext, Classical.choice, Quot.sound |
| Dragonstash.Cache.C34_no_entry | propext, Classical.choice, Quot.sound |
| Dragonstash.Cache.C20_never_reused | propext, Classical.choice, Quot.sound |
| Dragonstash.Cache.C20_complete | propext, Classical.choice, Quot.sound |
| Dragonstash.Cache.C20_step | propext, Classical.choice, Quot.sound |
| Dragonstash.Cache.C31_abort_partial | propext, Classical.choice, Quot.sound |
| Dragonstash.Cache.C31_no_removal_partial | propext, Classical.choice, Quot.sound |
| Dragonstash.Cache.C31_read_only | propext, Classical.choice, Quot.sound |
| Dragonstash.Cache.C31_counterexample | propext, Classical.choice, Quot.sound |
| Dragonstash.Cache.C31_stale_counterexample | propext, Classical.choice, Quot.sound |
| Dragonstash.Cache.C31_assert_counterexample | propext, Classical.choice, Quot.sound |
| Dragonstash.Cache.C32_committed | propext, Classical.choice, Quot.sound |
| Dragonstash.Cache.C32_reopen | propext, Classical.choice, Quot.sound |
| Dragonstash.Cache.C32_reopen_again | propext, Classical.choice, Quot.sound |
| Dragonstash.Cache.C32_fresh | propext, Classical.choice, Quot.sound |
| Dragonstash.Cache.C29_entries | propext, Classical.choice, Quot.sound |
| Dragonstash.Cache.C29_keeps_inode | propext, Classical.choice, Quot.sound |
| Dragonstash.Cache.C29_others | propext, Classical.choice, Quot.sound |
| Dragonstash.Cache.C29_clear | propext, Classical.choice, Quot.sound |
| Dragonstash.Cache.C29_returns | propext, Classical.choice, Quot.sound |
| Dragonstash.FS.C37_nothing_changes | propext, Classical.choice, Quot.sound |
| Dragonstash.FS.C37_found | propext, Classical.choice, Quot.sound |
| Dragonstash.FS.C37_absent | propext, Classical.choice, Quot.sound |
| Dragonstash.FS.C37_synced_by_opendir | propext, Classical.choice, Quot.sound |
| Dragonstash.FS.C37_readlink | propext, Classical.choice, Quot.sound |
| Dragonstash.FS.C38_lookup | propext, Classical.choice, Quot.sound |
| Dragonstash.FS.C38_offline | propext, Classical.choice, Quot.sound |
| Dragonstash.FS.C38_readlink | propext, Classical.choice, Quot.sound |
| Dragonstash.FS.C38_opendir | propext, Classical.choice, Quot.sound |
| Dragonstash.FS.C40_at_least | propext, Classical.choice, Quot.sound |
| Dragonstash.FS.C40_full | propext, Classical.choice, Quot.sound |
| Dragonstash.FS.C40_counterexample | propext, Classical.choice, Quot.sound |
| Dragonstash.FS.C40_step | propext, Classical.choice, Quot.sound |
| Dragonstash.FS.C40_step_exact | propext, Classical.choice, Quot.sound |
| Dragonstash.FS.C40_exact | propext, Classical.choice, Quot.sound |
| Dragonstash.FS.C40_histories | propext, Classical.choice, Quot.sound |
| Dragonstash.FS.C40_readdirplus | propext, Classical.choice, Quot.sound |
| Dragonstash.FS.C40_exact_partial | propext, Classical.choice, Quot.sound |
| Dragonstash.FS.C40_removed | propext, Classical.choice, Quot.sound |
| Dragonstash.FS.C40_restart | propext, Classical.choice, Quot.sound |
| Dragonstash.FS.C41_full | propext, Classical.choice, Quot.sound |
| Dragonstash.FS.C41_counterexample | propext, Classical.choice, Quot.sound |
| Dragonstash.FS.C41_releasedir_counterexample | propext, Classical.choice, Quot.sound |
| Dragonstash.FS.C41_one_reply_partial | propext, Classical.choice, Quot.sound |
| Dragonstash.FS.C41_sent | propext, Classical.choice, Quot.sound |
| Dragonstash.FS.C42_held_exists | propext, Classical.choice, Quot.sound |
| Dragonstash.FS.C42_format | propext, Classical.choice, Quot.sound |
| Dragonstash.FS.C39_entries | propext, Classical.choice, Quot.sound |
| Dragonstash.FS.C39_others | propext, Classical.choice, Quot.sound |
| Dragonstash.FS.C39_paths | propext, Quot.sound |
| Dragonstash.FS.C39_full | propext, Classical.choice, Quot.sound |
| Dragonstash.FS.C39_counterexample | propext, Classical.choice, Quot.sound |
| Dragonstash.FS.C39_lost_counterexample | propext, Classical.choice, Quot.sound |
| Dragonstash.FS.C39_mirror_partial | propext, Classical.choice, Quot.sound |
| Dragonstash.FS.C43_paging | propext, Classical.choice, Quot.sound |
| Dragonstash.FS.C43_paging_plus | propext, Classical.choice, Quot.sound |
| Dragonstash.FS.C43_page_size | propext, Classical.choice, Quot.sound |
| Dragonstash.FS.C43_reply_size | propext, Classical.choice, Quot.sound |
| Dragonstash.FS.C43_exact_size | propext, Classical.choice, Quot.sound |
| Dragonstash.FS.C36_stored | propext, Classical.choice, Quot.sound |
| Dragonstash.FS.C36_kept | propext, Classical.choice, Quot.sound |
| Dragonstash.FS.C36_offline | propext, Classical.choice, Quot.sound |
| Dragonstash.FS.C44_lookup | propext, Classical.choice, Quot.sound |
| Dragonstash.InMem.C45_write | propext, Quot.sound |
| Dragonstash.InMem.C45_read | propext, Quot.sound |
| Dragonstash.InMem.C45_negative | none |
| Dragonstash.InMem.C45_history | propext, Classical.choice, Quot.sound |
| Dragonstash.InMem.C45_overflow_counterexample | none |
| Dragonstash.InMem.C46_found | propext, Quot.sound |
| Dragonstash.InMem.C46_errors | propext, Quot.sound |
| Dragonstash.InMem.C46_relative | propext, Quot.sound |
| Dragonstash.InMem.C52_lookup | propext, Classical.choice, Quot.sound |
| Dragonstash.InMem.C52_list | propext, Classical.choice, Quot.sound |
| Dragonstash.InMem.C52_offline | propext, Quot.sound |
| Dragonstash.InMem.C52_disconnected | propext, Classical.choice, Quot.sound |
| Dragonstash.Local.C47_mapping | propext, Quot.sound |
| Dragonstash.Local.C47_rejects | propext |
| Dragonstash.Local.C47_lookup | propext, Classical.choice, Quot.sound |
| Dragonstash.Local.C47_readlink | propext, Classical.choice, Quot.sound |
| Dragonstash.Local.C47_opendir_partial | propext, Classical.choice, Quot.sound |
| Dragonstash.Local.C47_others | propext, Classical.choice, Quot.sound |
| Dragonstash.Local.C47_full | propext, Classical.choice, Quot.sound |
| Dragonstash.Local.C47_counterexample | propext, Classical.choice, Quot.sound |
| Dragonstash.Local.C53_full | none |
| Dragonstash.Local.C53_counterexample | none |
| Dragonstash.Local.C53_readlink_partial | propext |
| Dragonstash.Local.C53_error | none |
| Dragonstash.Local.C53_prefix | none |
| Dragonstash.Local.C53_not_a_link_counterexample | none |
| Dragonstash.Local.C53_short_counterexample | none |
| Dragonstash.Handles.C48_filehandle | propext, Quot.sound |
| Dragonstash.Handles.C48_all_closed | propext, Quot.sound |
| Dragonstash.Handles.C48_localfile_full | none |
| Dragonstash.Handles.C48_localfile_counterexample | none |
| Dragonstash.Handles.C48_localfile_failed_counterexample | none |
| Dragonstash.Handles.C48_localfile_partial | none |
| Dragonstash.Handles.C48_localdir | none |
| Dragonstash.FuseReq.C49_once | propext, Quot.sound |
| Dragonstash.FuseReq.C49_all_answered | propext, Quot.sound |
| Dragonstash.FuseReq.C49_closed | propext |
| Dragonstash.FuseReq.C49_twice | propext, Quot.sound |
| Dragonstash.FuseReq.C49_none_counterexample | propext |
| Dragonstash.FuseReq.C49_default_error | propext, Quot.sound |
| Dragonstash.FuseReq.C49_swap_counterexample | propext, Quot.sound |
| Dragonstash.Conc.C50_locked | propext, Classical.choice, Quot.sound |
| Dragonstash.Conc.C50_count | propext, Classical.choice, Quot.sound |
| Dragonstash.Conc.C50_kept | propext, Classical.choice, Quot.sound |
| Dragonstash.Conc.C51_no_deadlock | propext, Classical.choice, Quot.sound |
| Dragonstash.Conc.C51_no_cycle | propext, Classical.choice, Quot.sound |
| Dragonstash.Conc.C51_waits | propext, Classical.choice, Quot.sound |
| Dragonstash.Conc.C51_deadlk | propext, Classical.choice, Quot.sound |
| Dragonstash.Conc.C51_no_deadlk | propext, Classical.choice, Quot.sound |
| Dragonstash.Conc.C51_ends | propext, Classical.choice, Quot.sound |
| Dragonstash.Conc.C51_mutex_throws | propext, Classical.choice, Quot.sound |
| Dragonstash.Conc.C51_mutex_self | propext, Classical.choice, Quot.sound |
| Dragonstash.Conc.C51_mutex_excl | propext, Classical.choice, Quot.sound |
| Dragonstash.Conc.C54_table | propext, Classical.choice, Quot.sound |
| Dragonstash.Conc.C54_writer | propext, Classical.choice, Quot.sound |
| Dragonstash.Conc.C55_serial | propext, Classical.choice, Quot.sound |
| Dragonstash.Conc.C55_open | propext, Classical.choice, Quot.sound |
| Dragonstash.Conc.C55_covers | propext, Classical.choice, Quot.sound |
| Dragonstash.Conc.C56_snapshot | propext, Classical.choice, Quot.sound |
| Dragonstash.Conc.C56_answers | propext, Classical.choice, Quot.sound |
| Dragonstash.MT.C57_serial | propext, Classical.choice, Quot.sound |
| Dragonstash.MT.C57_quiet | propext, Classical.choice, Quot.sound |
| Dragonstash.MT.C57_answers | propext, Classical.choice, Quot.sound |
| Dragonstash.MT.C57_order | propext, Classical.choice, Quot.sound |
| Dragonstash.MT.C58_counts | propext, Classical.choice, Quot.sound |
| Dragonstash.MT.C58_exists | propext, Classical.choice, Quot.sound |
| Dragonstash.MT.C58_getattr | propext, Classical.choice, Quot.sound |
| Dragonstash.MT.C59_full | propext, Classical.choice, Quot.sound |
| Dragonstash.MT.C59_counterexample | propext, Classical.choice, Quot.sound |
| Dragonstash.MT.C59_lives_partial | propext, Classical.choice, Quot.sound |
| Dragonstash.MT.C59_progress_partial | propext, Classical.choice, Quot.sound |
| Dragonstash.MT.C59_mutex | propext, Classical.choice, Quot.sound |
| Dragonstash.MT.C59_finite | propext, Classical.choice, Quot.sound |
| Dragonstash.FS.C60_online | propext, Classical.choice, Quot.sound |
| Dragonstash.FS.C60_lookup | propext, Classical.choice, Quot.sound |
| Dragonstash.FS.C60_getattr | propext, Classical.choice, Quot.sound |
| Dragonstash.FS.C60_readlink | propext, Classical.choice, Quot.sound |
| Dragonstash.FS.C60_listing | propext, Classical.choice, Quot.sound |
| Dragonstash.InMem.C61_new | propext |
| Dragonstash.InMem.C61_emplace | propext, Classical.choice, Quot.sound |
| Dragonstash.InMem.C61_existing | propext, Classical.choice, Quot.sound |
| Dragonstash.InMem.C61_remove | propext, Classical.choice, Quot.sound |
| Dragonstash.InMem.C61_update | propext, Classical.choice, Quot.sound |
| Dragonstash.InMem.C61_full | none |
| Dragonstash.InMem.C61_counterexample | propext, Classical.choice, Quot.sound |
| Dragonstash.InMem.C61_ref_partial | none |
| Dragonstash.InMem.C62_calls | propext, Quot.sound |
| Dragonstash.InMem.C62_nothing | propext, Quot.sound |
| Dragonstash.InMem.C62_disconnected | propext, Quot.sound |
| Dragonstash.Cache.C63_listing | propext, Classical.choice, Quot.sound |
| Dragonstash.FS.C63_paging | propext, Classical.choice, Quot.sound |
| Dragonstash.Cache.C64_reads | propext, Classical.choice, Quot.sound |
| Dragonstash.Cache.C64_failed | propext, Classical.choice, Quot.sound |
| Dragonstash.Cache.C64_done | propext, Classical.choice, Quot.sound |
| Dragonstash.Cache.C64_locks | propext, Classical.choice, Quot.sound |
| Dragonstash.Cache.C64_last_release | propext, Classical.choice, Quot.sound |
| Dragonstash.Cache.C64_emplace | propext, Classical.choice, Quot.sound |
| Dragonstash.Cache.C64_writelink | propext, Classical.choice, Quot.sound |
| Dragonstash.Cache.C64_returns | propext, Classical.choice, Quot.sound |
| Dragonstash.FS.C65_readdir | propext, Classical.choice, Quot.sound |
| Dragonstash.FS.C65_readdirplus | propext, Classical.choice, Quot.sound |
| Dragonstash.FS.C65_attributes | propext |
| Dragonstash.FS.C65_errors | propext, Classical.choice, Quot.sound |
| Dragonstash.FS.C65_no_name | propext, Quot.sound |
| Dragonstash.FS.C65_counterexample | propext, Classical.choice, Quot.sound |
| Dragonstash.DirBuf.C65_buffer | propext, Quot.sound |
| Dragonstash.DirBuf.C65_buffer_plus | propext, Classical.choice, Quot.sound |
| Dragonstash.Cache.C66_layout | propext, Classical.choice, Quot.sound |
| Dragonstash.Cache.C66_records | propext, Classical.choice, Quot.sound |
| Dragonstash.Cache.C66_transfer | propext, Classical.choice, Quot.sound |
| Dragonstash.Cache.C67_full | none |
| Dragonstash.Cache.C67_counterexample | propext, Classical.choice, Quot.sound |
| Dragonstash.Cache.C67_partial | propext, Classical.choice, Quot.sound |
| Dragonstash.Cache.C67_inode | propext, Quot.sound |
| Dragonstash.Cache.C67_entries | propext, Classical.choice, Quot.sound |
| Dragonstash.Blocklist.C68_same_mark | propext, Quot.sound |
| Dragonstash.Blocklist.C68_full | propext |
| Dragonstash.Blocklist.C68_counterexample | propext, Quot.sound |
| Dragonstash.Blocklist.C68_crash_partial | propext, Classical.choice, Quot.sound |
| Dragonstash.Blocklist.C68_history_partial | propext, Classical.choice, Quot.sound |
| Dragonstash.Blocklist.C69_full | propext |
| Dragonstash.Blocklist.C69_counterexample | propext, Quot.sound |
| Dragonstash.Blocklist.C69_before_partial | propext, Classical.choice, Quot.sound |
| Dragonstash.Blocklist.C70_full | none |
| Dragonstash.Blocklist.C70_counterexample | propext, Quot.sound |
| Dragonstash.Blocklist.C70_open_partial | propext, Quot.sound |
| Dragonstash.Err.C71_full | none |
| Dragonstash.Err.C71_counterexample | none |
| Dragonstash.Err.C71_success | propext, Quot.sound |
| Dragonstash.Err.C71_failure_partial | propext, Quot.sound |
| Dragonstash.Err.C71_converted | propext |
| Dragonstash.Err.C71_zero | none |
| Dragonstash.Err.C71_void | none |
| Dragonstash.Fuse.C72_unsupported | propext, Classical.choice, Quot.sound |
| Dragonstash.Fuse.C72_read_only | propext, Classical.choice, Quot.sound |
| Dragonstash.Fuse.C72_supported | propext, Classical.choice, Quot.sound |
| Dragonstash.Fuse.C72_history | propext, Classical.choice, Quot.sound |
| Dragonstash.Main.C73_cleanup | propext, Quot.sound |
| Dragonstash.Main.C73_serves | propext, Quot.sound |
| Dragonstash.Main.C73_full | propext |
| Dragonstash.Main.C73_counterexample | propext |
| Dragonstash.Main.C73_inverted | propext |
| Dragonstash.Main.C73_sftp | propext |
| Dragonstash.Main.C73_status_partial | propext |
| Dragonstash.Local.C74_full | none |
| Dragonstash.Local.C74_counterexample | none |
| Dragonstash.Local.C74_listing_partial | propext |
| Dragonstash.Local.C74_backend | propext |
| Dragonstash.Local.C74_lost_counterexample | propext, Classical.choice, Quot.sound |
| Dragonstash.Local.C75_full | none |
| Dragonstash.Local.C75_counterexample | propext |
| Dragonstash.Local.C75_descriptor_partial | propext, Quot.sound |
| Dragonstash.Local.C75_answer | propext, Quot.sound |
| Dragonstash.Blocklist.C76_same | propext, Quot.sound |
| Dragonstash.Blocklist.C76_room | propext, Quot.sound |
| Dragonstash.Blocklist.C76_full | propext |
| Dragonstash.Blocklist.C76_counterexample | propext, Quot.sound |
| Dragonstash.Blocklist.C76_reads_partial | propext, Classical.choice, Quot.sound |
| Dragonstash.Blocklist.C76_noticed | propext, Classical.choice, Quot.sound |
| Dragonstash.Blocklist.C76_absent | propext, Classical.choice, Quot.sound |
| Dragonstash.MT.C77_shown | propext, Classical.choice, Quot.sound |
| Dragonstash.MT.C78_right | propext, Classical.choice, Quot.sound |
| Dragonstash.MT.C79_kept | propext, Classical.choice, Quot.sound |
| Dragonstash.MT.C79_offline | propext, Classical.choice, Quot.sound |
| Dragonstash.BMap.C80_full | propext |
| Dragonstash.BMap.C80_counterexample | propext |
| Dragonstash.BMap.C80_crash_partial | propext, Quot.sound |
| Dragonstash.BMap.C80_reported | propext, Quot.sound |
| Dragonstash.BMap.C80_recovers | propext, Quot.sound |
| Dragonstash.BMap.C80_given_back | propext, Quot.sound |
| Dragonstash.CachedDir.C81_full | propext |
| Dragonstash.CachedDir.C81_counterexample | propext |
| Dragonstash.CachedDir.C81_reads_partial | propext, Quot.sound |
| Dragonstash.CachedDir.C81_one_partial | propext, Quot.sound |
| Dragonstash.CachedDir.C81_seek | propext, Quot.sound |
| Dragonstash.CachedDir.C81_safe | propext, Quot.sound |
| Dragonstash.CachedDir.C81_parse | propext, Quot.sound |
| Dragonstash.CachedDir.C81_roundtrip | propext, Quot.sound |
| Dragonstash.Objs.C82_full | none |
| Dragonstash.Objs.C82_counterexample | propext, Quot.sound |
| Dragonstash.Objs.C82_move_partial | propext, Quot.sound |
| Dragonstash.Objs.C82_assign_partial | propext, Quot.sound |
| Dragonstash.Objs.C82_left_behind | propext |
| Dragonstash.Objs.C82_left_behind_destroyed | none |
| Dragonstash.Objs.C82_accounted | propext, Classical.choice, Quot.sound |
| Dragonstash.Objs.C82_all_ended | propext, Classical.choice, Quot.sound |
| Dragonstash.Objs.C82_mutex_counterexample | none |
| Dragonstash.Objs.C82_overwritten_counterexample | none |
| Dragonstash.Objs.C82_null_counterexample | none |
| Dragonstash.FSB.C83_replies | propext, Classical.choice, Quot.sound |
| Dragonstash.FSB.C83_padding | propext, Classical.choice, Quot.sound |
| Dragonstash.FSB.C83_transfer | propext, Classical.choice, Quot.sound |
| Dragonstash.FSB.C83_layout | propext, Classical.choice, Quot.sound |
| Dragonstash.FSB.C83_answered | propext, Classical.choice, Quot.sound |
| Dragonstash.FSB.C83_offline | propext, Classical.choice, Quot.sound |
| Dragonstash.Damaged.C84_full | propext, Classical.choice, Quot.sound |
| Dragonstash.Damaged.C84_counterexample | propext, Classical.choice, Quot.sound |
| Dragonstash.Damaged.C84_hang_counterexample | propext, Classical.choice, Quot.sound |
| Dragonstash.Damaged.C84_path_counterexample | propext, Classical.choice, Quot.sound |
| Dragonstash.Damaged.C84_calls_partial | propext, Classical.choice, Quot.sound |
| Dragonstash.Damaged.C84_handlers | propext, Classical.choice, Quot.sound |
| Dragonstash.Damaged.C84_histories | propext, Classical.choice, Quot.sound |
| Dragonstash.MT.C85_crash | propext, Classical.choice, Quot.sound |
| Dragonstash.MT.C85_committed | propext, Classical.choice, Quot.sound |
| Dragonstash.MT.C85_settled | propext, Classical.choice, Quot.sound |
| Dragonstash.MT.C85_kept | propext, Classical.choice, Quot.sound |
| Dragonstash.MT.C85_offline | propext, Classical.choice, Quot.sound |
| Dragonstash.MTB.C86_transfer | propext, Classical.choice, Quot.sound |
| Dragonstash.MTB.C86_layout | propext, Classical.choice, Quot.sound |
| Dragonstash.MTB.C86_serial | propext, Classical.choice, Quot.sound |
| Dragonstash.MTB.C86_counts | propext, Classical.choice, Quot.sound |
| Dragonstash.MTB.C86_exists | propext, Classical.choice, Quot.sound |
| Dragonstash.MTB.C86_lives | propext, Classical.choice, Quot.sound |
| Dragonstash.MTB.C86_crash | propext, Classical.choice, Quot.sound |
| Dragonstash.MTB.C86_offline | propext, Classical.choice, Quot.sound |
| Dragonstash.Local.C87_lookup | propext, Classical.choice, Quot.sound |
| Dragonstash.Local.C87_readlink | propext, Classical.choice, Quot.sound |
| Dragonstash.Local.C87_full | propext, Classical.choice, Quot.sound |
| Dragonstash.Local.C87_counterexample | propext, Classical.choice, Quot.sound |
| Dragonstash.Local.C87_list_partial | propext, Classical.choice, Quot.sound |
| Dragonstash.Local.C87_gone | propext, Classical.choice, Quot.sound |
| Dragonstash.Local.C87_offline | propext, Classical.choice, Quot.sound |
| Dragonstash.Local.C87_list_offline | propext, Classical.choice, Quot.sound |
| Dragonstash.Local.C87_readlink_offline | propext, Classical.choice, Quot.sound |
| Dragonstash.Local.C87_mirror_lookup | propext, Classical.choice, Quot.sound |
| Dragonstash.Local.C87_mirror_getattr | propext, Classical.choice, Quot.sound |
| Dragonstash.Local.C87_mirror_readlink | propext, Classical.choice, Quot.sound |
| Dragonstash.Local.C87_mirror_listing | propext, Classical.choice, Quot.sound |
| Dragonstash.MT.C88_account | propext, Classical.choice, Quot.sound |
| Dragonstash.MT.C88_once | propext, Classical.choice, Quot.sound |
| Dragonstash.MT.C88_finite | propext, Classical.choice, Quot.sound |
| Dragonstash.MT.C88_full | propext, Classical.choice, Quot.sound |
| Dragonstash.MT.C88_counterexample | propext, Classical.choice, Quot.sound |
| Dragonstash.MT.C88_rest_partial | propext, Classical.choice, Quot.sound |
| Dragonstash.MT.C88_fair_partial | propext, Classical.choice, Quot.sound |
| Dragonstash.MT.C88_readers_partial | propext, Classical.choice, Quot.sound |
| Dragonstash.MT.C88_begins | propext, Classical.choice, Quot.sound |
| Dragonstash.Local.C89_mirror | propext, Classical.choice, Quot.sound |
| Dragonstash.Local.C89_kept | propext, Classical.choice, Quot.sound |
| Dragonstash.Local.C89_same | propext, Classical.choice, Quot.sound |
| Dragonstash.Local.C90_mirror | propext, Classical.choice, Quot.sound |
| Dragonstash.Local.C91_walk | propext, Classical.choice, Quot.sound |
| Dragonstash.Local.HostWalk.det | propext |
| Dragonstash.MT.C92_listing | propext, Classical.choice, Quot.sound |
| Dragonstash.Local.C92_mirror | propext, Classical.choice, Quot.sound |
| Dragonstash.Local.C92_ls | propext, Classical.choice, Quot.sound |
| Dragonstash.MTB.C93_file | propext, Classical.choice, Quot.sound |
| Dragonstash.MTB.C93_walk | propext, Classical.choice, Quot.sound |
| Dragonstash.MTB.C93_ls | propext, Classical.choice, Quot.sound |
| Dragonstash.Local.C94_open | propext, Classical.choice, Quot.sound |
| Dragonstash.Local.C94_kept | propext, Classical.choice, Quot.sound |
| Dragonstash.Local.C94_lookup | propext, Classical.choice, Quot.sound |
| Dragonstash.Local.C94_listing | propext, Classical.choice, Quot.sound |
| Dragonstash.Local.C94_ls | propext, Classical.choice, Quot.sound |
| Dragonstash.Local.C95_links_fit_partial | propext, Classical.choice, Quot.sound |
| Dragonstash.Local.C95_read | propext, Classical.choice, Quot.sound |
| Dragonstash.Local.C95_counterexample | propext, Classical.choice, Quot.sound |
| Dragonstash.Main.C96_absolute_partial | propext |
| Dragonstash.Main.C96_cache | propext |
| Dragonstash.Main.C96_exact | propext, Quot.sound |
| Dragonstash.Main.C96_relative | propext, Classical.choice, Quot.sound |
| Dragonstash.Main.C96_counterexample | propext |
| Dragonstash.Main.C96_serves | propext, Quot.sound |
| Dragonstash.Main.C96_serves_counterexample | propext |
| Dragonstash.Cache.C97_consistent | propext, Classical.choice, Quot.sound |
| Dragonstash.Cache.C97_begin | propext, Classical.choice, Quot.sound |
| Dragonstash.Cache.C97_snapshot | propext, Classical.choice, Quot.sound |
| Dragonstash.Cache.C97_committed | propext, Classical.choice, Quot.sound |
| Dragonstash.Cache.C97_no_lost_update | propext, Classical.choice, Quot.sound |
| Dragonstash.Cache.C97_numbers | propext, Classical.choice, Quot.sound |
| Dragonstash.Cache.C97_open | propext, Classical.choice, Quot.sound |
| Dragonstash.Cache.C97_locks_full | propext, Classical.choice, Quot.sound |
| Dragonstash.Cache.C97_locks_partial | propext, Classical.choice, Quot.sound |
| Dragonstash.Cache.C97_locks_counterexample | propext, Classical.choice, Quot.sound |
| Dragonstash.Cache.C97_unlink_counterexample | propext, Classical.choice, Quot.sound |
| Dragonstash.MemHeap.C98_tree | propext, Classical.choice, Quot.sound |
| Dragonstash.MemHeap.C98_find | propext, Classical.choice, Quot.sound |
| Dragonstash.MemHeap.C98_find_leaf | propext, Quot.sound |
| Dragonstash.MemHeap.C98_connected | propext, Quot.sound |
| Dragonstash.MemHeap.C98_close | propext, Quot.sound |
| Dragonstash.MemHeap.C98_emplace | propext, Classical.choice, Quot.sound |
| Dragonstash.MemHeap.C98_existing | propext, Classical.choice, Quot.sound |
| Dragonstash.MemHeap.C98_remove | propext, Classical.choice, Quot.sound |
| Dragonstash.MemHeap.C98_update | propext, Classical.choice, Quot.sound |
| Dragonstash.MemHeap.C98_open | propext, Classical.choice, Quot.sound |
| Dragonstash.MemHeap.C98_handle | propext, Classical.choice, Quot.sound |
| Dragonstash.MemHeap.C98_stays_partial | propext, Classical.choice, Quot.sound |
| Dragonstash.MemHeap.C98_never | propext, Classical.choice, Quot.sound |
| Dragonstash.MemHeap.C98_exact | propext, Classical.choice, Quot.sound |
| Dragonstash.MemHeap.C98_dangles | propext, Classical.choice, Quot.sound |
| Dragonstash.MemHeap.C98_opendir | propext, Classical.choice, Quot.sound |
| Dragonstash.MemHeap.C98_readdir | propext, Classical.choice, Quot.sound |
| Dragonstash.MemHeap.C98_listing_partial | propext, Classical.choice, Quot.sound |
| Dragonstash.MemHeap.C98_broken | propext, Classical.choice, Quot.sound |
| Dragonstash.MemHeap.C98_once | propext, Classical.choice, Quot.sound |
| Dragonstash.MemHeap.C98_quiet | propext, Classical.choice, Quot.sound |
| Dragonstash.MemHeap.C98_full | propext, Quot.sound |
| Dragonstash.MemHeap.C98_counterexample | propext, Classical.choice, Quot.sound |
| Dragonstash.MT.C99_kind | propext, Classical.choice, Quot.sound |
| Dragonstash.MT.C99_place | propext, Classical.choice, Quot.sound |
| Dragonstash.MT.C99_gone | propext, Classical.choice, Quot.sound |
| Dragonstash.MT.C99_removed | propext, Classical.choice, Quot.sound |
| Dragonstash.MT.C99_new | propext, Classical.choice, Quot.sound |
| Dragonstash.MT.C100_kept | propext, Classical.choice, Quot.sound |
| Dragonstash.MT.C100_shown | propext, Classical.choice, Quot.sound |
| Dragonstash.MT.C100_replies | propext, Classical.choice, Quot.sound |
| Dragonstash.MT.C100_mtime | propext, Classical.choice, Quot.sound |
| Dragonstash.MTB.C101_kind | propext, Classical.choice, Quot.sound |
| Dragonstash.MTB.C101_place | propext, Classical.choice, Quot.sound |
| Dragonstash.MTB.C101_gone | propext, Classical.choice, Quot.sound |
| Dragonstash.MTB.C101_removed | propext, Classical.choice, Quot.sound |
| Dragonstash.MTB.C101_new | propext, Classical.choice, Quot.sound |
| Dragonstash.MTB.C101_kept | propext, Classical.choice, Quot.sound |
| Dragonstash.MTB.C101_replies | propext, Classical.choice, Quot.sound |
| Dragonstash.Local.C102_tree | propext, Quot.sound |
| Dragonstash.Local.C102_whole | propext, Quot.sound |
| Dragonstash.Local.C102_has | propext, Classical.choice, Quot.sound |
| Dragonstash.Local.C102_view | propext, Quot.sound |
| Dragonstash.Local.C102_mirror | propext, Classical.choice, Quot.sound |
| Dragonstash.Local.C103_counterexample | propext, Classical.choice, Quot.sound |
| Dragonstash.Local.C103_request_partial | propext, Classical.choice, Quot.sound |
| Dragonstash.Local.C103_contained_partial | propext, Classical.choice, Quot.sound |
| Dragonstash.FS.C104_since | propext, Classical.choice, Quot.sound |
| Dragonstash.FS.C104_lookup_partial | propext, Classical.choice, Quot.sound |
| Dragonstash.FS.C104_listing_partial | propext, Classical.choice, Quot.sound |
| Dragonstash.FS.C104_counterexample | propext, Classical.choice, Quot.sound |
| Dragonstash.Cache.C105_reach | propext, Classical.choice, Quot.sound |
| Dragonstash.Cache.C105_reachP | propext, Classical.choice, Quot.sound |
| Dragonstash.Cache.C105_accepted | propext, Classical.choice, Quot.sound |
| Dragonstash.Cache.C105_call_partial | propext, Classical.choice, Quot.sound |
| Dragonstash.Cache.C105_abort_partial | propext, Classical.choice, Quot.sound |
| Dragonstash.Cache.C105_counterexample | propext, Classical.choice, Quot.sound |
| Dragonstash.MT.C106_frozen | propext, Classical.choice, Quot.sound |
| Dragonstash.MT.C106_told | propext, Classical.choice, Quot.sound |
| Dragonstash.MT.C106_same | propext, Classical.choice, Quot.sound |
| Dragonstash.MT.C106_untouched | propext, Classical.choice, Quot.sound |
| Dragonstash.MT.told_unique | propext, Classical.choice, Quot.sound |
| Dragonstash.MTB.C106_bytes_frozen | propext, Classical.choice, Quot.sound |
| Dragonstash.MTB.C106_bytes_same | propext, Classical.choice, Quot.sound |
| Dragonstash.MT.C107_absent_partial | propext, Classical.choice, Quot.sound |
| Dragonstash.MT.C107_lookup_partial | propext, Classical.choice, Quot.sound |
| Dragonstash.MT.C107_ls_partial | propext, Classical.choice, Quot.sound |
| Dragonstash.MT.C107_strict_partial | propext, Classical.choice, Quot.sound |
| Dragonstash.MT.C107_counterexample | propext, Classical.choice, Quot.sound |
| Dragonstash.MT.C107_plus_counterexample | propext, Classical.choice, Quot.sound |
| Dragonstash.MT.C108_entry | propext, Classical.choice, Quot.sound |
| Dragonstash.MT.C108_flags | propext, Classical.choice, Quot.sound |
| Dragonstash.MT.C108_getattr | propext, Classical.choice, Quot.sound |
| Dragonstash.MT.C108_lookup | propext, Classical.choice, Quot.sound |
| Dragonstash.FS.C109_request | propext, Classical.choice, Quot.sound |
| Dragonstash.FS.C109_alone | propext, Classical.choice, Quot.sound |
| Dragonstash.MT.C109_history | propext, Classical.choice, Quot.sound |
| Dragonstash.Cache.Ptrs.C110_same | propext, Classical.choice, Quot.sound |
| Dragonstash.Cache.Ptrs.C110_valid | propext, Classical.choice, Quot.sound |
| Dragonstash.Cache.Ptrs.C110_open | propext, Classical.choice, Quot.sound |
| Dragonstash.Cache.Ptrs.C110_exact | propext, Classical.choice, Quot.sound |
| Dragonstash.Blocklist.C111_claims_partial | propext, Classical.choice, Quot.sound |
| Dragonstash.Blocklist.C111_readable_partial | propext, Classical.choice, Quot.sound |
| Dragonstash.Blocklist.C111_before_partial | propext, Classical.choice, Quot.sound |
| Dragonstash.Blocklist.C111_saved | propext, Classical.choice, Quot.sound |
| Dragonstash.Blocklist.C111_counterexample | propext, Quot.sound |
| Dragonstash.Blocklist.C111_claims_counterexample | propext, Quot.sound |
| Dragonstash.Blocklist.C111_readable_counterexample | propext, Classical.choice, Quot.sound |
| Dragonstash.Blocklist.C112_claims_partial | propext, Classical.choice, Quot.sound |
| Dragonstash.Blocklist.C112_access_partial | propext, Classical.choice, Quot.sound |
| Dragonstash.Blocklist.C112_readable_partial | propext, Classical.choice, Quot.sound |
| Dragonstash.Blocklist.C112_memory_partial | propext, Classical.choice, Quot.sound |
| Dragonstash.Blocklist.C112_counterexample | propext, Quot.sound |
| Dragonstash.Blocklist.C112_claims_counterexample | propext, Quot.sound |
| Dragonstash.Blocklist.C112_readable_counterexample | propext, Classical.choice, Quot.sound |
| Dragonstash.Blocklist.C112_mark_counterexample | propext, Quot.sound |
| Dragonstash.Blocklist.C112_effect_counterexample | propext, Quot.sound |
| Dragonstash.Blocklist.C113_recovered | propext, Classical.choice, Quot.sound |
| Dragonstash.Blocklist.C113_any_file | propext, Classical.choice, Quot.sound |
| Dragonstash.Blocklist.C113_wrap_counterexample | propext, Quot.sound |
| Dragonstash.Blocklist.C114_tells | propext, Classical.choice, Quot.sound |
| Dragonstash.Blocklist.C114_returns | propext, Classical.choice, Quot.sound |
| Dragonstash.Blocklist.C114_text | propext, Classical.choice, Quot.sound |
| Dragonstash.Blocklist.C114_access_counterexample | propext, Classical.choice, Quot.sound |
| Dragonstash.FS.C115_mount_partial | propext, Classical.choice, Quot.sound |
| Dragonstash.FS.C115_mount_threads_partial | propext, Classical.choice, Quot.sound |
| Dragonstash.FS.C115_swept_partial | propext, Classical.choice, Quot.sound |
| Dragonstash.FS.C115_only_partial | propext, Classical.choice, Quot.sound |
| Dragonstash.FS.C115_counterexample | propext, Classical.choice, Quot.sound |
| Dragonstash.FS.C115_forget_counterexample | propext, Classical.choice, Quot.sound |
| Dragonstash.FS.C116_again_partial | propext, Classical.choice, Quot.sound |
| Dragonstash.FS.C116_often_partial | propext, Classical.choice, Quot.sound |
| Dragonstash.FS.C116_counterexample | propext, Classical.choice, Quot.sound |
| Dragonstash.MT.C116_threads_partial | propext, Classical.choice, Quot.sound |
| Dragonstash.FS.C117_any_order | propext, Classical.choice, Quot.sound |
| Dragonstash.FS.C117_batch | propext, Classical.choice, Quot.sound |
| Dragonstash.FS.C118_records_partial | propext, Classical.choice, Quot.sound |
| Dragonstash.FS.C118_grows | propext, Classical.choice, Quot.sound |
| Dragonstash.FS.C118_counterexample | propext, Classical.choice, Quot.sound |
| Dragonstash.RefMap.C118_never_erased | propext, Quot.sound |
| Dragonstash.Local.C119_opened | propext, Classical.choice, Quot.sound |
| Dragonstash.Local.C119_mirror | propext, Classical.choice, Quot.sound |
| Dragonstash.Local.C119_lookup | propext, Classical.choice, Quot.sound |
| Dragonstash.Local.C119_same | propext, Classical.choice, Quot.sound |
| Dragonstash.Local.C120_read | propext, Classical.choice, Quot.sound |
| Dragonstash.Local.C120_kept | propext, Classical.choice, Quot.sound |
| Dragonstash.Local.C120_answer | propext, Classical.choice, Quot.sound |
| Dragonstash.Local.C120_links | propext, Classical.choice, Quot.sound |
| Dragonstash.Local.C120_complete | propext, Classical.choice, Quot.sound |
| Dragonstash.MTB.C121_mirror | propext, Classical.choice, Quot.sound |
| Dragonstash.MTB.C121_complete | propext, Classical.choice, Quot.sound |
| Dragonstash.MTB.C121_answer | propext, Classical.choice, Quot.sound |
| Dragonstash.MTB.C121_same | propext, Classical.choice, Quot.sound |
| Dragonstash.FS.C122_entry | propext, Classical.choice, Quot.sound |
| Dragonstash.FS.C122_attr | propext, Classical.choice, Quot.sound |
| Dragonstash.Local.C123_walk | propext, Classical.choice, Quot.sound |
| Dragonstash.Local.C123_found | propext, Classical.choice, Quot.sound |
| Dragonstash.Local.C123_ls | propext, Classical.choice, Quot.sound |
| Dragonstash.Local.C123_opendir | propext, Classical.choice, Quot.sound |
| Dragonstash.Local.C123_attr | propext, Classical.choice, Quot.sound |
| Dragonstash.Local.C123_crash | propext, Classical.choice, Quot.sound |
| Dragonstash.MTB.C124_walk | propext, Classical.choice, Quot.sound |
| Dragonstash.MTB.C124_found | propext, Classical.choice, Quot.sound |
| Dragonstash.MTB.C124_ls | propext, Classical.choice, Quot.sound |
| Dragonstash.MTB.C124_opendir | propext, Classical.choice, Quot.sound |
| Dragonstash.MTB.C124_attr | propext, Classical.choice, Quot.sound |
| Dragonstash.MTB.C124_crash | propext, Classical.choice, Quot.sound |
| Dragonstash.MTB.C125_entry | propext, Classical.choice, Quot.sound |
| Dragonstash.MTB.C125_flags | propext, Classical.choice, Quot.sound |
| Dragonstash.MTB.C125_getattr | propext, Classical.choice, Quot.sound |
| Dragonstash.MTB.C125_lookup | propext, Classical.choice, Quot.sound |
| Dragonstash.MTB.C126_absent_partial | propext, Classical.choice, Quot.sound |
| Dragonstash.MTB.C126_lookup_partial | propext, Classical.choice, Quot.sound |
| Dragonstash.MTB.C126_ls_partial | propext, Classical.choice, Quot.sound |
| Dragonstash.MTB.C126_strict_partial | propext, Classical.choice, Quot.sound |
| Dragonstash.MTB.C126_counterexample | propext, Classical.choice, Quot.sound |
| Dragonstash.MTB.C127_open | propext, Classical.choice, Quot.sound |
| Dragonstash.MTB.C127_kept | propext, Classical.choice, Quot.sound |
| Dragonstash.MTB.C127_lookup | propext, Classical.choice, Quot.sound |
| Dragonstash.MTB.C127_listing | propext, Classical.choice, Quot.sound |
| Dragonstash.MTB.C128_links_fit_partial | propext, Classical.choice, Quot.sound |
| Dragonstash.MTB.C128_read | propext, Classical.choice, Quot.sound |
| Dragonstash.MTB.C128_counterexample | propext, Classical.choice, Quot.sound |
| Dragonstash.MTB.C129_listing | propext, Classical.choice, Quot.sound |
