{
 "claims": [
  {
   "property": "C01",
   "status": "partial",
   "theorems": [
    "Dragonstash.Blocklist.C01_mark_partial",
    "Dragonstash.Blocklist.C01_blocks_partial",
    "Dragonstash.Blocklist.C01_present_partial",
    "Dragonstash.Blocklist.C01_exact",
    "Dragonstash.Blocklist.C01_counterexample",
    "Dragonstash.Blocklist.C01_before_counterexample",
    "Dragonstash.Blocklist.C01_last_block_counterexample"
   ],
   "note": "False in full (counterexample: mark(0,2,READ); mark(3,5,READ); mark(0,5,ABSENT) leaves blocks 3,4 READ). After every history: a mark with a state other than ABSENT sets its whole range, blocks behind a mark never change, blocks before it keep their state if their last mark was not with ABSENT. Exact for good histories and clean or single-block marks, and for sound histories and marks of any length with a state other than ABSENT. C01_exact: on entries which do not overlap, exactly which marks go wrong."
  },
  {
   "property": "C02",
   "status": "partial",
   "theorems": [
    "Dragonstash.Blocklist.C02_history_partial",
    "Dragonstash.Blocklist.C02_single_blocks_partial",
    "Dragonstash.Blocklist.C02_blocks_partial",
    "Dragonstash.Blocklist.C02_no_absent",
    "Dragonstash.Blocklist.C02_sound_partial",
    "Dragonstash.Blocklist.C02_unskipped_partial",
    "Dragonstash.Blocklist.C02_counterexample",
    "Dragonstash.Blocklist.C02_counterexample_present"
   ],
   "note": "False in full (counterexample), but only for blocks whose last mark was with ABSENT: every other block is exact after every history (C02_blocks_partial), hence all histories without ABSENT are exact (C02_no_absent). Exact for all good histories, including maintenance calls and marks longer than one entry; in particular for all histories of single-block marks; and for all histories in which no mark is of the kind which C01_exact shows to go wrong."
  },
  {
   "property": "C03",
   "status": "partial",
   "theorems": [
    "Dragonstash.Blocklist.C03_counters_partial",
    "Dragonstash.Blocklist.C03_at_least_partial",
    "Dragonstash.Blocklist.C03_exact",
    "Dragonstash.Blocklist.C03_counterexample"
   ],
   "note": "False in full: a straddling mark counts blocks twice. Exact for all good histories; never too low after any history; right after any history exactly if no block is in two entries (C03_exact)."
  },
  {
   "property": "C04",
   "status": "partial",
   "theorems": [
    "Dragonstash.Blocklist.C04_fsck_partial",
    "Dragonstash.Blocklist.C04_exact",
    "Dragonstash.Blocklist.C04_counterexample"
   ],
   "note": "False in full: mark(0,10,READ); mark(0,5,PINNED) leaves an empty entry and fsck throws. Proved for all clean histories; C04_exact: exactly which marks of an accepted list give one which fsck rejects."
  },
  {
   "property": "C05",
   "status": "partial",
   "theorems": [
    "Dragonstash.Blocklist.C05_fsck_partial",
    "Dragonstash.Blocklist.C05_counterexample"
   ],
   "note": "False for entries which reach 2^64 (end wraps). Proved as an equivalence for every other file content."
  },
  {
   "property": "C06",
   "status": "partial",
   "theorems": [
    "Dragonstash.Blocklist.C06_maintenance",
    "Dragonstash.Blocklist.C06_shrink_any_file",
    "Dragonstash.Blocklist.C06_fsck_any_file",
    "Dragonstash.Blocklist.C06_truncate_access_counterexample"
   ],
   "note": "Proved for state, blocks, present_blocks, nentries and all later marks; truncate_access reads one entry too far and can observe shrink (counterexample)."
  },
  {
   "property": "C07",
   "status": "proved",
   "theorems": [
    "Dragonstash.Blocklist.C07_shrink",
    "Dragonstash.Blocklist.C07_shrink_any_file",
    "Dragonstash.Blocklist.C07_odd_size_counterexample"
   ],
   "note": "For all sizes growth steps can produce; for other multiples of 512 an assertion can fail (counterexample outside the quantifier)."
  },
  {
   "property": "C08",
   "status": "proved",
   "theorems": [
    "Dragonstash.Blocklist.C08_no_crash",
    "Dragonstash.Blocklist.C08_wrap_counterexample"
   ],
   "note": "All histories of calls with ranges below 2^64 (bad ones included); wrapping ranges can fail an assertion."
  },
  {
   "property": "C09",
   "status": "partial",
   "theorems": [
    "Dragonstash.Blocklist.C09_truncate_partial",
    "Dragonstash.Blocklist.C09_exact",
    "Dragonstash.Blocklist.C09_unaligned_counterexample",
    "Dragonstash.Blocklist.C09_stale_counterexample"
   ],
   "note": "False in full (unaligned start; stale entry behind the last one). After every history, proved when a block at or behind the end of the access is present, up to start % 4096 bytes. C09_exact: exactly which accesses are overstated."
  },
  {
   "property": "C10",
   "status": "partial",
   "theorems": [
    "Dragonstash.Blocklist.C10_truncate_partial",
    "Dragonstash.Blocklist.C10_whole",
    "Dragonstash.Blocklist.C10_exact",
    "Dragonstash.Blocklist.C10_counterexample",
    "Dragonstash.Blocklist.C10_crash_counterexample",
    "Dragonstash.Blocklist.C10_overlap_counterexample"
   ],
   "note": "Maximality proved for good histories whenever the call returns, termination and the zero cases after every history; it reads outside the mapping when the file is exactly full (counterexample). C10_whole, C10_exact: after any history which left entries that do not overlap, exactly what is returned, and exactly when it crashes."
  },
  {
   "property": "C11",
   "status": "proved",
   "theorems": [
    "Dragonstash.Blocklist.C11_reopen",
    "Dragonstash.Blocklist.C11_open_empty",
    "Dragonstash.Blocklist.C11_reject"
   ],
   "note": "Byte-level model of the file."
  },
  {
   "property": "C12",
   "status": "partial",
   "theorems": [
    "Dragonstash.Blocklist.C12_pieces",
    "Dragonstash.Blocklist.C12_covers_partial",
    "Dragonstash.Blocklist.C12_covers_present"
   ],
   "note": "Equality with marking the pieces proved in full; coverage of the whole range after every history for states other than ABSENT; for ABSENT only for clean marks, because single-entry marks already fail (C01)."
  },
  {
   "property": "C13",
   "status": "proved",
   "theorems": [
    "Dragonstash.RefMap.C13_count",
    "Dragonstash.RefMap.C13_decrement",
    "Dragonstash.RefMap.C13_increment",
    "Dragonstash.RefMap.C13_others",
    "Dragonstash.Refs.C13_table"
   ],
   "note": "All call sequences with increments summing to less than 2^64 per inode."
  },
  {
   "property": "C14",
   "status": "proved",
   "theorems": [
    "Dragonstash.RefMap.C14_exclusive",
    "Dragonstash.RefMap.C14_doom",
    "Dragonstash.RefMap.C14_doomed_forever",
    "Dragonstash.RefMap.C14_doomed_iff"
   ],
   "note": "All call sequences."
  },
  {
   "property": "C15",
   "status": "proved",
   "theorems": [
    "Dragonstash.Hooks.C15_commit"
   ],
   "note": "Arbitrary hooks acting on an arbitrary outside state; the call log and the final state are exact."
  },
  {
   "property": "C16",
   "status": "proved",
   "theorems": [
    "Dragonstash.Hooks.C16_failure",
    "Dragonstash.Hooks.C16_exhaustive",
    "Dragonstash.Hooks.C16_abort"
   ],
   "note": "Exact call log and state; every commit is covered by C15 or C16."
  },
  {
   "property": "C17",
   "status": "proved",
   "theorems": [
    "Dragonstash.Hooks.C17_nested_commit",
    "Dragonstash.Hooks.C17_flat",
    "Dragonstash.Hooks.C17_nested_abort"
   ],
   "note": "Arbitrary nesting depth."
  },
  {
   "property": "C35",
   "status": "proved",
   "theorems": [
    "Dragonstash.Codec.C35_inode_roundtrip",
    "Dragonstash.Codec.C35_direntry_roundtrip",
    "Dragonstash.Codec.C35_inode_total",
    "Dragonstash.Codec.C35_direntry_total",
    "Dragonstash.Codec.C35_keys"
   ],
   "note": "Byte-level; buffers aligned (the misaligned branch of the inode parser is assert(false))."
  },
  {
   "property": "C18",
   "status": "partial",
   "theorems": [
    "Dragonstash.Cache.C18_emplace_partial",
    "Dragonstash.Cache.C18_entry_kept",
    "Dragonstash.Cache.C18_absent_kept",
    "Dragonstash.Cache.C18_transactions",
    "Dragonstash.Cache.C18_orphan_counterexample"
   ],
   "note": "False in full: emplace into an unlinked, unlocked directory returns an inode which is removed at once (counterexample). Proved for every other parent; the frame theorems hold without restriction."
  },
  {
   "property": "C19",
   "status": "proved",
   "theorems": [
    "Dragonstash.Cache.C19_same_inode",
    "Dragonstash.Cache.C19_new_inode",
    "Dragonstash.Cache.C19_attributes",
    "Dragonstash.Cache.C19_no_flags"
   ],
   "note": "All reachable states. 'Never used before' across the history is C20."
  },
  {
   "property": "C21",
   "status": "proved",
   "theorems": [
    "Dragonstash.Cache.C21_lookup",
    "Dragonstash.Cache.C21_parent",
    "Dragonstash.Cache.C21_missing",
    "Dragonstash.Cache.C21_name_in"
   ],
   "note": "All reachable states."
  },
  {
   "property": "C22",
   "status": "proved",
   "theorems": [
    "Dragonstash.Cache.C22_path",
    "Dragonstash.Cache.C22_names",
    "Dragonstash.Cache.C22_cycle_counterexample"
   ],
   "note": "All histories in which emplace is called with existing directories as parents; otherwise path can diverge (counterexample outside the quantifier)."
  },
  {
   "property": "C23",
   "status": "proved",
   "theorems": [
    "Dragonstash.Cache.C23_consistent",
    "Dragonstash.Cache.C23_directories",
    "Dragonstash.Cache.C23_invalid_parent_counterexample"
   ],
   "note": "All histories without emplace(0, ...), which creates an inode with neither parent nor orphan mark (counterexample)."
  },
  {
   "property": "C24",
   "status": "proved",
   "theorems": [
    "Dragonstash.Cache.C24_unlink_inode",
    "Dragonstash.Cache.C24_unlink_name",
    "Dragonstash.Cache.C24_missing",
    "Dragonstash.Cache.C24_not_listed"
   ],
   "note": "All reachable states, exact effect on everything observable."
  },
  {
   "property": "C25",
   "status": "proved",
   "theorems": [
    "Dragonstash.Cache.C25_step",
    "Dragonstash.Cache.C25_locked_survive"
   ],
   "note": "Any run of calls (including nested transactions, commits and aborts) during which the count stays positive."
  },
  {
   "property": "C26",
   "status": "proved",
   "theorems": [
    "Dragonstash.Cache.C26_clean",
    "Dragonstash.Cache.C26_safe"
   ],
   "note": "All reachable states."
  },
  {
   "property": "C27",
   "status": "partial",
   "theorems": [
    "Dragonstash.Cache.C27_readdir_partial",
    "Dragonstash.Cache.C27_unique",
    "Dragonstash.Cache.C27_orphan_counterexample"
   ],
   "note": "False in full: on an unlinked locked directory the iteration does not end (counterexample). Proved for all directories which have a parent."
  },
  {
   "property": "C28",
   "status": "proved",
   "theorems": [
    "Dragonstash.Cache.C28_writelink",
    "Dragonstash.Cache.C28_writelink_result",
    "Dragonstash.Cache.C28_kept",
    "Dragonstash.Cache.C28_readlink"
   ],
   "note": "All reachable states."
  },
  {
   "property": "C30",
   "status": "proved",
   "theorems": [
    "Dragonstash.Cache.C30_update",
    "Dragonstash.Cache.C30_missing",
    "Dragonstash.Cache.C30_kept"
   ],
   "note": "All reachable states."
  },
  {
   "property": "C33",
   "status": "proved",
   "theorems": [
    "Dragonstash.Cache.C33_names",
    "Dragonstash.Cache.C33_rejected",
    "Dragonstash.Cache.C33_accepted"
   ],
   "note": "All reachable states."
  },
  {
   "property": "C34",
   "status": "proved",
   "theorems": [
    "Dragonstash.Cache.C34_root",
    "Dragonstash.Cache.C34_unlink",
    "Dragonstash.Cache.C34_no_entry"
   ],
   "note": "All reachable states."
  },
  {
   "property": "C20",
   "status": "proved",
   "theorems": [
    "Dragonstash.Cache.C20_never_reused",
    "Dragonstash.Cache.C20_complete",
    "Dragonstash.Cache.C20_step"
   ],
   "note": "All histories, including aborts, crashes and reopening; every existing inode is on record."
  },
  {
   "property": "C31",
   "status": "partial",
   "theorems": [
    "Dragonstash.Cache.C31_abort_partial",
    "Dragonstash.Cache.C31_no_removal_partial",
    "Dragonstash.Cache.C31_read_only",
    "Dragonstash.Cache.C31_counterexample",
    "Dragonstash.Cache.C31_stale_counterexample",
    "Dragonstash.Cache.C31_assert_counterexample"
   ],
   "note": "False in full: inodes removed in an aborted transaction stay unlockable, and rollback can fail an assertion (counterexamples). Contents and lock counts are proved to be restored by every abort which returns; everything is restored if no inode was removed."
  },
  {
   "property": "C32",
   "status": "proved",
   "theorems": [
    "Dragonstash.Cache.C32_committed",
    "Dragonstash.Cache.C32_reopen",
    "Dragonstash.Cache.C32_reopen_again",
    "Dragonstash.Cache.C32_fresh"
   ],
   "note": "Crash points between calls; LMDB commits are assumed to be atomic and durable."
  },
  {
   "property": "C29",
   "status": "proved",
   "theorems": [
    "Dragonstash.Cache.C29_entries",
    "Dragonstash.Cache.C29_keeps_inode",
    "Dragonstash.Cache.C29_others",
    "Dragonstash.Cache.C29_clear",
    "Dragonstash.Cache.C29_returns"
   ],
   "note": "Directories reachable from the root, any sequence of emplaces (and flag updates, lookups) in between. finish_dir_rewrite reports EBADFD if nothing was marked; the contents are as stated all the same."
  },
  {
   "property": "C37",
   "status": "proved",
   "theorems": [
    "Dragonstash.FS.C37_nothing_changes",
    "Dragonstash.FS.C37_found",
    "Dragonstash.FS.C37_absent",
    "Dragonstash.FS.C37_synced_by_opendir",
    "Dragonstash.FS.C37_readlink"
   ],
   "note": "All live states, every backend whose operations all report ENOTCONN."
  },
  {
   "property": "C38",
   "status": "proved",
   "theorems": [
    "Dragonstash.FS.C38_lookup",
    "Dragonstash.FS.C38_offline",
    "Dragonstash.FS.C38_readlink",
    "Dragonstash.FS.C38_opendir"
   ],
   "note": "All live states, every backend answer."
  },
  {
   "property": "C40",
   "status": "partial",
   "theorems": [
    "Dragonstash.FS.C40_at_least",
    "Dragonstash.FS.C40_full",
    "Dragonstash.FS.C40_counterexample",
    "Dragonstash.FS.C40_step",
    "Dragonstash.FS.C40_step_exact",
    "Dragonstash.FS.C40_exact",
    "Dragonstash.FS.C40_histories",
    "Dragonstash.FS.C40_readdirplus",
    "Dragonstash.FS.C40_exact_partial",
    "Dragonstash.FS.C40_removed",
    "Dragonstash.FS.C40_restart"
   ],
   "note": "False in full: a readdirplus leaves a lock on the entry which did not fit (counterexample). Proved: after every history the lock count is exactly the references the kernel holds plus the locks lost in this way since the process started (C40_exact, with the lost entry specified by lostBy); so it is never below the former, and equal when no readdirplus was served."
  },
  {
   "property": "C41",
   "status": "partial",
   "theorems": [
    "Dragonstash.FS.C41_full",
    "Dragonstash.FS.C41_counterexample",
    "Dragonstash.FS.C41_releasedir_counterexample",
    "Dragonstash.FS.C41_one_reply_partial",
    "Dragonstash.FS.C41_sent"
   ],
   "note": "False in full: readdir replies twice when the cache fails in the middle, releasedir is never answered (counterexamples). Proved for every other request from every live state."
  },
  {
   "property": "C42",
   "status": "proved",
   "theorems": [
    "Dragonstash.FS.C42_held_exists",
    "Dragonstash.FS.C42_format"
   ],
   "note": "All live states and any later requests while the kernel holds the reference."
  },
  {
   "property": "C39",
   "status": "partial",
   "theorems": [
    "Dragonstash.FS.C39_entries",
    "Dragonstash.FS.C39_others",
    "Dragonstash.FS.C39_paths",
    "Dragonstash.FS.C39_full",
    "Dragonstash.FS.C39_counterexample",
    "Dragonstash.FS.C39_lost_counterexample",
    "Dragonstash.FS.C39_mirror_partial"
   ],
   "note": "False in full: a listing which breaks off, or entries whose lstat fails (e.g. because the connection is lost), remove cached entries and the directory still counts as synchronised (counterexamples). The exact contents after opendir are proved for every backend behaviour (C39_entries), the mirror property when no lstat fails."
  },
  {
   "property": "C43",
   "status": "proved",
   "theorems": [
    "Dragonstash.FS.C43_paging",
    "Dragonstash.FS.C43_paging_plus",
    "Dragonstash.FS.C43_page_size",
    "Dragonstash.FS.C43_reply_size",
    "Dragonstash.FS.C43_exact_size"
   ],
   "note": "All directories which have a parent, all sequences of page sizes larger than each entry. (With exactly the size of the next entry the reply is empty: C43_exact_size.)"
  },
  {
   "property": "C36",
   "status": "proved",
   "theorems": [
    "Dragonstash.FS.C36_stored",
    "Dragonstash.FS.C36_kept",
    "Dragonstash.FS.C36_offline"
   ],
   "note": "Histories in between: any requests and restarts with any backends which confirm the entry (answer with the same attributes, list it, or are not connected); `Between`, `Confirms` in FS/Confirm.lean."
  },
  {
   "property": "C44",
   "status": "proved",
   "theorems": [
    "Dragonstash.FS.C44_lookup",
    "Dragonstash.FS.C36_kept"
   ],
   "note": "Histories `Between` keeping the file type; includes lookups and synchronisations online and offline, restarts."
  },
  {
   "property": "C45",
   "status": "proved",
   "theorems": [
    "Dragonstash.InMem.C45_write",
    "Dragonstash.InMem.C45_read",
    "Dragonstash.InMem.C45_negative",
    "Dragonstash.InMem.C45_history",
    "Dragonstash.InMem.C45_overflow_counterexample"
   ],
   "note": "All contents, offsets and histories with offset + count below 2^64; beyond that the sum wraps around and memory outside the data is read (counterexample)."
  },
  {
   "property": "C46",
   "status": "proved",
   "theorems": [
    "Dragonstash.InMem.C46_found",
    "Dragonstash.InMem.C46_errors",
    "Dragonstash.InMem.C46_relative"
   ],
   "note": "All trees and all paths made of nonempty components without slashes."
  },
  {
   "property": "C52",
   "status": "proved",
   "theorems": [
    "Dragonstash.InMem.C52_lookup",
    "Dragonstash.InMem.C52_list",
    "Dragonstash.InMem.C52_offline",
    "Dragonstash.InMem.C52_disconnected"
   ],
   "note": "End to end: backend tree, filesystem layer, cache. Names which can be stored (no NUL, no slash, at most 503 bytes, not empty)."
  },
  {
   "property": "C47",
   "status": "partial",
   "theorems": [
    "Dragonstash.Local.C47_mapping",
    "Dragonstash.Local.C47_rejects",
    "Dragonstash.Local.C47_lookup",
    "Dragonstash.Local.C47_readlink",
    "Dragonstash.Local.C47_opendir_partial",
    "Dragonstash.Local.C47_others",
    "Dragonstash.Local.C47_full",
    "Dragonstash.Local.C47_counterexample"
   ],
   "note": "False in full: opening the root directory asks the host for '<root>/..' and stores the answer in the cache (counterexample). Proved as non-interference (nothing outside the root influences any reply or the cache) for every other request on inodes with plain paths. Lexical: symbolic links on the host are not considered."
  },
  {
   "property": "C53",
   "status": "partial",
   "theorems": [
    "Dragonstash.Local.C53_full",
    "Dragonstash.Local.C53_counterexample",
    "Dragonstash.Local.C53_readlink_partial",
    "Dragonstash.Local.C53_error",
    "Dragonstash.Local.C53_prefix",
    "Dragonstash.Local.C53_not_a_link_counterexample",
    "Dragonstash.Local.C53_short_counterexample"
   ],
   "note": "False in full: on a file which is not a link an exception is thrown (resize(-1)), and links with st_size 0 are truncated (counterexamples). Proved when lstat reports the size of the target."
  },
  {
   "property": "C48",
   "status": "partial",
   "theorems": [
    "Dragonstash.Handles.C48_filehandle",
    "Dragonstash.Handles.C48_all_closed",
    "Dragonstash.Handles.C48_localfile_full",
    "Dragonstash.Handles.C48_localfile_counterexample",
    "Dragonstash.Handles.C48_localfile_failed_counterexample",
    "Dragonstash.Handles.C48_localfile_partial",
    "Dragonstash.Handles.C48_localdir"
   ],
   "note": "The blocklist's FileHandle: proved for every sequence of operations. LocalFile: false, close() followed by the destructor closes descriptor 0, and after a failed close() the descriptor is closed twice (counterexamples); proved without explicit close. LocalDir: proved."
  },
  {
   "property": "C49",
   "status": "partial",
   "theorems": [
    "Dragonstash.FuseReq.C49_once",
    "Dragonstash.FuseReq.C49_all_answered",
    "Dragonstash.FuseReq.C49_closed",
    "Dragonstash.FuseReq.C49_twice",
    "Dragonstash.FuseReq.C49_none_counterexample",
    "Dragonstash.FuseReq.C49_default_error",
    "Dragonstash.FuseReq.C49_swap_counterexample"
   ],
   "note": "At most once / exactly once on destruction and the report of a second reply: proved for every sequence of operations, including swaps. The clause on the default error is proved without swaps and fails with them; reply_none on a request already answered is not reported (counterexamples)."
  },
  {
   "property": "C50",
   "status": "proved",
   "theorems": [
    "Dragonstash.Conc.C50_locked",
    "Dragonstash.Conc.C50_count",
    "Dragonstash.Conc.C50_kept"
   ],
   "note": "All interleavings of any number of threads and transactions (C50_kept, C50_count: in which no nested transaction is destroyed before commit or abort)."
  },
  {
   "property": "C51",
   "status": "proved",
   "theorems": [
    "Dragonstash.Conc.C51_no_deadlock",
    "Dragonstash.Conc.C51_no_cycle",
    "Dragonstash.Conc.C51_waits",
    "Dragonstash.Conc.C51_deadlk",
    "Dragonstash.Conc.C51_no_deadlk",
    "Dragonstash.Conc.C51_ends",
    "Dragonstash.Conc.C51_mutex_throws",
    "Dragonstash.Conc.C51_mutex_self",
    "Dragonstash.Conc.C51_mutex_excl"
   ],
   "note": "All interleavings in which each thread has one transaction at a time. The mutex is also modelled instruction by instruction with relaxed loads which may return outdated values."
  },
  {
   "property": "C54",
   "status": "proved",
   "theorems": [
    "Dragonstash.Conc.C54_table",
    "Dragonstash.Conc.C54_writer"
   ],
   "note": "All interleavings."
  },
  {
   "property": "C55",
   "status": "proved",
   "theorems": [
    "Dragonstash.Conc.C55_serial",
    "Dragonstash.Conc.C55_open",
    "Dragonstash.Conc.C55_covers"
   ],
   "note": "All interleavings of transactions without nested ones (the program never begins nested transactions)."
  },
  {
   "property": "C56",
   "status": "proved",
   "theorems": [
    "Dragonstash.Conc.C56_snapshot",
    "Dragonstash.Conc.C56_answers"
   ],
   "note": "All interleavings."
  },
  {
   "property": "C57",
   "status": "proved",
   "theorems": [
    "Dragonstash.MT.C57_serial",
    "Dragonstash.MT.C57_quiet",
    "Dragonstash.MT.C57_answers",
    "Dragonstash.MT.C57_order"
   ],
   "note": "All interleavings of any number of threads; a handler's calls of the cache transaction are the steps."
  },
  {
   "property": "C58",
   "status": "proved",
   "theorems": [
    "Dragonstash.MT.C58_counts",
    "Dragonstash.MT.C58_exists",
    "Dragonstash.MT.C58_getattr"
   ],
   "note": "All interleavings of any number of threads; the kernel gives back at most what it holds and 64 bit counters do not run out (Room, Proper)."
  },
  {
   "property": "C59",
   "status": "partial",
   "theorems": [
    "Dragonstash.MT.C59_full",
    "Dragonstash.MT.C59_counterexample",
    "Dragonstash.MT.C59_lives_partial",
    "Dragonstash.MT.C59_progress_partial",
    "Dragonstash.MT.C59_mutex",
    "Dragonstash.MT.C59_finite"
   ],
   "note": "False in full: readdir of a directory which was removed while the kernel held it replies twice, which throws (counterexample). Proved: that is the only exception."
  },
  {
   "property": "C60",
   "status": "proved",
   "theorems": [
    "Dragonstash.FS.C60_online",
    "Dragonstash.FS.C60_lookup",
    "Dragonstash.FS.C60_getattr",
    "Dragonstash.FS.C60_readlink",
    "Dragonstash.FS.C60_listing"
   ],
   "note": "Every history of valid requests and restarts; the backend lists no empty names and the kernel looks up none."
  },
  {
   "property": "C61",
   "status": "partial",
   "theorems": [
    "Dragonstash.InMem.C61_new",
    "Dragonstash.InMem.C61_emplace",
    "Dragonstash.InMem.C61_existing",
    "Dragonstash.InMem.C61_remove",
    "Dragonstash.InMem.C61_update",
    "Dragonstash.InMem.C61_full",
    "Dragonstash.InMem.C61_counterexample",
    "Dragonstash.InMem.C61_ref_partial"
   ],
   "note": "The edits are local: proved. The reference returned by emplace is dangling if the name exists (counterexample); proved if it is new."
  },
  {
   "property": "C62",
   "status": "proved",
   "theorems": [
    "Dragonstash.InMem.C62_calls",
    "Dragonstash.InMem.C62_nothing",
    "Dragonstash.InMem.C62_disconnected"
   ],
   "note": "Every tree and path."
  },
  {
   "property": "C63",
   "status": "proved",
   "theorems": [
    "Dragonstash.Cache.C63_listing",
    "Dragonstash.FS.C63_paging"
   ],
   "note": "For the cache's readdir and for the mounted filesystem. The states in between are arbitrary states of the system in which the directory has the same parent."
  },
  {
   "property": "C64",
   "status": "proved",
   "theorems": [
    "Dragonstash.Cache.C64_reads",
    "Dragonstash.Cache.C64_failed",
    "Dragonstash.Cache.C64_done",
    "Dragonstash.Cache.C64_locks",
    "Dragonstash.Cache.C64_last_release",
    "Dragonstash.Cache.C64_emplace",
    "Dragonstash.Cache.C64_writelink",
    "Dragonstash.Cache.C64_returns"
   ],
   "note": "All reachable states without open transaction. (Under concurrency transactions are serialisable: C55.)"
  },
  {
   "property": "C65",
   "status": "proved",
   "theorems": [
    "Dragonstash.FS.C65_readdir",
    "Dragonstash.FS.C65_readdirplus",
    "Dragonstash.FS.C65_attributes",
    "Dragonstash.FS.C65_errors",
    "Dragonstash.FS.C65_no_name",
    "Dragonstash.FS.C65_counterexample",
    "Dragonstash.DirBuf.C65_buffer",
    "Dragonstash.DirBuf.C65_buffer_plus"
   ],
   "note": "Byte level model of DirBuffer, DirBufferPlus, libfuse's record layout and the kernel's parser (the latter two are assumptions). With an empty name the kernel reports EIO: C65_no_name, and a backend can cause it: C65_counterexample."
  },
  {
   "property": "C66",
   "status": "proved",
   "theorems": [
    "Dragonstash.Cache.C66_layout",
    "Dragonstash.Cache.C66_records",
    "Dragonstash.Cache.C66_transfer"
   ],
   "note": "Byte level model of the whole cache (Cache/ByteModel), in lockstep with the model on records."
  },
  {
   "property": "C67",
   "status": "partial",
   "theorems": [
    "Dragonstash.Cache.C67_full",
    "Dragonstash.Cache.C67_counterexample",
    "Dragonstash.Cache.C67_partial",
    "Dragonstash.Cache.C67_inode",
    "Dragonstash.Cache.C67_entries"
   ],
   "note": "False for lookup, which asserts that every entry it passes parses (counterexample). Proved for all other reading operations except path, which can run into a cycle of damaged parent fields."
  },
  {
   "property": "C68",
   "status": "partial",
   "theorems": [
    "Dragonstash.Blocklist.C68_same_mark",
    "Dragonstash.Blocklist.C68_full",
    "Dragonstash.Blocklist.C68_counterexample",
    "Dragonstash.Blocklist.C68_crash_partial",
    "Dragonstash.Blocklist.C68_history_partial"
   ],
   "note": "False in full: between the stores of lines 486 and 487 an entry reaches beyond its old end, fsck accepts it (counterexample). Proved: that is the only exception, after every good history; after any in-range history the states found were given by some mark. Assumes that the stores of one field and of one 16 byte entry are indivisible."
  },
  {
   "property": "C69",
   "status": "partial",
   "theorems": [
    "Dragonstash.Blocklist.C69_full",
    "Dragonstash.Blocklist.C69_counterexample",
    "Dragonstash.Blocklist.C69_before_partial"
   ],
   "note": "False in full: blocks behind the range may be lost without fsck noticing (counterexample). Proved for all blocks before the range, at every crash point."
  },
  {
   "property": "C70",
   "status": "partial",
   "theorems": [
    "Dragonstash.Blocklist.C70_full",
    "Dragonstash.Blocklist.C70_counterexample",
    "Dragonstash.Blocklist.C70_open_partial"
   ],
   "note": "False: dying between ftruncate and pwrite leaves a file which can never be opened (counterexample). Proved: that is the only exception."
  },
  {
   "property": "C71",
   "status": "partial",
   "theorems": [
    "Dragonstash.Err.C71_full",
    "Dragonstash.Err.C71_counterexample",
    "Dragonstash.Err.C71_success",
    "Dragonstash.Err.C71_failure_partial",
    "Dragonstash.Err.C71_converted",
    "Dragonstash.Err.C71_zero",
    "Dragonstash.Err.C71_void"
   ],
   "note": "False in full: a failed result converted to a result of another type becomes a success with a default value (counterexample). Proved for all ways without such a conversion, and for successes on all ways."
  },
  {
   "property": "C72",
   "status": "proved",
   "theorems": [
    "Dragonstash.Fuse.C72_unsupported",
    "Dragonstash.Fuse.C72_read_only",
    "Dragonstash.Fuse.C72_supported",
    "Dragonstash.Fuse.C72_history"
   ],
   "note": "All callbacks of the table."
  },
  {
   "property": "C73",
   "status": "partial",
   "theorems": [
    "Dragonstash.Main.C73_cleanup",
    "Dragonstash.Main.C73_serves",
    "Dragonstash.Main.C73_full",
    "Dragonstash.Main.C73_counterexample",
    "Dragonstash.Main.C73_inverted",
    "Dragonstash.Main.C73_sftp",
    "Dragonstash.Main.C73_status_partial"
   ],
   "note": "Clean up: proved. The exit status is 0 also if mounting fails (counterexample), and execute inverts the result of the loop; --sftp dereferences a null pointer."
  },
  {
   "property": "C74",
   "status": "partial",
   "theorems": [
    "Dragonstash.Local.C74_full",
    "Dragonstash.Local.C74_counterexample",
    "Dragonstash.Local.C74_listing_partial",
    "Dragonstash.Local.C74_backend",
    "Dragonstash.Local.C74_lost_counterexample"
   ],
   "note": "False in full: an error of readdir looks like the end of the directory; the filesystem then drops the entries not listed and marks the directory complete (counterexamples). Proved: the names, order, types, and the end if the host does not fail."
  },
  {
   "property": "C75",
   "status": "partial",
   "theorems": [
    "Dragonstash.Local.C75_full",
    "Dragonstash.Local.C75_counterexample",
    "Dragonstash.Local.C75_descriptor_partial",
    "Dragonstash.Local.C75_answer"
   ],
   "note": "False in full: after close the handle works on descriptor 0 (counterexample). Proved until a close succeeds."
  },
  {
   "property": "C76",
   "status": "partial",
   "theorems": [
    "Dragonstash.Blocklist.C76_same",
    "Dragonstash.Blocklist.C76_room",
    "Dragonstash.Blocklist.C76_full",
    "Dragonstash.Blocklist.C76_counterexample",
    "Dragonstash.Blocklist.C76_reads_partial",
    "Dragonstash.Blocklist.C76_noticed",
    "Dragonstash.Blocklist.C76_absent"
   ],
   "note": "False in full: split_entry shortens an entry before it asks for space, so that blocks behind the range are lost (counterexample). Proved, for all histories and disks: exactly which blocks can change; blocks before the range never do, blocks behind it only if fsck then throws; else the list goes on working as specified; marks of absent blocks change nothing."
  },
  {
   "property": "C77",
   "status": "proved",
   "theorems": [
    "Dragonstash.MT.C77_shown"
   ],
   "note": "All interleavings; the backend lists no empty names and the kernel looks up none."
  },
  {
   "property": "C78",
   "status": "proved",
   "theorems": [
    "Dragonstash.MT.C78_right"
   ],
   "note": "All interleavings."
  },
  {
   "property": "C79",
   "status": "proved",
   "theorems": [
    "Dragonstash.MT.C79_kept",
    "Dragonstash.MT.C79_offline"
   ],
   "note": "All interleavings; links are read only of links (the kernel checks the type)."
  },
  {
   "property": "C80",
   "status": "partial",
   "theorems": [
    "Dragonstash.BMap.C80_full",
    "Dragonstash.BMap.C80_counterexample",
    "Dragonstash.BMap.C80_crash_partial",
    "Dragonstash.BMap.C80_reported",
    "Dragonstash.BMap.C80_recovers",
    "Dragonstash.BMap.C80_given_back"
   ],
   "note": "False in full: a failing mmap returns MAP_FAILED, which is compared with null, so it is not noticed; the next access crashes, and the destructor terminates the process (counterexample). Proved for all other refusals, at all points of all histories."
  },
  {
   "property": "C81",
   "status": "partial",
   "theorems": [
    "Dragonstash.CachedDir.C81_full",
    "Dragonstash.CachedDir.C81_counterexample",
    "Dragonstash.CachedDir.C81_reads_partial",
    "Dragonstash.CachedDir.C81_one_partial",
    "Dragonstash.CachedDir.C81_seek",
    "Dragonstash.CachedDir.C81_safe",
    "Dragonstash.CachedDir.C81_parse",
    "Dragonstash.CachedDir.C81_roundtrip"
   ],
   "note": "False in full: ReadDir parses the value behind the one it is at, so the first entry is never listed and the last one twice (counterexample); after the end Seek has no effect on reads. Proved: exactly what is listed, for every content, and that no content or sequence of calls fails. No other code uses the class."
  },
  {
   "property": "C82",
   "status": "partial",
   "theorems": [
    "Dragonstash.Objs.C82_full",
    "Dragonstash.Objs.C82_counterexample",
    "Dragonstash.Objs.C82_move_partial",
    "Dragonstash.Objs.C82_assign_partial",
    "Dragonstash.Objs.C82_left_behind",
    "Dragonstash.Objs.C82_left_behind_destroyed",
    "Dragonstash.Objs.C82_accounted",
    "Dragonstash.Objs.C82_all_ended",
    "Dragonstash.Objs.C82_mutex_counterexample",
    "Dragonstash.Objs.C82_overwritten_counterexample",
    "Dragonstash.Objs.C82_null_counterexample"
   ],
   "note": "False in full: nested objects point to their parent object, so after the parent is moved the hooks of the nested transaction are lost, or it fails with EDEADLK (counterexamples). Proved for objects without nested ones, in every state; the accounting of transactions and of the mutex is proved in full."
  },
  {
   "property": "C83",
   "status": "proved",
   "theorems": [
    "Dragonstash.FSB.C83_replies",
    "Dragonstash.FSB.C83_padding",
    "Dragonstash.FSB.C83_transfer",
    "Dragonstash.FSB.C83_layout",
    "Dragonstash.FSB.C83_answered",
    "Dragonstash.FSB.C83_offline"
   ],
   "note": "All handlers of fs.cpp, run on the byte level cache. One thread."
  },
  {
   "property": "C84",
   "status": "partial",
   "theorems": [
    "Dragonstash.Damaged.C84_full",
    "Dragonstash.Damaged.C84_counterexample",
    "Dragonstash.Damaged.C84_hang_counterexample",
    "Dragonstash.Damaged.C84_path_counterexample",
    "Dragonstash.Damaged.C84_calls_partial",
    "Dragonstash.Damaged.C84_handlers",
    "Dragonstash.Damaged.C84_histories"
   ],
   "note": "No undefined behaviour: proved, for all databases with keys of the right lengths and all histories. False in full: assertions on damaged entries, a loop at start which does not end, and a path which does not end (counterexamples); these, and a damaged counter, are proved to be the only failures."
  },
  {
   "property": "C85",
   "status": "proved",
   "theorems": [
    "Dragonstash.MT.C85_crash",
    "Dragonstash.MT.C85_committed",
    "Dragonstash.MT.C85_settled",
    "Dragonstash.MT.C85_kept",
    "Dragonstash.MT.C85_offline"
   ],
   "note": "Death between any two steps of any threads; LMDB commits are assumed to be atomic and durable."
  },
  {
   "property": "C86",
   "status": "proved",
   "theorems": [
    "Dragonstash.MTB.C86_transfer",
    "Dragonstash.MTB.C86_layout",
    "Dragonstash.MTB.C86_serial",
    "Dragonstash.MTB.C86_counts",
    "Dragonstash.MTB.C86_exists",
    "Dragonstash.MTB.C86_lives",
    "Dragonstash.MTB.C86_crash",
    "Dragonstash.MTB.C86_offline"
   ],
   "note": "The double reply of readdir (C59, C41) is an explicit case of C86_lives."
  },
  {
   "property": "C87",
   "status": "partial",
   "theorems": [
    "Dragonstash.Local.C87_lookup",
    "Dragonstash.Local.C87_readlink",
    "Dragonstash.Local.C87_full",
    "Dragonstash.Local.C87_counterexample",
    "Dragonstash.Local.C87_list_partial",
    "Dragonstash.Local.C87_gone",
    "Dragonstash.Local.C87_offline",
    "Dragonstash.Local.C87_list_offline",
    "Dragonstash.Local.C87_readlink_offline",
    "Dragonstash.Local.C87_mirror_lookup",
    "Dragonstash.Local.C87_mirror_getattr",
    "Dragonstash.Local.C87_mirror_readlink",
    "Dragonstash.Local.C87_mirror_listing"
   ],
   "note": "Proved, except that opendir also caches . and .. as objects of their own (counterexample): the program does not filter them."
  },
  {
   "property": "C88",
   "status": "partial",
   "theorems": [
    "Dragonstash.MT.C88_account",
    "Dragonstash.MT.C88_once",
    "Dragonstash.MT.C88_finite",
    "Dragonstash.MT.C88_full",
    "Dragonstash.MT.C88_counterexample",
    "Dragonstash.MT.C88_rest_partial",
    "Dragonstash.MT.C88_fair_partial",
    "Dragonstash.MT.C88_readers_partial",
    "Dragonstash.MT.C88_begins"
   ],
   "note": "Proved, except for the known double reply of readdir (C59, C41), after which the thread never goes on (counterexample)."
  },
  {
   "property": "C89",
   "status": "proved",
   "theorems": [
    "Dragonstash.Local.C89_mirror",
    "Dragonstash.Local.C89_kept",
    "Dragonstash.Local.C89_same"
   ],
   "note": "The plain names of the tree; . and .. listed by the host are the counterexample of C87."
  },
  {
   "property": "C90",
   "status": "proved",
   "theorems": [
    "Dragonstash.Local.C90_mirror"
   ],
   "note": "One theorem, whose conclusion is the structure Mirrors (with Agrees, Exact, LookupExact, LinkExact): names which can be stored have at most 503 bytes. Names . and .. are the counterexample of C87."
  },
  {
   "property": "C91",
   "status": "proved",
   "theorems": [
    "Dragonstash.Local.C91_walk",
    "Dragonstash.Local.HostWalk.det"
   ],
   "note": "Absolute links and .. at the top lead out of the mounted directory and are not covered; names have at most 503 bytes."
  },
  {
   "property": "C92",
   "status": "proved",
   "theorems": [
    "Dragonstash.MT.C92_listing",
    "Dragonstash.Local.C92_mirror",
    "Dragonstash.Local.C92_ls"
   ],
   "note": "The directory keeps its parent while it is read (SeesAt); names have at most 503 bytes, plain names only in the part about the host: . and .. listed by the host are the counterexample of C87."
  },
  {
   "property": "C93",
   "status": "proved",
   "theorems": [
    "Dragonstash.MTB.C93_file",
    "Dragonstash.MTB.C93_walk",
    "Dragonstash.MTB.C93_ls"
   ],
   "note": "As C90 to C92: plain names of at most 503 bytes; attributes of the host fit into the types of C++."
  },
  {
   "property": "C94",
   "status": "proved",
   "theorems": [
    "Dragonstash.Local.C94_open",
    "Dragonstash.Local.C94_kept",
    "Dragonstash.Local.C94_lookup",
    "Dragonstash.Local.C94_listing",
    "Dragonstash.Local.C94_ls"
   ],
   "note": "Plain names of at most 503 bytes. Without a connection a lookup of a missing name may be answered EIO instead of ENOENT if the directory lost its synchronised flag (C38)."
  },
  {
   "property": "C95",
   "status": "partial",
   "theorems": [
    "Dragonstash.Local.C95_links_fit_partial",
    "Dragonstash.Local.C95_read",
    "Dragonstash.Local.C95_counterexample"
   ],
   "note": "Refuted in full (C95_counterexample): emplace with the same type stores new attributes and keeps the old target, so a link which was read and then replaced on the backend by a longer one is shown with its new size and its old target. Proved as long as no link of the backend changes its length, and for each link at the moment it is read while connected."
  },
  {
   "property": "C96",
   "status": "partial",
   "theorems": [
    "Dragonstash.Main.C96_absolute_partial",
    "Dragonstash.Main.C96_cache",
    "Dragonstash.Main.C96_exact",
    "Dragonstash.Main.C96_relative",
    "Dragonstash.Main.C96_counterexample",
    "Dragonstash.Main.C96_serves",
    "Dragonstash.Main.C96_serves_counterexample"
   ],
   "note": "Refuted in full (C96_counterexample): the paths are kept as typed, and fuse_daemonize changes the working directory to / before requests are served, so a relative --local serves another directory and a relative mount point is not unmounted. Proved for absolute paths and for the cache directory; C96_exact: exactly when it holds. That fuse_daemonize changes the directory (also in the foreground), and that unmounting uses the path as text, is taken from libfuse."
  },
  {
   "property": "C97",
   "status": "partial",
   "theorems": [
    "Dragonstash.Cache.C97_consistent",
    "Dragonstash.Cache.C97_begin",
    "Dragonstash.Cache.C97_snapshot",
    "Dragonstash.Cache.C97_committed",
    "Dragonstash.Cache.C97_no_lost_update",
    "Dragonstash.Cache.C97_numbers",
    "Dragonstash.Cache.C97_open",
    "Dragonstash.Cache.C97_locks_full",
    "Dragonstash.Cache.C97_locks_partial",
    "Dragonstash.Cache.C97_locks_counterexample",
    "Dragonstash.Cache.C97_unlink_counterexample"
   ],
   "note": "Proved for the stored data; refuted for locks (C97_locks_counterexample): opening the cache in a second process removes what the first still holds. Each process has one thread here; LMDB's lock on write transactions and its snapshots are assumed to work between processes."
  },
  {
   "property": "C98",
   "status": "partial",
   "theorems": [
    "Dragonstash.MemHeap.C98_tree",
    "Dragonstash.MemHeap.C98_find",
    "Dragonstash.MemHeap.C98_find_leaf",
    "Dragonstash.MemHeap.C98_connected",
    "Dragonstash.MemHeap.C98_close",
    "Dragonstash.MemHeap.C98_emplace",
    "Dragonstash.MemHeap.C98_existing",
    "Dragonstash.MemHeap.C98_remove",
    "Dragonstash.MemHeap.C98_update",
    "Dragonstash.MemHeap.C98_open",
    "Dragonstash.MemHeap.C98_handle",
    "Dragonstash.MemHeap.C98_stays_partial",
    "Dragonstash.MemHeap.C98_never",
    "Dragonstash.MemHeap.C98_exact",
    "Dragonstash.MemHeap.C98_dangles",
    "Dragonstash.MemHeap.C98_opendir",
    "Dragonstash.MemHeap.C98_readdir",
    "Dragonstash.MemHeap.C98_listing_partial",
    "Dragonstash.MemHeap.C98_broken",
    "Dragonstash.MemHeap.C98_once",
    "Dragonstash.MemHeap.C98_quiet",
    "Dragonstash.MemHeap.C98_full",
    "Dragonstash.MemHeap.C98_counterexample"
   ],
   "note": "Refuted in full (C98_counterexample): handles dangle when their object is removed, listings are undefined after a rehash or the removal of the next name, emplace of an existing name returns a dangling reference. Everything else is proved; C98_exact and C98_broken show that exactly these calls break handles."
  },
  {
   "property": "C99",
   "status": "proved",
   "theorems": [
    "Dragonstash.MT.C99_kind",
    "Dragonstash.MT.C99_place",
    "Dragonstash.MT.C99_gone",
    "Dragonstash.MT.C99_removed",
    "Dragonstash.MT.C99_new"
   ],
   "note": "Life is the life of a cache over its processes; every reachable state is in one (MReach.life). Replies may have been sent by a request which has not ended when the process dies."
  },
  {
   "property": "C100",
   "status": "proved",
   "theorems": [
    "Dragonstash.MT.C100_kept",
    "Dragonstash.MT.C100_shown",
    "Dragonstash.MT.C100_replies",
    "Dragonstash.MT.C100_mtime"
   ],
   "note": "In terms of sets: S is the set of attributes the backend reports from some moment on (for a link also with its size replaced by the length of its target). Requests which overlap in time may see the states before and after each other; a request is compared with those which begin after it ended. Names are not empty."
  },
  {
   "property": "C101",
   "status": "proved",
   "theorems": [
    "Dragonstash.MTB.C101_kind",
    "Dragonstash.MTB.C101_place",
    "Dragonstash.MTB.C101_gone",
    "Dragonstash.MTB.C101_removed",
    "Dragonstash.MTB.C101_new",
    "Dragonstash.MTB.C101_kept",
    "Dragonstash.MTB.C101_replies"
   ],
   "note": "Attributes of the backend fit into the types of C++; names are not empty in the last two."
  },
  {
   "property": "C102",
   "status": "proved",
   "theorems": [
    "Dragonstash.Local.C102_tree",
    "Dragonstash.Local.C102_whole",
    "Dragonstash.Local.C102_has",
    "Dragonstash.Local.C102_view",
    "Dragonstash.Local.C102_mirror"
   ],
   "note": "The assumptions about hosts in C87-C94 (Has, Tree, Whole) hold for every POSIX file system (Backend/Posix: resolution of paths after path_resolution(7); without permissions, limits on the length of paths and mounts). C102_mirror is C89 on it."
  },
  {
   "property": "C103",
   "status": "partial",
   "theorems": [
    "Dragonstash.Local.C103_counterexample",
    "Dragonstash.Local.C103_request_partial",
    "Dragonstash.Local.C103_contained_partial"
   ],
   "note": "False in full: a cached directory which is replaced by a link on the host is looked up in through the link (the path is given to lstat and opendir as a whole). Proved if no directory below the root becomes a link, for all histories; and for single requests if the cached path has no links on the host. Listing the root asks for its `..`, see C47."
  },
  {
   "property": "C104",
   "status": "partial",
   "theorems": [
    "Dragonstash.FS.C104_since",
    "Dragonstash.FS.C104_lookup_partial",
    "Dragonstash.FS.C104_listing_partial",
    "Dragonstash.FS.C104_counterexample"
   ],
   "note": "False in full: readdirplus hands out attributes which were read when the directory was opened, and gives them another second. Proved for entries from lookups; for entries from listings with the time since the directory was last opened. FS/Kernel specifies the kernel's caches, with the timeouts of the code. Requests one after the other (an overlapping request may make Linux ignore the attributes of a reply)."
  },
  {
   "property": "C105",
   "status": "partial",
   "theorems": [
    "Dragonstash.Cache.C105_reach",
    "Dragonstash.Cache.C105_reachP",
    "Dragonstash.Cache.C105_accepted",
    "Dragonstash.Cache.C105_call_partial",
    "Dragonstash.Cache.C105_abort_partial",
    "Dragonstash.Cache.C105_counterexample"
   ],
   "note": "False in full: inodes which a broken off garbage collection had begun to remove are still in the database, but cannot be locked until the cache is opened again. Proved: everything else. Every write is a step of its own (Cache/Refuse); C105_accepted relates this to the model of the other properties. That LMDB keeps nothing of a refused transaction is an assumption. After the refusal only abort and the destructor are called."
  },
  {
   "property": "C106",
   "status": "proved",
   "theorems": [
    "Dragonstash.MT.C106_frozen",
    "Dragonstash.MT.C106_told",
    "Dragonstash.MT.C106_same",
    "Dragonstash.MT.C106_untouched",
    "Dragonstash.MT.told_unique",
    "Dragonstash.MTB.C106_bytes_frozen",
    "Dragonstash.MTB.C106_bytes_same"
   ],
   "note": "Offline: every call on the backend fails with ENOTCONN. A restart may remove inodes which cannot be reached from the root (orphans which were open); that is why C106_untouched is about one process. Requests are those which begin after the last one with a connected backend ended."
  },
  {
   "property": "C107",
   "status": "partial",
   "theorems": [
    "Dragonstash.MT.C107_absent_partial",
    "Dragonstash.MT.C107_lookup_partial",
    "Dragonstash.MT.C107_ls_partial",
    "Dragonstash.MT.C107_strict_partial",
    "Dragonstash.MT.C107_counterexample",
    "Dragonstash.MT.C107_plus_counterexample"
   ],
   "note": "False in full: a listing counts as complete when it ended with an error, and a name whose lstat failed counts as missing (also when the connection was lost); readdirplus ends without an error in directories which were never read. Proved: whatever is denied was given up because of something the backend said (an error other than ENOTCONN for its path, or a listing in which no attributes came for the name); with a backend whose only errors are ENOENT and ENOTCONN and which does not fail within a listing (Tame), the full claim for lookups."
  },
  {
   "property": "C108",
   "status": "proved",
   "theorems": [
    "Dragonstash.MT.C108_entry",
    "Dragonstash.MT.C108_flags",
    "Dragonstash.MT.C108_getattr",
    "Dragonstash.MT.C108_lookup"
   ],
   "note": "Elsewhere is the condition on requests: Confirms (as in C64 and C79) for the directories above the entry, readlink only of links (the kernel does nothing else), and the entry is not named while the backend is connected. Flags stay if the entry is not opened as a directory either (Apart)."
  },
  {
   "property": "C109",
   "status": "proved",
   "theorems": [
    "Dragonstash.FS.C109_request",
    "Dragonstash.FS.C109_alone",
    "Dragonstash.MT.C109_history"
   ],
   "note": "Asked specifies the questions. C109_history: two runs from the same database, in which the same requests end in the same order and have seen the same versions."
  },
  {
   "property": "C110",
   "status": "proved",
   "theorems": [
    "Dragonstash.Cache.Ptrs.C110_same",
    "Dragonstash.Cache.Ptrs.C110_valid",
    "Dragonstash.Cache.Ptrs.C110_open",
    "Dragonstash.Cache.Ptrs.C110_exact"
   ],
   "note": "Every statement which follows an address is a step which checks it (Cache/Pointers). lmdb-safe is not part of the repository: C110_exact says what the program needs of it. With MDB_SET in find and without MDB_CURRENT in put, the keys passed to put in emplace (929), make_orphan (884) and writelink (1112) are read from a temporary object which is gone; update_flags uses a named object. The alignment of records in pages is not modelled."
  },
  {
   "property": "C111",
   "status": "partial",
   "theorems": [
    "Dragonstash.Blocklist.C111_claims_partial",
    "Dragonstash.Blocklist.C111_readable_partial",
    "Dragonstash.Blocklist.C111_before_partial",
    "Dragonstash.Blocklist.C111_saved",
    "Dragonstash.Blocklist.C111_counterexample",
    "Dragonstash.Blocklist.C111_claims_counterexample",
    "Dragonstash.Blocklist.C111_readable_counterexample"
   ],
   "note": "False in full, in all three parts: blocks which were closed safely and never marked since are lost when the superblock is older than the entries; an entry can reach too far (as in C68); when the file was extended, the number of entries can exceed the size of the file, which open does not check, and reading runs off the mapping. Proved: nothing else is claimed (C111_claims_partial); everything can be read when the number of entries fits the file, which it does if the size did not change (C111_readable_partial); blocks which were present when the block list was closed and lie before everything marked since are kept whatever happens (C111_before_partial); without marks since nothing is lost (C111_saved)."
  },
  {
   "property": "C112",
   "status": "partial",
   "theorems": [
    "Dragonstash.Blocklist.C112_claims_partial",
    "Dragonstash.Blocklist.C112_access_partial",
    "Dragonstash.Blocklist.C112_readable_partial",
    "Dragonstash.Blocklist.C112_memory_partial",
    "Dragonstash.Blocklist.C112_counterexample",
    "Dragonstash.Blocklist.C112_claims_counterexample",
    "Dragonstash.Blocklist.C112_readable_counterexample",
    "Dragonstash.Blocklist.C112_mark_counterexample",
    "Dragonstash.Blocklist.C112_effect_counterexample"
   ],
   "note": "False in full: a torn entry claims too much (C68); it can overlap the next one, after which a mark fails an assertion (478) each time it is tried, and other marks return without effect; a power failure can leave more entries than the file holds. Proved over any number of deaths and power failures: nothing else is claimed (C112_claims_partial) and offered (C112_access_partial, up to start % 4096 bytes, see C09). Over any number of deaths without power failures: all states can be read (C112_readable_partial), and mark, shrink and fsck return, throw (fsck) or fail an assertion, but never leave the mapping (C112_memory_partial; with assertions compiled in). truncate_access is excluded there (it reads one entry too far also without crashes). The file is taken to be on the disk when it was created (C70)."
  },
  {
   "property": "C113",
   "status": "proved",
   "theorems": [
    "Dragonstash.Blocklist.C113_recovered",
    "Dragonstash.Blocklist.C113_any_file",
    "Dragonstash.Blocklist.C113_wrap_counterexample"
   ],
   "note": "Works: states, counters, return of all calls in range, exact effect of all good histories on states, counters and accesses (GoodHist, as for C02/C03; the others are wrong on any block list, C01; Grants: accesses as in C10) and acceptance by fsck after all clean ones (as for C04), relative to the map the block list reports. C113_recovered: after any Life (calls, deaths inside mark, power failures) with marks below 2^64 - 65536. C113_any_file: for any bytes of a size which is a multiple of 4096 with no entry reaching 2^64; C113_wrap_counterexample: without that condition fsck accepts a file with wrong counters."
  },
  {
   "property": "C114",
   "status": "proved",
   "theorems": [
    "Dragonstash.Blocklist.C114_tells",
    "Dragonstash.Blocklist.C114_returns",
    "Dragonstash.Blocklist.C114_text",
    "Dragonstash.Blocklist.C114_access_counterexample"
   ],
   "note": "C114_tells is for any two files. C114_text: the printed end is start + count (no wrap-around) for every history of calls. C114_access_counterexample: the text does not determine truncate_access, which reads the entry behind the last one (C09). After a power failure dump can read outside of the mapping as state() does (C112)."
  },
  {
   "property": "C115",
   "status": "partial",
   "theorems": [
    "Dragonstash.FS.C115_mount_partial",
    "Dragonstash.FS.C115_mount_threads_partial",
    "Dragonstash.FS.C115_swept_partial",
    "Dragonstash.FS.C115_only_partial",
    "Dragonstash.FS.C115_counterexample",
    "Dragonstash.FS.C115_forget_counterexample"
   ],
   "note": "False in full: finish_dir_rewrite and forget do not call clean_orphans, so what is missing when a directory is opened, and what is removed while it is referenced, stays after it is not needed any more (two counterexamples). Proved: these are the only two ways in which something stays (C115_only_partial); it is gone after the next lookup or reading of a link which adds, removes or replaces an entry, and after the next opening of a directory which adds something, except for what that very request dropped (C115_swept_partial); when the cache is opened exactly what has a path remains (C115_mount_partial, with threads C115_mount_threads_partial). 'Referenced' is the lock count in memory, which is at least that of the kernel (C40)."
  },
  {
   "property": "C116",
   "status": "partial",
   "theorems": [
    "Dragonstash.FS.C116_again_partial",
    "Dragonstash.FS.C116_often_partial",
    "Dragonstash.FS.C116_counterexample",
    "Dragonstash.MT.C116_threads_partial"
   ],
   "note": "False in full: reading as a link what the backend does not accept as one is answered with its error (EINVAL), and the inode is removed; the second time the answer is ENOENT (C116_counterexample). Proved for all other requests: same answer and literally the same database (C116_again_partial), any number of times (C116_often_partial), and with threads for two equal requests of which one takes effect after the other (C116_threads_partial). Steady is required for opendir only, since lstat is asked there several times."
  },
  {
   "property": "C117",
   "status": "proved",
   "theorems": [
    "Dragonstash.FS.C117_any_order",
    "Dragonstash.FS.C117_batch"
   ],
   "note": "Enough is the condition that lookups are held before they are given back and that counters do not overflow; it does not depend on the order."
  },
  {
   "property": "C118",
   "status": "partial",
   "theorems": [
    "Dragonstash.FS.C118_records_partial",
    "Dragonstash.FS.C118_grows",
    "Dragonstash.FS.C118_counterexample",
    "Dragonstash.RefMap.C118_never_erased"
   ],
   "note": "False in full: InodeReferences never erases a record, and clean_orphans marks every removed inode; inode numbers are not reused, so the records are of no use any more. Proved: for every N there is a history after which the cache holds only the root, the kernel nothing, and the table N records (C118_grows); every record is of an inode in the database, or an unlocked removed one whose number was given out (C118_records_partial); no call ever erases one (C118_never_erased)."
  },
  {
   "property": "C119",
   "status": "proved",
   "theorems": [
    "Dragonstash.Local.C119_opened",
    "Dragonstash.Local.C119_mirror",
    "Dragonstash.Local.C119_lookup",
    "Dragonstash.Local.C119_same"
   ],
   "note": "Names which are plain and have at most 503 bytes (what the cache can store; . and .. are not part of the comparison). Link targets are not read by opening directories and are not compared. The root directory itself keeps the attributes which it got when the cache was created. Without a connection a lookup of a missing name may be answered EIO instead of ENOENT if the directory lost its synchronised flag (C38)."
  },
  {
   "property": "C120",
   "status": "proved",
   "theorems": [
    "Dragonstash.Local.C120_read",
    "Dragonstash.Local.C120_kept",
    "Dragonstash.Local.C120_answer",
    "Dragonstash.Local.C120_links",
    "Dragonstash.Local.C120_complete"
   ],
   "note": "While the host has the tree or is not connected (what changed on the host is not noticed: C94). A link which was not read before is answered EINVAL without a connection. Targets have no NUL bytes and the length given in the attributes (as on Linux file systems)."
  },
  {
   "property": "C121",
   "status": "proved",
   "theorems": [
    "Dragonstash.MTB.C121_mirror",
    "Dragonstash.MTB.C121_complete",
    "Dragonstash.MTB.C121_answer",
    "Dragonstash.MTB.C121_same"
   ],
   "note": "C119 and C120 on the model in which LMDB stores bytes; the conditions on trees and names are the same."
  },
  {
   "property": "C122",
   "status": "proved",
   "theorems": [
    "Dragonstash.FS.C122_entry",
    "Dragonstash.FS.C122_attr"
   ],
   "note": "The kernel's caches are a specification (FS/Kernel, after Linux fs/fuse); the timeouts are the code's. What a reply says may itself be older than the reply (C104)."
  },
  {
   "property": "C123",
   "status": "proved",
   "theorems": [
    "Dragonstash.Local.C123_walk",
    "Dragonstash.Local.C123_found",
    "Dragonstash.Local.C123_ls",
    "Dragonstash.Local.C123_opendir",
    "Dragonstash.Local.C123_attr",
    "Dragonstash.Local.C123_crash"
   ],
   "note": "Names of at most 503 bytes; absolute links and paths which leave the directory are not covered (the kernel resolves them elsewhere). The errors of a missing name are ENOENT, or EIO if the directory lost its synchronised flag (C38). C123_crash: a restarted process is again in the situation of the other theorems. The root's own attributes are those of the mount (C119). Reading files needs the host (open is not implemented)."
  },
  {
   "property": "C124",
   "status": "proved",
   "theorems": [
    "Dragonstash.MTB.C124_walk",
    "Dragonstash.MTB.C124_found",
    "Dragonstash.MTB.C124_ls",
    "Dragonstash.MTB.C124_opendir",
    "Dragonstash.MTB.C124_attr",
    "Dragonstash.MTB.C124_crash"
   ],
   "note": "C123 on the model in which LMDB stores bytes; the conditions on trees and names are the same."
  },
  {
   "property": "C125",
   "status": "proved",
   "theorems": [
    "Dragonstash.MTB.C125_entry",
    "Dragonstash.MTB.C125_flags",
    "Dragonstash.MTB.C125_getattr",
    "Dragonstash.MTB.C125_lookup"
   ],
   "note": "C108 on the model in which LMDB stores bytes; the same conditions on requests (Elsewhere, Apart, in terms of the bytes)."
  },
  {
   "property": "C126",
   "status": "partial",
   "theorems": [
    "Dragonstash.MTB.C126_absent_partial",
    "Dragonstash.MTB.C126_lookup_partial",
    "Dragonstash.MTB.C126_ls_partial",
    "Dragonstash.MTB.C126_strict_partial",
    "Dragonstash.MTB.C126_counterexample"
   ],
   "note": "False in full for the reason which C107 gives (a listing which ended with an error counts as complete, a name whose lstat failed counts as missing): C126_counterexample refutes C126_full. Proved: what is denied was given up because of something the backend said; with a backend as in C107_strict_partial (Tame), the full claim."
  },
  {
   "property": "C127",
   "status": "proved",
   "theorems": [
    "Dragonstash.MTB.C127_open",
    "Dragonstash.MTB.C127_kept",
    "Dragonstash.MTB.C127_lookup",
    "Dragonstash.MTB.C127_listing"
   ],
   "note": "C94 on the model in which LMDB stores bytes; the conditions on names are the same."
  },
  {
   "property": "C128",
   "status": "partial",
   "theorems": [
    "Dragonstash.MTB.C128_links_fit_partial",
    "Dragonstash.MTB.C128_read",
    "Dragonstash.MTB.C128_counterexample"
   ],
   "note": "C95 on the model in which LMDB stores bytes. Refuted in full (C128_counterexample), as C95: a link which was read and then replaced on the backend by a longer one keeps its old target with its new size. Proved as long as no link of the backend changes its length, and for each link which is read while connected."
  },
  {
   "property": "C129",
   "status": "proved",
   "theorems": [
    "Dragonstash.MTB.C129_listing"
   ],
   "note": "The first part of C92 on the model in which LMDB stores bytes (the second part is C93_ls). The directory keeps its parent while it is read (SeesAt)."
  }
 ]
}