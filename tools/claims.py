b = lambda *n: [B + x for x in n]
claim("C01", "partial", b("C01_mark_partial", "C01_blocks_partial", "C01_present_partial", "C01_exact", "C01_counterexample", "C01_before_counterexample", "C01_last_block_counterexample"),
  "False in full (counterexample: mark(0,2,READ); mark(3,5,READ); mark(0,5,ABSENT) leaves blocks 3,4 READ). After every history: a mark with a state other than ABSENT sets its whole range, blocks behind a mark never change, blocks before it keep their state if their last mark was not with ABSENT. Exact for good histories and clean or single-block marks, and for sound histories and marks of any length with a state other than ABSENT. C01_exact: on entries which do not overlap, exactly which marks go wrong.")
claim("C02", "partial", b("C02_history_partial", "C02_single_blocks_partial", "C02_blocks_partial", "C02_no_absent", "C02_sound_partial", "C02_unskipped_partial", "C02_counterexample", "C02_counterexample_present"),
  "False in full (counterexample), but only for blocks whose last mark was with ABSENT: every other block is exact after every history (C02_blocks_partial), hence all histories without ABSENT are exact (C02_no_absent). Exact for all good histories, including maintenance calls and marks longer than one entry; in particular for all histories of single-block marks; and for all histories in which no mark is of the kind which C01_exact shows to go wrong.")
claim("C03", "partial", b("C03_counters_partial", "C03_at_least_partial", "C03_exact", "C03_counterexample"),
  "False in full: a straddling mark counts blocks twice. Exact for all good histories; never too low after any history; right after any history exactly if no block is in two entries (C03_exact).")
claim("C04", "partial", b("C04_fsck_partial", "C04_exact", "C04_counterexample"),
  "False in full: mark(0,10,READ); mark(0,5,PINNED) leaves an empty entry and fsck throws. Proved for all clean histories; C04_exact: exactly which marks of an accepted list give one which fsck rejects.")
claim("C05", "partial", b("C05_fsck_partial", "C05_counterexample"),
  "False for entries which reach 2^64 (end wraps). Proved as an equivalence for every other file content.")
claim("C06", "partial", b("C06_maintenance", "C06_shrink_any_file", "C06_fsck_any_file", "C06_truncate_access_counterexample"),
  "Proved for state, blocks, present_blocks, nentries and all later marks; truncate_access reads one entry too far and can observe shrink (counterexample).")
claim("C07", "proved", b("C07_shrink", "C07_shrink_any_file", "C07_odd_size_counterexample"),
  "For all sizes growth steps can produce; for other multiples of 512 an assertion can fail (counterexample outside the quantifier).")
claim("C08", "proved", b("C08_no_crash", "C08_wrap_counterexample"),
  "All histories of calls with ranges below 2^64 (bad ones included); wrapping ranges can fail an assertion.")
claim("C09", "partial", b("C09_truncate_partial", "C09_exact", "C09_unaligned_counterexample", "C09_stale_counterexample"),
  "False in full (unaligned start; stale entry behind the last one). After every history, proved when a block at or behind the end of the access is present, up to start % 4096 bytes. C09_exact: exactly which accesses are overstated.")
claim("C10", "partial", b("C10_truncate_partial", "C10_whole", "C10_exact", "C10_counterexample", "C10_crash_counterexample", "C10_overlap_counterexample"),
  "Maximality proved for good histories whenever the call returns, termination and the zero cases after every history; it reads outside the mapping when the file is exactly full (counterexample). C10_whole, C10_exact: after any history which left entries that do not overlap, exactly what is returned, and exactly when it crashes.")
claim("C11", "proved", b("C11_reopen", "C11_open_empty", "C11_reject"), "Byte-level model of the file.")
claim("C12", "partial", b("C12_pieces", "C12_covers_partial", "C12_covers_present"),
  "Equality with marking the pieces proved in full; coverage of the whole range after every history for states other than ABSENT; for ABSENT only for clean marks, because single-entry marks already fail (C01).")
R = "Dragonstash.RefMap."; H = "Dragonstash.Hooks."; K = "Dragonstash.Codec."
claim("C13", "proved", [R + x for x in ("C13_count", "C13_decrement", "C13_increment", "C13_others")] + ["Dragonstash.Refs.C13_table"],
  "All call sequences with increments summing to less than 2^64 per inode.")
claim("C14", "proved", [R + x for x in ("C14_exclusive", "C14_doom", "C14_doomed_forever", "C14_doomed_iff")], "All call sequences.")
claim("C15", "proved", [H + "C15_commit"], "Arbitrary hooks acting on an arbitrary outside state; the call log and the final state are exact.")
claim("C16", "proved", [H + x for x in ("C16_failure", "C16_exhaustive", "C16_abort")], "Exact call log and state; every commit is covered by C15 or C16.")
claim("C17", "proved", [H + x for x in ("C17_nested_commit", "C17_flat", "C17_nested_abort")], "Arbitrary nesting depth.")
claim("C35", "proved", [K + x for x in ("C35_inode_roundtrip", "C35_direntry_roundtrip", "C35_inode_total", "C35_direntry_total", "C35_keys")],
  "Byte-level; buffers aligned (the misaligned branch of the inode parser is assert(false)).")
CA = "Dragonstash.Cache."
ca = lambda *n: [CA + x for x in n]
claim("C18", "partial", ca("C18_emplace_partial", "C18_entry_kept", "C18_absent_kept", "C18_transactions", "C18_orphan_counterexample"),
  "False in full: emplace into an unlinked, unlocked directory returns an inode which is removed at once (counterexample). Proved for every other parent; the frame theorems hold without restriction.")
claim("C19", "proved", ca("C19_same_inode", "C19_new_inode", "C19_attributes", "C19_no_flags"),
  "All reachable states. 'Never used before' across the history is C20.")
claim("C21", "proved", ca("C21_lookup", "C21_parent", "C21_missing", "C21_name_in"), "All reachable states.")
claim("C22", "proved", ca("C22_path", "C22_names", "C22_cycle_counterexample"),
  "All histories in which emplace is called with existing directories as parents; otherwise path can diverge (counterexample outside the quantifier).")
claim("C23", "proved", ca("C23_consistent", "C23_directories", "C23_invalid_parent_counterexample"),
  "All histories without emplace(0, ...), which creates an inode with neither parent nor orphan mark (counterexample).")
claim("C24", "proved", ca("C24_unlink_inode", "C24_unlink_name", "C24_missing", "C24_not_listed"), "All reachable states, exact effect on everything observable.")
claim("C25", "proved", ca("C25_step", "C25_locked_survive"), "Any run of calls (including nested transactions, commits and aborts) during which the count stays positive.")
claim("C26", "proved", ca("C26_clean", "C26_safe"), "All reachable states.")
claim("C27", "partial", ca("C27_readdir_partial", "C27_unique", "C27_orphan_counterexample"),
  "False in full: on an unlinked locked directory the iteration does not end (counterexample). Proved for all directories which have a parent.")
claim("C28", "proved", ca("C28_writelink", "C28_writelink_result", "C28_kept", "C28_readlink"), "All reachable states.")
claim("C30", "proved", ca("C30_update", "C30_missing", "C30_kept"), "All reachable states.")
claim("C33", "proved", ca("C33_names", "C33_rejected", "C33_accepted"), "All reachable states.")
claim("C34", "proved", ca("C34_root", "C34_unlink", "C34_no_entry"), "All reachable states.")
claim("C20", "proved", ca("C20_never_reused", "C20_complete", "C20_step"), "All histories, including aborts, crashes and reopening; every existing inode is on record.")
claim("C31", "partial", ca("C31_abort_partial", "C31_no_removal_partial", "C31_read_only", "C31_counterexample", "C31_stale_counterexample", "C31_assert_counterexample"),
  "False in full: inodes removed in an aborted transaction stay unlockable, and rollback can fail an assertion (counterexamples). Contents and lock counts are proved to be restored by every abort which returns; everything is restored if no inode was removed.")
claim("C32", "proved", ca("C32_committed", "C32_reopen", "C32_reopen_again", "C32_fresh"), "Crash points between calls; LMDB commits are assumed to be atomic and durable.")
claim("C29", "proved", ca("C29_entries", "C29_keeps_inode", "C29_others", "C29_clear", "C29_returns"),
  "Directories reachable from the root, any sequence of emplaces (and flag updates, lookups) in between. finish_dir_rewrite reports EBADFD if nothing was marked; the contents are as stated all the same.")

FSN = "Dragonstash.FS."
fs = lambda *n: [FSN + x for x in n]
claim("C37", "proved", fs("C37_nothing_changes", "C37_found", "C37_absent", "C37_synced_by_opendir", "C37_readlink"),
  "All live states, every backend whose operations all report ENOTCONN.")
claim("C38", "proved", fs("C38_lookup", "C38_offline", "C38_readlink", "C38_opendir"), "All live states, every backend answer.")
claim("C40", "partial", fs("C40_at_least", "C40_full", "C40_counterexample", "C40_step", "C40_step_exact", "C40_exact", "C40_histories", "C40_readdirplus", "C40_exact_partial", "C40_removed", "C40_restart"),
  "False in full: a readdirplus leaves a lock on the entry which did not fit (counterexample). Proved: after every history the lock count is exactly the references the kernel holds plus the locks lost in this way since the process started (C40_exact, with the lost entry specified by lostBy); so it is never below the former, and equal when no readdirplus was served.")
claim("C41", "partial", fs("C41_full", "C41_counterexample", "C41_releasedir_counterexample", "C41_one_reply_partial", "C41_sent"),
  "False in full: readdir replies twice when the cache fails in the middle, releasedir is never answered (counterexamples). Proved for every other request from every live state.")
claim("C42", "proved", fs("C42_held_exists", "C42_format"), "All live states and any later requests while the kernel holds the reference.")
claim("C39", "partial", fs("C39_entries", "C39_others", "C39_paths", "C39_full", "C39_counterexample", "C39_lost_counterexample", "C39_mirror_partial"),
  "False in full: a listing which breaks off, or entries whose lstat fails (e.g. because the connection is lost), remove cached entries and the directory still counts as synchronised (counterexamples). The exact contents after opendir are proved for every backend behaviour (C39_entries), the mirror property when no lstat fails.")
claim("C43", "proved", fs("C43_paging", "C43_paging_plus", "C43_page_size", "C43_reply_size", "C43_exact_size"),
  "All directories which have a parent, all sequences of page sizes larger than each entry. (With exactly the size of the next entry the reply is empty: C43_exact_size.)")
claim("C36", "proved", fs("C36_stored", "C36_kept", "C36_offline"),
      "Histories in between: any requests and restarts with any backends which confirm the entry (answer with the same attributes, list it, or are not connected); `Between`, `Confirms` in FS/Confirm.lean.")
claim("C44", "proved", fs("C44_lookup", "C36_kept"), "Histories `Between` keeping the file type; includes lookups and synchronisations online and offline, restarts.")
IM = "Dragonstash.InMem."
im = lambda *n: [IM + x for x in n]
claim("C45", "proved", im("C45_write", "C45_read", "C45_negative", "C45_history", "C45_overflow_counterexample"),
      "All contents, offsets and histories with offset + count below 2^64; beyond that the sum wraps around and memory outside the data is read (counterexample).")
claim("C46", "proved", im("C46_found", "C46_errors", "C46_relative"), "All trees and all paths made of nonempty components without slashes.")
claim("C52", "proved", im("C52_lookup", "C52_list", "C52_offline", "C52_disconnected"), "End to end: backend tree, filesystem layer, cache. Names which can be stored (no NUL, no slash, at most 503 bytes, not empty).")
LO = "Dragonstash.Local."
lo = lambda *n: [LO + x for x in n]
claim("C47", "partial", lo("C47_mapping", "C47_rejects", "C47_lookup", "C47_readlink", "C47_opendir_partial", "C47_others", "C47_full", "C47_counterexample"),
      "False in full: opening the root directory asks the host for '<root>/..' and stores the answer in the cache (counterexample). Proved as non-interference (nothing outside the root influences any reply or the cache) for every other request on inodes with plain paths. Lexical: symbolic links on the host are not considered.")
claim("C53", "partial", lo("C53_full", "C53_counterexample", "C53_readlink_partial", "C53_error", "C53_prefix", "C53_not_a_link_counterexample", "C53_short_counterexample"),
      "False in full: on a file which is not a link an exception is thrown (resize(-1)), and links with st_size 0 are truncated (counterexamples). Proved when lstat reports the size of the target.")
HA = "Dragonstash.Handles."
ha = lambda *n: [HA + x for x in n]
claim("C48", "partial", ha("C48_filehandle", "C48_all_closed", "C48_localfile_full", "C48_localfile_counterexample", "C48_localfile_failed_counterexample", "C48_localfile_partial", "C48_localdir"),
      "The blocklist's FileHandle: proved for every sequence of operations. LocalFile: false, close() followed by the destructor closes descriptor 0, and after a failed close() the descriptor is closed twice (counterexamples); proved without explicit close. LocalDir: proved.")
RQ = "Dragonstash.FuseReq."
rq = lambda *n: [RQ + x for x in n]
claim("C49", "partial", rq("C49_once", "C49_all_answered", "C49_closed", "C49_twice", "C49_none_counterexample", "C49_default_error", "C49_swap_counterexample"),
      "At most once / exactly once on destruction and the report of a second reply: proved for every sequence of operations, including swaps. The clause on the default error is proved without swaps and fails with them; reply_none on a request already answered is not reported (counterexamples).")

CO = "Dragonstash.Conc."
co = lambda *n: [CO + x for x in n]
claim("C50", "proved", co("C50_locked", "C50_count", "C50_kept"),
      "All interleavings of any number of threads and transactions (C50_kept, C50_count: in which no nested transaction is destroyed before commit or abort).")
claim("C51", "proved", co("C51_no_deadlock", "C51_no_cycle", "C51_waits", "C51_deadlk", "C51_no_deadlk", "C51_ends", "C51_mutex_throws", "C51_mutex_self", "C51_mutex_excl"),
      "All interleavings in which each thread has one transaction at a time. The mutex is also modelled instruction by instruction with relaxed loads which may return outdated values.")
claim("C54", "proved", co("C54_table", "C54_writer"), "All interleavings.")
claim("C55", "proved", co("C55_serial", "C55_open", "C55_covers"), "All interleavings of transactions without nested ones (the program never begins nested transactions).")
claim("C56", "proved", co("C56_snapshot", "C56_answers"), "All interleavings.")

MT = "Dragonstash.MT."
mt = lambda *n: [MT + x for x in n]
claim("C57", "proved", mt("C57_serial", "C57_quiet", "C57_answers", "C57_order"), "All interleavings of any number of threads; a handler's calls of the cache transaction are the steps.")
claim("C58", "proved", mt("C58_counts", "C58_exists", "C58_getattr"), "All interleavings of any number of threads; the kernel gives back at most what it holds and 64 bit counters do not run out (Room, Proper).")
claim("C59", "partial", mt("C59_full", "C59_counterexample", "C59_lives_partial", "C59_progress_partial", "C59_mutex", "C59_finite"), "False in full: readdir of a directory which was removed while the kernel held it replies twice, which throws (counterexample). Proved: that is the only exception.")

claim("C60", "proved", fs("C60_online", "C60_lookup", "C60_getattr", "C60_readlink", "C60_listing"), "Every history of valid requests and restarts; the backend lists no empty names and the kernel looks up none.")
claim("C61", "partial", im("C61_new", "C61_emplace", "C61_existing", "C61_remove", "C61_update", "C61_full", "C61_counterexample", "C61_ref_partial"), "The edits are local: proved. The reference returned by emplace is dangling if the name exists (counterexample); proved if it is new.")
claim("C62", "proved", im("C62_calls", "C62_nothing", "C62_disconnected"), "Every tree and path.")
claim("C63", "proved", ca("C63_listing") + fs("C63_paging"), "For the cache's readdir and for the mounted filesystem. The states in between are arbitrary states of the system in which the directory has the same parent.")
claim("C64", "proved", ca("C64_reads", "C64_failed", "C64_done", "C64_locks", "C64_last_release", "C64_emplace", "C64_writelink", "C64_returns"), "All reachable states without open transaction. (Under concurrency transactions are serialisable: C55.)")
db = lambda *x: ["Dragonstash.DirBuf." + n for n in x]
claim("C65", "proved", fs("C65_readdir", "C65_readdirplus", "C65_attributes", "C65_errors", "C65_no_name", "C65_counterexample") + db("C65_buffer", "C65_buffer_plus"), "Byte level model of DirBuffer, DirBufferPlus, libfuse's record layout and the kernel's parser (the latter two are assumptions). With an empty name the kernel reports EIO: C65_no_name, and a backend can cause it: C65_counterexample.")
claim("C66", "proved", ca("C66_layout", "C66_records", "C66_transfer"), "Byte level model of the whole cache (Cache/ByteModel), in lockstep with the model on records.")
claim("C67", "partial", ca("C67_full", "C67_counterexample", "C67_partial", "C67_inode", "C67_entries"), "False for lookup, which asserts that every entry it passes parses (counterexample). Proved for all other reading operations except path, which can run into a cycle of damaged parent fields.")

claim("C68", "partial", b("C68_same_mark", "C68_full", "C68_counterexample", "C68_crash_partial", "C68_history_partial"), "False in full: between the stores of lines 486 and 487 an entry reaches beyond its old end, fsck accepts it (counterexample). Proved: that is the only exception, after every good history; after any in-range history the states found were given by some mark. Assumes that the stores of one field and of one 16 byte entry are indivisible.")
claim("C69", "partial", b("C69_full", "C69_counterexample", "C69_before_partial"), "False in full: blocks behind the range may be lost without fsck noticing (counterexample). Proved for all blocks before the range, at every crash point.")
claim("C70", "partial", b("C70_full", "C70_counterexample", "C70_open_partial"), "False: dying between ftruncate and pwrite leaves a file which can never be opened (counterexample). Proved: that is the only exception.")

er = lambda *x: ["Dragonstash.Err." + n for n in x]
se = lambda *x: ["Dragonstash.Fuse." + n for n in x]
ma = lambda *x: ["Dragonstash.Main." + n for n in x]
claim("C71", "partial", er("C71_full", "C71_counterexample", "C71_success", "C71_failure_partial", "C71_converted", "C71_zero", "C71_void"), "False in full: a failed result converted to a result of another type becomes a success with a default value (counterexample). Proved for all ways without such a conversion, and for successes on all ways.")
claim("C72", "proved", se("C72_unsupported", "C72_read_only", "C72_supported", "C72_history"), "All callbacks of the table.")
claim("C73", "partial", ma("C73_cleanup", "C73_serves", "C73_full", "C73_counterexample", "C73_inverted", "C73_sftp", "C73_status_partial"), "Clean up: proved. The exit status is 0 also if mounting fails (counterexample), and execute inverts the result of the loop; --sftp dereferences a null pointer.")
claim("C74", "partial", lo("C74_full", "C74_counterexample", "C74_listing_partial", "C74_backend", "C74_lost_counterexample"), "False in full: an error of readdir looks like the end of the directory; the filesystem then drops the entries not listed and marks the directory complete (counterexamples). Proved: the names, order, types, and the end if the host does not fail.")
claim("C75", "partial", lo("C75_full", "C75_counterexample", "C75_descriptor_partial", "C75_answer"), "False in full: after close the handle works on descriptor 0 (counterexample). Proved until a close succeeds.")
claim("C76", "partial", b("C76_same", "C76_room", "C76_full", "C76_counterexample", "C76_reads_partial", "C76_noticed", "C76_absent"), "False in full: split_entry shortens an entry before it asks for space, so that blocks behind the range are lost (counterexample). Proved, for all histories and disks: exactly which blocks can change; blocks before the range never do, blocks behind it only if fsck then throws; else the list goes on working as specified; marks of absent blocks change nothing.")

claim("C77", "proved", mt("C77_shown"), "All interleavings; the backend lists no empty names and the kernel looks up none.")
claim("C78", "proved", mt("C78_right"), "All interleavings.")
claim("C79", "proved", mt("C79_kept", "C79_offline"), "All interleavings; links are read only of links (the kernel checks the type).")

bm = lambda *x: ["Dragonstash.BMap." + n for n in x]
cd = lambda *x: ["Dragonstash.CachedDir." + n for n in x]
claim("C80", "partial", bm("C80_full", "C80_counterexample", "C80_crash_partial", "C80_reported", "C80_recovers", "C80_given_back"), "False in full: a failing mmap returns MAP_FAILED, which is compared with null, so it is not noticed; the next access crashes, and the destructor terminates the process (counterexample). Proved for all other refusals, at all points of all histories.")
claim("C81", "partial", cd("C81_full", "C81_counterexample", "C81_reads_partial", "C81_one_partial", "C81_seek", "C81_safe", "C81_parse", "C81_roundtrip"), "False in full: ReadDir parses the value behind the one it is at, so the first entry is never listed and the last one twice (counterexample); after the end Seek has no effect on reads. Proved: exactly what is listed, for every content, and that no content or sequence of calls fails. No other code uses the class.")
ob = lambda *x: ["Dragonstash.Objs." + n for n in x]
claim("C82", "partial", ob("C82_full", "C82_counterexample", "C82_move_partial", "C82_assign_partial", "C82_left_behind", "C82_left_behind_destroyed", "C82_accounted", "C82_all_ended", "C82_mutex_counterexample", "C82_overwritten_counterexample", "C82_null_counterexample"), "False in full: nested objects point to their parent object, so after the parent is moved the hooks of the nested transaction are lost, or it fails with EDEADLK (counterexamples). Proved for objects without nested ones, in every state; the accounting of transactions and of the mutex is proved in full.")

fb = lambda *x: ["Dragonstash.FSB." + n for n in x]
claim("C83", "proved", fb("C83_replies", "C83_padding", "C83_transfer", "C83_layout", "C83_answered", "C83_offline"), "All handlers of fs.cpp, run on the byte level cache. One thread.")

dm = lambda *x: ["Dragonstash.Damaged." + n for n in x]
claim("C84", "partial", dm("C84_full", "C84_counterexample", "C84_hang_counterexample", "C84_path_counterexample", "C84_calls_partial", "C84_handlers", "C84_histories"), "No undefined behaviour: proved, for all databases with keys of the right lengths and all histories. False in full: assertions on damaged entries, a loop at start which does not end, and a path which does not end (counterexamples); these, and a damaged counter, are proved to be the only failures.")

claim("C85", "proved", mt("C85_crash", "C85_committed", "C85_settled", "C85_kept", "C85_offline"), "Death between any two steps of any threads; LMDB commits are assumed to be atomic and durable.")

mb = lambda *x: ["Dragonstash.MTB." + n for n in x]
claim("C86", "proved", mb("C86_transfer", "C86_layout", "C86_serial", "C86_counts", "C86_exists", "C86_lives", "C86_crash", "C86_offline"), "The double reply of readdir (C59, C41) is an explicit case of C86_lives.")

claim("C87", "partial", lo("C87_lookup", "C87_readlink", "C87_full", "C87_counterexample", "C87_list_partial", "C87_gone", "C87_offline", "C87_list_offline", "C87_readlink_offline", "C87_mirror_lookup", "C87_mirror_getattr", "C87_mirror_readlink", "C87_mirror_listing"), "Proved, except that opendir also caches . and .. as objects of their own (counterexample): the program does not filter them.")

claim("C88", "partial", mt("C88_account", "C88_once", "C88_finite", "C88_full", "C88_counterexample", "C88_rest_partial", "C88_fair_partial", "C88_readers_partial", "C88_begins"), "Proved, except for the known double reply of readdir (C59, C41), after which the thread never goes on (counterexample).")

claim("C89", "proved", lo("C89_mirror", "C89_kept", "C89_same"), "The plain names of the tree; . and .. listed by the host are the counterexample of C87.")

claim("C90", "proved", lo("C90_mirror"), "One theorem, whose conclusion is the structure Mirrors (with Agrees, Exact, LookupExact, LinkExact): names which can be stored have at most 503 bytes. Names . and .. are the counterexample of C87.")

claim("C91", "proved", lo("C91_walk", "HostWalk.det"), "Absolute links and .. at the top lead out of the mounted directory and are not covered; names have at most 503 bytes.")

claim("C92", "proved", mt("C92_listing") + lo("C92_mirror", "C92_ls"), "The directory keeps its parent while it is read (SeesAt); names have at most 503 bytes, plain names only in the part about the host: . and .. listed by the host are the counterexample of C87.")

claim("C93", "proved", mb("C93_file", "C93_walk", "C93_ls"), "As C90 to C92: plain names of at most 503 bytes; attributes of the host fit into the types of C++.")

claim("C94", "proved", lo("C94_open", "C94_kept", "C94_lookup", "C94_listing", "C94_ls"), "Plain names of at most 503 bytes. Without a connection a lookup of a missing name may be answered EIO instead of ENOENT if the directory lost its synchronised flag (C38).")

claim("C95", "partial", lo("C95_links_fit_partial", "C95_read", "C95_counterexample"), "Refuted in full (C95_counterexample): emplace with the same type stores new attributes and keeps the old target, so a link which was read and then replaced on the backend by a longer one is shown with its new size and its old target. Proved as long as no link of the backend changes its length, and for each link at the moment it is read while connected.")

claim("C96", "partial", ma("C96_absolute_partial", "C96_cache", "C96_exact", "C96_relative", "C96_counterexample", "C96_serves", "C96_serves_counterexample"), "Refuted in full (C96_counterexample): the paths are kept as typed, and fuse_daemonize changes the working directory to / before requests are served, so a relative --local serves another directory and a relative mount point is not unmounted. Proved for absolute paths and for the cache directory; C96_exact: exactly when it holds. That fuse_daemonize changes the directory (also in the foreground), and that unmounting uses the path as text, is taken from libfuse.")

claim("C97", "partial", ca("C97_consistent", "C97_begin", "C97_snapshot", "C97_committed", "C97_no_lost_update", "C97_numbers", "C97_open", "C97_locks_full", "C97_locks_partial", "C97_locks_counterexample", "C97_unlink_counterexample"), "Proved for the stored data; refuted for locks (C97_locks_counterexample): opening the cache in a second process removes what the first still holds. Each process has one thread here; LMDB's lock on write transactions and its snapshots are assumed to work between processes.")
mh = lambda *x: ["Dragonstash.MemHeap." + n for n in x]
claim("C98", "partial", mh("C98_tree", "C98_find", "C98_find_leaf", "C98_connected", "C98_close", "C98_emplace", "C98_existing", "C98_remove", "C98_update", "C98_open", "C98_handle", "C98_stays_partial", "C98_never", "C98_exact", "C98_dangles", "C98_opendir", "C98_readdir", "C98_listing_partial", "C98_broken", "C98_once", "C98_quiet", "C98_full", "C98_counterexample"), "Refuted in full (C98_counterexample): handles dangle when their object is removed, listings are undefined after a rehash or the removal of the next name, emplace of an existing name returns a dangling reference. Everything else is proved; C98_exact and C98_broken show that exactly these calls break handles.")

claim("C99", "proved", mt("C99_kind", "C99_place", "C99_gone", "C99_removed", "C99_new"), "Life is the life of a cache over its processes; every reachable state is in one (MReach.life). Replies may have been sent by a request which has not ended when the process dies.")

claim("C100", "proved", mt("C100_kept", "C100_shown", "C100_replies", "C100_mtime"), "In terms of sets: S is the set of attributes the backend reports from some moment on (for a link also with its size replaced by the length of its target). Requests which overlap in time may see the states before and after each other; a request is compared with those which begin after it ended. Names are not empty.")

claim("C101", "proved", mb("C101_kind", "C101_place", "C101_gone", "C101_removed", "C101_new", "C101_kept", "C101_replies"), "Attributes of the backend fit into the types of C++; names are not empty in the last two.")

claim("C102", "proved", lo("C102_tree", "C102_whole", "C102_has", "C102_view", "C102_mirror"), "The assumptions about hosts in C87-C94 (Has, Tree, Whole) hold for every POSIX file system (Backend/Posix: resolution of paths after path_resolution(7); without permissions, limits on the length of paths and mounts). C102_mirror is C89 on it.")

claim("C103", "partial", lo("C103_counterexample", "C103_request_partial", "C103_contained_partial"), "False in full: a cached directory which is replaced by a link on the host is looked up in through the link (the path is given to lstat and opendir as a whole). Proved if no directory below the root becomes a link, for all histories; and for single requests if the cached path has no links on the host. Listing the root asks for its `..`, see C47.")

claim("C104", "partial", fs("C104_since", "C104_lookup_partial", "C104_listing_partial", "C104_counterexample"), "False in full: readdirplus hands out attributes which were read when the directory was opened, and gives them another second. Proved for entries from lookups; for entries from listings with the time since the directory was last opened. FS/Kernel specifies the kernel's caches, with the timeouts of the code. Requests one after the other (an overlapping request may make Linux ignore the attributes of a reply).")

claim("C105", "partial", ca("C105_reach", "C105_reachP", "C105_accepted", "C105_call_partial", "C105_abort_partial", "C105_counterexample"), "False in full: inodes which a broken off garbage collection had begun to remove are still in the database, but cannot be locked until the cache is opened again. Proved: everything else. Every write is a step of its own (Cache/Refuse); C105_accepted relates this to the model of the other properties. That LMDB keeps nothing of a refused transaction is an assumption. After the refusal only abort and the destructor are called.")

claim("C106", "proved", mt("C106_frozen", "C106_told", "C106_same", "C106_untouched", "told_unique") + mb("C106_bytes_frozen", "C106_bytes_same"), "Offline: every call on the backend fails with ENOTCONN. A restart may remove inodes which cannot be reached from the root (orphans which were open); that is why C106_untouched is about one process. Requests are those which begin after the last one with a connected backend ended.")

claim("C107", "partial", mt("C107_absent_partial", "C107_lookup_partial", "C107_ls_partial", "C107_strict_partial", "C107_counterexample", "C107_plus_counterexample"), "False in full: a listing counts as complete when it ended with an error, and a name whose lstat failed counts as missing (also when the connection was lost); readdirplus ends without an error in directories which were never read. Proved: whatever is denied was given up because of something the backend said (an error other than ENOTCONN for its path, or a listing in which no attributes came for the name); with a backend whose only errors are ENOENT and ENOTCONN and which does not fail within a listing (Tame), the full claim for lookups.")

claim("C108", "proved", mt("C108_entry", "C108_flags", "C108_getattr", "C108_lookup"), "Elsewhere is the condition on requests: Confirms (as in C64 and C79) for the directories above the entry, readlink only of links (the kernel does nothing else), and the entry is not named while the backend is connected. Flags stay if the entry is not opened as a directory either (Apart).")

claim("C109", "proved", fs("C109_request", "C109_alone") + mt("C109_history"), "Asked specifies the questions. C109_history: two runs from the same database, in which the same requests end in the same order and have seen the same versions.")

pt = lambda *x: ["Dragonstash.Cache.Ptrs." + n for n in x]
claim("C110", "proved", pt("C110_same", "C110_valid", "C110_open", "C110_exact"), "Every statement which follows an address is a step which checks it (Cache/Pointers). lmdb-safe is not part of the repository: C110_exact says what the program needs of it. With MDB_SET in find and without MDB_CURRENT in put, the keys passed to put in emplace (929), make_orphan (884) and writelink (1112) are read from a temporary object which is gone; update_flags uses a named object. The alignment of records in pages is not modelled.")

claim("C111", "partial", b("C111_claims_partial", "C111_readable_partial", "C111_before_partial", "C111_saved", "C111_counterexample", "C111_claims_counterexample", "C111_readable_counterexample"), "False in full, in all three parts: blocks which were closed safely and never marked since are lost when the superblock is older than the entries; an entry can reach too far (as in C68); when the file was extended, the number of entries can exceed the size of the file, which open does not check, and reading runs off the mapping. Proved: nothing else is claimed (C111_claims_partial); everything can be read when the number of entries fits the file, which it does if the size did not change (C111_readable_partial); blocks which were present when the block list was closed and lie before everything marked since are kept whatever happens (C111_before_partial); without marks since nothing is lost (C111_saved).")

claim("C112", "partial", b("C112_claims_partial", "C112_access_partial", "C112_readable_partial", "C112_memory_partial", "C112_counterexample", "C112_claims_counterexample", "C112_readable_counterexample", "C112_mark_counterexample", "C112_effect_counterexample"), "False in full: a torn entry claims too much (C68); it can overlap the next one, after which a mark fails an assertion (478) each time it is tried, and other marks return without effect; a power failure can leave more entries than the file holds. Proved over any number of deaths and power failures: nothing else is claimed (C112_claims_partial) and offered (C112_access_partial, up to start % 4096 bytes, see C09). Over any number of deaths without power failures: all states can be read (C112_readable_partial), and mark, shrink and fsck return, throw (fsck) or fail an assertion, but never leave the mapping (C112_memory_partial; with assertions compiled in). truncate_access is excluded there (it reads one entry too far also without crashes). The file is taken to be on the disk when it was created (C70).")

claim("C113", "proved", b("C113_recovered", "C113_any_file", "C113_wrap_counterexample"), "Works: states, counters, return of all calls in range, exact effect of all good histories on states, counters and accesses (GoodHist, as for C02/C03; the others are wrong on any block list, C01; Grants: accesses as in C10) and acceptance by fsck after all clean ones (as for C04), relative to the map the block list reports. C113_recovered: after any Life (calls, deaths inside mark, power failures) with marks below 2^64 - 65536. C113_any_file: for any bytes of a size which is a multiple of 4096 with no entry reaching 2^64; C113_wrap_counterexample: without that condition fsck accepts a file with wrong counters.")

claim("C114", "proved", b("C114_tells", "C114_returns", "C114_text", "C114_access_counterexample"), "C114_tells is for any two files. C114_text: the printed end is start + count (no wrap-around) for every history of calls. C114_access_counterexample: the text does not determine truncate_access, which reads the entry behind the last one (C09). After a power failure dump can read outside of the mapping as state() does (C112).")
claim("C115", "partial", fs("C115_mount_partial", "C115_mount_threads_partial", "C115_swept_partial", "C115_only_partial", "C115_counterexample", "C115_forget_counterexample"), "False in full: finish_dir_rewrite and forget do not call clean_orphans, so what is missing when a directory is opened, and what is removed while it is referenced, stays after it is not needed any more (two counterexamples). Proved: these are the only two ways in which something stays (C115_only_partial); it is gone after the next lookup or reading of a link which adds, removes or replaces an entry, and after the next opening of a directory which adds something, except for what that very request dropped (C115_swept_partial); when the cache is opened exactly what has a path remains (C115_mount_partial, with threads C115_mount_threads_partial). 'Referenced' is the lock count in memory, which is at least that of the kernel (C40).")

claim("C116", "partial", fs("C116_again_partial", "C116_often_partial", "C116_counterexample") + mt("C116_threads_partial"), "False in full: reading as a link what the backend does not accept as one is answered with its error (EINVAL), and the inode is removed; the second time the answer is ENOENT (C116_counterexample). Proved for all other requests: same answer and literally the same database (C116_again_partial), any number of times (C116_often_partial), and with threads for two equal requests of which one takes effect after the other (C116_threads_partial). Steady is required for opendir only, since lstat is asked there several times.")
claim("C117", "proved", fs("C117_any_order", "C117_batch"), "Enough is the condition that lookups are held before they are given back and that counters do not overflow; it does not depend on the order.")
claim("C118", "partial", fs("C118_records_partial", "C118_grows", "C118_counterexample") + ["Dragonstash.RefMap.C118_never_erased"], "False in full: InodeReferences never erases a record, and clean_orphans marks every removed inode; inode numbers are not reused, so the records are of no use any more. Proved: for every N there is a history after which the cache holds only the root, the kernel nothing, and the table N records (C118_grows); every record is of an inode in the database, or an unlocked removed one whose number was given out (C118_records_partial); no call ever erases one (C118_never_erased).")
claim("C119", "proved", lo("C119_opened", "C119_mirror", "C119_lookup", "C119_same"), "Names which are plain and have at most 503 bytes (what the cache can store; . and .. are not part of the comparison). Link targets are not read by opening directories and are not compared. The root directory itself keeps the attributes which it got when the cache was created. Without a connection a lookup of a missing name may be answered EIO instead of ENOENT if the directory lost its synchronised flag (C38).")
claim("C120","proved",lo("C120_read","C120_kept","C120_answer","C120_links","C120_complete"),"While the host has the tree or is not connected (what changed on the host is not noticed: C94). A link which was not read before is answered EINVAL without a connection. Targets have no NUL bytes and the length given in the attributes (as on Linux file systems).")
claim("C121","proved",mb("C121_mirror","C121_complete","C121_answer","C121_same"),"C119 and C120 on the model in which LMDB stores bytes; the conditions on trees and names are the same.")
claim("C122","proved",fs("C122_entry","C122_attr"),"The kernel's caches are a specification (FS/Kernel, after Linux fs/fuse); the timeouts are the code's. What a reply says may itself be older than the reply (C104).")

claim("C123","proved",lo("C123_walk","C123_found","C123_ls","C123_opendir","C123_attr","C123_crash"),"Names of at most 503 bytes; absolute links and paths which leave the directory are not covered (the kernel resolves them elsewhere). The errors of a missing name are ENOENT, or EIO if the directory lost its synchronised flag (C38). C123_crash: a restarted process is again in the situation of the other theorems. The root's own attributes are those of the mount (C119). Reading files needs the host (open is not implemented).")

claim("C124","proved",mb("C124_walk","C124_found","C124_ls","C124_opendir","C124_attr","C124_crash"),"C123 on the model in which LMDB stores bytes; the conditions on trees and names are the same.")

claim("C125","proved",mb("C125_entry","C125_flags","C125_getattr","C125_lookup"),"C108 on the model in which LMDB stores bytes; the same conditions on requests (Elsewhere, Apart, in terms of the bytes).")

claim("C126","partial",mb("C126_absent_partial","C126_lookup_partial","C126_ls_partial","C126_strict_partial","C126_counterexample"),"False in full for the reason which C107 gives (a listing which ended with an error counts as complete, a name whose lstat failed counts as missing): C126_counterexample refutes C126_full. Proved: what is denied was given up because of something the backend said; with a backend as in C107_strict_partial (Tame), the full claim.")

claim("C127","proved",mb("C127_open","C127_kept","C127_lookup","C127_listing"),"C94 on the model in which LMDB stores bytes; the conditions on names are the same.")

claim("C128","partial",mb("C128_links_fit_partial","C128_read","C128_counterexample"),"C95 on the model in which LMDB stores bytes. Refuted in full (C128_counterexample), as C95: a link which was read and then replaced on the backend by a longer one keeps its old target with its new size. Proved as long as no link of the backend changes its length, and for each link which is read while connected.")
claim("C129","proved",mb("C129_listing"),"The first part of C92 on the model in which LMDB stores bytes (the second part is C93_ls). The directory keeps its parent while it is read (SeesAt).")
