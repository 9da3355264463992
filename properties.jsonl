{"id": "C01", "title": "mark sets exactly the requested range", "statement": "After Blocklist::mark(start, count, s), state(b) is s for every block b in [start, start+count) and is what it was before for every other block; this for s = ABSENT too.", "quantifier": "every blocklist reachable by a history of mark calls, every start, count with start+count below 2^64, every state, every block b", "why_tests_cant": "The list of entries before the call ranges over an unbounded set of shapes; whether the claim holds depends on how the range boundaries fall on entry boundaries. The test-suite pins some twenty shapes; the claim fails on shapes none of them has.", "anchors": ["src/cache/blocklist.cpp: Blocklist::mark, mark_internal, find_overlapping_entries, split_entry, delete_range, try_merge_with_previous, state"]}
{"id": "C02", "title": "a history of marks is equivalent to a plain block map", "statement": "For any sequence of mark calls on a new blocklist, state(b) is the state given by the last call whose range contains b, and ABSENT if there is none.", "quantifier": "every finite sequence of mark calls (starts, counts, states), every block", "why_tests_cant": "Needs induction over unbounded histories; an error introduced by one call may only become visible many calls later.", "anchors": ["src/cache/blocklist.cpp: Blocklist::mark, state"]}
{"id": "C03", "title": "block counters count", "statement": "blocks(s) is the number of blocks b whose state(b) is s, present_blocks() is the number of blocks whose state is not ABSENT, and blocks(ABSENT) is the maximum 64-bit value.", "quantifier": "every blocklist reachable by marks, every state", "why_tests_cant": "The counters are maintained incrementally by every insertion, deletion, split and merge, with wrap-around arithmetic; the claim is an invariant of all histories.", "anchors": ["src/cache/blocklist.cpp: blocks, present_blocks, delete_range, mark_internal, try_merge_with_previous"]}
{"id": "C04", "title": "fsck accepts what mark produced", "statement": "fsck() does not throw on a blocklist that was only ever modified through mark().", "quantifier": "every finite sequence of mark calls", "why_tests_cant": "Quantifies over all histories.", "anchors": ["src/cache/blocklist.cpp: fsck, mark_internal, split_entry"]}
{"id": "C05", "title": "fsck detects every inconsistent list", "statement": "If fsck() returns without throwing, the entries in the file are sorted, pairwise disjoint and non-empty, and the stored per-state counters equal the number of blocks recorded in the entries for each state; if these hold, it does not throw.", "quantifier": "every content of the blocklist file, including contents mark cannot produce", "why_tests_cant": "Quantifies over all file contents; a test can only corrupt a file in a few ways.", "anchors": ["src/cache/blocklist.cpp: fsck"]}
{"id": "C06", "title": "maintenance does not change contents", "statement": "shrink() and fsck() change neither the state of any block, nor blocks(), present_blocks(), nentries(), nor what later calls observe; growing inside mark() does not either.", "quantifier": "every blocklist file and every block", "why_tests_cant": "The preserved observations range over 2^64 blocks and all file contents.", "anchors": ["src/cache/blocklist.cpp: shrink, fsck, grow, require_space"]}
{"id": "C07", "title": "shrink leaves the smallest file that fits", "statement": "After shrink() the file size is the smallest positive multiple of 4096 that holds the superblock and all entries (capacity() >= nentries(), and one growth step less would not fit), and shrink() never fails an assertion.", "quantifier": "every file size that growth steps can produce and every number of entries that fits in it", "why_tests_cant": "All sizes and entry counts; off-by-one at the step boundary is the realistic bug.", "anchors": ["src/cache/blocklist.cpp: shrink, capacity"]}
{"id": "C08", "title": "mark never crashes", "statement": "mark() on a blocklist produced by marks neither fails an assertion, nor accesses memory outside the mapping, nor runs out of capacity.", "quantifier": "every finite sequence of mark calls with ranges ending below 2^64", "why_tests_cant": "Assertion failures and out-of-bounds accesses depend on entry layout and on capacity being reached in the middle of a split.", "anchors": ["src/cache/blocklist.cpp: mark_internal, split_entry, insert_before, require_space, delete_range"]}
{"id": "C09", "title": "truncate_access never overstates what can be read", "statement": "truncate_access(start, size) returns n <= size such that every byte in [start, start+n) lies in a block whose state is not ABSENT.", "quantifier": "every reachable blocklist, every start and size", "why_tests_cant": "All byte ranges and all layouts, including positions at the end of the entry array.", "anchors": ["src/cache/blocklist.cpp: truncate_access"]}
{"id": "C10", "title": "truncate_access is maximal", "statement": "truncate_access(start, size) returns size if every block of the access is present, and otherwise at least the number of bytes from start to the first absent block; 0 if the block containing start is absent or start is negative.", "quantifier": "every reachable blocklist, every start and size", "why_tests_cant": "All byte ranges and all layouts.", "anchors": ["src/cache/blocklist.cpp: truncate_access"]}
{"id": "C11", "title": "blocklist files survive reopening; foreign files are rejected", "statement": "Closing a blocklist and opening the same file again yields the same state(b), blocks(), nentries() and capacity(); opening an empty file gives an empty blocklist; opening a file whose size is not a multiple of 512 or which does not start with the magic number throws.", "quantifier": "every blocklist file, every byte content of the file", "why_tests_cant": "Quantifies over file contents.", "anchors": ["src/cache/blocklist.cpp: Blocklist::open, ensure_mapped, ~Blocklist"]}
{"id": "C12", "title": "marks longer than one entry behave like one mark", "statement": "mark(start, count, s) with count > 65535 has the same effect on every state(b) as marking the consecutive pieces separately, and covers the whole range, for any 64-bit count.", "quantifier": "every start, count, state and prior blocklist", "why_tests_cant": "Counts up to 2^64; loop invariant over the chunking loop.", "anchors": ["src/cache/blocklist.cpp: mark"]}
{"id": "C13", "title": "reference counter arithmetic", "statement": "For each inode, the reference count equals the sum of successful increments minus the sum of decrements; a decrement below zero throws and changes nothing; a zero decrement is EINVAL; other inodes are unaffected.", "quantifier": "every sequence of incref/decref/doom calls over every set of inodes", "why_tests_cant": "Induction over call sequences.", "anchors": ["include/dragonstash/cache/cache.hpp: InodeReferences::incref, decref, refcount"]}
{"id": "C14", "title": "doomed and locked are mutually exclusive", "statement": "An inode with a positive reference count is never doomed: doom on it fails with EBUSY; once doomed it stays doomed and every further incref fails with ESTALE; a doomed inode has count zero.", "quantifier": "every sequence of incref/decref/doom calls", "why_tests_cant": "An invariant over unbounded call sequences.", "anchors": ["include/dragonstash/cache/cache.hpp: InodeReferences::doom, incref, doomed"]}
{"id": "C15", "title": "commit runs every hook stage in order", "statement": "A top-level commit in which no stage-1 hook fails runs every stage_1_commit once in registration order, then every stage_2_commit once in registration order, runs no rollback, and succeeds.", "quantifier": "every list of hooks, every subset of absent callbacks, any hook effects", "why_tests_cant": "All hook lists; tests register three hooks at most.", "anchors": ["src/cache/cache.cpp: CacheTransactionRO::commit", "include/dragonstash/cache/cache.hpp: TransactionHook"]}
{"id": "C16", "title": "a failing hook undoes everything in reverse", "statement": "If the i-th stage_1_commit is the first to fail, no later stage_1 and no stage_2 runs; stage_1_rollback runs for exactly the hooks before i whose stage 1 ran, in reverse order, then rollback runs for all hooks in reverse order; the transaction is aborted and the error returned is the error of hook i.", "quantifier": "every list of hooks and every position of the first failure", "why_tests_cant": "All hook lists and failure positions.", "anchors": ["src/cache/cache.cpp: CacheTransactionRO::commit, abort", "include/dragonstash/cache/cache.hpp: TransactionHook::stage_1_rollback"]}
{"id": "C17", "title": "nested commits defer to the outermost transaction", "statement": "Committing nested transactions runs no hook; hooks run when the outermost transaction commits, in the order: hooks of the parent registered before the nested commit, then the nested ones; the effect equals registering all of them in one transaction. Aborting the outermost rolls back all of them in reverse.", "quantifier": "every nesting tree of transactions and every hook list", "why_tests_cant": "Unbounded nesting depth and hook counts.", "anchors": ["src/cache/cache.cpp: CacheTransactionRO::commit", "include/dragonstash/cache/cache.hpp: begin_nested, begin_nested_ro"]}
{"id": "C18", "title": "lookup finds what emplace stored, and nothing else", "statement": "Cache::lookup(p, n) succeeds with inode i exactly if the latest operation affecting name n in directory p left entry i there: after emplace(p, n, a) it returns the inode emplace returned; every other (parent, name) pair is unaffected, apart from entries removed because their directory was deleted.", "quantifier": "every reachable cache state, all parents, names (byte strings up to 503 bytes) and attributes", "why_tests_cant": "The scan in lookup stops by key order over an unbounded table of all names of all directories; correctness depends on byte order of little-endian keys.", "anchors": ["src/cache/cache.cpp: CacheTransactionRO::lookup, CacheTransactionRW::emplace"]}
{"id": "C19", "title": "emplace keeps the inode exactly when the format is unchanged", "statement": "emplace(p, n, a) on an existing entry returns the existing inode iff the file-type bits of a equal those of the entry; otherwise it returns a new inode never used before; in both cases getattr of the returned inode gives exactly a.", "quantifier": "every reachable cache state, names, attributes and modes", "why_tests_cant": "All modes and states.", "anchors": ["src/cache/cache.cpp: CacheTransactionRW::emplace"]}
{"id": "C20", "title": "inode numbers are never reused", "statement": "Within committed history, an inode number returned by emplace for a new entry was never returned before for another entry and is never 0 or 1 (until 2^64 allocations).", "quantifier": "every history of operations, including reopening the cache", "why_tests_cant": "Unbounded histories.", "anchors": ["src/cache/cache.cpp: allocate_next_inode, emplace"]}
{"id": "C21", "title": "name, parent and lookup agree", "statement": "If lookup(p, n) = i then parent(i) = p, name(i) = n and getattr(i) succeeds; conversely if parent(i) = p is valid (and i is not the root) then lookup(p, name(i)) = i.", "quantifier": "every reachable cache state, all inodes and names", "why_tests_cant": "Two redundant tables and the inode record must agree after every operation sequence.", "anchors": ["src/cache/cache.cpp: name, parent, lookup, emplace, make_orphan"]}
{"id": "C22", "title": "path() spells the way from the root and terminates", "statement": "path(i) returns in finite time; it is the empty string for the root; if it succeeds the path split at slashes, looked up component by component from the root, leads to i; it fails with ENOENT for inodes not connected to the root.", "quantifier": "every cache state reachable by calls whose emplaces name existing directories as parents, every inode", "why_tests_cant": "The loop has no bound in the code; termination needs the tree to be acyclic in every reachable state.", "anchors": ["src/cache/cache.cpp: CacheTransactionRO::path"]}
{"id": "C23", "title": "structural consistency of the cache tables", "statement": "After any sequence of operations: the inode-keyed and the name-keyed directory tables describe the same set of (parent, child, name) triples; every child has an inode record whose parent field names its directory; exactly the non-root inodes without parent are in the orphan table; only symlinks have link targets.", "quantifier": "every sequence of transactions (begin, operations, commit/abort) on a cache whose emplaces never pass inode number 0 as the parent", "why_tests_cant": "An invariant over all histories, across five tables.", "anchors": ["src/cache/cache.cpp: emplace, make_orphan, clean_orphans, unlink, finish_dir_rewrite, writelink"]}
{"id": "C24", "title": "unlink removes the entry", "statement": "After a successful unlink of (p, n) or of inode i, lookup(p, n) is ENOENT and readdir no longer lists it; an unlocked inode is gone (getattr ENOENT), a locked inode keeps its attributes; entries outside the removed subtree are unaffected; unlinking a missing name is ENOENT.", "quantifier": "every reachable cache state, inode and name", "why_tests_cant": "All states; recursion over subtrees of unbounded depth.", "anchors": ["src/cache/cache.cpp: CacheTransactionRW::unlink, make_orphan, clean_orphans"]}
{"id": "C25", "title": "locked inodes survive", "statement": "As long as an inode's lock count is positive, getattr, readlink and test_flag on it keep working: no operation (unlink, replacement by emplace, directory rewrite, clean_orphans, deletion of its parent) removes it.", "quantifier": "every sequence of operations between lock and the matching release", "why_tests_cant": "Unbounded interleavings of operations.", "anchors": ["src/cache/cache.cpp: lock, release, clean_orphans", "include/dragonstash/cache/cache.hpp: InodeReferences::doom"]}
{"id": "C26", "title": "clean_orphans terminates and leaves only locked orphans", "statement": "clean_orphans() terminates; afterwards every inode which is unlinked and not locked is gone, including all unlocked descendants of removed directories, and no inode which is linked (connected to a surviving directory) or locked was removed.", "quantifier": "every reachable cache state, directory trees of any depth, any set of locked inodes", "why_tests_cant": "Loop restarts after each deletion and adds entries to the table it iterates; termination is not structural.", "anchors": ["src/cache/cache.cpp: clean_orphans, make_orphan"]}
{"id": "C27", "title": "readdir lists every entry exactly once", "statement": "Iterating readdir(dir, prev) from prev = 0, feeding back the inode of each result, yields '.', then (for non-root) '..', then every entry of the directory exactly once with its name, then end-of-file.", "quantifier": "every reachable cache state and directory of any size", "why_tests_cant": "Directories of unbounded size; the cursor protocol overloads inode numbers 0, dir and parent(dir) as positions, so collisions must be excluded for all numbers.", "anchors": ["src/cache/cache.cpp: CacheTransactionRO::readdir"]}
{"id": "C28", "title": "link targets", "statement": "readlink(i) returns the target of the last writelink(i); ENOENT if i does not exist and EINVAL if it has no target; writelink fails with EINVAL for non-symlinks and ENOENT for missing inodes and then changes nothing; writelink sets the size attribute to the target length.", "quantifier": "every reachable cache state, inode and target", "why_tests_cant": "All states and byte strings.", "anchors": ["src/cache/cache.cpp: readlink, writelink"]}
{"id": "C29", "title": "directory rewrite keeps exactly the re-emplaced entries", "statement": "start_dir_rewrite(d), emplace of names N into d, finish_dir_rewrite: afterwards the entries of d are exactly those emplaced in between (same-format entries keep their inode number); without an intermediate emplace the directory is cleared; entries of other directories are untouched.", "quantifier": "every reachable cache state, directory, and sequence of emplaces", "why_tests_cant": "Unbounded directories and sequences.", "anchors": ["src/cache/cache.cpp: start_dir_rewrite, finish_dir_rewrite, emplace"]}
{"id": "C30", "title": "flags", "statement": "update_flags sets exactly the flags to set, clears exactly the flags to clear and leaves other flags, attributes and inodes unchanged; test_flag observes it; both are ENOENT on missing inodes.", "quantifier": "every reachable cache state, inode and flag lists", "why_tests_cant": "All states and flag lists.", "anchors": ["src/cache/cache.cpp: update_flags, test_flag", "include/dragonstash/cache/inode.hpp: set_flag"]}
{"id": "C31", "title": "abort leaves no trace", "statement": "After abort(), lookups, attributes, links, flags, lock counts and lockability are what they were before the transaction began.", "quantifier": "every transaction body and every reachable prior state", "why_tests_cant": "All transaction bodies.", "anchors": ["src/cache/cache.cpp: CacheTransactionRO::abort, lock, release, clean_orphans"]}
{"id": "C32", "title": "crash safety and reopening", "statement": "After a crash at any point, reopening gives the state of the last committed top-level transaction with all lock counts zero, minus unlinked inodes that were only kept alive by locks; entries reachable from the root are unaffected, and reopening again changes nothing.", "quantifier": "every history and every crash point between operations", "why_tests_cant": "All histories and crash points.", "anchors": ["src/cache/cache.cpp: Cache::Cache, CacheTransactionRO::commit"]}
{"id": "C33", "title": "stored names are valid", "statement": "Every name ever returned by name(), readdir() or contained in path() is at most 503 bytes and contains neither NUL nor '/'; emplace with another name fails (ENAMETOOLONG / EINVAL) and changes nothing.", "quantifier": "every history, every name", "why_tests_cant": "Invariant over all histories and byte strings.", "anchors": ["src/cache/cache.cpp: CacheDatabase::check_name, emplace"]}
{"id": "C34", "title": "the root directory is indestructible", "statement": "After any history, inode 1 exists, is a directory, has itself as parent and the empty name and path; unlinking it fails with EIO and changes nothing.", "quantifier": "every history of operations", "why_tests_cant": "Invariant over all histories.", "anchors": ["src/cache/cache.cpp: Cache::Cache, parent, make_orphan, clean_orphans"]}
{"id": "C35", "title": "on-disk records round-trip", "statement": "Parsing a serialized inode record gives the same record; parsing a serialized directory entry gives the same entry and name; parsing rejects (EINVAL) empty, short and wrong-version buffers and never reads beyond the buffer; keys of distinct inodes are distinct.", "quantifier": "every inode record, directory entry, name, and every byte buffer", "why_tests_cant": "All field values and all buffers.", "anchors": ["src/cache/inode.cpp: Inode::parse_inplace", "src/cache/direntry.cpp: DirEntry::parse_inplace", "include/dragonstash/cache/inode.hpp: serialize", "include/dragonstash/cache/direntry.hpp: emplace"]}
{"id": "C36", "title": "what was seen online is served offline", "statement": "If a lookup of (dir, name) succeeded while the backend was connected, then a later lookup while the backend is disconnected replies with the same inode and the same attributes, provided no operation in between removed or changed the entry.", "quantifier": "every state, every sequence of intervening requests not touching the entry, every name and attributes", "why_tests_cant": "All histories between the two lookups.", "anchors": ["src/fs.cpp: Filesystem::lookup"]}
{"id": "C37", "title": "offline, absence is only claimed when it is known", "statement": "While the backend is disconnected, lookup of a name (of at most 503 bytes, in a directory which is still in the tree) that is not cached replies ENOENT only if the directory has been completely synchronised, and EIO otherwise; offline operations change no cached data.", "quantifier": "every state, directory and name", "why_tests_cant": "All states.", "anchors": ["src/fs.cpp: Filesystem::lookup, readdir", "include/dragonstash/cache/inode.hpp: InodeFlag::SYNCED"]}
{"id": "C38", "title": "a backend error removes the cached entry", "statement": "If the connected backend reports an error for a name, the reply is that error, and afterwards the name is no longer found in the cache, also offline.", "quantifier": "every state, name and error other than ENOTCONN", "why_tests_cant": "All states.", "anchors": ["src/fs.cpp: Filesystem::lookup"]}
{"id": "C39", "title": "a synchronised directory mirrors the backend", "statement": "After opendir succeeded with the backend connected, the cached entries of the directory are exactly the entries of the backend directory, and the directory counts as synchronised.", "quantifier": "every state, directory, backend listing, and backend failure in the middle of the listing", "why_tests_cant": "All listings and failure points.", "anchors": ["src/fs.cpp: Filesystem::opendir"]}
{"id": "C40", "title": "lookup counts are accounted exactly", "statement": "The lock count of an inode equals the number of times its inode number was handed to the kernel in a counted reply (lookup, readdirplus entries) minus the number forgotten; so an inode is only removable when the kernel has forgotten it, and becomes removable then.", "quantifier": "every sequence of requests", "why_tests_cant": "All request histories.", "anchors": ["src/fs.cpp: lookup, readdirplus, forget, forget_multi"]}
{"id": "C41", "title": "every request is answered exactly once", "statement": "For every request the filesystem sends exactly one reply, whatever the cache state and the backend's answers.", "quantifier": "every request kind, state and backend behaviour", "why_tests_cant": "All paths through the handlers.", "anchors": ["src/fs.cpp", "include/dragonstash/fuse/request.hpp"]}
{"id": "C42", "title": "inodes held by the kernel remain accessible", "statement": "From a successful lookup reply until the matching forget, getattr of the inode succeeds, whatever requests happen in between and even if the name has been removed or replaced.", "quantifier": "every request history", "why_tests_cant": "All request histories.", "anchors": ["src/fs.cpp: lookup, getattr, forget", "src/cache/cache.cpp: clean_orphans"]}
{"id": "C43", "title": "directory paging", "statement": "Reading a directory of the tree with readdir requests of any sizes, each larger than any single entry, each continuing at the offset of the last received entry, delivers '.', '..' (except in the root) and each cached entry exactly once, with its attributes, and then signals the end, or EIO if the directory is not completely cached; a reply never exceeds the requested size. The same entries are delivered by readdirplus.", "quantifier": "every directory size, buffer size sequence and name lengths", "why_tests_cant": "All page sizes and directory sizes.", "anchors": ["src/fs.cpp: readdir, readdirplus", "src/fuse/buffer.cpp"]}
{"id": "C44", "title": "stable inode numbers", "statement": "As long as an entry is not removed and its format does not change, repeated lookups and directory synchronisations, online or offline, return the same inode number for it.", "quantifier": "every request history that keeps the entry", "why_tests_cant": "All request histories.", "anchors": ["src/fs.cpp: lookup, opendir", "src/cache/cache.cpp: emplace"]}
{"id": "C45", "title": "in-memory file contents behave like a byte array", "statement": "For the in-memory backend: after pwrite(buf, n, off), pread of any range returns the written bytes inside [off, off+n), the old contents elsewhere, and zeroes in gaps; the size grows to max(old, off+n); pread never returns bytes beyond the end.", "quantifier": "every file content, offset, count, and sequence of writes (off+count below 2^63)", "why_tests_cant": "All offsets and histories.", "anchors": ["src/backend/in_memory.cpp: InMemory::File pread, pwrite"]}
{"id": "C46", "title": "in-memory path resolution", "statement": "Resolving '/a/b/c' yields the node reached by descending the named children from the root; ENOENT if a component is missing, ENOTDIR if an inner component is not a directory.", "quantifier": "every tree and path", "why_tests_cant": "Unbounded trees and paths.", "anchors": ["src/backend/in_memory.cpp: Filesystem::find"]}
{"id": "C47", "title": "the local backend stays below its root", "statement": "Paths handed to the local backend are mapped below the configured root directory: the path opened on the host is the root followed by the requested components, for all paths the filesystem layer generates.", "quantifier": "every root, every path produced from stored names", "why_tests_cant": "All paths.", "anchors": ["src/backend/local.cpp: LocalFilesystem::map_path", "src/fs.cpp: lookup, opendir"]}
{"id": "C48", "title": "file handles are closed exactly once", "statement": "Each descriptor owned by a handle is closed exactly once, after any sequence of moves, resets, closes and destructions; no descriptor not owned is closed.", "quantifier": "every sequence of constructions, moves, closes and destructions", "why_tests_cant": "All sequences.", "anchors": ["src/backend/local.cpp: LocalFile::close, ~LocalFile", "src/cache/blocklist.cpp: FileHandle"]}
{"id": "C49", "title": "request objects reply exactly once", "statement": "Whatever sequence of moves, swaps, replies and destructions a Request object goes through, its request is answered at most once by explicit replies and exactly once in total when it is destroyed (with the default error if nothing was sent); replying twice is reported as a programming error.", "quantifier": "every sequence of operations on any number of Request objects", "why_tests_cant": "All sequences.", "anchors": ["include/dragonstash/fuse/request.hpp: Request", "src/fuse/request.cpp"]}
{"id": "C50", "title": "locks granted from a read-only snapshot are safe under concurrency", "statement": "If a read-only transaction sees an inode and lock() on it succeeds, the inode stays in the committed database until it is released, however other threads' transactions interleave.", "quantifier": "every interleaving of any number of read-only and read-write transactions", "why_tests_cant": "All schedules.", "anchors": ["src/cache/cache.cpp: CacheTransactionRO::lock, commit, clean_orphans", "include/dragonstash/cache/cache.hpp: in_memory_lock_guard"]}
{"id": "C51", "title": "no deadlock between transactions", "statement": "Any set of threads each running one transaction at a time, using only Cache operations, always has a thread which can make progress; a thread which would lock the in-memory mutex twice gets an error instead of hanging.", "quantifier": "every interleaving of any number of threads", "why_tests_cant": "All schedules.", "anchors": ["src/cache/cache.cpp: inode_in_memory_locks", "include/dragonstash/debug_mutex.hpp"]}
{"id": "C52", "title": "a mounted in-memory backend shows its tree, and keeps showing it when disconnected", "statement": "While the in-memory backend is connected, a lookup through the mounted filesystem finds exactly the node at that place in the backend's tree, with its attributes, and opening a directory caches exactly its children. After the connection is lost, lookups in a directory which has been opened find exactly its children with their attributes, and report ENOENT for every other name.", "quantifier": "every backend tree, every live state of the filesystem, every directory and name", "why_tests_cant": "Unbounded trees and histories; the interplay of all layers.", "anchors": ["src/backend/in_memory.cpp: InMemoryFilesystem", "src/fs.cpp: lookup, opendir"]}
{"id": "C53", "title": "reading links of the local backend", "statement": "LocalFilesystem::readlink of an existing file returns the target of the link, or the error of the host's readlink.", "quantifier": "every root, path and host behaviour", "why_tests_cant": "All behaviours of the host, including files which change between the system calls.", "anchors": ["src/backend/local.cpp: LocalFilesystem::readlink"]}
{"id": "C54", "title": "the reference table is only used under the mutex", "statement": "No thread reads or changes the in-memory reference table without holding its mutex: a call by a transaction which does not hold the mutex gives the same result whatever the table contains, and leaves it unchanged. The committed database is only changed by the commit of the one open write transaction.", "quantifier": "every interleaving, every call", "why_tests_cant": "All schedules.", "anchors": ["src/cache/cache.cpp: inode_in_memory_locks", "include/dragonstash/cache/cache.hpp: in_memory_lock_guard"]}
{"id": "C55", "title": "transactions are serialisable", "statement": "However the transactions of any number of threads interleave, all calls return the same and the committed database and the lock counts are the same as if the transactions had been run one after the other, in the order in which they ended, read-only ones on the database as committed when they began.", "quantifier": "every interleaving of any number of transactions without nested ones", "why_tests_cant": "All schedules.", "anchors": ["src/cache/cache.cpp: begin_ro, begin_rw, commit, abort", "include/dragonstash/cache/cache.hpp: CacheTransactionRO, CacheTransactionRW"]}
{"id": "C56", "title": "read-only transactions see a stable snapshot", "statement": "As long as a read-only transaction is open, asking it the same question gives the same answer, whatever other threads commit meanwhile.", "quantifier": "every interleaving", "why_tests_cant": "All schedules.", "anchors": ["src/cache/cache.cpp: begin_ro", "include/dragonstash/cache/cache.hpp: CacheTransactionRO"]}
{"id": "C57", "title": "requests served by several threads are served as if one after the other", "statement": "With any number of threads serving requests (fuse_session_loop_mt), each request which has ended was answered exactly once, and the replies, the database and the reference counts are those which the single-threaded filesystem gives when it handles the same requests one after the other, in the order in which they ended; a request which only reads the database sees it as it was when the request began, so only requests which were under way at the same time can be seen out of order.", "quantifier": "every interleaving of any number of threads, every sequence of requests, every behaviour of the backend", "why_tests_cant": "All schedules; unbounded histories.", "anchors": ["src/fs.cpp: Filesystem", "src/main.cpp: fuse_session_loop_mt", "src/cache/cache.cpp: begin_ro, begin_rw, commit"]}
{"id": "C58", "title": "kernel references are honoured with several threads", "statement": "With any number of threads serving requests at the same time: an inode on which the kernel holds lookups has at least that many locks in the cache, exists in the committed database, and a getattr of it which begins while they are held is answered with its attributes, whatever other threads do meanwhile (even if they remove its name).", "quantifier": "every interleaving of any number of threads, every sequence of requests the kernel may send", "why_tests_cant": "All schedules; unbounded histories.", "anchors": ["src/fs.cpp: lookup, forget, forget_multi, readdirplus, getattr", "src/cache/cache.cpp: lock, release, getattr"]}
{"id": "C59", "title": "no request crashes or hangs the daemon", "statement": "A thread which has got a request can always make its next step or waits for a lock which another thread holds; whoever holds the lock of the reference table never waits; as long as some thread has a request, some thread can make a step; and each request takes finitely many steps. In particular no assertion fails and no exception is thrown.", "quantifier": "every interleaving of any number of threads, every sequence of requests the kernel may send", "why_tests_cant": "All schedules; unbounded histories; liveness.", "anchors": ["src/fs.cpp: Filesystem", "src/cache/cache.cpp: with_rw_txn, commit", "include/dragonstash/cache/cache.hpp: in_memory_lock_guard"]}
{"id": "C60", "title": "what the filesystem shows comes from the backend", "statement": "A lookup answered while the backend is connected shows exactly the attributes the backend reported for it. Whether or not the backend is connected, every attribute shown by lookup, getattr (except of the root directory) and the directory listings (except '.' and '..'), and every link target, is one which the backend has at some time reported for that very path (for a link the size may be the length of its reported target). Nothing is ever invented or taken from another path.", "quantifier": "every history of requests, restarts and backend behaviours", "why_tests_cant": "Unbounded histories, through the cache's records and restarts.", "anchors": ["src/fs.cpp: lookup, getattr, readlink, opendir, readdir, readdirplus", "src/cache/cache.cpp: emplace, writelink, getattr", "include/dragonstash/cache/inode.hpp"]}
{"id": "C61", "title": "edits of the in-memory tree are local", "statement": "emplace, remove and update_attr on an object of the in-memory tree change exactly the object named: after emplace of a new name the new object is there and nowhere else anything changes; emplace of an existing name changes nothing; remove takes away exactly what is below the name; update_attr keeps type and contents. A new object has nothing but its type. The reference returned by emplace is to the object in the tree.", "quantifier": "every tree, every path, every edit", "why_tests_cant": "Unbounded trees.", "anchors": ["src/backend/in_memory.cpp: Directory::emplace, Directory::remove, Node::update_attr"]}
{"id": "C62", "title": "calls of the in-memory backend depend on the kind of object only as specified", "statement": "On a connected in-memory backend, lstat returns the attributes of the object at the path, readlink the target of a link and EINVAL for anything else, opendir the names of a directory (after '.' and '..') and ENOTDIR for anything else, open a file, EISDIR for a directory and EINVAL for a link; where there is nothing all calls fail with the same ENOENT or ENOTDIR; disconnected all fail with ENOTCONN.", "quantifier": "every tree and path", "why_tests_cant": "Unbounded trees.", "anchors": ["src/backend/in_memory.cpp: InMemoryFilesystem"]}
{"id": "C63", "title": "reading a directory which changes meanwhile", "statement": "If a directory is read to the end in several calls or requests (readdir and readdirplus mixed, any sizes) while it changes in between in any way, as long as it stays where it is: every entry which it has during the whole time is listed exactly once; no inode is listed twice; and whatever is listed was an entry when it was listed.", "quantifier": "every sequence of states between the calls, every sequence of page sizes", "why_tests_cant": "Unbounded directories; all interleavings of changes with the reading.", "anchors": ["src/cache/cache.cpp: readdir", "src/fs.cpp: readdir, readdirplus"]}
{"id": "C64", "title": "one-call functions of the cache are atomic", "statement": "Each function of class Cache which runs in a transaction of its own (name, parent, lookup, getattr, readlink, path, emplace, lock, release, writelink) takes effect completely or not at all: the reading ones answer from the committed contents and change nothing; a writing one which returns an error leaves contents, lock counts and lockability exactly as they were; one which succeeds has committed its effect and removed all unlinked unlocked inodes, so giving back the last lock of an unlinked inode removes it at once.", "quantifier": "every state without open transaction, every function and argument", "why_tests_cant": "Unbounded cache contents and histories.", "anchors": ["src/cache/cache.cpp: with_rw_txn, Cache::name, Cache::parent, Cache::lookup, Cache::getattr, Cache::emplace, Cache::lock, Cache::release, Cache::readlink, Cache::writelink, Cache::path"]}
{"id": "C65", "title": "the kernel reads from a directory reply what the cache holds", "statement": "The bytes sent in reply to a readdir or readdirplus request consist of whole records; the kernel's parser reads from them, without an error, exactly the entries of the page: each is '.', '..' or an entry of the directory with the inode number lookup gives for it, the type (and for readdirplus the attributes, and the inode whose lookup count is raised) of that inode, and the offset from which the next request continues. Provided that no entry has an empty name, which no POSIX directory has.", "quantifier": "every reachable state, every directory, size and offset", "why_tests_cant": "All names, sizes and paddings; unbounded directories.", "anchors": ["src/fuse/buffer.cpp: DirBuffer::add, DirBuffer::prepare_add, DirBufferPlus::add, DirBufferPlus::prepare_add, DirBufferPlus::execute_add", "include/dragonstash/fuse/buffer.hpp: DirBuffer, DirBufferPlus::rewind", "src/fs.cpp: readdir, readdirplus"]}
{"id": "C66", "title": "the database file always has the documented layout", "statement": "After every call, commit, abort or crash, every key and value in the database file has exactly the layout of the format: inode records of 96 bytes with version 1 and zero reserved bytes under inode numbers below the next one; every directory entry under (directory, inode) and under (directory, name) with identical bytes, matching the directory recorded in the inode; every inode either has such an entry, is the root, or is in the list of orphans; link targets belong to symbolic links. Consequently every record parses whenever it is read, the results of all calls are those of the records stored, and nothing depends on the padding bytes of the records.", "quantifier": "every history of transactions and calls with arguments in range, every crash point, all padding bytes", "why_tests_cant": "Unbounded histories and contents; all crash points; unspecified padding.", "anchors": ["src/cache/cache.cpp: make_orphan, emplace, clean_orphans, writelink, update_flags, allocate_next_inode, Cache::Cache", "include/dragonstash/cache/inode.hpp: InodeV1, serialize", "include/dragonstash/cache/direntry.hpp: DirEntryV1, emplace"]}
{"id": "C67", "title": "reading a damaged database fails cleanly", "statement": "Whatever bytes the values in the database are, reading operations read no byte outside a record and end with a result or an error code: a truncated record or one of another version is answered with EINVAL (EIO by readdir).", "quantifier": "every content of the database, every inode number and cursor", "why_tests_cant": "All byte strings as values.", "anchors": ["src/cache/cache.cpp: getattr, parent, name, readlink, readdir, lookup, test_flag", "src/cache/inode.cpp: Inode::parse_inplace", "src/cache/direntry.cpp: DirEntry::parse"]}
{"id": "C68", "title": "a crash inside mark invents nothing", "statement": "If the process dies at any point inside mark(start, count, state), the block list opened next reports for every block the state it had before, or ABSENT, or, for blocks of the range only, the new state; it never fails to report a state.", "quantifier": "every history, every mark, every point between two stores, every mixture of moved and unmoved entries inside a memmove", "why_tests_cant": "All crash points of all histories; unbounded lists.", "anchors": ["src/cache/blocklist.cpp: mark, mark_internal, insert_before, delete_range, split_entry, try_merge_with_previous"]}
{"id": "C69", "title": "a crash inside mark loses nothing unnoticed", "statement": "If the process dies at any point inside mark(start, count, state), then either fsck rejects the file or every block outside the range still has the state it had before.", "quantifier": "every history, every mark, every crash point", "why_tests_cant": "All crash points of all histories; unbounded lists.", "anchors": ["src/cache/blocklist.cpp: mark, mark_internal, insert_before, delete_range, fsck"]}
{"id": "C70", "title": "opening a block list can be interrupted", "statement": "If the process dies at any point while a block list file is opened or created, the next process can open the file.", "quantifier": "every file content which can be opened, every crash point", "why_tests_cant": "All file contents and crash points.", "anchors": ["src/cache/blocklist.cpp: open"]}
{"id": "C71", "title": "errors stay errors on their way to the caller", "statement": "A failed result which is passed on, stored, copied, or propagated through any number of functions reaches the caller as a failure with the same error number, whose value cannot be read; a success reaches it as a success.", "quantifier": "every value and error number, every chain of copies, propagations and conversions", "why_tests_cant": "All chains of operations on results of all types.", "anchors": ["include/dragonstash/error.hpp: Result, make_result, copy_error"]}
{"id": "C72", "title": "unsupported requests are refused and change nothing", "statement": "Every callback of libfuse other than lookup, forget, forget_multi, getattr, readlink, opendir, readdir, readdirplus and releasedir is answered exactly once, with ENOSYS; it does not change the cache and does not ask the backend; sessions with and without such requests give the same answers to all others. The supported callbacks are served with the arguments which libfuse passed.", "quantifier": "every callback, all arguments, all states, every session", "why_tests_cant": "All callbacks with all arguments in all states; unbounded sessions.", "anchors": ["include/dragonstash/fuse/interface.hpp: Session", "src/fuse/interface.cpp: Interface", "include/dragonstash/fs.hpp: Filesystem"]}
{"id": "C73", "title": "mounting cleans up after itself and tells how it went", "statement": "Whatever step of mounting fails, if the program returns then everything which was set up (cache, session, signal handlers, mount) has been given back in reverse order, each once; the exit status is 0 if and only if everything went well.", "quantifier": "every command line, every combination of failures", "why_tests_cant": "All failure points.", "anchors": ["src/main.cpp: MountCommand::execute, main", "include/dragonstash/fuse/interface.hpp: Session"]}
{"id": "C74", "title": "listings of a local directory are complete, or fail", "statement": "Reading a directory of the local backend gives the names which the host lists, in the host's order, with their types, and then the end of the directory if the host came to its end, and the host's error if the host failed.", "quantifier": "every directory content, every point at which the host fails", "why_tests_cant": "All directory contents and failure points.", "anchors": ["src/backend/local.cpp: LocalDir::readdir, LocalFilesystem::opendir"]}
{"id": "C75", "title": "a local file works on its own descriptor", "statement": "Every system call which a file handle of the local backend makes is on the descriptor which it was given, with the arguments of the operation; none is made after the file was closed; the host's answer is passed on.", "quantifier": "every sequence of operations, every answer of the host", "why_tests_cant": "Unbounded sequences of operations with arbitrary answers.", "anchors": ["src/backend/local.cpp: LocalFile"]}
{"id": "C76", "title": "a mark which fails for lack of space changes nothing", "statement": "If the block list file has to grow and cannot, mark(start, count, state) throws, and every block has the state it had before; the list can be used on.", "quantifier": "every history, every mark, every disk size", "why_tests_cant": "All histories and all points at which the space can run out; needs a list with all slots in use.", "anchors": ["src/cache/blocklist.cpp: grow, require_space, insert_before, split_entry, mark_internal, mark"]}
{"id": "C77", "title": "what is shown comes from the backend, also with several threads", "statement": "With any number of threads serving requests at the same time: all attributes in replies to lookup, readdirplus (and of getattr for entries other than the root) and all link targets are ones which the backend reported for some path at some time, in the sense that if all backends asked so far say only attributes in S and targets in T, then so do the replies.", "quantifier": "every number of threads, every interleaving, every history of requests and remounts, every behaviour of the backend", "why_tests_cant": "All interleavings of unbounded histories.", "anchors": ["src/fs.cpp: all handlers", "include/dragonstash/fuse/interface.hpp: Session"]}
{"id": "C78", "title": "several threads: each request is answered as specified from what it saw", "statement": "With any number of threads: every reply to lookup, readlink, opendir, getattr, readdir, readdirplus is the one which the backend (if connected) or the cached tree (if not) demands, where the cached tree is the one left by the requests which ended before it (for requests which only read: before it began). In particular a connected lookup is answered with the backend's attributes and stored; offline it is answered from the cache; a listing shows only entries of the directory.", "quantifier": "every number of threads, every interleaving, every history of requests and remounts, every behaviour of the backend", "why_tests_cant": "All interleavings of unbounded histories.", "anchors": ["src/fs.cpp: all handlers", "src/cache/cache.cpp: Transaction"]}
{"id": "C79", "title": "several threads: entries which the backend confirms stay, with their inode number", "statement": "With any number of threads: an entry which is in the cache after k requests is found under the same name with the same inode number after k' > k requests, if in between the backend, whenever it is connected and asked, confirms the entry and the directories above it; its attributes stay in every set of attributes which the backend's answers stay in. So what was looked up online is answered in the same way later offline, whatever other threads did in between.", "quantifier": "every number of threads, every interleaving, every history, every pair of requests", "why_tests_cant": "All interleavings of unbounded histories.", "anchors": ["src/fs.cpp: lookup, opendir, readlink", "src/cache/cache.cpp: emplace, start_dir_rewrite, finish_dir_rewrite, commit"]}
{"id": "C80", "title": "a block list survives refused system calls", "statement": "If the host refuses a system call (fstat, mmap, munmap, ftruncate, pread) which a block list makes, the operation throws an exception; it never accesses memory which is not mapped and never terminates the process. Once the host refuses nothing any more the object works again. Every mapping which was made has been given back, with its size and once, when the object is gone.", "quantifier": "every sequence of operations, every choice of which system calls the host refuses", "why_tests_cant": "All combinations of refusals at all points of all histories.", "anchors": ["src/cache/blocklist.cpp: ensure_mapped, ensure_unmapped, grow, require_space, shrink, read_superblock, ~Blocklist", "include/dragonstash/cache/blocklist.hpp: temporary_superblock"]}
{"id": "C81", "title": "streams over cached directories list every entry once", "statement": "A CachedDir lists the entries which the database holds for the directory, each once and in order, with their offsets, then the end; after Seek to an earlier offset it lists again from there; no stored bytes make it read out of bounds or fail an assertion.", "quantifier": "every content of the database, every sequence of ReadDir and Seek", "why_tests_cant": "All contents, including arbitrary bytes, and unbounded sequences of calls.", "anchors": ["src/cache/cache.cpp: CachedDir", "include/dragonstash/cache/cache.hpp: CachedDir"]}
{"id": "C82", "title": "transaction objects: moving them changes nothing, nothing is lost or ended twice", "statement": "Moving a transaction object (by construction or assignment to a finished object) and going on with the new object has the same effects, hook calls and results as going on with the old one. Whatever is done with transaction objects (nested, moved, assigned, committed, aborted, destroyed, in any order): each transaction begun is held by exactly one object or has been ended exactly once, and the lock on the reference table is held by exactly one object as long as it is locked; when no object is left all transactions have ended and the lock is free.", "quantifier": "every sequence of calls on any number of transaction objects, arbitrary hooks", "why_tests_cant": "All sequences of moves, nestings and endings.", "anchors": ["src/cache/cache.cpp: abort, commit, inode_in_memory_locks, begin_ro, begin_rw", "include/dragonstash/cache/cache.hpp: CacheTransactionRO, CacheTransactionRW, begin_nested"]}
{"id": "C83", "title": "The filesystem on the bytes of its database file", "statement": "For every history of process starts and requests, working on the bytes which are actually stored in the LMDB file (records, packed directory entries, little endian counters, padding whose contents are undefined), the filesystem sends the replies which the record-level description gives; the contents of padding bytes never influence a reply; the file always has the documented layout; no request of the kernel crashes the process because of what earlier requests wrote (except for the known double reply of readdir); what was looked up online is served offline, after any number of restarts.", "quantifier": "all histories of starts and requests, all backends whose answers fit the C++ types, all contents of padding bytes", "why_tests_cant": "Which bytes a request finds depends on everything served before; the contents of padding are undefined and differ from run to run.", "anchors": ["src/fs.cpp", "src/cache/cache.cpp", "src/cache/inode.cpp: InodeV1", "src/cache/direntry.cpp: DirEntryV1"]}
{"id": "C84", "title": "a damaged database is handled without undefined behaviour", "statement": "Whatever the values in the database file are (only the lengths of keys are right), and whatever the backend answers, starting the daemon and serving requests never runs into undefined behaviour: it works, gives an error code, or stops with an assertion or exception. In full: no call fails other than by an error code.", "quantifier": "all contents of all records, all histories of starts and requests, all backends", "why_tests_cant": "Arbitrary damage cannot be enumerated, and its effects depend on all records which a request touches.", "anchors": ["src/cache/cache.cpp", "src/fs.cpp", "src/cache/inode.cpp: Inode::parse_inplace", "src/cache/direntry.cpp: DirEntry::parse_inplace"]}
{"id": "C85", "title": "a crash while requests are served loses nothing that was promised", "statement": "If the process dies at any moment while any number of threads serve requests and is started again, the new process finds exactly what the requests which had ended left when served one after the other; a request which had not ended leaves no trace. Replies which tell the kernel that a lookup found something or that a directory was opened are sent only after the commit; a request which has been answered changes the database no more. So what was looked up online is answered in the same way offline, with the same inode number, however often the process died in between, as long as the backend, when connected, confirms it.", "quantifier": "every number of threads, every interleaving, every history, every moment of death, any number of restarts", "why_tests_cant": "All crash points under all interleavings of all histories.", "anchors": ["src/fs.cpp: lookup, opendir, readlink, forget, readdirplus", "src/cache/cache.cpp: commit, clean_orphans, Cache", "src/main.cpp"]}
{"id": "C86", "title": "threads on the bytes of the database file", "statement": "Any number of threads serve requests in any interleaving, the process may die at any moment, and the database file holds bytes, with undefined padding. Every reply, lookup count and step is the one of the model with records, so all properties proved there hold. At every moment the file has the documented layout. Any interleaving gives the replies and the file contents (but for padding) which a single thread produces when it serves the requests one after the other. A thread with a request goes on, waits for a lock, or is about to send the known second reply of readdir. After a crash mounting succeeds and everything which has a path is as before. What was looked up online is answered in the same way offline, however many threads and crashes there were in between.", "quantifier": "every number of threads, interleaving, history, crash point, and all contents of padding bytes", "why_tests_cant": "Interleavings, crash points and uninitialised bytes cannot be enumerated or controlled by a test.", "anchors": ["src/fs.cpp", "src/cache/cache.cpp", "src/cache/inode.cpp: Inode::serialize, Inode::parse_inplace", "src/cache/direntry.cpp", "src/main.cpp"]}
{"id": "C87", "title": "a mounted local directory shows the directory on the host, online and offline", "statement": "Mounted over a directory of the host: a lookup shows the attributes which the object has on the host, or fails if there is none; readlink shows the target of the link; opendir caches exactly what is in the directory. After the host has lost the directory (ENOTCONN), what was seen is shown as before, and names which were not in an opened directory do not exist. If the directory on the host never changes, every reply at any time, online or offline, after any requests and restarts, shows what is there.", "quantifier": "every directory tree, every host which has it, every history of requests and restarts", "why_tests_cant": "Unbounded trees and histories; composes path mapping, backend, cache and filesystem.", "anchors": ["src/fs.cpp: Filesystem", "src/backend/local.cpp: LocalFilesystem, LocalDir", "src/cache/cache.cpp: CacheTransactionRW"]}
{"id": "C88", "title": "every request is answered, none waits forever", "statement": "With any number of threads: every request which the kernel sends is answered at most once, and is answered or still being served at any time. If the kernel sends no more requests, all threads come to rest after finitely many steps in whatever order they run, and all requests have been answered, once each. If the scheduler and the locks are fair, every request is answered even though new requests keep coming. Requests which only read (getattr, readdir) never wait for a lock.", "quantifier": "every number of threads, every history, every infinite fair schedule", "why_tests_cant": "Liveness: no finite execution can show that something happens eventually under all schedules.", "anchors": ["src/fs.cpp: all handlers", "src/cache/cache.cpp: begin_rw, commit, inode_in_memory_locks", "src/debug_mutex.hpp", "src/main.cpp: fuse_session_loop_mt"]}
{"id": "C89", "title": "a mounted local directory with several threads and crashes", "statement": "A directory of the host is mounted and requests are served by several threads, and the process may die at any moment and be started again. (a) While the directory does not change on the host, every lookup, getattr, readlink and every entry of a listing shows the attributes or the target which the object has on the host, in whatever order the threads run, and whether the host was connected or not when the request was served. (b) An object which was looked up keeps its inode number and its attributes as long as it stays there on the host, whatever else changes there: later lookups of it are answered in the same way, by whatever thread, connected or not, in the same process or a later one.", "quantifier": "all directory trees of the host, all paths, all numbers of threads, interleavings, requests, losses of connection, crashes and restarts", "why_tests_cant": "What a reply shows depends on all requests before it, the order in which the threads ran, when the connection was lost and when the process died; the paths and trees are unbounded.", "anchors": ["src/backend/local.cpp: LocalFilesystem::lstat, opendir, readlink", "src/fs.cpp: lookup, getattr, readlink, opendir, readdir, readdirplus", "src/main.cpp"]}
{"id": "C90", "title": "nothing is missing from a mounted local directory", "statement": "A directory of the host which does not change is mounted, requests are served by several threads, and the process may die at any moment and be started again. At all times everything in the cache is on the host, and a directory which counts as synchronised has exactly the names which it has on the host (those which can be stored). An object keeps its inode number, as long as the mount exists and beyond. A lookup is answered with the object on the host; or that it does not exist, and then it does not exist on the host; or with EIO, only while the connection is lost and the directory is not synchronised. A link is answered with its target, or with EINVAL, only while the connection is lost. Opening a directory always succeeds, and synchronises it while connected. Attributes of known objects are always shown.", "quantifier": "all directory trees of the host, all paths, all numbers of threads, interleavings, requests, losses of connection, crashes and restarts", "why_tests_cant": "Absence of an entry is claimed on the basis of all earlier requests: a test sees only the entries, requests and interleavings it tries.", "anchors": ["src/backend/local.cpp: LocalFilesystem::lstat, opendir, readlink", "src/fs.cpp: lookup, getattr, readlink, opendir", "src/cache/cache.cpp: start_dir_rewrite, finish_dir_rewrite, emplace"]}
{"id": "C91", "title": "paths lead to the same objects as on the host", "statement": "A directory of the host which does not change is mounted as in C90. The kernel resolves a path name by name, with lookup and readlink requests at any times, and answers it has kept; following . and .. and symbolic links (relative ones, which stay inside). The result is the object at which the host arrives when it resolves the same path, with its attributes; or an error, and then the host comes to an error too; or EIO or EINVAL, which a request was answered while the connection was lost.", "quantifier": "all directory trees of the host, all paths of any length, all chains of links, all numbers of threads, interleavings, losses of connection, crashes and restarts", "why_tests_cant": "Paths and chains of links are unbounded, and the requests of one resolution are spread over arbitrary other requests of other threads.", "anchors": ["src/backend/local.cpp: LocalFilesystem::lstat, readlink", "src/fs.cpp: lookup, readlink", "src/cache/cache.cpp: path, emplace, writelink"]}
{"id": "C92", "title": "listings stay right while other requests are served", "statement": "Requests are served by several threads. The kernel reads a directory page by page, with readdir or readdirplus, while other requests change it in any way, but do not move it. The listing begins with . and .., lists no inode twice, lists only what was in the directory in the state which one of the pages saw, and lists everything that was in the directory all the time. If a directory of the host which does not change is mounted, and the kernel resolves a path, opens the directory it leads to while connected, and lists it afterwards: then a name is listed if and only if it is there on the host, once, with its attributes, even if the connection is lost meanwhile.", "quantifier": "all directories, sizes and numbers of pages, all numbers of threads, all interleavings with any other requests; all directory trees of the host, paths and losses of connection", "why_tests_cant": "The pages of one listing are spread over arbitrary other requests, which add and remove entries between and during the pages; a test tries a few schedules.", "anchors": ["src/fs.cpp: opendir, readdir, readdirplus", "src/cache/cache.cpp: readdir, lock, start_dir_rewrite, finish_dir_rewrite", "src/backend/local.cpp: LocalFilesystem::opendir"]}
{"id": "C93", "title": "a mounted local directory is right down to the bytes of the database file", "statement": "A directory of the host which does not change is mounted, several threads serve requests on the bytes of the LMDB file (records as the program stores them, with undefined padding), and the process may die at any moment and be started again on the file as it was last committed. At all times the file agrees with the directory on the host; paths lead to the same objects as on the host; and a listing after opening a directory while connected lists what it has on the host.", "quantifier": "all directory trees of the host, paths and links, all contents of padding bytes, all numbers of threads, interleavings, losses of connection, crashes and restarts", "why_tests_cant": "The bytes of the file depend on all requests since it was created, by all processes which used it; tests look at single records.", "anchors": ["src/cache/inode.cpp, src/cache/direntry.cpp", "src/cache/cache.cpp: all functions", "src/fs.cpp: lookup, readlink, opendir, readdir, readdirplus", "src/backend/local.cpp"]}
{"id": "C94", "title": "opening a directory brings its cached copy up to date", "statement": "A directory is opened while the host is connected and has it. Whatever was cached of it before, and however the host has changed since then, the request succeeds and the cached copy then has exactly the entries the host has, with the same attributes. It stays so, and entries keep their inode numbers, as long as this directory does not change on the host: while other directories of the host change, the connection comes and goes, any number of requests are served by several threads, and the process dies and is started again. Lookups in the directory are answered rightly, connected or not, and a listing in any number of pages is complete and right.", "quantifier": "all earlier contents of the cache, all directory trees of the host and changes elsewhere in them, all numbers of threads, interleavings, losses of connection, crashes and restarts", "why_tests_cant": "The cached copy is the result of an unbounded history of requests, and old entries of any number have to disappear; tests open directories in a few prepared caches and do not change the host under a running daemon.", "anchors": ["src/fs.cpp: opendir, lookup, readdir, readdirplus", "src/cache/cache.cpp: start_dir_rewrite, finish_dir_rewrite, emplace, unlink, lookup", "src/backend/local.cpp: LocalFilesystem::opendir, lstat"]}
{"id": "C95", "title": "the size of a link is the length of its target", "statement": "If the backend, whenever it is asked, reports for a symbolic link the length of its target as its size, then so does the filesystem: the size which it shows for a cached link is the length of the target which it answers.", "quantifier": "all histories of requests, numbers of threads, interleavings, crashes and restarts, and all changes of links on the backend in between", "why_tests_cant": "Attributes and targets are stored in different tables by different requests, at different moments of an unbounded history during which the backend changes; tests read each link once.", "anchors": ["src/cache/cache.cpp: writelink (with the TODO about st_size), emplace, readlink, getattr", "src/fs.cpp: lookup, readlink, opendir, getattr"]}
{"id": "C96", "title": "what is mounted and unmounted is what the user named", "statement": "Wherever the program is started, and whether it stays in the foreground or not: the cache directory it opens, the mount point it mounts and later unmounts, and the directory whose contents it serves with --local are those which the paths on the command line meant when it was started.", "quantifier": "all command lines, paths and working directories, all results of the library functions called, all requests", "why_tests_cant": "The paths are used before and after the working directory changes, by every request which is served; tests use absolute paths or do not start the program at all.", "anchors": ["src/main.cpp: MountCommand::execute", "src/backend/local.cpp: LocalFilesystem::LocalFilesystem, map_path", "include/dragonstash/fuse/interface.hpp: Session::mount, unmount"]}
{"id": "C97", "title": "several processes share one cache", "statement": "Several processes may have the same cache open. However their calls interleave, each finds the tables consistent in all its transactions; a transaction sees what was last committed by any process when it began, and nothing of what others do afterwards; no update of one process is lost by a commit of another; an inode number handed out by one process was never that of anything stored before by any process. A process which opens the cache changes nothing which has a path. The locks, however, are known only to the process which took them: an object unlinked but still in use by one process is removed when another opens the cache or unlinks and cleans.", "quantifier": "every history of calls by any number of processes, including crashes and restarts of some of them, every inode, every transaction", "why_tests_cant": "the result depends on how the calls of the processes interleave; tests run one process", "anchors": ["src/cache/cache.cpp: Cache::Cache, begin_ro, begin_rw, commit, lock, emplace, clean_orphans", "include/dragonstash/cache/cache.hpp: Cache, InodeReferences"]}
{"id": "C98", "title": "pointers and handles of the in-memory backend", "statement": "Whatever was done to the in-memory file system through its own functions, through the pointers and references which find and emplace return, and through open handles: it is a tree, and the calls by path answer from this tree. A handle of a file reads and writes what is at the path of the file, connected or not, and a change through it, or through a pointer, is seen by everyone and changes nothing else. Handles and pointers stay valid until they are closed or their object, or a directory above it, is removed (then they dangle, and every use of them is undefined). A listing returns every name which was in the directory from the start and was not removed exactly once, whatever else is inserted or removed meanwhile, except that inserting with a rehash, and removing the name which would be next, make it undefined.", "quantifier": "every history of calls by path, through pointers and through any number of handles, every order in which the hash map iterates, every path, name and offset", "why_tests_cant": "The objects refer to each other and are referred to by any number of handles at once, and the order of hash maps is not fixed; tests use one handle at a time and never change what is open.", "anchors": ["src/backend/in_memory.cpp: Node::find, Directory::find, remove, DirHandle::readdir, FileHandle::fstat, pread, pwrite, InMemoryFilesystem::open, opendir, lstat, readlink, set_connected", "include/dragonstash/backend/in_memory.hpp: Directory::emplace"]}
{"id": "C99", "title": "an inode number always means the same object", "statement": "Over the whole life of a cache, across all its processes, an inode number which the kernel has been told never comes to mean something else: all replies which show attributes of an inode tell the same file type, and all replies which tell where an inode is tell the same directory and name, whenever they were sent. If an object is replaced on the backend by one of another type, it appears under a number which was never used before. What has gone from its place, or was removed, does not come back: no request which begins later shows it there.", "quantifier": "all pairs of replies sent in the life of a cache, by all its processes, with any numbers of threads, interleavings, backends, crashes and restarts", "why_tests_cant": "Relates replies arbitrarily far apart, with an unbounded number of requests, replacements, removals, crashes and restarts in between; the kernel relies on it because the inode generation is always 0.", "anchors": ["src/cache/cache.cpp: emplace, allocate_next_inode, make_orphan, clean_orphans", "src/fs.cpp: lookup, getattr, readdir, readdirplus, opendir"]}
{"id": "C100", "title": "what is shown of an object never goes back to an earlier state", "statement": "Once the kernel was shown attributes of an inode, later requests, in any thread and in later processes, connected or not, show the attributes which the backend reported then or later, never ones it reported only earlier. For instance the time of modification shown for an inode never decreases if the one the backend reports for it does not.", "quantifier": "all sets of attributes and all executions in which the backend reports nothing outside the set from some moment on; all pairs of replies after it, with any numbers of threads, interleavings, crashes and restarts", "why_tests_cant": "A stale value could come from a snapshot, another thread, an aborted transaction or the databases a crash left, at any later time; a test compares two consecutive requests.", "anchors": ["src/fs.cpp: lookup, getattr, readlink, opendir, readdir, readdirplus", "src/cache/cache.cpp: emplace, writelink, begin_ro, commit"]}
{"id": "C101", "title": "the bytes of the database file keep the meaning of inode numbers over the life of a cache", "statement": "The guarantees that an inode number always means the same object, that what has gone does not come back, and that what is shown of an object never goes back to an earlier state hold for the program which reads and writes the bytes of the database file, as every process finds them after the one before died.", "quantifier": "all histories of processes on one database file, all contents of padding bytes, all pairs of replies, thread counts, interleavings, crashes and restarts", "why_tests_cant": "Every record goes through an encoding with padding, keys in byte order and two indexes; an error in one of them would show only for some numbers, names or orders of changes.", "anchors": ["src/cache/inode.cpp", "src/cache/direntry.cpp", "src/cache/cache.cpp: emplace, lookup, getattr, path, readdir, make_orphan, clean_orphans", "src/fs.cpp"]}
{"id": "C102", "title": "the mounted directory mirrors a real directory with symbolic links", "statement": "On a host whose paths are resolved as POSIX says (symbolic links in the root path and below it, relative and absolute, up to 40 of them; `.` and `..`; repeated and trailing slashes), what a mounted local directory shows while the host does not change is what lstat finds at the root path followed by the names, and where no link is passed that is exactly what is in the directory which the root path leads to.", "quantifier": "every file system on the host, root path, working directory, history of requests, number of threads, interleaving and crash point", "why_tests_cant": "The paths which the backend builds go through a resolution with any number of links and unbounded depth; a test has one directory.", "anchors": ["src/backend/local.cpp: map_path, lstat, readlink, opendir", "src/fs.cpp: lookup, readlink, opendir"]}
{"id": "C103", "title": "what is outside of the mounted directory stays hidden, also behind symbolic links", "statement": "No request shows or stores anything which depends on what is outside of the mounted directory on the host: symbolic links are shown as links and never followed by the daemon, wherever they lead and whenever they are created.", "quantifier": "every pair of file systems which differ outside of the root only, every history of requests and changes of the host, threads, interleavings and crashes, every request", "why_tests_cant": "A relation between two executions for all contents of the host; whether a path passes a link depends on when which directory was cached.", "anchors": ["src/backend/local.cpp: map_path, lstat, readlink, opendir", "src/fs.cpp: lookup, readlink, opendir", "src/cache/cache.cpp: path"]}
{"id": "C104", "title": "changes on the host become visible within a second", "statement": "While the host is connected, what stat shows for a path, be it from the kernel's caches or from the daemon, is what the host reported for this path within the last second (and the time one request takes): replies tell the kernel to keep names and attributes for one second.", "quantifier": "all hosts which change in time, all histories of requests, waiting times, evictions from the kernel's caches and restarts, all paths", "why_tests_cant": "It is about real time, all moments at which the kernel may answer by itself, and what was cached on the way at arbitrary earlier times; a test would have to wait at every point of every history.", "anchors": ["src/fs.cpp: lookup, getattr, readdirplus, opendir", "include/dragonstash/fuse/buffer.hpp"]}
{"id": "C105", "title": "a database which refuses to be written leaves a sound cache", "statement": "When LMDB refuses a write or a commit (its map or the disk is full), an exception leaves the call. After the transaction was aborted or destroyed, the contents are as they were before it, every lock which was held is still held, and the cache is in a state to which calls without refusals could have led as well, so that everything which holds of caches holds of it; a refused call leaves no trace.", "quantifier": "all histories of calls on the cache, nested transactions, refused at any write of any call (also inside a garbage collection), in commit or in the constructor, with any number of refusals", "why_tests_cant": "The reference table is in memory and is not rolled back by the database; a test would have to inject a failure at every write of every operation in every state.", "anchors": ["src/cache/cache.cpp: clean_orphans, make_orphan, emplace, unlink, writelink, update_flags, finish_dir_rewrite, commit, abort", "include/dragonstash/cache/cache.hpp: InodeReferences::doom"]}
{"id": "C106", "title": "while it is disconnected the mount shows one unchanging tree", "statement": "While the backend is not connected (for instance when mounted with -N), the mounted directory shows one unchanging tree. With any number of threads, and however often the process dies and is started again, nothing which can be reached from the root changes: paths, inode numbers, attributes, link targets, flags, entries and their order. Every request about it is answered with what the database told when the backend was last connected, so equal requests get equal replies; and as long as the process runs, the database is not changed at all.", "quantifier": "all histories before and after the connection was lost, pairs of requests, numbers of threads, interleavings, crashes, restarts and contents of padding bytes", "why_tests_cant": "It compares any two moments of any two continuations of a history; a test compares two listings.", "anchors": ["src/fs.cpp: lookup, getattr, readlink, opendir, readdir, readdirplus", "src/cache/cache.cpp: Cache, lookup, readlink, readdir, clean_orphans", "src/main.cpp"]}
{"id": "C107", "title": "what the mount denies offline, the backend has denied", "statement": "If the mount says, while the backend is not connected, that a name does not exist (ENOENT for a lookup, or a directory read with readdir to its end without an error in which the name is missing), then the backend itself has said so earlier: it answered ENOENT for this path, or it listed the directory completely and the name was not there. What merely has not been fetched is answered with EIO, not with absence.", "quantifier": "all names, directories and histories of requests on any number of threads, backends which change, fail or get disconnected at any call, crashes and restarts before the request", "why_tests_cant": "It needs the whole history of what was said about a name, through every way in which a directory can become marked as complete; a test can only show one such history.", "anchors": ["src/fs.cpp: lookup, opendir, readdir, readdirplus, readlink", "src/cache/cache.cpp: start_dir_rewrite, finish_dir_rewrite, test_flag, emplace, unlink"]}
{"id": "C108", "title": "an entry which no request names stays exactly as it is", "statement": "The effects of requests are local. As long as the backend, while it is connected, confirms that the directories on the way to an entry are directories, and is not asked about the entry itself (by looking it up, reading it as a link, or opening the directory it is in), the entry stays as it is: its inode number, path, attributes, link target and flags, or that it does not exist. So it is answered for from the cache unchanged, whatever else is looked up, listed, replaced, removed or forgotten in between.", "quantifier": "all entries at any depth, all histories of requests about anything else, backends, numbers of threads, interleavings, crashes and restarts", "why_tests_cant": "Storing an entry may remove others (name conflicts, changes of type, garbage collection of whole trees); that nothing else is hit has to hold for every shape of the tree and every set of locks.", "anchors": ["src/fs.cpp: lookup, opendir, readlink", "src/cache/cache.cpp: emplace, unlink, clean_orphans, start_dir_rewrite, finish_dir_rewrite"]}
{"id": "C109", "title": "nothing the backend was not asked about matters", "statement": "A request depends on the backend only through the answers to the questions it asks: a lookup asks about the one name, readlink about the one link, opendir for the names in the directory and about each of these, and everything else (getattr, readdir, readdirplus, forget, releasedir) asks nothing. With any other backend which answers these questions in the same way, replies, database and locks are the same, for single requests and for whole histories on several threads.", "quantifier": "all pairs of backends, states, requests, histories, numbers of threads and interleavings", "why_tests_cant": "It compares executions with all pairs of backends which differ anywhere else.", "anchors": ["src/fs.cpp: lookup, readlink, opendir, getattr, readdir, readdirplus, forget"]}
{"id": "C110", "title": "what was read from the database is used while it is valid", "statement": "LMDB returns addresses in its pages, which are valid only until the next write in the transaction. Whatever is stored in the cache, whatever was done in the transaction before and whatever is called: no call follows such an address after something has been written, follows a null address or one of a temporary object which is gone, writes or deletes through a cursor which is at no entry, or reads behind the end of a key. This holds with every version of the wrapper lmdb-safe in which find returns the key from the database, or in which put through a cursor does not read the key; with other versions it does not.", "quantifier": "all reachable databases, reference counts and open transactions, all calls with all arguments (directories of any size and nesting which are removed recursively), all versions of the wrapper", "why_tests_cant": "A dangling read mostly returns the expected bytes; whether a page is overwritten between reading and use depends on the shape of the database. The loops run over any number of entries.", "anchors": ["src/cache/cache.cpp: emplace, make_orphan, clean_orphans, unlink, writelink, update_flags, start_dir_rewrite, lookup, readdir, name, parent", "include/dragonstash/cache/common.hpp: copyfree_wrap", "include/dragonstash/cache/direntry.hpp: parse, parse_inplace"]}
{"id": "C111", "title": "after a power failure the block list claims nothing that never was", "statement": "The block list is written back to the disk by the operating system in any order, and in full only when it is closed. After a power failure, with every part of the file (number of entries, counters, every entry) from any point since it was last closed: the state of every block can be read; it is ABSENT or was given to the block by some mark, finished or not; and blocks not marked since are as they were when it was closed.", "quantifier": "all histories of calls before and after the block list was last closed, all points of a power failure, all combinations of parts of the file from different points in time", "why_tests_cant": "The number of combinations of old and new parts grows exponentially with the number of entries, and no test can make the power fail between two stores.", "anchors": ["src/cache/blocklist.cpp: mark, mark_internal, split_entry, insert_before, delete_range, ensure_mapped, grow, shrink, fsck, ~Blocklist, open"]}
{"id": "C112", "title": "a block list survives any number of deaths and power failures", "statement": "A block list is used by one process after the other; each may die at any point inside of any mark, also by a failing assertion, and the power may fail at any time. Afterwards the state of every block can be read; it is ABSENT or was given to the block by some mark of some process; truncate_access offers only blocks which some mark has given a state; no call uses memory outside of the file mapping or runs forever; and marking still works.", "quantifier": "all sequences of calls, deaths (at every store of a mark) and power failures (all combinations of parts of the file), of any length; all blocks; all further calls", "why_tests_cant": "A second process works on what a dying one left: overlapping entries in any order, counters which are off. The states of the file which can arise compound with every death.", "anchors": ["src/cache/blocklist.cpp: mark, mark_internal, split_entry, insert_before, delete_range, try_merge_with_previous, search_entry, find_overlapping_entries, state, shrink, fsck, open"]}
{"id": "C113", "title": "a block list which fsck accepts is as good as new", "statement": "Whatever happened to a block list - processes which died at any point inside of any mark, power failures, marks which did not do what they should, or a file with any contents at all - if fsck accepts it, then it works, starting from the states it reports: the state of every block can be read and fsck did not change it, blocks() and present_blocks() are the numbers of the blocks reported in each state, every further sequence of calls returns, and marks, counters, fsck and truncate_access do afterwards what they do on a block list made anew which holds the same blocks (C02, C03, C04 and C10, for the same histories as there). Blocks are numbered below 2^64 - 65536 (more than a file can have) and the size of the file is a multiple of 4096.", "quantifier": "all sequences of calls, deaths and power failures of any length before; all contents of the file; all blocks; all sequences of calls after", "why_tests_cant": "It is about every file which a check accepts, and about everything which may be done with it afterwards.", "anchors": ["src/cache/blocklist.cpp: fsck, shrink, mark, state, blocks, present_blocks, open"]}
{"id": "C114", "title": "dump shows what a block list holds", "statement": "dump() returns after every sequence of calls and deaths of processes, and prints the four counters and every entry with its first block, number of blocks, end and state. The text is enough to tell block lists apart: if it is the same for two block lists, in whatever state they are, then state() is the same for every block, and so are blocks(), present_blocks() and nentries().", "quantifier": "all pairs of block lists (files with any contents), all blocks; all sequences of calls and deaths", "why_tests_cant": "It compares all pairs of files, of any number of entries.", "anchors": ["src/cache/blocklist.cpp: dump, state, blocks, present_blocks, nentries"]}
{"id": "C115", "title": "the database keeps only what is needed", "statement": "What has been removed does not stay in the database: after every request, each object which is stored has a path, or is referenced by the kernel, or is below a directory which is. When the cache is opened, only what has a path remains.", "quantifier": "all histories of requests and restarts, all backends, all stored inode numbers", "why_tests_cant": "The claim is about every object in the database after every history; leaks show only when something was removed while it was in use, or in the interplay of several requests.", "anchors": ["src/cache/cache.cpp: clean_orphans, make_orphan, emplace, finish_dir_rewrite, Cache::Cache", "src/fs.cpp: lookup, readlink, opendir, forget"]}
{"id": "C116", "title": "asking again changes nothing", "statement": "If a request is made again, while the backend says the same as before, it is answered in the same way, and the database is afterwards exactly as the first one left it, however often it is repeated: looking up a name again, reading a link again, opening a directory again (with everything that is listed in it stored anew), reading attributes and pages of listings. With several threads the same holds for two equal requests of which one takes effect after the other.", "quantifier": "every live state, every backend (which, for opening a directory, answers a question about one entry in the same way within the request), every request but forget, any number of repetitions; with threads: every interleaving and history", "why_tests_cant": "tests repeat a request in a few states; that the second pass over a directory finds every inode it would create, clears no flag which the first had set and marks nothing for removal has to be shown for every tree and every listing", "anchors": ["src/fs.cpp: lookup, readlink, opendir, readdir, readdirplus, getattr", "src/cache/cache.cpp: emplace, start_dir_rewrite, finish_dir_rewrite, writelink, update_flags"]}
{"id": "C117", "title": "what only reads can be served in any order", "statement": "Reading attributes, reading pages of listings (with or without attributes), giving back lookups and closing directories can be served in any order, and while the backend is not connected this is so for all requests: every request gets the same reply as in any other order, and the filesystem - database, lock counts, lookups which the kernel holds - ends up in the same state. Giving back many lookups in one request is the same as giving them back one by one.", "quantifier": "every live state, every list of such requests with any backends, every permutation of it; as long as the lookups given back are held from the beginning and the lock counts stay below 2^64", "why_tests_cant": "the orders in which the kernel's requests reach the daemon are not under a test's control; that no reply depends on the reference table, and that all changes of it commute, has to be shown for every pair of requests in every state", "anchors": ["src/fs.cpp: lookup, forget, getattr, readlink, opendir, readdir, readdirplus, forget_multi", "include/dragonstash/cache/cache.hpp: InodeReferences::incref, decref", "src/cache/cache.cpp: lock, release"]}
{"id": "C118", "title": "the daemon keeps no records of what is gone", "statement": "In memory the daemon keeps a record of an inode - its lock count and whether it was removed - only while the inode is in the cache or the kernel holds lookups of it; so the memory it needs is bounded by what is in use, however long it runs.", "quantifier": "every live state: all histories of requests of any length, with all backends; every inode number", "why_tests_cant": "a test's history is short; that a record which is no longer needed is erased - or how many are not - is about histories of every length", "anchors": ["include/dragonstash/cache/cache.hpp: InodeReferences::incref, decref, doom", "src/cache/cache.cpp: clean_orphans", "src/fs.cpp: lookup, forget"]}
{"id": "C119", "title": "a cache in which every directory was opened is a copy of the host, whatever its history", "statement": "When, since the host stopped changing, each of its directories has been opened once while it was connected, the cache is an exact copy of the tree of the host: what has a path in the cache is at this path on the host with the same attributes, and everything on the host is in the cache, whatever was cached before. It stays so while the connection comes and goes and the process dies and is started again, and lookups are answered accordingly, with or without a connection. Two caches which were filled in this way show the same at every path, although their histories and inode numbers are different.", "quantifier": "all earlier contents of the caches, all trees of the host of any size and depth, all orders of opening the directories, all numbers of threads, interleavings, losses of connection, crashes and restarts", "why_tests_cant": "earlier contents come from unbounded histories and directories are opened in any order between other requests and crashes; a test fills a few caches in one way", "anchors": ["src/fs.cpp: opendir, lookup, readdir, readdirplus", "src/cache/cache.cpp: start_dir_rewrite, finish_dir_rewrite, emplace, path, getattr, lookup", "src/backend/local.cpp: LocalFilesystem::opendir, lstat"]}
{"id": "C120", "title": "when also every link was read once, link targets are available offline and right", "statement": "When, while the host does not change, a directory was opened and then a link in it was read while the host was connected, the reply was the target of the link on the host, and from then on the target is in the cache: it stays there while the connection comes and goes and the process dies and is started again, and reading the link is answered with this target with or without a connection. If every directory was opened and every link was read, the cache is a copy of the host including the targets of all its links.", "quantifier": "all earlier contents of the cache, all trees of the host, all orders of opening directories and reading links, all numbers of threads, interleavings, losses of connection, crashes and restarts", "why_tests_cant": "that a target is never lost or mixed up with another one is about all histories between reading the link and needing it; a test reads a few links in one way", "anchors": ["src/fs.cpp: readlink, opendir", "src/cache/cache.cpp: writelink, readlink, emplace", "src/backend/local.cpp: LocalFilesystem::readlink"]}
{"id": "C121", "title": "the copy of the host is in the bytes of the database file", "statement": "Filling the cache (opening every directory and reading every link once while the host does not change) makes the database file, as bytes, a copy of the tree of the host: decoding its records gives exactly the paths, attributes and link targets of the host, whatever bytes earlier histories left in the file, whatever the padding of the records contains, with any number of threads, losses of connection and crashes in between. Links which were read are answered with their targets from these bytes with or without a connection, and two files which were filled in this way show the same at every path.", "quantifier": "all earlier contents of the file, all padding bytes, all trees, all orders of requests, numbers of threads, interleavings, losses of connection, crashes and restarts", "why_tests_cant": "padding is uninitialised memory, and earlier contents come from unbounded histories; a test sees one file", "anchors": ["src/cache/cache.cpp: emplace, writelink, getattr, readlink, path", "include/dragonstash/cache/inode.hpp: InodeV1", "include/dragonstash/cache/direntry.hpp: DirEntryV1", "src/fs.cpp: opendir, readlink"]}
{"id": "C122", "title": "the kernel answers programs by itself for at most one second after a reply", "statement": "When the kernel leads a program from a name to an inode, or shows it attributes, without asking, then a reply which said exactly this arrived at most one second before: a lookup or a listing with attributes of this name and inode; a lookup, getattr or listing with these attributes. After that it has to ask again.", "quantifier": "all histories of requests, replies, waiting times, evictions by the kernel and restarts, with a host which changes in any way in time", "why_tests_cant": "timeouts of one second are set in three handlers, and what the kernel holds depends on all earlier replies; a test would have to wait and to know which reply was used", "anchors": ["src/fs.cpp: lookup, getattr, readdirplus"]}
{"id": "C123", "title": "a mounted directory which was filled once works without the host", "statement": "After every directory of the host was opened and every link in it read once, and while the host stays as it is or cannot be reached, the mounted directory is the host's: every path, with '.', '..' and relative symbolic links, leads to the same object with the same attributes, an error is reported only for a path which is an error on the host, every directory is listed completely, and the attributes shown for an inode are those on the host; also after the process died and was started again.", "quantifier": "all trees on the host, all earlier contents of the cache, all paths, all numbers of threads and schedules, all losses of the connection and crashes, all answers the kernel keeps from after that moment", "why_tests_cant": "each lookup on the way runs in its own transaction between other requests, and replies may be used long after they were given; tests resolve a few paths with one thread", "anchors": ["src/fs.cpp: lookup, readlink, opendir, readdir, readdirplus, getattr", "src/cache/cache.cpp: lookup, readlink, readdir, getattr", "src/main.cpp: main"]}
{"id": "C124", "title": "a mounted directory which was filled once works without the host, from the bytes of the database file", "statement": "The same as the property before, where the database file holds bytes in the layout which the code writes: whatever was in the file before, once every directory was opened and every link read, paths, listings and attributes are the host's without the host, also after any death of the process.", "quantifier": "all trees, all contents of the database file left by earlier runs, all padding bytes, paths, threads, schedules, losses of the connection and crashes", "why_tests_cant": "the answers come out of a byte layout in four tables, written by many transactions in some order", "anchors": ["src/fs.cpp: lookup, readlink, opendir, readdir, readdirplus, getattr", "src/cache/cache.cpp: lookup, readlink, readdir, getattr", "include/dragonstash/cache/inode.hpp", "include/dragonstash/cache/direntry.hpp"]}
{"id": "C125", "title": "an entry which no request names stays exactly as it is in the database file", "statement": "The locality of requests (an entry which no request names stays as it is) down to the stored bytes: what is read from the bytes of the database file about such an entry - inode number, path, attributes, link target, flags, or that it does not exist - is the same after any number of other requests, which rewrite pages, listings and entries around it, and after restarts.", "quantifier": "all entries at any depth, all contents and padding bytes of the database file, all histories of requests about anything else, backends, numbers of threads, interleavings, crashes and restarts", "why_tests_cant": "entries are found through keys and length fields in four tables which the other requests keep changing; a test sees the layouts of a few histories", "anchors": ["src/fs.cpp: Filesystem::lookup, Filesystem::opendir, Filesystem::readlink", "src/cache/cache.cpp: emplace, unlink, makeOrphan, startRewrite, finishRewrite, lookup, name, getattr", "include/dragonstash/cache/direntry.hpp"]}
{"id": "C126", "title": "what the mount denies offline, the backend has denied, by the bytes of the database file", "statement": "What is not in the bytes of the database file, though the directory is marked there as known completely, and what is therefore denied while the backend is not connected, the backend itself has denied earlier: the property about absence offline (nothing is said not to exist which merely has not been fetched), where the database file holds bytes in the layout which the code writes.", "quantifier": "all names, directories, contents and padding bytes of the database file, histories of requests on any number of threads, backends which change, fail or get disconnected at any call, crashes and restarts", "why_tests_cant": "absence is concluded from a search which stops at keys of other names in the file; whether it stops too early depends on everything else stored there", "anchors": ["src/fs.cpp: Filesystem::lookup, Filesystem::opendir, Filesystem::readdir", "src/cache/cache.cpp: lookup, readdir, emplace, startRewrite, finishRewrite, testFlag", "include/dragonstash/cache/direntry.hpp"]}
{"id": "C127", "title": "opening a directory brings the bytes which are stored of it up to date", "statement": "When a directory is opened while the host is connected, the database file, whatever bytes were in it before and from which hosts, then says of this directory exactly what the host has: the same names with the same attributes. This stays so through crashes, losses of the connection and changes elsewhere, with the same inode numbers, and lookups and listings are answered from these bytes rightly.", "quantifier": "all trees, directories at any depth, contents and padding bytes of the database file, hosts before, threads, schedules, crashes and losses of the connection", "why_tests_cant": "the bytes which are written for one entry are found through orderings and length fields which all others influence; stale entries of earlier hosts are in between", "anchors": ["src/fs.cpp: Filesystem::opendir, lookup, readdir, readdirplus", "src/cache/cache.cpp: startRewrite, emplace, finishRewrite, updateFlags, lookup, readdir, getattr", "include/dragonstash/cache/direntry.hpp", "include/dragonstash/cache/inode.hpp"]}
{"id": "C128", "title": "the size of a link is the length of its target, in the bytes of the database file", "statement": "If the backend, whenever it is asked, reports for a symbolic link the length of its target as its size, then at all times the size which is stored in the database file for a link is the length of the target stored for it, whatever threads did and wherever the process died; and when a link has been read while connected, both are right again.", "quantifier": "all histories, threads, crashes and restarts, padding bytes, backends", "why_tests_cant": "size and target are stored in different records, written by different requests; whether they fit depends on the whole history", "anchors": ["src/fs.cpp: Filesystem::lookup, Filesystem::readlink", "src/cache/cache.cpp: emplace, writelink, readlink, getattr", "include/dragonstash/cache/inode.hpp"]}
{"id": "C129", "title": "listings stay right while other requests are served, on the bytes of the database file", "statement": "Several threads serve requests on the bytes of the LMDB file, and the process may die at any moment and be started again. The kernel reads a directory page by page, while other requests change it in any way, but do not move it. The listing begins with . and .., lists no inode twice, lists only what was in the file in the state which one of the pages saw, and lists everything that was in it all the time.", "quantifier": "all directories, schedules, page sizes, padding bytes, crashes, and changes made by other requests in between", "why_tests_cant": "pages are read from different snapshots of the file, while others are written; only particular schedules show entries which are lost or doubled", "anchors": ["src/fs.cpp: Filesystem::readdir, Filesystem::readdirplus", "src/cache/cache.cpp: readdir, parent", "include/dragonstash/cache/direntry.hpp"]}
