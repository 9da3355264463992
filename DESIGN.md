# Formal model of horazont/dragonstash in Lean 4

## 1. Approach

The C++ code is modelled function by function as executable Lean definitions under
`lean/Verif/`; every definition cites the file and the lines it models and says where it
simplifies. Failed assertions, undefined behaviour, exceptions which nobody catches and
loops which do not end are explicit *fault* outcomes of the model (`M α := Except Fault α`,
`Base.lean`), so that "does not crash, does not hang" is part of the theorems and not an
assumption. Specifications are separate small definitions (`*/Spec.lean`, `FS/Live.lean`,
`FS/Answer.lean`, the first lines of each `Props/*.lean`), which do not use the helper
functions of the model. The theorems named in `MANIFEST.json` are in `Props/*.lean` (and
`MT/*.lean`, `Conc/*.lean`), each with a concrete non-trivial case which meets its hypotheses
(`example`s, checked by kernel evaluation of a run of the model; `*/Demo.lean`).

Where the code does **not** have a property, the full statement is kept as a `Prop`
(`Cxx_full`) or in the comment, a theorem `Cxx_..._counterexample` refutes it by a run of the
model, and the strongest variant found is proved with the suffix `_partial`.

## 2. Trusted base

* **Lean's kernel** (Lean 4.33.0). No `native_decide`, no `bv_decide`, no axioms of our own.
* **Axioms**: every theorem in `MANIFEST.json` depends on a subset of `propext`,
  `Classical.choice`, `Quot.sound`. The list for each theorem is in `AXIOMS.md`
  (`tools/gen_axioms.py`, from `#print axioms`).
* **The correspondence of model and C++ text**, which is by reading. It was exercised by
  editing the model in the way of realistic bugs (`seeded/LOG.jsonl`): the theorems which fail for
  each edit, and the theorems which were added or tightened because an edit survived.
* **The properties' formalisation**: the statements of the theorems in `MANIFEST.json` and the
  definitions they mention.

### Assumptions about what the code calls

* *LMDB and lmdb-safe* (the submodule is empty in /repo): databases are maps ordered by
  `memcmp`, a shorter key first (`Cache/Tab.lean`); keys have at most 511 bytes; a read-only
  transaction sees the state committed when it began, there is one write transaction at a time,
  commits are atomic and durable, nested transactions are private copies (`Cache/Txn.lean`,
  `Conc/Model.lean`). Calls do not fail for lack of space, memory or readers, except in C105, where any write may (Cache/Refuse). (If they do, lmdb-safe
  throws; nothing in the project catches, so the process dies in the middle of a request, which is what
  C85 and C93 are about.) One process uses the cache at a time, except in C97 (Cache/Procs). (`main` opens the database before it
  goes to the background; LMDB forbids to use it in the child, whose locks do not keep a second process
  out. With a single process this has no effect.)
* *libfuse*: a request is handled by one call of the handler; several threads handle different
  requests (`fuse_session_loop_mt`). For C65 the record layout of `fuse_add_direntry` and
  `fuse_add_direntry_plus` (`Fuse/Buffer.lean`). For C96: `fuse_daemonize` changes the working directory
  to `/`, `fuse_session_unmount` uses the mount point as text (`Main/Paths.lean`).
* *The Linux kernel*: `Valid` in `FS/Live.lean` and `Proper`, `Room` in `MT/Model.lean`: it looks up
  names and opens directories only in directories, does not give back more references than it holds;
  64 bit numbers do not run out. For C65 its parser of directory replies.
* *The host* (local backend): a function from paths to answers, which may change from call to call;
  paths are lexical, symbolic links in the middle of paths are the host's business (C47). Closed
  descriptor numbers are not reused in the ledger of C48.
* *libstdc++*: `std::string`, `std::filesystem::path::operator/=`, containers behave as documented.
* *Memory*: `std::bad_alloc` does not occur. For `debug_mutex`, relaxed loads may return any value of
  the modification order not older than the thread's own last store (`Conc/DebugMutex.lean`); with
  `NDEBUG` `debug_mutex::unlock` does not compile, assertions are assumed to be compiled in.
* *System calls of the blocklist* (`open`, `fstat`, `mmap`, `ftruncate`) succeed, except in
  Blocklist/FullModel (C76) and Blocklist/MapModel (C80); the byte order is little endian. A process dying in the middle of `mark` or of the
  creation of a blocklist file is modelled (C68-C70); a power failure (parts of the file from different points in time) is in C111; crash points inside `shrink` are not (it is a single `ftruncate`).

### Does the model behave like the code?

The code cannot be run here. Verif/Conform replays the project's own unit tests (all of
tests/cache/blocklist.cpp, cache.cpp, inode.cpp, tests/backend/in_memory.cpp and tests/fs.cpp) on the
model: what the authors recorded as the behaviour of the code is what the model does, for all of
their tests. These modules are tests of the model and support no claim in MANIFEST.json; they are
evidence for the correspondence which the proofs have to assume. The part for
tests/cache/blocklist.cpp is translated mechanically by `tools/gen_conform.py`, the others by hand.

## 3. What is modelled

| code | model | remarks |
|---|---|---|
| src/cache/cache.cpp: the functions of transactions, with addresses into the database | Cache/Pointers | when an address which LMDB returned is followed, and where cursors are (C110); lmdb-safe is a parameter |
| src/cache/blocklist.cpp, blocklist.hpp: `Blocklist` | Blocklist/Model, Blocklist/Disk | all functions; the file with live entries and slack, counters modulo 2^64; iterators are slot indices; the bytes of the file in Disk |
| the same, `mark` store by store | Blocklist/CrashModel | every function `mark` calls, with the set of files which a process dying inside leaves behind (MAP_SHARED). One store to a superblock field, to a field of an entry, or of a whole 16 byte entry is indivisible; a dying `memmove` leaves any mixture of moved and unmoved entries. Power failure (parts written back in any order) is in Blocklist/Power |
| the same, `mark` on a full disk | Blocklist/FullModel | every function `mark` calls; `ftruncate` in `grow` may fail. |
| the same, refused system calls and the life of the mapping | Blocklist/MapModel | every function, as the sequence of its system calls and accesses; contents are left out |
| cache.hpp 477-733, cache.cpp 405-432, 741-808: transaction objects (moves, nesting, destruction) | Cache/Objects | database operations left out; only their hooks and their use of the mutex |
| fs.cpp on the bytes of the database | FS/ByteModel; Conc/ByteModel, MT/ByteModel (threads) | handlers of MT/Prog run on Cache/ByteModel |
| cache.cpp: `CachedDir` | Cache/CachedDir | the values under one key as a list; nothing in the project uses the class |
| blocklist.hpp/.cpp: `FileHandle` | Backend/Handles | |
| cache.hpp: `InodeReferences` | Cache/Refs | |
| cache.hpp: `TransactionHook`; cache.cpp: `commit`, `abort` with hooks | Cache/Hooks | for arbitrary hooks; the hooks which the cache installs are in Cache/Txn |
| inode.cpp, inode.hpp, direntry.cpp, direntry.hpp, common.hpp | Cache/Records | bytes; misaligned buffers are outside (the code has `assert(false)` there) |
| cache.cpp: `CacheDatabase`, `Cache`, `CacheTransactionRO`, `CacheTransactionRW` | Cache/Model, Cache/Txn, Cache/OneCall; Cache/ByteModel | all functions except those listed below; values are records in Cache/Model and bytes in Cache/ByteModel (C66 relates them); the `memcpy` of `make_orphan` is modelled as the field update it is on x86-64 |
| cache.hpp: mutex, transactions of several threads | Conc/Model, Conc/Hooks | a call is one step, see the argument in Conc/Model.lean |
| debug_mutex.hpp | Conc/DebugMutex | instruction by instruction |
| fs.cpp, fs.hpp: `Filesystem` | FS/Model; MT/Prog, MT/Model (threads); FS/Wire (bytes of directory replies) | all handlers; the backend is an arbitrary oracle per request |
| fuse/request.hpp, request.cpp: `Request` | Fuse/Request, `St.reply` in FS/Model | |
| fuse/buffer.hpp, buffer.cpp | Fuse/Buffer | bytes |
| fuse/interface.cpp, fuse/interface.hpp: `Interface`, `Session` | Fuse/Session; `Req.other` in FS/Model | the table of callbacks and what each calls |
| error.hpp: `Result` with both members | Fuse/Result | elsewhere results are `Except`, see C71 |
| main.cpp: `MountCommand::execute`, `main` | Main/Mount, Main/Paths | CLI11 and libfuse answer arbitrarily; the paths and the working directory (C96) |
| backend/in_memory.hpp, in_memory.cpp | Backend/InMemory, Backend/MemHeap | the tree as a value; references as paths into it (C61); with objects by address, pointers, handles and iterators (C98). Of std::unordered_map it is assumed what the standard says of iterators (erasing invalidates only those of the erased element, inserting only if it rehashes) and, as C++14 demands, that inserting without a rehash and erasing keep the order of the other elements |
| backend/local.hpp, local.cpp | Backend/Local, Backend/Handles, Backend/LocalIO | |
| cache.cpp with refused writes | Cache/Refuse | every write to LMDB is a step which may be refused (C105) |
| cache.cpp, several processes on one directory | Cache/Procs | LMDB's write lock and snapshots are assumed to work between processes (C97) |
| the timeouts in fs.cpp, request.hpp, with the kernel's caches | FS/Kernel | the kernel is specified, not code of this project (C104) |
| the host: path resolution and symbolic links | Backend/HostTree, Backend/Posix | specification after path_resolution(7) (C102, C103) |

Not modelled: `RegularFileHandle` (declared in cache.hpp, never defined); the parsing of the command line;
`Result<T>` is `Except` (Errno.lean).

## 4. Properties

The first plan of this table was committed before the proofs; it is now kept current by
`tools/gen_design.py`. All properties can be expressed in the model; none is `not_applicable`.

| id | property | status | modelled in | how it is proved, and what is missing |
|---|---|---|---|---|
| C01 | mark sets exactly the requested range | partial | Blocklist/Model | Refinement of the raw slot array to a list of entries (Raw, Lists, Refine), then case analysis on how the range meets the entries (Sem). For all histories, block by block: the linear scan and the binary search agree on a block until a mark with ABSENT of that block goes wrong (Point). False in full (counterexample: mark(0,2,READ); mark(3,5,READ); mark(0,5,ABSENT) leaves blocks 3,4 READ). After every history: a mark with a state other than ABSENT sets its whole range, blocks behind a mark never change, blocks before it keep their state if their last mark was not with ABSENT. Exact for good histories and clean or single-block marks, and for sound histories and marks of any length with a state other than ABSENT. C01_exact: on entries which do not overlap, exactly which marks go wrong. |
| C02 | a history of marks is equivalent to a plain block map | partial | Blocklist/Model | Induction over histories with the C01 step (Hist, Point). False in full (counterexample), but only for blocks whose last mark was with ABSENT: every other block is exact after every history (C02_blocks_partial), hence all histories without ABSENT are exact (C02_no_absent). Exact for all good histories, including maintenance calls and marks longer than one entry; in particular for all histories of single-block marks; and for all histories in which no mark is of the kind which C01_exact shows to go wrong. |
| C03 | block counters count | partial | Blocklist/Model | Invariant: the counters are the sums over the entries, modulo 2^64 (Count); each block is counted by the entry which determines it (Point). False in full: a straddling mark counts blocks twice. Exact for all good histories; never too low after any history; right after any history exactly if no block is in two entries (C03_exact). |
| C04 | fsck accepts what mark produced | partial | Blocklist/Model | Induction over the loop of fsck on the invariant of clean histories. False in full: mark(0,10,READ); mark(0,5,PINNED) leaves an empty entry and fsck throws. Proved for all clean histories; C04_exact: exactly which marks of an accepted list give one which fsck rejects. |
| C05 | fsck detects every inconsistent list | partial | Blocklist/Model | Induction over the entries of an arbitrary file (Fsck). False for entries which reach 2^64 (end wraps). Proved as an equivalence for every other file content. |
| C06 | maintenance does not change contents | partial | Blocklist/Model | Slots behind the last entry do not influence the observations. Proved for state, blocks, present_blocks, nentries and all later marks; truncate_access reads one entry too far and can observe shrink (counterexample). |
| C07 | shrink leaves the smallest file that fits | proved | Blocklist/Model | Arithmetic on sizes. For all sizes growth steps can produce; for other multiples of 512 an assertion can fail (counterexample outside the quantifier). |
| C08 | mark never crashes | proved | Blocklist/Model | Asserts and accesses are faults of the model; the invariant of all histories shows that none occurs. All histories of calls with ranges below 2^64 (bad ones included); wrapping ranges can fail an assertion. |
| C09 | truncate_access never overstates what can be read | partial | Blocklist/Model | Induction over the scan of truncate_access (Access); the exact result in Props/AccessExact. False in full (unaligned start; stale entry behind the last one). After every history, proved when a block at or behind the end of the access is present, up to start % 4096 bytes. C09_exact: exactly which accesses are overstated. |
| C10 | truncate_access is maximal | partial | Blocklist/Model | As C09. Maximality proved for good histories whenever the call returns, termination and the zero cases after every history; it reads outside the mapping when the file is exactly full (counterexample). C10_whole, C10_exact: after any history which left entries that do not overlap, exactly what is returned, and exactly when it crashes. |
| C11 | blocklist files survive reopening; foreign files are rejected | proved | Blocklist/Disk | Byte-level encoding of superblock and entries, round trip; open on arbitrary bytes. Byte-level model of the file. |
| C12 | marks longer than one entry behave like one mark | partial | Blocklist/Model | Induction on the number of pieces. Equality with marking the pieces proved in full; coverage of the whole range after every history for states other than ABSENT; for ABSENT only for clean marks, because single-entry marks already fail (C01). |
| C13 | reference counter arithmetic | proved | Cache/Refs | Induction over call sequences; simulation between the map object and the table which the cache model uses. All call sequences with increments summing to less than 2^64 per inode. |
| C14 | doomed and locked are mutually exclusive | proved | Cache/Refs | Invariant over call sequences. All call sequences. |
| C15 | commit runs every hook stage in order | proved | Cache/Hooks | Induction over lists of hooks (and over nesting); the hooks act on an arbitrary state, the log of calls is exact. Arbitrary hooks acting on an arbitrary outside state; the call log and the final state are exact. |
| C16 | a failing hook undoes everything in reverse | proved | Cache/Hooks | Induction over lists of hooks (and over nesting); the hooks act on an arbitrary state, the log of calls is exact. Exact call log and state; every commit is covered by C15 or C16. |
| C17 | nested commits defer to the outermost transaction | proved | Cache/Hooks | Induction over lists of hooks (and over nesting); the hooks act on an arbitrary state, the log of calls is exact. Arbitrary nesting depth. |
| C18 | lookup finds what emplace stored, and nothing else | partial | Cache/Model, Cache/Txn | Refinement `Rep` of the five ordered byte-keyed tables to an abstract tree (Spec), invariant over all sequences of calls, transactions, crashes and reopenings (Inv), then the property on the tree, restated on the API. False in full: emplace into an unlinked, unlocked directory returns an inode which is removed at once (counterexample). Proved for every other parent; the frame theorems hold without restriction. |
| C19 | emplace keeps the inode exactly when the format is unchanged | proved | Cache/Model, Cache/Txn | Refinement `Rep` of the five ordered byte-keyed tables to an abstract tree (Spec), invariant over all sequences of calls, transactions, crashes and reopenings (Inv), then the property on the tree, restated on the API. All reachable states. 'Never used before' across the history is C20. |
| C20 | inode numbers are never reused | proved | Cache/Model, Cache/Txn | Refinement `Rep` of the five ordered byte-keyed tables to an abstract tree (Spec), invariant over all sequences of calls, transactions, crashes and reopenings (Inv), then the property on the tree, restated on the API. All histories, including aborts, crashes and reopening; every existing inode is on record. |
| C21 | name, parent and lookup agree | proved | Cache/Model, Cache/Txn | Refinement `Rep` of the five ordered byte-keyed tables to an abstract tree (Spec), invariant over all sequences of calls, transactions, crashes and reopenings (Inv), then the property on the tree, restated on the API. All reachable states. |
| C22 | path() spells the way from the root and terminates | proved | Cache/Model | As C18; termination because parents have smaller numbers than children in histories which use existing directories. All histories in which emplace is called with existing directories as parents; otherwise path can diverge (counterexample outside the quantifier). |
| C23 | structural consistency of the cache tables | proved | Cache/Model, Cache/Txn | Refinement `Rep` of the five ordered byte-keyed tables to an abstract tree (Spec), invariant over all sequences of calls, transactions, crashes and reopenings (Inv), then the property on the tree, restated on the API. All histories without emplace(0, ...), which creates an inode with neither parent nor orphan mark (counterexample). |
| C24 | unlink removes the entry | proved | Cache/Model, Cache/Txn | Refinement `Rep` of the five ordered byte-keyed tables to an abstract tree (Spec), invariant over all sequences of calls, transactions, crashes and reopenings (Inv), then the property on the tree, restated on the API. All reachable states, exact effect on everything observable. |
| C25 | locked inodes survive | proved | Cache/Model, Cache/Txn | Refinement `Rep` of the five ordered byte-keyed tables to an abstract tree (Spec), invariant over all sequences of calls, transactions, crashes and reopenings (Inv), then the property on the tree, restated on the API. Any run of calls (including nested transactions, commits and aborts) during which the count stays positive. |
| C26 | clean_orphans terminates and leaves only locked orphans | proved | Cache/Model | As C18; termination measure on the number of orphans. All reachable states. |
| C27 | readdir lists every entry exactly once | partial | Cache/Model | The keys of a directory are a contiguous range of the ordered table; induction over the cursor. False in full: on an unlinked locked directory the iteration does not end (counterexample). Proved for all directories which have a parent. |
| C28 | link targets | proved | Cache/Model, Cache/Txn | Refinement `Rep` of the five ordered byte-keyed tables to an abstract tree (Spec), invariant over all sequences of calls, transactions, crashes and reopenings (Inv), then the property on the tree, restated on the API. All reachable states. |
| C29 | directory rewrite keeps exactly the re-emplaced entries | proved | Cache/Model | Invariant of the set of marked inodes during a rewrite. Directories reachable from the root, any sequence of emplaces (and flag updates, lookups) in between. finish_dir_rewrite reports EBADFD if nothing was marked; the contents are as stated all the same. |
| C30 | flags | proved | Cache/Model, Cache/Txn | Refinement `Rep` of the five ordered byte-keyed tables to an abstract tree (Spec), invariant over all sequences of calls, transactions, crashes and reopenings (Inv), then the property on the tree, restated on the API. All reachable states. |
| C31 | abort leaves no trace | partial | Cache/Txn | Frames are private copies; rollback hooks restore the counts (induction over hooks). False in full: inodes removed in an aborted transaction stay unlockable, and rollback can fail an assertion (counterexamples). Contents and lock counts are proved to be restored by every abort which returns; everything is restored if no inode was removed. |
| C32 | crash safety and reopening | proved | Cache/Txn | A crash drops the stack of frames and the reference table at any point between calls; reopening cleans orphans. Crash points between calls; LMDB commits are assumed to be atomic and durable. |
| C33 | stored names are valid | proved | Cache/Model, Cache/Txn | Refinement `Rep` of the five ordered byte-keyed tables to an abstract tree (Spec), invariant over all sequences of calls, transactions, crashes and reopenings (Inv), then the property on the tree, restated on the API. All reachable states. |
| C34 | the root directory is indestructible | proved | Cache/Model, Cache/Txn | Refinement `Rep` of the five ordered byte-keyed tables to an abstract tree (Spec), invariant over all sequences of calls, transactions, crashes and reopenings (Inv), then the property on the tree, restated on the API. All reachable states. |
| C35 | on-disk records round-trip | proved | Cache/Records | Computation on byte lists, for all field values and trailing bytes. Byte-level; buffers aligned (the misaligned branch of the inode parser is assert(false)). |
| C36 | what was seen online is served offline | proved | FS/Model over Cache/* | Every handler is shown to perform one of the transitions `Abs` of an abstract filesystem (Trans); invariant over histories of requests and restarts (`Live`); the property is then read off the transitions. Histories in between: any requests and restarts with any backends which confirm the entry (answer with the same attributes, list it, or are not connected); `Between`, `Confirms` in FS/Confirm.lean. |
| C37 | offline, absence is only claimed when it is known | proved | FS/Model over Cache/* | Every handler is shown to perform one of the transitions `Abs` of an abstract filesystem (Trans); invariant over histories of requests and restarts (`Live`); the property is then read off the transitions. All live states, every backend whose operations all report ENOTCONN. |
| C38 | a backend error removes the cached entry | proved | FS/Model over Cache/* | Every handler is shown to perform one of the transitions `Abs` of an abstract filesystem (Trans); invariant over histories of requests and restarts (`Live`); the property is then read off the transitions. All live states, every backend answer. |
| C39 | a synchronised directory mirrors the backend | partial | FS/Model over Cache/* | Every handler is shown to perform one of the transitions `Abs` of an abstract filesystem (Trans); invariant over histories of requests and restarts (`Live`); the property is then read off the transitions. False in full: a listing which breaks off, or entries whose lstat fails (e.g. because the connection is lost), remove cached entries and the directory still counts as synchronised (counterexamples). The exact contents after opendir are proved for every backend behaviour (C39_entries), the mirror property when no lstat fails. |
| C40 | lookup counts are accounted exactly | partial | FS/Model over Cache/* | Every handler is shown to perform one of the transitions `Abs` of an abstract filesystem (Trans); invariant over histories of requests and restarts (`Live`); the property is then read off the transitions. False in full: a readdirplus leaves a lock on the entry which did not fit (counterexample). Proved: after every history the lock count is exactly the references the kernel holds plus the locks lost in this way since the process started (C40_exact, with the lost entry specified by lostBy); so it is never below the former, and equal when no readdirplus was served. |
| C41 | every request is answered exactly once | partial | FS/Model over Cache/* | Every handler is shown to perform one of the transitions `Abs` of an abstract filesystem (Trans); invariant over histories of requests and restarts (`Live`); the property is then read off the transitions. False in full: readdir replies twice when the cache fails in the middle, releasedir is never answered (counterexamples). Proved for every other request from every live state. |
| C42 | inodes held by the kernel remain accessible | proved | FS/Model over Cache/* | Every handler is shown to perform one of the transitions `Abs` of an abstract filesystem (Trans); invariant over histories of requests and restarts (`Live`); the property is then read off the transitions. All live states and any later requests while the kernel holds the reference. |
| C43 | directory paging | proved | FS/Model | Directory streams (Stream, Pages): the loop sends the longest prefix that fits; induction over pages. All directories which have a parent, all sequences of page sizes larger than each entry. (With exactly the size of the next entry the reply is empty: C43_exact_size.) |
| C44 | stable inode numbers | proved | FS/Model over Cache/* | Every handler is shown to perform one of the transitions `Abs` of an abstract filesystem (Trans); invariant over histories of requests and restarts (`Live`); the property is then read off the transitions. Histories `Between` keeping the file type; includes lookups and synchronisations online and offline, restarts. |
| C45 | in-memory file contents behave like a byte array | proved | Backend/InMemory | List computations; induction over histories. All contents, offsets and histories with offset + count below 2^64; beyond that the sum wraps around and memory outside the data is read (counterexample). |
| C46 | in-memory path resolution | proved | Backend/InMemory | Induction over paths. All trees and all paths made of nonempty components without slashes. |
| C47 | the local backend stays below its root | partial | Backend/Local | String model of map_path; non-interference proof on pairs of hosts. False in full: opening the root directory asks the host for '<root>/..' and stores the answer in the cache (counterexample). Proved as non-interference (nothing outside the root influences any reply or the cache) for every other request on inodes with plain paths. Lexical: symbolic links on the host are not considered. |
| C48 | file handles are closed exactly once | partial | Backend/Handles | Descriptors as tokens in a ledger; induction over operations. The blocklist's FileHandle: proved for every sequence of operations. LocalFile: false, close() followed by the destructor closes descriptor 0, and after a failed close() the descriptor is closed twice (counterexamples); proved without explicit close. LocalDir: proved. |
| C49 | request objects reply exactly once | partial | Fuse/Request | State machine; induction over operations on any number of objects. At most once / exactly once on destruction and the report of a second reply: proved for every sequence of operations, including swaps. The clause on the default error is proved without swaps and fails with them; reply_none on a request already answered is not reported (counterexamples). |
| C50 | locks granted from a read-only snapshot are safe under concurrency | proved | Conc/Model | Interleaving transition system: snapshots, one writer, the mutex; inductive invariants over all schedules; C55 by a simulation with the sequential model. All interleavings of any number of threads and transactions (C50_kept, C50_count: in which no nested transaction is destroyed before commit or abort). |
| C51 | no deadlock between transactions | proved | Conc/Model, Conc/DebugMutex | As C50, with an order on what a thread can wait for; the mutex also instruction by instruction with relaxed loads. All interleavings in which each thread has one transaction at a time. The mutex is also modelled instruction by instruction with relaxed loads which may return outdated values. |
| C52 | a mounted in-memory backend shows its tree, and keeps showing it when disconnected | proved | Backend/InMemory, FS, Cache | Composition of C46/C62 with the filesystem invariant. End to end: backend tree, filesystem layer, cache. Names which can be stored (no NUL, no slash, at most 503 bytes, not empty). |
| C53 | reading links of the local backend | partial | Backend/Local | Case analysis. False in full: on a file which is not a link an exception is thrown (resize(-1)), and links with st_size 0 are truncated (counterexamples). Proved when lstat reports the size of the target. |
| C54 | the reference table is only used under the mutex | proved | Conc/Model | Interleaving transition system: snapshots, one writer, the mutex; inductive invariants over all schedules; C55 by a simulation with the sequential model. All interleavings. |
| C55 | transactions are serialisable | proved | Conc/Model | Interleaving transition system: snapshots, one writer, the mutex; inductive invariants over all schedules; C55 by a simulation with the sequential model. All interleavings of transactions without nested ones (the program never begins nested transactions). |
| C56 | read-only transactions see a stable snapshot | proved | Conc/Model | Interleaving transition system: snapshots, one writer, the mutex; inductive invariants over all schedules; C55 by a simulation with the sequential model. All interleavings. |
| C57 | requests served by several threads are served as if one after the other | proved | MT/Prog, MT/Model | Handlers as programs of cache calls, any number of threads; every schedule is related to a sequential history of `FS/Model` (Seq, Serial); invariants on counts. All interleavings of any number of threads; a handler's calls of the cache transaction are the steps. |
| C58 | kernel references are honoured with several threads | proved | MT/Prog, MT/Model | Handlers as programs of cache calls, any number of threads; every schedule is related to a sequential history of `FS/Model` (Seq, Serial); invariants on counts. All interleavings of any number of threads; the kernel gives back at most what it holds and 64 bit counters do not run out (Room, Proper). |
| C59 | no request crashes or hangs the daemon | partial | MT/Prog, MT/Model | Handlers as programs of cache calls, any number of threads; every schedule is related to a sequential history of `FS/Model` (Seq, Serial); invariants on counts. False in full: readdir of a directory which was removed while the kernel held it replies twice, which throws (counterexample). Proved: that is the only exception. |
| C60 | what the filesystem shows comes from the backend | proved | FS/Model over Cache/* | Every handler is shown to perform one of the transitions `Abs` of an abstract filesystem (Trans); invariant over histories of requests and restarts (`Live`); the property is then read off the transitions. Every history of valid requests and restarts; the backend lists no empty names and the kernel looks up none. |
| C61 | edits of the in-memory tree are local | partial | Backend/InMemory | Induction over paths of a tree. The edits are local: proved. The reference returned by emplace is dangling if the name exists (counterexample); proved if it is new. |
| C62 | calls of the in-memory backend depend on the kind of object only as specified | proved | Backend/InMemory | Induction over paths of a tree. Every tree and path. |
| C63 | reading a directory which changes meanwhile | proved | Cache/Model, FS/Model | Induction over the readings; the order of inode numbers is the order of the listing. For the cache's readdir and for the mounted filesystem. The states in between are arbitrary states of the system in which the directory has the same parent. |
| C64 | one-call functions of the cache are atomic | proved | Cache/OneCall | Composition of the transaction steps, using the invariants of C18-C34. All reachable states without open transaction. (Under concurrency transactions are serialisable: C55.) |
| C65 | the kernel reads from a directory reply what the cache holds | proved | Fuse/Buffer, FS/Wire | The byte-level loops are shown to be in lockstep with FS/Model; parser and encoder by induction over entries. Byte level model of DirBuffer, DirBufferPlus, libfuse's record layout and the kernel's parser (the latter two are assumptions). With an empty name the kernel reports EIO: C65_no_name, and a backend can cause it: C65_counterexample. |
| C66 | the database file always has the documented layout | proved | Cache/ByteModel | Simulation: each operation on bytes and on records gives the same result and leaves corresponding databases (Cache/Bytewise); the layout follows from the invariant of C18. Byte level model of the whole cache (Cache/ByteModel), in lockstep with the model on records. |
| C67 | reading a damaged database fails cleanly | partial | Cache/ByteModel | Case analysis over all byte strings. False for lookup, which asserts that every entry it passes parses (counterexample). Proved for all other reading operations except path, which can run into a cycle of damaged parent fields. |
| C68 | a crash inside mark invents nothing | partial | Blocklist/CrashModel | Every function of mark again, with the set of files a dying process may leave (result proved equal to Blocklist/Model); an invariant over the live entries is carried through all stores (Blocklist/Crash). False in full: between the stores of lines 486 and 487 an entry reaches beyond its old end, fsck accepts it (counterexample). Proved: that is the only exception, after every good history; after any in-range history the states found were given by some mark. Assumes that the stores of one field and of one 16 byte entry are indivisible. |
| C69 | a crash inside mark loses nothing unnoticed | partial | Blocklist/CrashModel | The same invariant, with the entries covering the blocks before the range. False in full: blocks behind the range may be lost without fsck noticing (counterexample). Proved for all blocks before the range, at every crash point. |
| C70 | opening a block list can be interrupted | partial | Blocklist/Disk | Case analysis over the steps of open. False: dying between ftruncate and pwrite leaves a file which can never be opened (counterexample). Proved: that is the only exception. |
| C71 | errors stay errors on their way to the caller | partial | Fuse/Result | Induction over chains of operations on results. False in full: a failed result converted to a result of another type becomes a success with a default value (counterexample). Proved for all ways without such a conversion, and for successes on all ways. |
| C72 | unsupported requests are refused and change nothing | proved | Fuse/Session over FS/Model | Case analysis over the table of callbacks; induction over sessions. All callbacks of the table. |
| C73 | mounting cleans up after itself and tells how it went | partial | Main/Mount | Case analysis over the failures; a stack discipline on the trace. Clean up: proved. The exit status is 0 also if mounting fails (counterexample), and execute inverts the result of the loop; --sftp dereferences a null pointer. |
| C74 | listings of a local directory are complete, or fail | partial | Backend/LocalIO, Backend/Local | Induction over the stream; composition with FS/Model for what comes of it. False in full: an error of readdir looks like the end of the directory; the filesystem then drops the entries not listed and marks the directory complete (counterexamples). Proved: the names, order, types, and the end if the host does not fail. |
| C75 | a local file works on its own descriptor | partial | Backend/LocalIO | Induction over sequences of operations. False in full: after close the handle works on descriptor 0 (counterexample). Proved until a close succeeds. |
| C76 | a mark which fails for lack of space changes nothing | partial | Blocklist/FullModel | mark again, with an exception which keeps the list (agreement with Blocklist/Model proved function by function); the list at the point of failure is that of a mark with ABSENT, or has one entry cut (Blocklist/Full). False in full: split_entry shortens an entry before it asks for space, so that blocks behind the range are lost (counterexample). Proved, for all histories and disks: exactly which blocks can change; blocks before the range never do, blocks behind it only if fsck then throws; else the list goes on working as specified; marks of absent blocks change nothing. |
| C77 | what is shown comes from the backend, also with several threads | proved | MT/Model over FS/Trans | Invariants of the abstract tree carry over to all interleavings (MT/Saw: every request which ended performed a transition `Abs` on the databases which it saw); the property is then read off the transitions. All interleavings; the backend lists no empty names and the kernel looks up none. |
| C78 | several threads: each request is answered as specified from what it saw | proved | MT/Model over FS/Trans | Invariants of the abstract tree carry over to all interleavings (MT/Saw: every request which ended performed a transition `Abs` on the databases which it saw); the property is then read off the transitions. All interleavings. |
| C79 | several threads: entries which the backend confirms stay, with their inode number | proved | MT/Model over FS/Trans | Invariants of the abstract tree carry over to all interleavings (MT/Saw: every request which ended performed a transition `Abs` on the databases which it saw); the property is then read off the transitions. All interleavings; links are read only of links (the kernel checks the type). |
| C80 | a block list survives refused system calls | partial | Blocklist/MapModel | The pointer and the log of system calls, for any host; invariant: the mappings alive are the one pointed to. False in full: a failing mmap returns MAP_FAILED, which is compared with null, so it is not noticed; the next access crashes, and the destructor terminates the process (counterexample). Proved for all other refusals, at all points of all histories. |
| C81 | streams over cached directories list every entry once | partial | Cache/CachedDir | Case analysis over parsing; the states are determined by position and end flag; induction over calls. False in full: ReadDir parses the value behind the one it is at, so the first entry is never listed and the last one twice (counterexample); after the end Seek has no effect on reads. Proved: exactly what is listed, for every content, and that no content or sequence of calls fails. No other code uses the class. |
| C82 | transaction objects: moving them changes nothing, nothing is lost or ended twice | partial | Cache/Objects | Simulation between the two runs, with the addresses exchanged; invariant `Accounted` by case analysis over calls. False in full: nested objects point to their parent object, so after the parent is moved the hooks of the nested transaction are lost, or it fails with EDEADLK (counterexamples). Proved for objects without nested ones, in every state; the accounting of transactions and of the mutex is proved in full. |
| C83 | The filesystem on the bytes of its database file | proved | FS/ByteModel over MT/Prog and Cache/ByteModel | The handlers as programs over cache calls, each call simulated as in C66 (FS/Bytewise); properties of reachable states transfer along the simulation. All handlers of fs.cpp, run on the byte level cache. One thread. |
| C84 | a damaged database is handled without undefined behaviour | partial | Cache/ByteModel, FS/ByteModel | Case analysis over parsing in every function; the measure of clean_orphans is the number of entries and orphans; induction over handlers and histories. No undefined behaviour: proved, for all databases with keys of the right lengths and all histories. False in full: assertions on damaged entries, a loop at start which does not end, and a path which does not end (counterexamples); these, and a damaged counter, are proved to be the only failures. |
| C85 | a crash while requests are served loses nothing that was promised | proved | MT/Model, Props/FSCrash | Steps and restarts as one relation; the invariants of C57-C79 give what each step does to the databases, C32 what opening does; replies behind the commit by induction over the handlers. Death between any two steps of any threads; LMDB commits are assumed to be atomic and durable. |
| C86 | threads on the bytes of the database file | proved | Conc/ByteModel, MT/ByteModel | Simulation (Conc/Bytewise, MT/Bytewise): each cache call on bytes gives the same result as on records (C66), so each step of a thread does; the properties of C57-C59 and C85 transfer. The double reply of readdir (C59, C41) is an explicit case of C86_lives. |
| C87 | a mounted local directory shows the directory on the host, online and offline | partial | Backend/HostTree (the tree of the host), Backend/Local, FS/Model | Paths: C47. Each request by the transition relation of C36-C39 with the answers of the host; all histories by C60 with the tree of the host as what the backend said. A host for every tree shows that the hypotheses can be met. Proved, except that opendir also caches . and .. as objects of their own (counterexample): the program does not filter them. |
| C88 | every request is answered, none waits forever | partial | MT/Fair (runs, fairness), MT/Model | Accounting by induction on executions. Termination: the product of the well-founded orders of the threads (C59_finite). Fairness: a thread which stays where it is waits; the owner of the mutex never waits, so the mutex becomes free again and again; so nobody stays waiting for it, so nobody keeps the writer lock, so that becomes free. Proved, except for the known double reply of readdir (C59, C41), after which the thread never goes on (counterexample). |
| C89 | a mounted local directory with several threads and crashes | proved | Backend/HostTree, Backend/Local, MT/Model | C77 and C85 with the tree of the host: a host with a tree which contains the object confirms it, and so does one which is not connected; what is shown was said by the host. The plain names of the tree; . and .. listed by the host are the counterexample of C87. |
| C90 | nothing is missing from a mounted local directory | proved | Backend/HostTree, Backend/Local, MT/Model | Invariant under all interleavings (MT/Saw, now also for conditions on the databases): what is in the cache was said by the host (C77), and synchronised directories have all names; nothing with a plain path is ever removed, because the host confirms it or is gone. Then each answer from its transition. One theorem, whose conclusion is the structure Mirrors (with Agrees, Exact, LookupExact, LinkExact): names which can be stored have at most 503 bytes. Names . and .. are the counterexample of C87. |
| C91 | paths lead to the same objects as on the host | proved | Props/LocalWalk (path resolution of kernel and host), MT/Model | Induction on the resolution by the kernel: the inode number where it is has a path (C90: inode numbers keep their paths), and this is where the host is. Absolute links and .. at the top lead out of the mounted directory and are not covered; names have at most 503 bytes. |
| C92 | listings stay right while other requests are served | proved | MT/Model, FS/Model (readdir, readdirplus), Backend/HostTree | Each page is a part of the stream of entries in the databases it saw (MT/Saw), readdirplus leaving out what has been removed meanwhile; the pages together are one reading over changing databases (C63). With C90 and C91: entries of a synchronised directory stay, so all are listed. The directory keeps its parent while it is read (SeesAt); names have at most 503 bytes, plain names only in the part about the host: . and .. listed by the host are the counterexample of C87. |
| C93 | a mounted local directory is right down to the bytes of the database file | proved | MT/ByteModel, Cache/ByteModel | The bisimulation of C86 between threads on bytes and threads on records takes histories with these requests to histories with the same replies, so that C90 to C92 hold for them. As C90 to C92: plain names of at most 503 bytes; attributes of the host fit into the types of C++. |
| C94 | opening a directory brings its cached copy up to date | proved | MT/Model, FS/Model, Backend/HostTree | Opening: what SyncTo leaves is what lstat said of the names which were listed (back_opendir, abs_dir). Afterwards an invariant of all versions of the database (DirOK): entries of the directory can only come from the host (abs_back), and are confirmed by it (dir_confirms). Listings as in C92, over the versions since then. Plain names of at most 503 bytes. Without a connection a lookup of a missing name may be answered EIO instead of ENOENT if the directory lost its synchronised flag (C38). |
| C95 | the size of a link is the length of its target | partial | Cache/Model (writelink, emplace), FS/Model, MT/Model | Origin invariant of C77 with the lengths as what the backend says; the counterexample by running the model on three hosts. Refuted in full (C95_counterexample): emplace with the same type stores new attributes and keeps the old target, so a link which was read and then replaced on the backend by a longer one is shown with its new size and its old target. Proved as long as no link of the backend changes its length, and for each link at the moment it is read while connected. |
| C96 | what is mounted and unmounted is what the user named | partial | Main/Mount, Main/Paths, Backend/Local | The working directory is followed through the trace of main; a case split over the traces. What is served: the mapped path is absolute if the root is, so it means the same in every working directory. Refuted in full (C96_counterexample): the paths are kept as typed, and fuse_daemonize changes the working directory to / before requests are served, so a relative --local serves another directory and a relative mount point is not unmounted. Proved for absolute paths and for the cache directory; C96_exact: exactly when it holds. That fuse_daemonize changes the directory (also in the foreground), and that unmounting uses the path as text, is taken from libfuse. |
| C97 | several processes share one cache | partial | Cache/Txn, Cache/Procs | The invariant of the single process holds for the view of each process (its own reference table, the common file); at most one process writes, and the counter in its transaction is not below the stored one. Proved for the stored data; refuted for locks (C97_locks_counterexample): opening the cache in a second process removes what the first still holds. Each process has one thread here; LMDB's lock on write transactions and its snapshots are assumed to work between processes. |
| C98 | pointers and handles of the in-memory backend | partial | Backend/MemHeap, Backend/MemTree, Backend/MemAbs | Objects by address; an invariant over all calls: the objects form a tree in which children are younger than their directory, handles point to objects of their kind or to none, iterators are at an element; refinement to the tree of Backend/InMemory; a listing is followed over a trace of calls by what it has returned and what is to come. Refuted in full (C98_counterexample): handles dangle when their object is removed, listings are undefined after a rehash or the removal of the next name, emplace of an existing name returns a dangling reference. Everything else is proved; C98_exact and C98_broken show that exactly these calls break handles. |
| C99 | an inode number always means the same object | proved | MT/Life, Props/Life | The trees which the databases held, oldest first, form a list in which of every two the later one keeps type and place of the inodes it has from the earlier; every reply fits one of them. Life is the life of a cache over its processes; every reachable state is in one (MReach.life). Replies may have been sent by a request which has not ended when the process dies. |
| C100 | what is shown of an object never goes back to an earlier state | proved | MT/Since, Props/Monotonic | Databases since a moment keep a property of the tree which every request keeps; here: the attributes of one inode are in S, which only a report about its path can change. In terms of sets: S is the set of attributes the backend reports from some moment on (for a link also with its size replaced by the length of its target). Requests which overlap in time may see the states before and after each other; a request is compared with those which begin after it ended. Names are not empty. |
| C101 | the bytes of the database file keep the meaning of inode numbers over the life of a cache | proved | MT/ByteModel, MT/Bytewise, Props/LifeBytes | The bisimulation of C86 carries histories over several processes from bytes to records; C99 and C100 there. Attributes of the backend fit into the types of C++; names are not empty in the last two. |
| C102 | the mounted directory mirrors a real directory with symbolic links | proved | Backend/Posix, Props/Posix, Props/Contain | Path resolution is compositional (walk_append: what follows a directory starts there with some links left) and does not depend on empty pieces; so what lstat finds at the root followed by names is a tree in the sense of C87. The assumptions about hosts in C87-C94 (Has, Tree, Whole) hold for every POSIX file system (Backend/Posix: resolution of paths after path_resolution(7); without permissions, limits on the length of paths and mounts). C102_mirror is C89 on it. |
| C103 | what is outside of the mounted directory stays hidden, also behind symbolic links | partial | Backend/Posix, Props/Contain | Below the root, names which are not those of links lead straight down, in both file systems (walkIn_down). In histories: what is cached as a directory was reported as one at its path (Orig), so by induction along the path no name is one of a link. Counterexample evaluated in the kernel. False in full: a cached directory which is replaced by a link on the host is looked up in through the link (the path is given to lstat and opendir as a whole). Proved if no directory below the root becomes a link, for all histories; and for single requests if the cached path has no links on the host. Listing the root asks for its `..`, see C47. |
| C104 | changes on the host become visible within a second | partial | FS/Kernel, Props/Fresh | Invariant over timed histories: each cached entry of the kernel points to an inode at a fixed place (Places), whose attributes in the cache and in the kernel were reported since the entry was made; a request changes attributes only by fresh ones (abs_kids). Counterexample evaluated in the kernel. False in full: readdirplus hands out attributes which were read when the directory was opened, and gives them another second. Proved for entries from lookups; for entries from listings with the time since the directory was last opened. FS/Kernel specifies the kernel's caches, with the timeouts of the code. Requests one after the other (an overlapping request may make Linux ignore the attributes of a reply). |
| C105 | a database which refuses to be written leaves a sound cache | partial | Cache/Refuse, Cache/RefuseRun, Props/Refuse | A monad in which each write may be refused. Functions which leave the reference table alone need a fixed number of writes (Takes); a collection which is broken off has doomed a set of inodes which it removes whatever else is locked (CutOff). A refused call is then simulated by one which is not: lock the inodes which were not reached yet, make the call, release them. Counterexample evaluated in the kernel. False in full: inodes which a broken off garbage collection had begun to remove are still in the database, but cannot be locked until the cache is opened again. Proved: everything else. Every write is a step of its own (Cache/Refuse); C105_accepted relates this to the model of the other properties. That LMDB keeps nothing of a refused transaction is an assumption. After the refusal only abort and the destructor are called. |
| C106 | while it is disconnected the mount shows one unchanging tree | proved | MT/Frozen, Props/Frozen, Props/FrozenBytes | Invariant over histories with crashes (Holds): the connected part of the tree agrees with the one at the beginning (Agree); offline requests keep the database (offline_disk), restarts collect orphans only. What a request answers is then read off the tree it saw (Saw). Transfer to bytes by the relation of C101. Offline: every call on the backend fails with ENOTCONN. A restart may remove inodes which cannot be reached from the root (orphans which were open); that is why C106_untouched is about one process. Requests are those which begin after the last one with a connected backend ended. |
| C107 | what the mount denies offline, the backend has denied | partial | FS/Absence, Props/Absence | Invariant (Honest) over what requests do to the tree (Abs): names absent from directories marked as complete are in a set which contains what the backend denies. An absent reply after the last connected request is traced back with C106. Counterexamples evaluated in the kernel. False in full: a listing counts as complete when it ended with an error, and a name whose lstat failed counts as missing (also when the connection was lost); readdirplus ends without an error in directories which were never read. Proved: whatever is denied was given up because of something the backend said (an error other than ENOTCONN for its path, or a listing in which no attributes came for the name); with a backend whose only errors are ENOENT and ENOTCONN and which does not fail within a listing (Tame), the full claim for lookups. |
| C108 | an entry which no request names stays exactly as it is | proved | FS/Frame, Props/Frame | Every transition of the tree (Put, Puts, SyncTo, Removed, Collected) keeps the entry (Same) if its directory survives and another name is meant; the directory survives by abs_stay (FS/Keep). Lifted to threads, crashes and restarts with Holds. Elsewhere is the condition on requests: Confirms (as in C64 and C79) for the directories above the entry, readlink only of links (the kernel does nothing else), and the entry is not named while the backend is connected. Flags stay if the entry is not opened as a directory either (Apart). |
| C109 | nothing the backend was not asked about matters | proved | Props/Asked | Case analysis of the handlers, induction over the loop of opendir; histories by induction over the equivalent sequential run (C57). Asked specifies the questions. C109_history: two runs from the same database, in which the same requests end in the same order and have seen the same versions. |
| C110 | what was read from the database is used while it is valid | proved | Cache/Pointers, Cache/PointersSim, Props/Pointers | Model of all functions of transactions with addresses (each with the number of writes at which it was returned) and cursors; it simulates the model without (SameT), which does nothing undefined (Defined). Loops by induction: keys have the right size (KeysOK), entries under cursors stay. Necessity by evaluation. Every statement which follows an address is a step which checks it (Cache/Pointers). lmdb-safe is not part of the repository: C110_exact says what the program needs of it. With MDB_SET in find and without MDB_CURRENT in put, the keys passed to put in emplace (929), make_orphan (884) and writelink (1112) are read from a temporary object which is gone; update_flags uses a named object. The alignment of records in pages is not modelled. |
| C111 | after a power failure the block list claims nothing that never was | partial | Blocklist/Power, Props/Power | PowerLoss: each part of the file from any point of the stores of CrashModel. Invariant of every slot, also of those behind the last entry (Al), over every store of mark; the slot of a block before the marks does not change (J, Says). False in full, in all three parts: blocks which were closed safely and never marked since are lost when the superblock is older than the entries; an entry can reach too far (as in C68); when the file was extended, the number of entries can exceed the size of the file, which open does not check, and reading runs off the mapping. Proved: nothing else is claimed (C111_claims_partial); everything can be read when the number of entries fits the file, which it does if the size did not change (C111_readable_partial); blocks which were present when the block list was closed and lie before everything marked since are kept whatever happens (C111_before_partial); without marks since nothing is lost (C111_saved). |
| C112 | a block list survives any number of deaths and power failures | partial | Blocklist/Lives, Blocklist/Sane, Props/Lives | Life: calls, deaths inside mark and power failures in any order. Invariants of arbitrary, possibly overlapping and unordered entries over every store: every slot covers only blocks it may cover (Ov, with 64-bit wrap-around of ends allowed), the number of entries and the states are in range (Mapd, Tame); every access is in bounds (Mild). False in full: a torn entry claims too much (C68); it can overlap the next one, after which a mark fails an assertion (478) each time it is tried, and other marks return without effect; a power failure can leave more entries than the file holds. Proved over any number of deaths and power failures: nothing else is claimed (C112_claims_partial) and offered (C112_access_partial, up to start % 4096 bytes, see C09). Over any number of deaths without power failures: all states can be read (C112_readable_partial), and mark, shrink and fsck return, throw (fsck) or fail an assertion, but never leave the mapping (C112_memory_partial; with assertions compiled in). truncate_access is excluded there (it reads one entry too far also without crashes). The file is taken to be on the disk when it was created (C70). |
| C113 | a block list which fsck accepts is as good as new | proved | Blocklist/Grid, Props/Recovered | Over every store of mark and every death and power failure: the size of the file stays a multiple of 4096 and no entry starts behind the last marked block (Grid, Lattice, Life.lattice). With fsck_sound this gives the invariant of reachable block lists (Inv, SWf) for the entries found, and so everything proved from it. Works: states, counters, return of all calls in range, exact effect of all good histories on states, counters and accesses (GoodHist, as for C02/C03; the others are wrong on any block list, C01; Grants: accesses as in C10) and acceptance by fsck after all clean ones (as for C04), relative to the map the block list reports. C113_recovered: after any Life (calls, deaths inside mark, power failures) with marks below 2^64 - 65536. C113_any_file: for any bytes of a size which is a multiple of 4096 with no entry reaching 2^64; C113_wrap_counterexample: without that condition fsck accepts a file with wrong counters. |
| C114 | dump shows what a block list holds | proved | Blocklist/Dump, Props/Dump | dump as a function to text (List Char, numbers by Nat.toDigits). The numbers can be read back because every one is followed by a character which is no digit; induction over the entries gives equal counters and entries from equal texts. C114_tells is for any two files. C114_text: the printed end is start + count (no wrap-around) for every history of calls. C114_access_counterexample: the text does not determine truncate_access, which reads the entry behind the last one (C09). After a power failure dump can read outside of the mapping as state() does (C112). |
| C115 | the database keeps only what is needed | partial | Props/Storage | Trees: every inode is in the tree or below one without directory (well-foundedness of parents); after a garbage collection the latter are locked (coll_swept). Swept is followed through the transitions of the requests (Abs): Put, Puts, SyncTo, Removed. False in full: finish_dir_rewrite and forget do not call clean_orphans, so what is missing when a directory is opened, and what is removed while it is referenced, stays after it is not needed any more (two counterexamples). Proved: these are the only two ways in which something stays (C115_only_partial); it is gone after the next lookup or reading of a link which adds, removes or replaces an entry, and after the next opening of a directory which adds something, except for what that very request dropped (C115_swept_partial); when the cache is opened exactly what has a path remains (C115_mount_partial, with threads C115_mount_threads_partial). 'Referenced' is the lock count in memory, which is at least that of the kernel (C40). |
| C116 | asking again changes nothing | partial | Props/Twice | Transitions (Abs): two of them for the same request are followed one after the other (abs_again). After listing a directory every listed name is JustStored (attributes stored, flags clear), so that every Put of the second pass is the identity; what is marked by it has no entry any more. The database is determined by the tree (Rep.unique). False in full: reading as a link what the backend does not accept as one is answered with its error (EINVAL), and the inode is removed; the second time the answer is ENOENT (C116_counterexample). Proved for all other requests: same answer and literally the same database (C116_again_partial), any number of times (C116_often_partial), and with threads for two equal requests of which one takes effect after the other (C116_threads_partial). Steady is required for opendir only, since lstat is asked there several times. |
| C117 | what only reads can be served in any order | proved | Props/Order | Such a request leaves the tree (abs_still) and its reply is determined by tree, database and backend (abs_reply: two transitions from different reference tables). Two neighbours are exchanged: both are answered from the database of the first state, lock counts by C40_step_exact, which is linear; induction over the permutation. A batch is the fold of the single subtractions. Enough is the condition that lookups are held before they are given back and that counters do not overflow; it does not depend on the order. |
| C118 | the daemon keeps no records of what is gone | partial | Props/Records | False: C118_grows constructs, by induction on the number of rounds, a history in which a file appears, is forgotten and disappears, each round leaving one record; the transitions (Abs) of the three requests are inverted. What holds: SI (locked inodes exist, removed ones have numbers below the next one). That no record is ever erased is proved on the map itself (RefMap.run). False in full: InodeReferences never erases a record, and clean_orphans marks every removed inode; inode numbers are not reused, so the records are of no use any more. Proved: for every N there is a history after which the cache holds only the root, the kernel nothing, and the table N records (C118_grows); every record is of an inode in the database, or an unlocked removed one whose number was given out (C118_records_partial); no call ever erases one (C118_never_erased). |
| C119 | a cache in which every directory was opened is a copy of the host, whatever its history | proved | Props/Walked | From C94: opening a directory makes its copy right, and while the host does not change it stays right (also over crashes). By induction on the path of an inode in the cache: the directory it is in is a directory of the host, so it was opened, so its copy is right. Two copies of the same tree are the same. Names which are plain and have at most 503 bytes (what the cache can store; . and .. are not part of the comparison). Link targets are not read by opening directories and are not compared. The root directory itself keeps the attributes which it got when the cache was created. Without a connection a lookup of a missing name may be answered EIO instead of ENOENT if the directory lost its synchronised flag (C38). |
| C120 | when also every link was read once, link targets are available offline and right | proved | Props/Links | A target is only changed by a readlink of this inode which the backend answered (abs_targets, over all transitions); so what readlink stored stays, and the inode keeps its path because its directory stays right (C94_kept) and crashes keep paths and targets (C85_crash). C120_complete combines it with C119_mirror. While the host has the tree or is not connected (what changed on the host is not noticed: C94). A link which was not read before is answered EINVAL without a connection. Targets have no NUL bytes and the length given in the attributes (as on Linux file systems). |
| C121 | the copy of the host is in the bytes of the database file | proved | Props/WalkedBytes | Simulation: a history on bytes (MTB) has a counterpart on records (Walked.rel), whose file is related by DRel; C119 and C120 are transferred through the reading functions, which give the same on related files. The example lifts the story of C120 to bytes (on_run, on_open, on_read). C119 and C120 on the model in which LMDB stores bytes; the conditions on trees and names are the same. |
| C122 | the kernel answers programs by itself for at most one second after a reply | proved | FS/Kernel, Props/Expiry | Timed histories with a log of all exchanges (Told; told_iff: the same histories). Invariant: every cached entry and attribute was said by an exchange of the log, and is valid until one second after its end. The kernel's caches are a specification (FS/Kernel, after Linux fs/fuse); the timeouts are the code's. What a reply says may itself be older than the reply (C104). |
| C123 | a mounted directory which was filled once works without the host | proved | Props/Offline | Induction on the walk of the kernel: the inode at the end of the way has, in the cache as it was when it had been filled, the path of the place on the host (it does not matter when the replies were given, as opened directories stay right: C94_kept); each lookup is answered right (C94_lookup), each link with its target (C120_answer). Listings and attributes: C94_listing and dir_versions, with the versions of the database which requests saw. Names of at most 503 bytes; absolute links and paths which leave the directory are not covered (the kernel resolves them elsewhere). The errors of a missing name are ENOENT, or EIO if the directory lost its synchronised flag (C38). C123_crash: a restarted process is again in the situation of the other theorems. The root's own attributes are those of the mount (C119). Reading files needs the host (open is not implemented). |
| C124 | a mounted directory which was filled once works without the host, from the bytes of the database file | proved | Props/OfflineBytes | Simulation as for C121: histories on bytes (Filled, After) have counterparts on records with the same requests and replies; the example lifts the story of C123. C123 on the model in which LMDB stores bytes; the conditions on trees and names are the same. |
| C125 | an entry which no request names stays exactly as it is in the database file | proved | Props/FrameBytes | Simulation as for C121; the conditions on requests (spares, Elsewhere, Apart) are stated with the reading functions on bytes and agree with those on records. C108 on the model in which LMDB stores bytes; the same conditions on requests (Elsewhere, Apart, in terms of the bytes). |
| C126 | what the mount denies offline, the backend has denied, by the bytes of the database file | partial | Props/AbsenceBytes | Simulation as for C121: histories on bytes in which every request satisfies Only Denies (paths read from the bytes) have counterparts on records. The examples and the counterexample lift checked histories with lrun_keeps, for any property which steps and restarts keep. False in full for the reason which C107 gives (a listing which ended with an error counts as complete, a name whose lstat failed counts as missing): C126_counterexample refutes C126_full. Proved: what is denied was given up because of something the backend said; with a backend as in C107_strict_partial (Tame), the full claim. |
| C127 | opening a directory brings the bytes which are stored of it up to date | proved | Props/DirBytes | Simulation as for C121: DirRight and LookupNow are stated with the reading functions on bytes and agree with those on records. The example lifts the story of C94 (lift_run). C94 on the model in which LMDB stores bytes; the conditions on names are the same. |
| C128 | the size of a link is the length of its target, in the bytes of the database file | partial | Props/LinkFitBytes | Simulation as for C121; the counterexample and the example lift the stories of C95 with greachQ_run and gstepB, for any hosts which fit into the types of C++. C95 on the model in which LMDB stores bytes. Refuted in full (C128_counterexample), as C95: a link which was read and then replaced on the backend by a longer one keeps its old target with its new size. Proved as long as no link of the backend changes its length, and for each link which is read while connected. |
| C129 | listings stay right while other requests are served, on the bytes of the database file | proved | Props/ListBytes | MReach.full: a history on bytes together with the records it stands for and the invariants of Verif.MT on them; SeesAt and ListingRight agree on related sequences of files. The first part of C92 on the model in which LMDB stores bytes (the second part is C93_ls). The directory keeps its parent while it is read (SeesAt). |
