# Formal model of horazont/dragonstash in Lean 4

## 1. Approach

The C++ code is modelled function by function as executable Lean definitions under
`lean/Verif/`; every definition cites the file and the lines it models and says where it
simplifies. Failed assertions, undefined behaviour, exceptions which nobody catches and
loops which do not end are explicit *fault* outcomes of the model (`M α := Except Fault α`,
`Base.lean`), so that "does not crash, does not hang" is part of the theorems and not an
assumption. Specifications are separate small definitions (`*/Spec.lean`, `FS/Live.lean`,
`FS/Answer.lean`, the first lines of each `Props/*.lean`), which do not use the helper
functions of the model. The theorems named in `MANIFEST.json` are in `Props/*.lean` (and
`MT/*.lean`, `Conc/*.lean`), each with a concrete non-trivial case which meets its hypotheses
(`example`s, checked by kernel evaluation of a run of the model; `*/Demo.lean`).

Where the code does **not** have a property, the full statement is kept as a `Prop`
(`Cxx_full`) or in the comment, a theorem `Cxx_..._counterexample` refutes it by a run of the
model, and the strongest variant found is proved with the suffix `_partial`.

## 2. Trusted base

* **Lean's kernel** (Lean 4.33.0). No `native_decide`, no `bv_decide`, no axioms of our own.
* **Axioms**: every theorem in `MANIFEST.json` depends on a subset of `propext`,
  `Classical.choice`, `Quot.sound`. The list for each theorem is in `AXIOMS.md`
  (`tools/gen_axioms.py`, from `#print axioms`).
* **The correspondence of model and C++ text**, which is by reading. It was exercised by
  editing the model in the way of realistic bugs (`seeded/LOG.jsonl`): the theorems which fail for
  each edit, and the theorems which were added or tightened because an edit survived.
* **The properties' formalisation**: the statements of the theorems in `MANIFEST.json` and the
  definitions they mention.

### Assumptions about what the code calls

* *LMDB and lmdb-safe* (the submodule is empty in /repo): databases are maps ordered by
  `memcmp`, a shorter key first (`Cache/Tab.lean`); keys have at most 511 bytes; a read-only
  transaction sees the state committed when it began, there is one write transaction at a time,
  commits are atomic and durable, nested transactions are private copies (`Cache/Txn.lean`,
  `Conc/Model.lean`). Calls do not fail for lack of space, memory or readers, except in C105, where any write may (Cache/Refuse). (If they do, lmdb-safe
  throws; nothing in the project catches, so the process dies in the middle of a request, which is what
  C85 and C93 are about.) One process uses the cache at a time, except in C97 (Cache/Procs). (`main` opens the database before it
  goes to the background; LMDB forbids to use it in the child, whose locks do not keep a second process
  out. With a single process this has no effect.)
* *libfuse*: a request is handled by one call of the handler; several threads handle different
  requests (`fuse_session_loop_mt`). For C65 the record layout of `fuse_add_direntry` and
  `fuse_add_direntry_plus` (`Fuse/Buffer.lean`). For C96: `fuse_daemonize` changes the working directory
  to `/`, `fuse_session_unmount` uses the mount point as text (`Main/Paths.lean`).
* *The Linux kernel*: `Valid` in `FS/Live.lean` and `Proper`, `Room` in `MT/Model.lean`: it looks up
  names and opens directories only in directories, does not give back more references than it holds;
  64 bit numbers do not run out. For C65 its parser of directory replies.
* *The host* (local backend): a function from paths to answers, which may change from call to call;
  paths are lexical, symbolic links in the middle of paths are the host's business (C47). Closed
  descriptor numbers are not reused in the ledger of C48.
* *libstdc++*: `std::string`, `std::filesystem::path::operator/=`, containers behave as documented.
* *Memory*: `std::bad_alloc` does not occur. For `debug_mutex`, relaxed loads may return any value of
  the modification order not older than the thread's own last store (`Conc/DebugMutex.lean`); with
  `NDEBUG` `debug_mutex::unlock` does not compile, assertions are assumed to be compiled in.
* *System calls of the blocklist* (`open`, `fstat`, `mmap`, `ftruncate`) succeed, except in
  Blocklist/FullModel (C76) and Blocklist/MapModel (C80); the byte order is little endian. A process dying in the middle of `mark` or of the
  creation of a blocklist file is modelled (C68-C70); a power failure (parts of the file from different points in time) is in C111; crash points inside `shrink` are not (it is a single `ftruncate`).

### Does the model behave like the code?

The code cannot be run here. Verif/Conform replays the project's own unit tests (all of
tests/cache/blocklist.cpp, cache.cpp, inode.cpp, tests/backend/in_memory.cpp and tests/fs.cpp) on the
model: what the authors recorded as the behaviour of the code is what the model does, for all of
their tests. These modules are tests of the model and support no claim in MANIFEST.json; they are
evidence for the correspondence which the proofs have to assume. The part for
tests/cache/blocklist.cpp is translated mechanically by `tools/gen_conform.py`, the others by hand.

## 3. What is modelled

| code | model | remarks |
|---|---|---|
| src/cache/cache.cpp: the functions of transactions, with addresses into the database | Cache/Pointers | when an address which LMDB returned is followed, and where cursors are (C110); lmdb-safe is a parameter |
| src/cache/blocklist.cpp, blocklist.hpp: `Blocklist` | Blocklist/Model, Blocklist/Disk | all functions; the file with live entries and slack, counters modulo 2^64; iterators are slot indices; the bytes of the file in Disk |
| the same, `mark` store by store | Blocklist/CrashModel | every function `mark` calls, with the set of files which a process dying inside leaves behind (MAP_SHARED). One store to a superblock field, to a field of an entry, or of a whole 16 byte entry is indivisible; a dying `memmove` leaves any mixture of moved and unmoved entries. Power failure (parts written back in any order) is in Blocklist/Power |
| the same, `mark` on a full disk | Blocklist/FullModel | every function `mark` calls; `ftruncate` in `grow` may fail. |
| the same, refused system calls and the life of the mapping | Blocklist/MapModel | every function, as the sequence of its system calls and accesses; contents are left out |
| cache.hpp 477-733, cache.cpp 405-432, 741-808: transaction objects (moves, nesting, destruction) | Cache/Objects | database operations left out; only their hooks and their use of the mutex |
| fs.cpp on the bytes of the database | FS/ByteModel; Conc/ByteModel, MT/ByteModel (threads) | handlers of MT/Prog run on Cache/ByteModel |
| cache.cpp: `CachedDir` | Cache/CachedDir | the values under one key as a list; nothing in the project uses the class |
| blocklist.hpp/.cpp: `FileHandle` | Backend/Handles | |
| cache.hpp: `InodeReferences` | Cache/Refs | |
| cache.hpp: `TransactionHook`; cache.cpp: `commit`, `abort` with hooks | Cache/Hooks | for arbitrary hooks; the hooks which the cache installs are in Cache/Txn |
| inode.cpp, inode.hpp, direntry.cpp, direntry.hpp, common.hpp | Cache/Records | bytes; misaligned buffers are outside (the code has `assert(false)` there) |
| cache.cpp: `CacheDatabase`, `Cache`, `CacheTransactionRO`, `CacheTransactionRW` | Cache/Model, Cache/Txn, Cache/OneCall; Cache/ByteModel | all functions except those listed below; values are records in Cache/Model and bytes in Cache/ByteModel (C66 relates them); the `memcpy` of `make_orphan` is modelled as the field update it is on x86-64 |
| cache.hpp: mutex, transactions of several threads | Conc/Model, Conc/Hooks | a call is one step, see the argument in Conc/Model.lean |
| debug_mutex.hpp | Conc/DebugMutex | instruction by instruction |
| fs.cpp, fs.hpp: `Filesystem` | FS/Model; MT/Prog, MT/Model (threads); FS/Wire (bytes of directory replies) | all handlers; the backend is an arbitrary oracle per request |
| fuse/request.hpp, request.cpp: `Request` | Fuse/Request, `St.reply` in FS/Model | |
| fuse/buffer.hpp, buffer.cpp | Fuse/Buffer | bytes |
| fuse/interface.cpp, fuse/interface.hpp: `Interface`, `Session` | Fuse/Session; `Req.other` in FS/Model | the table of callbacks and what each calls |
| error.hpp: `Result` with both members | Fuse/Result | elsewhere results are `Except`, see C71 |
| main.cpp: `MountCommand::execute`, `main` | Main/Mount, Main/Paths | CLI11 and libfuse answer arbitrarily; the paths and the working directory (C96) |
| backend/in_memory.hpp, in_memory.cpp | Backend/InMemory, Backend/MemHeap | the tree as a value; references as paths into it (C61); with objects by address, pointers, handles and iterators (C98). Of std::unordered_map it is assumed what the standard says of iterators (erasing invalidates only those of the erased element, inserting only if it rehashes) and, as C++14 demands, that inserting without a rehash and erasing keep the order of the other elements |
| backend/local.hpp, local.cpp | Backend/Local, Backend/Handles, Backend/LocalIO | |
| cache.cpp with refused writes | Cache/Refuse | every write to LMDB is a step which may be refused (C105) |
| cache.cpp, several processes on one directory | Cache/Procs | LMDB's write lock and snapshots are assumed to work between processes (C97) |
| the timeouts in fs.cpp, request.hpp, with the kernel's caches | FS/Kernel | the kernel is specified, not code of this project (C104) |
| the host: path resolution and symbolic links | Backend/HostTree, Backend/Posix | specification after path_resolution(7) (C102, C103) |

Not modelled: `RegularFileHandle` (declared in cache.hpp, never defined); the parsing of the command line;
`Result<T>` is `Except` (Errno.lean).

## 4. Properties

The first plan of this table was committed before the proofs; it is now kept current by
`tools/gen_design.py`. All properties can be expressed in the model; none is `not_applicable`.
