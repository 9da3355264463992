BLm='Blocklist/Model'
def q(i,m,h): plan[i]=(m,h)
q('C01',BLm,'Refinement of the raw slot array to a list of entries (Raw, Lists, Refine), then case analysis on how the range meets the entries (Sem). For all histories, block by block: the linear scan and the binary search agree on a block until a mark with ABSENT of that block goes wrong (Point).')
q('C02',BLm,'Induction over histories with the C01 step (Hist, Point).')
q('C03',BLm,'Invariant: the counters are the sums over the entries, modulo 2^64 (Count); each block is counted by the entry which determines it (Point).')
q('C04',BLm,'Induction over the loop of fsck on the invariant of clean histories.')
q('C05',BLm,'Induction over the entries of an arbitrary file (Fsck).')
q('C06',BLm,'Slots behind the last entry do not influence the observations.')
q('C07',BLm,'Arithmetic on sizes.')
q('C08',BLm,'Asserts and accesses are faults of the model; the invariant of all histories shows that none occurs.')
q('C09',BLm,'Induction over the scan of truncate_access (Access); the exact result in Props/AccessExact.')
q('C10',BLm,'As C09.')
q('C11','Blocklist/Disk','Byte-level encoding of superblock and entries, round trip; open on arbitrary bytes.')
q('C12',BLm,'Induction on the number of pieces.')
q('C13','Cache/Refs','Induction over call sequences; simulation between the map object and the table which the cache model uses.')
q('C14','Cache/Refs','Invariant over call sequences.')
for i in('C15','C16','C17'): q(i,'Cache/Hooks','Induction over lists of hooks (and over nesting); the hooks act on an arbitrary state, the log of calls is exact.')
for i in('C18','C19','C20','C21','C23','C24','C25','C28','C30','C33','C34'): q(i,'Cache/Model, Cache/Txn','Refinement `Rep` of the five ordered byte-keyed tables to an abstract tree (Spec), invariant over all sequences of calls, transactions, crashes and reopenings (Inv), then the property on the tree, restated on the API.')
q('C22','Cache/Model','As C18; termination because parents have smaller numbers than children in histories which use existing directories.')
q('C26','Cache/Model','As C18; termination measure on the number of orphans.')
q('C27','Cache/Model','The keys of a directory are a contiguous range of the ordered table; induction over the cursor.')
q('C29','Cache/Model','Invariant of the set of marked inodes during a rewrite.')
q('C31','Cache/Txn','Frames are private copies; rollback hooks restore the counts (induction over hooks).')
q('C32','Cache/Txn','A crash drops the stack of frames and the reference table at any point between calls; reopening cleans orphans.')
q('C35','Cache/Records','Computation on byte lists, for all field values and trailing bytes.')
for i in('C36','C37','C38','C39','C40','C41','C42','C44','C60'): q(i,'FS/Model over Cache/*','Every handler is shown to perform one of the transitions `Abs` of an abstract filesystem (Trans); invariant over histories of requests and restarts (`Live`); the property is then read off the transitions.')
q('C43','FS/Model','Directory streams (Stream, Pages): the loop sends the longest prefix that fits; induction over pages.')
q('C45','Backend/InMemory','List computations; induction over histories.')
q('C46','Backend/InMemory','Induction over paths.')
q('C47','Backend/Local','String model of map_path; non-interference proof on pairs of hosts.')
q('C48','Backend/Handles','Descriptors as tokens in a ledger; induction over operations.')
q('C49','Fuse/Request','State machine; induction over operations on any number of objects.')
for i in('C50','C54','C55','C56'): q(i,'Conc/Model','Interleaving transition system: snapshots, one writer, the mutex; inductive invariants over all schedules; C55 by a simulation with the sequential model.')
q('C51','Conc/Model, Conc/DebugMutex','As C50, with an order on what a thread can wait for; the mutex also instruction by instruction with relaxed loads.')
q('C52','Backend/InMemory, FS, Cache','Composition of C46/C62 with the filesystem invariant.')
q('C53','Backend/Local','Case analysis.')
for i in('C57','C58','C59'): q(i,'MT/Prog, MT/Model','Handlers as programs of cache calls, any number of threads; every schedule is related to a sequential history of `FS/Model` (Seq, Serial); invariants on counts.')
for i in('C61','C62'): q(i,'Backend/InMemory','Induction over paths of a tree.')
q('C63','Cache/Model, FS/Model','Induction over the readings; the order of inode numbers is the order of the listing.')
q('C64','Cache/OneCall','Composition of the transaction steps, using the invariants of C18-C34.')
q('C65','Fuse/Buffer, FS/Wire','The byte-level loops are shown to be in lockstep with FS/Model; parser and encoder by induction over entries.')
q('C66','Cache/ByteModel','Simulation: each operation on bytes and on records gives the same result and leaves corresponding databases (Cache/Bytewise); the layout follows from the invariant of C18.')
q('C67','Cache/ByteModel','Case analysis over all byte strings.')
q('C68','Blocklist/CrashModel','Every function of mark again, with the set of files a dying process may leave (result proved equal to Blocklist/Model); an invariant over the live entries is carried through all stores (Blocklist/Crash).')
q('C69','Blocklist/CrashModel','The same invariant, with the entries covering the blocks before the range.')
q('C70','Blocklist/Disk','Case analysis over the steps of open.')

q('C71','Fuse/Result','Induction over chains of operations on results.')
q('C72','Fuse/Session over FS/Model','Case analysis over the table of callbacks; induction over sessions.')
q('C73','Main/Mount','Case analysis over the failures; a stack discipline on the trace.')
q('C74','Backend/LocalIO, Backend/Local','Induction over the stream; composition with FS/Model for what comes of it.')
q('C75','Backend/LocalIO','Induction over sequences of operations.')
q('C76','Blocklist/FullModel','mark again, with an exception which keeps the list (agreement with Blocklist/Model proved function by function); the list at the point of failure is that of a mark with ABSENT, or has one entry cut (Blocklist/Full).')

for i in('C77','C78','C79'): q(i,'MT/Model over FS/Trans','Invariants of the abstract tree carry over to all interleavings (MT/Saw: every request which ended performed a transition `Abs` on the databases which it saw); the property is then read off the transitions.')
q('C80','Blocklist/MapModel','The pointer and the log of system calls, for any host; invariant: the mappings alive are the one pointed to.')
q('C81','Cache/CachedDir','Case analysis over parsing; the states are determined by position and end flag; induction over calls.')
q('C82','Cache/Objects','Simulation between the two runs, with the addresses exchanged; invariant `Accounted` by case analysis over calls.')
q('C83','FS/ByteModel over MT/Prog and Cache/ByteModel','The handlers as programs over cache calls, each call simulated as in C66 (FS/Bytewise); properties of reachable states transfer along the simulation.')
q('C84','Cache/ByteModel, FS/ByteModel','Case analysis over parsing in every function; the measure of clean_orphans is the number of entries and orphans; induction over handlers and histories.')
q('C85','MT/Model, Props/FSCrash','Steps and restarts as one relation; the invariants of C57-C79 give what each step does to the databases, C32 what opening does; replies behind the commit by induction over the handlers.')
q('C86','Conc/ByteModel, MT/ByteModel','Simulation (Conc/Bytewise, MT/Bytewise): each cache call on bytes gives the same result as on records (C66), so each step of a thread does; the properties of C57-C59 and C85 transfer.')
q('C87','Backend/HostTree (the tree of the host), Backend/Local, FS/Model','Paths: C47. Each request by the transition relation of C36-C39 with the answers of the host; all histories by C60 with the tree of the host as what the backend said. A host for every tree shows that the hypotheses can be met.')
q('C88','MT/Fair (runs, fairness), MT/Model','Accounting by induction on executions. Termination: the product of the well-founded orders of the threads (C59_finite). Fairness: a thread which stays where it is waits; the owner of the mutex never waits, so the mutex becomes free again and again; so nobody stays waiting for it, so nobody keeps the writer lock, so that becomes free.')
q('C89','Backend/HostTree, Backend/Local, MT/Model','C77 and C85 with the tree of the host: a host with a tree which contains the object confirms it, and so does one which is not connected; what is shown was said by the host.')

q('C90','Backend/HostTree, Backend/Local, MT/Model','Invariant under all interleavings (MT/Saw, now also for conditions on the databases): what is in the cache was said by the host (C77), and synchronised directories have all names; nothing with a plain path is ever removed, because the host confirms it or is gone. Then each answer from its transition.')
q('C91','Props/LocalWalk (path resolution of kernel and host), MT/Model','Induction on the resolution by the kernel: the inode number where it is has a path (C90: inode numbers keep their paths), and this is where the host is.')

q('C92','MT/Model, FS/Model (readdir, readdirplus), Backend/HostTree','Each page is a part of the stream of entries in the databases it saw (MT/Saw), readdirplus leaving out what has been removed meanwhile; the pages together are one reading over changing databases (C63). With C90 and C91: entries of a synchronised directory stay, so all are listed.')

q('C93','MT/ByteModel, Cache/ByteModel','The bisimulation of C86 between threads on bytes and threads on records takes histories with these requests to histories with the same replies, so that C90 to C92 hold for them.')

q('C94','MT/Model, FS/Model, Backend/HostTree','Opening: what SyncTo leaves is what lstat said of the names which were listed (back_opendir, abs_dir). Afterwards an invariant of all versions of the database (DirOK): entries of the directory can only come from the host (abs_back), and are confirmed by it (dir_confirms). Listings as in C92, over the versions since then.')

q('C95','Cache/Model (writelink, emplace), FS/Model, MT/Model','Origin invariant of C77 with the lengths as what the backend says; the counterexample by running the model on three hosts.')

q('C96','Main/Mount, Main/Paths, Backend/Local','The working directory is followed through the trace of main; a case split over the traces. What is served: the mapped path is absolute if the root is, so it means the same in every working directory.')

q('C97','Cache/Txn, Cache/Procs','The invariant of the single process holds for the view of each process (its own reference table, the common file); at most one process writes, and the counter in its transaction is not below the stored one.')
q('C98','Backend/MemHeap, Backend/MemTree, Backend/MemAbs','Objects by address; an invariant over all calls: the objects form a tree in which children are younger than their directory, handles point to objects of their kind or to none, iterators are at an element; refinement to the tree of Backend/InMemory; a listing is followed over a trace of calls by what it has returned and what is to come.')

q('C99','MT/Life, Props/Life','The trees which the databases held, oldest first, form a list in which of every two the later one keeps type and place of the inodes it has from the earlier; every reply fits one of them.')

q('C100','MT/Since, Props/Monotonic','Databases since a moment keep a property of the tree which every request keeps; here: the attributes of one inode are in S, which only a report about its path can change.')

q('C101','MT/ByteModel, MT/Bytewise, Props/LifeBytes','The bisimulation of C86 carries histories over several processes from bytes to records; C99 and C100 there.')

q('C102','Backend/Posix, Props/Posix, Props/Contain','Path resolution is compositional (walk_append: what follows a directory starts there with some links left) and does not depend on empty pieces; so what lstat finds at the root followed by names is a tree in the sense of C87.')

q('C103','Backend/Posix, Props/Contain','Below the root, names which are not those of links lead straight down, in both file systems (walkIn_down). In histories: what is cached as a directory was reported as one at its path (Orig), so by induction along the path no name is one of a link. Counterexample evaluated in the kernel.')

q('C104','FS/Kernel, Props/Fresh','Invariant over timed histories: each cached entry of the kernel points to an inode at a fixed place (Places), whose attributes in the cache and in the kernel were reported since the entry was made; a request changes attributes only by fresh ones (abs_kids). Counterexample evaluated in the kernel.')

q('C105','Cache/Refuse, Cache/RefuseRun, Props/Refuse','A monad in which each write may be refused. Functions which leave the reference table alone need a fixed number of writes (Takes); a collection which is broken off has doomed a set of inodes which it removes whatever else is locked (CutOff). A refused call is then simulated by one which is not: lock the inodes which were not reached yet, make the call, release them. Counterexample evaluated in the kernel.')

q('C106','MT/Frozen, Props/Frozen, Props/FrozenBytes','Invariant over histories with crashes (Holds): the connected part of the tree agrees with the one at the beginning (Agree); offline requests keep the database (offline_disk), restarts collect orphans only. What a request answers is then read off the tree it saw (Saw). Transfer to bytes by the relation of C101.')

q('C107','FS/Absence, Props/Absence','Invariant (Honest) over what requests do to the tree (Abs): names absent from directories marked as complete are in a set which contains what the backend denies. An absent reply after the last connected request is traced back with C106. Counterexamples evaluated in the kernel.')

q('C108','FS/Frame, Props/Frame','Every transition of the tree (Put, Puts, SyncTo, Removed, Collected) keeps the entry (Same) if its directory survives and another name is meant; the directory survives by abs_stay (FS/Keep). Lifted to threads, crashes and restarts with Holds.')

q('C109','Props/Asked','Case analysis of the handlers, induction over the loop of opendir; histories by induction over the equivalent sequential run (C57).')

q('C110','Cache/Pointers, Cache/PointersSim, Props/Pointers','Model of all functions of transactions with addresses (each with the number of writes at which it was returned) and cursors; it simulates the model without (SameT), which does nothing undefined (Defined). Loops by induction: keys have the right size (KeysOK), entries under cursors stay. Necessity by evaluation.')

q('C111','Blocklist/Power, Props/Power','PowerLoss: each part of the file from any point of the stores of CrashModel. Invariant of every slot, also of those behind the last entry (Al), over every store of mark; the slot of a block before the marks does not change (J, Says).')

q('C112','Blocklist/Lives, Blocklist/Sane, Props/Lives','Life: calls, deaths inside mark and power failures in any order. Invariants of arbitrary, possibly overlapping and unordered entries over every store: every slot covers only blocks it may cover (Ov, with 64-bit wrap-around of ends allowed), the number of entries and the states are in range (Mapd, Tame); every access is in bounds (Mild).')

q('C113','Blocklist/Grid, Props/Recovered','Over every store of mark and every death and power failure: the size of the file stays a multiple of 4096 and no entry starts behind the last marked block (Grid, Lattice, Life.lattice). With fsck_sound this gives the invariant of reachable block lists (Inv, SWf) for the entries found, and so everything proved from it.')

q('C114','Blocklist/Dump, Props/Dump','dump as a function to text (List Char, numbers by Nat.toDigits). The numbers can be read back because every one is followed by a character which is no digit; induction over the entries gives equal counters and entries from equal texts.')
q('C115','Props/Storage','Trees: every inode is in the tree or below one without directory (well-foundedness of parents); after a garbage collection the latter are locked (coll_swept). Swept is followed through the transitions of the requests (Abs): Put, Puts, SyncTo, Removed.')

q('C116','Props/Twice','Transitions (Abs): two of them for the same request are followed one after the other (abs_again). After listing a directory every listed name is JustStored (attributes stored, flags clear), so that every Put of the second pass is the identity; what is marked by it has no entry any more. The database is determined by the tree (Rep.unique).')
q('C117','Props/Order','Such a request leaves the tree (abs_still) and its reply is determined by tree, database and backend (abs_reply: two transitions from different reference tables). Two neighbours are exchanged: both are answered from the database of the first state, lock counts by C40_step_exact, which is linear; induction over the permutation. A batch is the fold of the single subtractions.')
q('C118','Props/Records','False: C118_grows constructs, by induction on the number of rounds, a history in which a file appears, is forgotten and disappears, each round leaving one record; the transitions (Abs) of the three requests are inverted. What holds: SI (locked inodes exist, removed ones have numbers below the next one). That no record is ever erased is proved on the map itself (RefMap.run).')
q('C119','Props/Walked','From C94: opening a directory makes its copy right, and while the host does not change it stays right (also over crashes). By induction on the path of an inode in the cache: the directory it is in is a directory of the host, so it was opened, so its copy is right. Two copies of the same tree are the same.')
q('C120','Props/Links','A target is only changed by a readlink of this inode which the backend answered (abs_targets, over all transitions); so what readlink stored stays, and the inode keeps its path because its directory stays right (C94_kept) and crashes keep paths and targets (C85_crash). C120_complete combines it with C119_mirror.')
q('C121','Props/WalkedBytes','Simulation: a history on bytes (MTB) has a counterpart on records (Walked.rel), whose file is related by DRel; C119 and C120 are transferred through the reading functions, which give the same on related files. The example lifts the story of C120 to bytes (on_run, on_open, on_read).')
q('C122','FS/Kernel, Props/Expiry','Timed histories with a log of all exchanges (Told; told_iff: the same histories). Invariant: every cached entry and attribute was said by an exchange of the log, and is valid until one second after its end.')

q('C123','Props/Offline','Induction on the walk of the kernel: the inode at the end of the way has, in the cache as it was when it had been filled, the path of the place on the host (it does not matter when the replies were given, as opened directories stay right: C94_kept); each lookup is answered right (C94_lookup), each link with its target (C120_answer). Listings and attributes: C94_listing and dir_versions, with the versions of the database which requests saw.')

q('C124','Props/OfflineBytes','Simulation as for C121: histories on bytes (Filled, After) have counterparts on records with the same requests and replies; the example lifts the story of C123.')

q('C125','Props/FrameBytes','Simulation as for C121; the conditions on requests (spares, Elsewhere, Apart) are stated with the reading functions on bytes and agree with those on records.')

q('C126','Props/AbsenceBytes','Simulation as for C121: histories on bytes in which every request satisfies Only Denies (paths read from the bytes) have counterparts on records. The examples and the counterexample lift checked histories with lrun_keeps, for any property which steps and restarts keep.')

q('C127','Props/DirBytes','Simulation as for C121: DirRight and LookupNow are stated with the reading functions on bytes and agree with those on records. The example lifts the story of C94 (lift_run).')

q('C128','Props/LinkFitBytes','Simulation as for C121; the counterexample and the example lift the stories of C95 with greachQ_run and gstepB, for any hosts which fit into the types of C++.')

q('C129','Props/ListBytes','MReach.full: a history on bytes together with the records it stands for and the invariants of Verif.MT on them; SeesAt and ListingRight agree on related sequences of files.')
