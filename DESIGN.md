# Formal model of estraier/tkrzw in Lean 4

Source: `/repo` (C++17), read as text. Nothing in it is built or run.
Everything here is Lean 4.33.0; two Mathlib modules are imported (`Mathlib.NumberTheory.Bertrand`,
`Mathlib.Data.List.Induction`).

## Layout

* `lean/Verif/Prelude/*` – bytes, the abstract dictionary, ordered maps, status codes: the common specification.
* `lean/Verif/Dbm/*` – what all database classes share: the interface (`Core`: `DbmImpl`, `Lawful`), the default
  methods of class DBM (`Api`), histories, counting, traversal, cursors, searches, ordered maps (`Ordered`).
* `lean/Verif/<Area>/Model.lean` (or a file named after the part) – executable transcription of the code; every
  definition cites file and lines and says what it simplifies.
* Definitions whose comment starts with SPECIFICATION say what is meant and do not model code.
* `lean/Verif/<Area>/*Lemmas.lean`, `*Steps.lean`, `Inv.lean` – auxiliary lemmas and invariants.
* `lean/Verif/<Area>/*Props.lean`, `Examples.lean` – the property theorems, named `C<nn>_...`, with `example`s
  showing that their hypotheses are met by concrete cases.
* `properties.jsonl`, `MANIFEST.json`, `seeded/LOG.jsonl` – list of properties, status, log of wrong programs.

## Trusted base

* Lean's kernel, and the three standard axioms `propext`, `Classical.choice`, `Quot.sound` (each theorem uses a
  subset of them). No own axioms, no `sorry`, no `native_decide`, no `bv_decide`. `decide +kernel` is used on closed
  statements (tables and witnesses); it is evaluated by the kernel.
* The faithfulness of the transcription of C++ to Lean in the definitions that cite the code.
* Not modelled anywhere: allocation failure, pointer representation, compilers, the C++ memory model below sequential
  consistency, input/output errors unless an area says so, and the operating system's file system except where an
  area has an explicit crash model.
* Hash functions are parameters of the database models, so that theorems hold for every hash function; the real
  ones (Murmur, CRC) are modelled in `Hashing/*`, and `Hashing/Real` puts them in.

## Conventions

* Bytes are `UInt8`, byte strings are `List UInt8` (`Bytes`).
* Sizes and offsets are `Nat` unless overflow is the point; then fixed-width numbers or explicit `% 2^n`. Where the
  code converts to a narrower type, the model does so, or the condition under which it does not matter is a hypothesis.
* Undefined behaviour and endless loops that the code can reach are explicit outcomes.
* Record processors (C++ objects with `ProcessFull`/`ProcessEmpty`) are arbitrary functions
  `Option Bytes → Action`, `Action = noop | remove | set v`.
* A property that the code violates is stated in full, refuted by a theorem named `..._violated` on a concrete
  witness, and accompanied by a theorem (`_partial`, or one with the missing hypothesis in view) of what does hold.

## The common interface

`DbmImpl σ` is a record of the virtual functions of class DBM (Process, ProcessMulti, Clear, Rebuild, ...) on a state
`σ`. `Lawful D inv view fits` says that on states with invariant `inv`, of which `view` is the dictionary, each function
does to the dictionary what it should, as long as the records satisfy `fits` (size limits of the class). The default
methods (Get, Set, Append, CompareExchange, Increment, Rekey, PushLast, ...) are transcribed once from tkrzw_dbm.h and
proved for every lawful class (C19–C23, C58). Each class is shown to be lawful (`C01_lawful`, `C14_lawful`,
`C29_lawful`, `C13_dictionary`, ...). Histories are lists of calls; all theorems are by induction over them.

## Per property: what is modelled and how it is proved

| id | what is modelled | how it is proved |
|----|------------------|------------------|
| C01, C02 | TinyDBM: bucket array of chains of serialized records (byte blocks), Process, Append, Rebuild, Clear, Count | refinement to a dictionary; counter = total chain length |
| C03, C04, C06 | HashDBM on two levels: cells with sizes (`InPlace`, `Appending`) and the byte file (`File`, `Render`); free block pool; all branches of ProcessImpl | refinement with a separation invariant; the byte level simulates the cell level |
| C05 | byte image of a record, ReadMetadataKey, FindMagic | round trip on byte lists |
| C07, C65 | every prefix of the write list of one update, then Open with restoration: validation of buckets, records and chains, the shortcuts, RestoreDatabase | after each prefix the invariant holds or a record is not in its chain (`Stray`), and then validation fails; the new file = dictionary before or after |
| C66 | Synchronize, then Open with RESTORE_SYNC | in the appending mode the records of the synchronized file are a prefix of the later ones |
| C08 | saved free-block section, file copied while open, opened again | counterexample plus partial theorems |
| C09 | Rebuild: forward / backward import into a new file (HashDBM), new bucket array (TinyDBM); HashDBM also with calls of other threads during the rebuild (a schedule gives the calls and the moment at which each record is read) | replay lemmas; in the appending mode the records only grow, so every moment shows the records up to the offset that the rebuild reads to |
| C67 | ProcessEach with the update mode read before the lock | C10 on the states in the middle of a rebuild; witness of the race |
| C68 | StrReplace, StrReplaceCharacters, StrStripSpace, StrStripLine, StrSqueezeAndStripSpace, StrTrimForTSV as loops | loop invariants against relations that determine the result |
| C69 | AsyncDBM over any database: the task queue of C51, tickets, futures, postprocessor | invariant: the state is the serial run of the tasks done so far |
| C70 | WaitCounter, each atomic operation a step | transition theorem for the results; invariant of pending notifications; witness of the lost wakeup |
| C71 | SignalBroker and KeySignalBroker: mutex, notification lock, counters, sleeping threads | invariants over all schedules; witnesses of the races |
| C72 | TinyDBM: threads with slot locks, blocks with addresses on a heap, every access to a pointer or the count a step | refinement to steps on whole chains (`Tiny/ConcStep`), which are refined to a serial order at the moment of unlocking (`Dbm/TwoPhaseProof`); witness of the use after free by ProcessEach |
| C73 | HashDBM: the same threads and locks over the bytes of the file, the free block pool, the counters and the log, every access a step | chains of buckets and blocks held outside of them as an invariant of all threads (`Hash/ConcInv`), a generic refinement to steps on a dictionary per bucket (`Dbm/TwoPhaseSim`), joined with the histories of C03, C04 |
| C74 | MemoryMapParallelFile: the constructor of Zone, AllocateSpace and the copying as steps of any number of calls, with the file on the disk, the two sizes, the mapping and the lock; Truncate, TruncateFakely, Synchronize, Open, Close in between | an invariant over all calls with an order of the calls as a ghost (`File/MmapInv`, `MmapStep`); who stored a byte last follows from the steps; a rank for running one call alone gives freedom from deadlock; `Truncate` refuted by a program |
| C75 | RestoreDatabase, ReplayOperations, ExtractOffsets, FindNextOffset of HashDBM on a file one record of which was overwritten by bytes that cannot be read as a record | the scan before the damage, the search for the next offset and the scan behind it, each on bytes at a distance (`Hash/Damage`); joined with the histories of C03, C04; witnesses of what is lost |
| C76 | BabyDBM, TreeDBM: threads in Process and ProcessMulti that search the tree, load leaves from pages into the cache, lock leaves in the order of their ids, work on records, save, drop leaves from the cache and reorganize the tree, each a step | the sequential invariant of C07 holds at every step (`BTree/ConcStep`), keys held under a leaf lock are kept from other threads, joined with the two-phase argument of C72 (`Dbm/TwoPhaseProof`) and the histories of C07; witness of the lost update; locks taken in ascending order and a rank that every step lowers, so that the calls can always end (`BTree/ConcLive`; for C72, C73 the order of the slots, `Dbm/TwoPhaseLive`) |
| C77 | HashDBM: the file at the path of the database when the process dies in `RebuildImpl`, with calls of other threads: the old file after any number of calls and of writes of a call, or the closed new file | the copying of C09 split from the closing and the renaming; the old file by the argument of C07 from any database (`DbOk.crash_restore`), the new one by closing and reopening; `Hash/RebuildCrash`; refuted for the in-place mode |
| C78 | CacheDBM: threads in Process and ProcessMulti that lock the slots of their keys (exclusive locks, in the order of their addresses), run a processor on a slot as one step, and unlock; `Dbm/Slotted`, `Cache/Conc` | invariant: the slots that no running call has locked are those of the serial order, and a running call is at a prefix of its pairs on its slots; the serial run stands for the lists of C10, so no step misuses memory; ascending order of the locks gives that there is no circle |
| C79 | ShardDBM: threads in ProcessMulti that lock all their keys in the first shard and run one processor after the other, each by one call of Process of the shard of its key; calls that are done by one other shard happen between any two steps; `Shard/Conc` | the steps are those of the two-phase machine of C72 on the records of all shards, so the order of C72 serves; witnesses (`Shard/ConcExamples`) that Rekey and CompareExchangeMulti are not isolated; CompareExchangeMulti, which runs ProcessMulti of one shard inside a processor of that of another, and calls for one record are laid out as what they do in all shards (`Shard/Nested`): locks and checks going down, changes and unlocks coming back; a call takes its place in the order when its outcome is settled, and the invariant (`Shard/NestedInv`) says what every key is owed by the call that has its lock |
| C80 | MemoryMapAtomicFile: calls take the shared or exclusive side of a reader/writer lock, work on size and mapping in one step, and copy byte by byte, checking each byte against the present mapping; `File/MmapAtomic` | invariant over steps: the calls whose work is done are an order that explains what is returned, and a call that is copying has put the first part of its bytes into a file that was the one of this order; a measure of the work left shows that all calls can end |
| C81 | StdFile: all methods, on files by path; the stream writes to the file, `file_size_` is kept beside it, `Close` cuts the file by its path; `File/Std`, specification in `File/StdSpec` | refinement over the list of calls: the file is the first `file_size_` bytes on the disk; witnesses for a refused `Rename`, `Expand(0)` and `Truncate` after `TruncateFakely` |
| C82 | PolyDBM: OpenAdvanced up to the opening of the database inside, with names, extensions, parameters and comparators byte by byte, its update log, Close and the check in every method; `Poly/Model`, specification in `Poly/Spec` | the chains of comparisons are equal to tables, paths by `rfind` and the separators at the end; witnesses for the comparators, the default file, ulog_ parameters, ProcessMulti |
| C83 | PolyDBM and PolyFile: names of modes, reducers and access options byte by byte with the splitting and stripping of lists, SynchronizeAdvanced, RebuildAdvanced, RestoreDatabase up to the call of the database inside, the life cycle of PolyFile; `Poly/Tune`, specification in `Poly/TuneSpec` | chains of comparisons equal to tables, folds over the elements of a list by induction; witnesses for merging before refusing, Remove, Rebuild of BabyDBM and StdHashDBM, an unknown class of files |
| C84 | PositionalAtomicFile: calls take the shared or exclusive side of a reader/writer lock, work on the sizes and the length of the file on the disk in one step, and read or write byte by byte, a byte beyond the end of the disk being refused or making it longer; both kinds of allocation; `File/PosAtomic` | as C80, with the invariant that the file on the disk is as long as the object believes, but for the part that a call is about to write; with a factor of zero for calls that leave no byte out, with a witness for the others |
| C10 | ProcessEach, ProcessFirst, iterators of Tiny, Hash, Cache, Std | the records presented are a listing of the dictionary; a traversal with any calls in between passes no key twice and, at its end, every record that existed throughout (`Dbm/BucketIter`) |
| C11, C12 | CacheDBM: slots with chain and recency list, memory accounting | invariants over histories; counterexamples for the limits |
| C13, C15 | B+ tree of BabyDBM and TreeDBM (one model with two configurations): leaves, inner nodes, split, merge, iterators | refinement to an ordered map (`OMap`) for every strict weak order |
| C16, C62, C63 | serialization of nodes, metadata, node cache over a dictionary of pages, Close and Open | round trip; simulation by the memory model of C15 for every eviction choice |
| C14 | StdTreeDBM / StdHashDBM with registered iterators | refinement; iterator positions |
| C17, C18 | SkipDBM file as bytes: records with skip links, search, cache, external sorter, merge, reducers, Open/Close/Clear/Rebuild/Synchronize/Revert/Merge, iterators | layout = specification `image`; call-by-call refinement to sorted records plus pending updates |
| C64 | all files which exist during each call of SkipDBM, Open with restoration, repeated deaths | every such file is one of three shapes (`Left`), each of which opens to the records before or after |
| C19–C23, C58 | default methods on any lawful class | case analysis, induction over the list of records |
| C24, C25 | byte format of update-log messages, DBMUpdateLoggerMQ, ApplyUpdateLog; logs of Tiny, Hash, Std, Baby, Tree | round trip; replay = final dictionary |
| C26, C27 | MessageQueue: files, rotation, reader, opening after a crash, checksum | invariant over histories; counterexamples |
| C28, C53, C59 | flat record and TSV and line files with the reader's buffer | round trips for every buffer size; counterexample for a trailing empty record; saved files of BabyDBM and CacheDBM opened again (`BTree/Save`, `Cache/Save`), with the order of use of the cache |
| C29, C30 | ShardDBM over any lawful shard class with a routing function; heap-based iterator | refinement; sortedness |
| C31, C32, C51 | spin locks, HashMutex, TaskQueue as automata with any number of threads | inductive invariants over all interleavings; well-founded measures for progress |
| C33–C37 | integers, serializers, Base64, URL, C escapes, UTF-8 | round trips by induction |
| C38, C39, C40, C41 | substring searches (KMP, Z, BM, RK, ...), split/join, edit distance, key comparators | loop invariants, induction |
| C42, C43 | LinkedHashMap, LRU and double LRU caches, HeapByCost | refinement to lists |
| C44, C60 | PageCache, PositionalParallelFile with blocks, head buffer and over-allocation | refinement to a byte array |
| C45, C46 | path functions; WriteFileAtomic over a file system with failing calls and crashes | induction; all crash points and failures |
| C47 | CRC registers and tables, Adler-32, record checksum | polynomial algebra; counterexamples |
| C48, C61 | RC4, AES, dummy compressor with checksum | AES tables and rounds equal to the standard; inverse of each step |
| C49, C50 | GetDayOfWeek, IsPrimeNumber, GetHashBucketSize | day-by-day induction; Bertrand's postulate |
| C52 | MemIndex/FileIndex/PolyIndex over any ordered database (instantiated with the modelled BabyDBM and TreeDBM), StdIndex and StdIndexStr over std::set, with iterators | call-by-call refinement to a sorted list of pairs; membership as a fold over the calls; counterexamples for other orders |
| C54 | read-only calls of all classes (ReadOnly.lean, Hash, BTree) | state equality; counterexample in BabyDBM::ProcessFirst |
| C55 | Status and `\|=` | induction |
| C56 | SearchDBM* loops, all modes but regular expressions | induction over any database whose traversal presents its records |
| C57 | deserializers, pages and files as arbitrary bytes | inside-the-buffer theorems with hypotheses; counterexamples |

Nothing in the list is regarded as inexpressible.

## What each area leaves out or takes as given

* **Hash.** One thread. A write of one block is atomic in C07; a crash may lose any suffix of the writes of one update.
  Crashes inside Open, Close and Rebuild are not modelled. The numbers must leave room (`Room`: file size below the largest offset).
  The dead-record database of Rebuild and restore is a list. Damage (C75) is of one record at a time; damaged headers and buckets, and several damaged records, are left out. During a Rebuild the calls of `Process` of other threads are modelled, `ProcessMulti`, writable traversals and skipped broken records are not.
* **Containers.** `std::make_heap`, `push_heap`, `pop_heap` by contract (`StdHeap`). LinkedHashMap nodes are entries of
  a memory; Migrate moves between two memories.
* **Hashing.** CRC tables as functions that are checked against the stored ones; the zlib and big-endian variants are
  not modelled.
* **Path.** Sizes do not overflow. **MessageQueue.** One writer and any readers, calls are atomic; the thread that
  writes timestamps is left out.
* **Cache.** Whether `realloc` moves a block is an oracle. Blocks of bytes are as in Tiny. The factor 1.2 is exact.
* **Std.** The container is a list in iteration order; an iterator is the key it stands at; the order of
  `std::unordered_map` is an oracle. Files and locks are not modelled.
* **Shard.** Any lawful shard class and any routing function; the iterator works on sorted lists, with the contract of
  ordered iterators.
* **Thread.** Each atomic operation is one step (sequential consistency). HashMutex slots are ideal shared mutexes.
  The critical sections of TaskQueue are atomic.
  MemoryMapParallelFile (C74): one byte is copied per step, in ascending order; what is done under the exclusive lock is one step; system
  calls succeed; `msync` has no effect of its own; the file is writable. MemoryMapAtomicFile is not modelled.
  Concurrent calls of HashDBM (C73): a fixed number of buckets, the locks and the order of accesses as for C72; a read of a record and an
  append are single steps.
  Concurrent calls of TinyDBM (C72): a fixed number of buckets, slots with mutual exclusion, sequential consistency, and a heap that may
  hand out any free address; `AppendImpl` is left out.
  Concurrent calls of CacheDBM (C78): slot locks are ideal exclusive locks; a processor call under the lock of its slot is one step.
  MemoryMapAtomicFile (C80): writable files, sequentially consistent memory, system calls succeed; Open, path operations and zones given to the caller are left out.
  StdFile (C81): streams and system calls succeed but for rename, nobody else changes the files, any non-empty path can be created; Lock, Unlock and the calls in a critical section are left out.
  PolyDBM (C82): the values of parameters other than dbm, file, key_comparator and ulog_prefix are not interpreted; whether the database and the log open is part of the call; see C83 for other values.
  Parameters (C83): StrToInt, StrToIntMetric and StrToBool are any functions; the numbers among the tuning parameters and what the database inside does with them are left out; whether a database can be merged and a file opened or closed is part of the call.
  PositionalAtomicFile (C84): writable files, blocks of one byte, no cache of pages, no head buffer, system calls succeed; Open, path operations and the other access strategies are left out (C60: the parallel file has them for one thread).
  Concurrent calls of ShardDBM (C79): a call of one shard is one step, as C72, C73 and C78 justify; update logs of the shards are left out;
  the locks of a shard are taken to be those of HashDBM and TinyDBM; after a failed check, the processors that do nothing are left out.
  Concurrent calls of BabyDBM and TreeDBM (C76): leaf mutexes are ideal reader/writer locks; the work on one record is one step, as are a
  search down the tree, reading a page, putting a leaf into the cache, dropping one (with saving it), and reorganizing the tree (under the
  exclusive lock). Which leaves are dropped and when is any. Inner nodes stay in memory; iterators and `BabyDBM::Append` do not run meanwhile.
  AsyncDBM: a call of the database below is one step. SignalBroker: locking for the notification and notifying is one step.
* **File.** PageCache and PositionalParallelFile: one thread; new memory holds arbitrary bytes; the growth factor is an
  oracle. Atomic: system calls succeed or fail by an oracle, rename is atomic (POSIX).
* **Compress.** A 32-bit word is four bytes; 192-bit keys and the zlib, Zstd, LZ4, LZMA bindings are not modelled.
* **Search.** `memmem` by contract, regular expressions left out, 32-bit truncation of sizes ignored.
* **BTree.** Node memory with ids that are not used again; locks only in C76; the choices of the node cache are
  oracles; numbers are unbounded in the memory model, and overflow of page or id sizes is a separate outcome in the
  page model; the hash database below is a dictionary (justified by C03/C04); the fixed depth of the history array
  is not treated as a fault. Rebuild and RestoreDatabase of TreeDBM are not modelled.
* **Index.** One thread; calls which fail are left out; the pairs are smaller than 2^64 bytes; the comparator is the default one
  (lexical on both parts). FileIndex is over an open TreeDBM: reopening is C63.
* **Skip.** A file is its byte string; heap and stable sort by contract; files given to the sorter are scanned at once;
  one thread; the clock and Rebuild's new parameters are arguments; direct I/O and update loggers are left out. Crash
  model: a process dies between writes or in the middle of writing the metadata (a prefix is written); rename is
  atomic; a memory-mapped file may be followed by zeros. A crash of the system, in which completed writes are lost,
  is out of scope. After a torn header the restoration uses the default offset width, so the records must fit
  in it (4 GiB).

## Where the code does not do what the property says

Each line is a theorem (`_violated`) on a concrete witness.

* C08: a copy of an open in-place HashDBM with a stale free-block section overwrites live records.
* C65: a HashDBM in the appending mode which was restored by a shortcut has a stale effective data size, and a wrong count when
  a processor had removed a removed key; a crash after SetUpdateModeAppending makes both versions of a record live, so that
  a removal brings the old one back; a crash inside Synchronize leaves a file which looks closed with a stale list of free
  regions. C66: in the in-place mode RESTORE_SYNC gives newer values.
  C67: `ProcessEach` tests the update mode before it locks the records, so that a Rebuild which begins in between makes it present old versions
  and removed records.
* C70: WaitCounter::Done notifies without the mutex, so that a wakeup can be lost; Add of a negative number does not notify. C71: signals get lost when a
  thread begins to wait during a Send, when Send goes to one thread, when threads wait for several keys, and when the signal is sent between the
  construction of a Waiter and its Wait; deadlines make Wait return true without a signal.
* C72: read-only ProcessEach of TinyDBM takes no record lock, so that a Remove by another thread makes it read a freed block.
* C11, C12: the capacity and memory limits of CacheDBM are exceeded when slots or records are uneven; Rebuild drops
  records. C25: CacheDBM eviction is not logged.
* C13, C15: Previous at the first record, Previous after removal, Jump then Next in an empty leaf, and First of an
  emptied tree. C54: BabyDBM::ProcessFirst lets a read-only call write.
* C63: ParseMetadata of TreeDBM reads `last_id` from the field of `first_id`; max_page_size is not what was stored.
* C17, C18, C58, C64 (SkipDBM): Set with overwriting and an old-value pointer never overwrites; Set without a reducer
  keeps both values and shows the older; a value equal to the mark of removal is lost; removal in the in-order mode has
  no effect; Count, Last and JumpUpper go wrong while in-order records are pending; Clear can leave a header that
  Open refuses; Clear of a memory-mapped file can be undone, wholly or in part, by a later death; a database that was
  cleared and closed is reported as not closed.
* C52: GetValues of a StdIndex leaves out values which are before `VALUETYPE()`; with a comparator which identifies keys (case
  insensitive), Check finds pairs never added and GetValues can give nothing.
* C57: deserializers, tree pages and SkipDBM files can be made to read outside, to hang or to overflow.
* C21: signed overflow of initial + increment. C23: equal clock readings break the FIFO order.
* C24, C25, C26, C27, C28: see the theorems of these names (buffer of 2 GiB, empty logs, removal of old files by time,
  torn messages, checksum collisions, trailing empty record).
* C30: removal while iterating backward, and Process which sets. C31: two upgraders share an exclusive lock.
* C35: sizes of 2 GiB and more. C38: Boyer–Moore shift table, Z with a full match, and StrSearchBatchRK with a maximum and an empty pattern. C39, C40, C41, C42, C43, C47,
  C49, C51, C56, C60, C61: boundary cases named in the theorems. C46: temporary path equal to the target; power loss.
* C75: FindNextOffset of a HashDBM takes an offset for good only if two records can be read there (four when zeros follow), and
  tries 1000 alignments. So a damaged record takes with it the last one behind it (or three before zeros), and a damaged
  record of 8008 bytes or more (by default) everything behind it.
* C76: LoadLeafNode of TreeDBM looks in the cache under the slot's mutex, but reads the page after releasing it. If another thread
  loads, updates, saves and drops the same leaf meanwhile, the stale copy is put into the cache and the completed update is lost
  (`C76_tree_lost_update_violated`). It takes that the leaf is driven out of its slot's cache within the time of one page read.
* C77: a crash during `Rebuild` of a HashDBM in the in-place mode, the default, damages the database if other threads updated it meanwhile. `Rebuild` changes the
  mode to the appending one in memory only, the updates leave the old records in the file, and the metadata say that there are none. After the restoration the
  count is wrong and removing a key brings back its old value (`C77_hash_rebuild_crash_violated`). The same happens after `SetUpdateModeAppending` (C65).
* C79: ProcessMulti of a ShardDBM locks its keys in the first shard only. Rekey is built on it, so for keys of another shard a thread can find a record neither
  under its old key nor under its new one (`C79_rekey_violated`), against the documentation of Rekey. CompareExchangeMulti does not take these locks either, so it
  can find, and exchange, a half of what a ProcessMulti writes (`C79_compare_exchange_violated`), against its own documentation.
* C81: if `rename` fails, StdFile::Rename opens the file at the new path instead of its own. The object is then closed, or on another file, which later calls
  read and overwrite (`C81_rename_violated`, `C81_rename_refused_loses_file`). Expand(0) succeeds without setting the old size (`C81_expand_violated`). After TruncateFakely,
  Truncate to a larger size brings old bytes back (`C81_truncate_violated`), against the comment of File::Truncate.
* C82: PolyDBM compares a name in lower case with "lexicalCasekeycomparator", so the documented LexicalCaseKeyComparator (and PairLexicalCaseKeyComparator) is not known.
  TreeDBM checks the comparator after its parameter has been erased, so it takes any name without complaint and orders its records in another way
  (`C82_comparator_violated`, `C82_unknown_comparator_violated`). The default file is MemoryMapParallelFile, not MemoryMapAtomicFile (`C82_default_file_violated`).
  An unsupported ulog_ parameter is found only after the database has been opened, and `open_` stays set (`C82_ulog_violated`). ProcessMulti without a database
  dereferences a null pointer (`C82_process_multi_violated`).
* C83: SynchronizeAdvanced of PolyDBM merges the databases before it looks at the reducer and the other parameters, so a refused call has changed the database (`C83_sync_refused_violated`).
* C84: with the factor of the allocation zero, `PositionalAtomicFile::Expand` only notes the new size; the file on the disk stays short, and `Read` of the bytes that were added fails with "excessive region" until something is written behind them or `Synchronize` is called. `C84_fit_violated` has a single thread that does it. `Truncate` brings old bytes back as that of C74 does (`C84_truncate_violated`).
  The short name of the reducer ReduceRemove is compared with the name as given, so `Remove` is refused while `First` is not (`C83_reducer_violated`).
  RebuildAdvanced refuses key_comparator of BabyDBM and num_buckets of StdHashDBM (`C83_rebuild_violated`). PolyFile calls a method of a null pointer for every class that does not exist
  (`C83_file_class_violated`). A mode whose name does not exist, such as a mistyped compression mode with a cipher key, is silently the default one (an example beside `C83_modes`).
* C74: Truncate of a memory-mapped file cuts the disk file to whole pages only, so bytes beyond the new end come back when it is
  extended (`C74_mmap_truncate_violated`), against the comment of File::Truncate.

Also seen, without a theorem: TreeDBM::Close keeps the comparator for the next Open; an export renames its temporary
file over the target even if a write failed; ShardDBM::ProcessMulti is not atomic with respect to Process;
ApplyUpdateLogFromFiles loops when cancelled; HashDBM::ImportFromFileForward does not look at the status of an import;
SkipDBM::ValidateRecords uses a key after freeing it; TreeDBM::ProcessMulti returns with leaf mutexes locked when saving a leaf
fails in PAGE_UPDATE_WRITE (tkrzw_dbm_tree.cc 639-644).

## Wrong programs

`seeded/LOG.jsonl` records edits of single definitions of the model in a scratch copy (changed boundaries, swapped
arguments, dropped updates, ...), and which theorems failed. Where a theorem did not fail although its claim had become
false, a theorem was added or tightened (field `tightened`); where the edit does not change the meaning, the entry
says why.
