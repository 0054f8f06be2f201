{"id": "C01", "title": "TinyDBM is a map under any history", "statement": "After any sequence of Set, Remove, Append, Process, Clear and Rebuild calls on a TinyDBM, Get of every key returns exactly what a plain dictionary that received the same calls holds (value, or NOT_FOUND_ERROR), and each call returns the status the dictionary dictates.", "quantifier": "all keys and values (byte strings of any length), all numbers of buckets, all operation sequences of any length", "why_tests_cant": "Bugs such as losing a sibling record when a bucket chain is relinked depend on hash collisions and on the order of operations; tests sample finitely many histories.", "anchors": ["tkrzw_dbm_tiny.cc:TinyDBMImpl::ProcessImpl", "tkrzw_dbm_tiny.cc:TinyDBMImpl::AppendImpl", "tkrzw_dbm_tiny.cc:TinyDBMImpl::Rebuild", "tkrzw_dbm_tiny.cc:TinyRecord"]}
{"id": "C02", "title": "Count is exact on TinyDBM", "statement": "Count() of a TinyDBM is always the number of distinct keys for which Get succeeds.", "quantifier": "all operation histories", "why_tests_cant": "An off-by-one in a counter update on a rarely taken branch only shows on particular histories.", "anchors": ["tkrzw_dbm_tiny.cc:TinyDBMImpl::Count", "tkrzw_dbm_tiny.cc:TinyDBMImpl::ProcessImpl"]}
{"id": "C03", "title": "HashDBM in-place mode is a map under any history", "statement": "On a HashDBM opened in the in-place update mode, after any sequence of record operations Get of every key returns what a plain dictionary holds. Reusing freed file regions never corrupts another live record.", "quantifier": "all keys, values, bucket counts, alignments, free block pool capacities and operation sequences", "why_tests_cant": "Region reuse depends on the sizes of all earlier records; overlap of two records arises only for particular size histories.", "anchors": ["tkrzw_dbm_hash.cc:HashDBMImpl::ProcessImpl", "tkrzw_dbm_hash_impl.cc:FreeBlockPool", "tkrzw_dbm_hash_impl.cc:HashRecord"]}
{"id": "C04", "title": "HashDBM appending mode is a map under any history", "statement": "On a HashDBM opened in the appending update mode, after any sequence of record operations Get of every key returns what a plain dictionary holds although old versions stay in the file.", "quantifier": "all keys, values, bucket counts and operation sequences", "why_tests_cant": "The newest version must shadow all older ones for every interleaving of sets and removes of colliding keys.", "anchors": ["tkrzw_dbm_hash.cc:HashDBMImpl::ProcessImpl"]}
{"id": "C05", "title": "HashDBM record format round trip", "statement": "A record written to the file with any key, value, child link and padding is read back with the same fields and the same total size, and reading never looks outside the record.", "quantifier": "all keys below 8MiB, values below 2GiB, offset widths 3..6, alignments 0..16, CRC modes, padding sizes", "why_tests_cant": "Header lengths depend on variable-length integers whose boundaries (127/128, 16383/16384, ...) tests only sample.", "anchors": ["tkrzw_dbm_hash_impl.cc:HashRecord::Write", "tkrzw_dbm_hash_impl.cc:HashRecord::ReadMetadataKey", "tkrzw_dbm_hash_impl.cc:HashRecord::SetData"]}
{"id": "C06", "title": "Free regions never overlap live records", "statement": "At every moment the regions HashDBM regards as reusable are disjoint from one another and from every reachable record.", "quantifier": "all histories of writes, removals and reuse", "why_tests_cant": "Overlap is a global invariant over the whole file; a test sees only its own history.", "anchors": ["tkrzw_dbm_hash_impl.cc:FreeBlockPool::InsertFreeBlock", "tkrzw_dbm_hash_impl.cc:FreeBlockPool::FetchFreeBlock", "tkrzw_dbm_hash.cc:HashDBMImpl::ProcessImpl"]}
{"id": "C07", "title": "HashDBM crash atomicity", "statement": "If the process dies between any two file writes of a Set or Remove on a HashDBM, then after the automatic restoration each key has either its value before the call or its value after it, and every other key is unaffected.", "quantifier": "all database states, all operations, all crash points between file writes", "why_tests_cant": "The number of crash points times states is unbounded.", "anchors": ["tkrzw_dbm_hash.cc:HashDBMImpl::ProcessImpl", "tkrzw_dbm_hash.cc:HashDBM::RestoreDatabase", "tkrzw_dbm_hash_impl.cc:HashRecord::ReplayOperations"]}
{"id": "C08", "title": "A backup copy of an open HashDBM is a faithful database", "statement": "The file made by CopyFileData (or seen by the callback of Synchronize) can be opened and updated as an independent database that initially has the same records, and updates to it never damage other records.", "quantifier": "all histories before the copy and all operations after it", "why_tests_cant": "Damage needs a free region saved at an earlier close to be reused before the copy is taken.", "anchors": ["tkrzw_dbm_hash.cc:HashDBMImpl::Synchronize", "tkrzw_dbm_hash.cc:HashDBMImpl::SaveFBP", "tkrzw_dbm_hash.cc:HashDBMImpl::LoadFBP", "tkrzw_dbm.cc:DBM::CopyFileData"]}
{"id": "C09", "title": "HashDBM Rebuild preserves the contents", "statement": "Rebuild with any tuning parameters leaves every key with the same value and Count unchanged.", "quantifier": "all contents and histories, both update modes, any new bucket count", "why_tests_cant": "The rebuild replays operation logs forward or backward; a wrong precedence shows only when several versions of a key exist.", "anchors": ["tkrzw_dbm_hash.cc:HashDBMImpl::RebuildImpl", "tkrzw_dbm_hash.cc:HashDBMImpl::ImportFromFileForward", "tkrzw_dbm_hash.cc:HashDBMImpl::ImportFromFileBackward"]}
{"id": "C10", "title": "HashDBM traversal visits each record exactly once", "statement": "ProcessEach and a First/Next iterator loop with no concurrent update present every live record exactly once and no removed one.", "quantifier": "all histories and bucket layouts", "why_tests_cant": "Stale versions and colliding chains multiply the cases without bound.", "anchors": ["tkrzw_dbm_hash.cc:HashDBMImpl::ProcessEach", "tkrzw_dbm_hash.cc:HashDBMIteratorImpl::Next", "tkrzw_dbm_hash.cc:HashDBMImpl::ReadNextBucketRecords"]}
{"id": "C11", "title": "CacheDBM never invents or alters records and respects its limit", "statement": "Get on a CacheDBM returns either NOT_FOUND or the last value set for the key; each partition holds at most its share of the capacity; and the record evicted is always the least recently used of its partition.", "quantifier": "all capacities, all histories including reads", "why_tests_cant": "Eviction order depends on the entire access history.", "anchors": ["tkrzw_dbm_cache.cc:CacheSlot::ProcessImpl", "tkrzw_dbm_cache.cc:CacheSlot::RemoveLRU"]}
{"id": "C12", "title": "CacheDBM keeps the recently used records", "statement": "A record accessed among the last cap distinct keys of its partition is still present.", "quantifier": "all access histories", "why_tests_cant": "It is a statement on all histories, with the working set defined over an unbounded past.", "anchors": ["tkrzw_dbm_cache.cc:CacheSlot::ProcessImpl"]}
{"id": "C13", "title": "BabyDBM is an ordered map under any history", "statement": "After any sequence of operations on a BabyDBM, lookups agree with an ordered dictionary under the chosen comparator, and a forward iteration presents the records in strictly ascending order, each once.", "quantifier": "all comparators that are total orders, all histories, any node splits and merges", "why_tests_cant": "Node splits and merges cascade at sizes (256 records per leaf, 256 branches) that make exhaustive testing impossible.", "anchors": ["tkrzw_dbm_baby.cc:BabyDBMImpl::ProcessImpl", "tkrzw_dbm_baby.cc:BabyDBMImpl::DivideNodes", "tkrzw_dbm_baby.cc:BabyDBMImpl::MergeNodes", "tkrzw_dbm_baby.cc:BabyDBMImpl::SearchTree"]}
{"id": "C14", "title": "StdTreeDBM and StdHashDBM are maps with stable iterators", "statement": "The on-memory std DBMs agree with a dictionary under all histories, and removing a record under an iterator moves the iterator to the following record.", "quantifier": "all histories and iterator positions", "why_tests_cant": "Iterator invalidation depends on the interleaving of removals with any number of iterators.", "anchors": ["tkrzw_dbm_std.cc:StdDBMImpl::Process", "tkrzw_dbm_std.cc:StdDBMIteratorImpl"]}
{"id": "C15", "title": "TreeDBM is an ordered map under any history", "statement": "Lookups, jumps and scans of a TreeDBM agree with an ordered dictionary under the chosen comparator for any history of updates, node divisions, merges and cache flushes.", "quantifier": "all comparators that are total orders, all histories, all page-size parameters", "why_tests_cant": "Node division and merging interact with the sizes of all records.", "anchors": ["tkrzw_dbm_tree.cc:TreeDBMImpl::ProcessImpl", "tkrzw_dbm_tree.cc:TreeDBMImpl::DivideNodes", "tkrzw_dbm_tree.cc:TreeDBMImpl::MergeNodes"]}
{"id": "C16", "title": "TreeDBM node pages round trip", "statement": "A leaf or inner node saved to the underlying hash database is loaded with the same records, links and neighbours.", "quantifier": "all record lists and links", "why_tests_cant": "Size prefixes are variable-length.", "anchors": ["tkrzw_dbm_tree.cc:TreeDBMImpl::SaveLeafNodeImpl", "tkrzw_dbm_tree.cc:TreeDBMImpl::LoadLeafNode", "tkrzw_dbm_tree.cc:TreeDBMImpl::SaveInnerNode", "tkrzw_dbm_tree_impl.cc"]}
{"id": "C17", "title": "SkipDBM search finds exactly the stored records", "statement": "On a finished SkipDBM, Get finds a key iff it was stored, the returned value is that of the stored record, Jump positions at the first record not less than the key, and GetByIndex(i) returns the i-th record.", "quantifier": "all sorted record lists, step units >= 2, level limits, offset widths", "why_tests_cant": "The skip links written while appending determine the search path; every size and step unit gives another shape.", "anchors": ["tkrzw_dbm_skip_impl.cc:SkipRecord::Search", "tkrzw_dbm_skip_impl.cc:SkipRecord::SearchByIndex", "tkrzw_dbm_skip_impl.cc:SkipRecord::UpdatePastRecords"]}
{"id": "C18", "title": "SkipDBM Synchronize merges all updates in key order", "statement": "After Synchronize the SkipDBM holds, in key order, for every key the reduction of the old values followed by the values given since in call order; a removed key with no later insertion is absent.", "quantifier": "all histories, all memory limits of the external sorter, all reducers", "why_tests_cant": "The external merge sort splits at arbitrary memory limits, so stability must hold for all splits.", "anchors": ["tkrzw_dbm_skip.cc:SkipDBMImpl::FinishStorage", "tkrzw_dbm_skip_impl.cc:RecordSorter", "tkrzw_dbm_skip.cc:SkipDBM::ReduceRemove"]}
{"id": "C19", "title": "CompareExchange is exact", "statement": "CompareExchange(key, expected, desired) changes the record iff the current state equals the expectation, then leaves exactly the desired state, and returns SUCCESS or INFEASIBLE_ERROR accordingly.", "quantifier": "all states, keys and the present/absent/any combinations", "why_tests_cant": "The matrix of states and arguments is infinite.", "anchors": ["tkrzw_dbm.h:DBM::RecordProcessorCompareExchange", "tkrzw_dbm.h:DBM::CompareExchange"]}
{"id": "C20", "title": "CompareExchangeMulti is all or nothing", "statement": "CompareExchangeMulti applies all the desired changes if every expectation holds and none otherwise.", "quantifier": "all states and lists of expectations and changes, including repeated keys", "why_tests_cant": "Lists are unbounded and may repeat keys.", "anchors": ["tkrzw_dbm.h:DBM::CompareExchangeMulti", "tkrzw_dbm_shard.cc:ShardDBM::CompareExchangeMulti"]}
{"id": "C21", "title": "Increment is exact modulo 2^64", "statement": "Increment adds to the stored big-endian integer, starts from the initial value if absent, and reports the new value.", "quantifier": "all stored values, increments and initial values", "why_tests_cant": "2^64 values squared.", "anchors": ["tkrzw_dbm.h:DBM::RecordProcessorIncrement", "tkrzw_dbm.h:DBM::Increment"]}
{"id": "C22", "title": "Rekey moves a record atomically", "statement": "Rekey(old,new) leaves the value of old under new and removes old (unless copying); with overwrite=false an existing destination makes it fail without any change.", "quantifier": "all states and key pairs including equal keys", "why_tests_cant": "Includes aliasing cases old = new.", "anchors": ["tkrzw_dbm.h:DBM::RecordRemoverRekey", "tkrzw_dbm.h:DBM::Rekey"]}
{"id": "C23", "title": "PushLast and PopFirst make a FIFO queue", "statement": "Values pushed with PushLast at non-decreasing times come out of PopFirst of an ordered DBM in push order, each once, and no push overwrites another.", "quantifier": "all sequences of pushes and pops, any clock readings", "why_tests_cant": "Clock collisions are schedule dependent.", "anchors": ["tkrzw_dbm.h:DBM::RecordProcessorPopFirst", "tkrzw_dbm.h:DBM::PushLast", "tkrzw_dbm.h:DBM::PopFirst"]}
{"id": "C24", "title": "Update log messages round trip", "statement": "Every SET/REMOVE/CLEAR operation serialized by the update loggers is parsed back to the same operation, server id and DBM index.", "quantifier": "all keys, values, server ids and indices", "why_tests_cant": "Variable-length header fields.", "anchors": ["tkrzw_dbm_ulog.cc:DBMUpdateLoggerMQ::WriteSet", "tkrzw_dbm_ulog.cc:DBMUpdateLoggerMQ::ParseUpdateLog"]}
{"id": "C25", "title": "Replaying an update log reproduces the database", "statement": "Applying the update log of any history to an empty DBM gives the same records as the logged DBM.", "quantifier": "all histories", "why_tests_cant": "Depends on the log being written for every effective update, for all histories.", "anchors": ["tkrzw_dbm_ulog.cc:DBMUpdateLoggerMQ::ApplyUpdateLog", "tkrzw_dbm_tiny.cc:TinyDBMImpl::ProcessImpl"]}
{"id": "C26", "title": "MessageQueue readers see every message once, in order", "statement": "A reader started with minimum timestamp t receives exactly the written messages with timestamp >= t, in write order, once each, across any number of file rotations.", "quantifier": "all message sequences, timestamps and file size limits", "why_tests_cant": "Rotation boundaries depend on accumulated sizes.", "anchors": ["tkrzw_message_queue.cc:MessageQueueImpl::Write", "tkrzw_message_queue.cc:MessageQueueReaderImpl::Read", "tkrzw_message_queue.cc:MessageQueue::ReadNextMessage"]}
{"id": "C27", "title": "MessageQueue message format round trip and error detection", "statement": "A message written is read back with its timestamp and content; a changed byte in it is reported as broken data.", "quantifier": "all messages below 4GiB and timestamps below 2^48-1, all positions and byte changes", "why_tests_cant": "256 values at any position of any message.", "anchors": ["tkrzw_message_queue.cc:MessageQueueImpl::Write", "tkrzw_message_queue.cc:MessageQueue::ReadNextMessage"]}
{"id": "C28", "title": "Exported flat record files import to the same database", "statement": "The file saved by the on-memory DBMs (and ExportDBMToFlatRecords) loads back to the same set of records.", "quantifier": "all record sets", "why_tests_cant": "Includes empty keys and values in any position.", "anchors": ["tkrzw_file_util.cc:FlatRecord::Write", "tkrzw_file_util.cc:FlatRecordReader::Read", "tkrzw_dbm_tiny.cc:TinyDBMImpl::ImportRecords", "tkrzw_dbm_common_impl.cc:ImportDBMFromFlatRecords"]}
{"id": "C29", "title": "ShardDBM behaves as one map", "statement": "For any number of shards, ShardDBM operations agree with a single dictionary and Count is the total.", "quantifier": "all shard counts, keys, histories", "why_tests_cant": "Keys distribute by hash.", "anchors": ["tkrzw_dbm_shard.cc:ShardDBM::Process", "tkrzw_dbm_shard.cc:ShardDBM::Count"]}
{"id": "C30", "title": "ShardDBM iteration merges the shards in order", "statement": "The iterator of a ShardDBM over ordered DBMs presents all the records of all shards in ascending key order, also after Jump, and Remove through the iterator removes the presented record and moves to the next.", "quantifier": "all shard counts, contents and iterator moves", "why_tests_cant": "Interleavings of shards are unbounded.", "anchors": ["tkrzw_dbm_shard.cc:ShardDBM::Iterator::First", "tkrzw_dbm_shard.cc:ShardDBM::Iterator::Next", "tkrzw_dbm_shard.cc:ShardDBM::Iterator::Remove"]}
{"id": "C31", "title": "Reader/writer spin locks are mutually exclusive", "statement": "While a thread holds a SpinSharedMutex (or SpinWPSharedMutex) exclusively no other thread holds it in any mode; upgrade and downgrade keep this.", "quantifier": "all numbers of threads below 2^31 and all interleavings of atomic steps", "why_tests_cant": "Interleavings are unbounded.", "anchors": ["tkrzw_thread_util.h:SpinSharedMutex", "tkrzw_thread_util.h:SpinWPSharedMutex"]}
{"id": "C32", "title": "Bucket locking is deadlock free and rehash safe", "statement": "HashMutex never deadlocks among threads locking one, several or all buckets, and a lock obtained for a key is for the bucket the key has in the current bucket count until released.", "quantifier": "all numbers of threads, slots, key sets, interleavings", "why_tests_cant": "Deadlocks are schedule dependent.", "anchors": ["tkrzw_thread_util.h:HashMutex::LockMulti", "tkrzw_thread_util.h:HashMutex::LockOne", "tkrzw_thread_util.h:HashMutex::Rehash"]}
{"id": "C33", "title": "Integer serialization round trips and keeps order", "statement": "StrToIntBigEndian(IntToStrBigEndian(x,w)) = x for values fitting the width, and the byte strings compare as the numbers.", "quantifier": "all widths 1..8 and all values", "why_tests_cant": "2^64 values.", "anchors": ["tkrzw_sys_config.h:WriteFixNum", "tkrzw_sys_config.h:ReadFixNum", "tkrzw_str_util.cc:IntToStrBigEndian", "tkrzw_str_util.cc:StrToIntBigEndian"]}
{"id": "C34", "title": "Variable-length integers round trip and are self-delimiting", "statement": "ReadVarNum(WriteVarNum(x) ++ rest) returns x and the written length, which is SizeVarNum(x); truncated input is reported and never read past its end.", "quantifier": "all 64-bit values and all following bytes", "why_tests_cant": "2^64 values.", "anchors": ["tkrzw_sys_config.h:WriteVarNum", "tkrzw_sys_config.h:ReadVarNum", "tkrzw_sys_config.h:SizeVarNum"]}
{"id": "C35", "title": "String container serializers round trip", "statement": "Deserializing what SerializeStrPair, SerializeStrVector and SerializeStrMap produce gives the original data.", "quantifier": "all byte strings and lists", "why_tests_cant": "Unbounded nesting of sizes.", "anchors": ["tkrzw_str_util.cc:SerializeStrPair", "tkrzw_str_util.cc:SerializeStrVector", "tkrzw_str_util.cc:SerializeStrMap"]}
{"id": "C36", "title": "Text encodings round trip", "statement": "Base64, URL and C-style escaping decode to the original bytes for every input.", "quantifier": "all byte strings", "why_tests_cant": "All byte values in all contexts (e.g. an octal escape followed by a digit).", "anchors": ["tkrzw_str_util.cc:StrEncodeBase64", "tkrzw_str_util.cc:StrDecodeBase64", "tkrzw_str_util.cc:StrEncodeURL", "tkrzw_str_util.cc:StrDecodeURL", "tkrzw_str_util.cc:StrEscapeC", "tkrzw_str_util.cc:StrUnescapeC"]}
{"id": "C37", "title": "UTF-8 conversion round trips", "statement": "ConvertUCS4ToUTF8 followed by ConvertUTF8ToUCS4 returns the code points for every sequence of valid code points.", "quantifier": "all code point sequences", "why_tests_cant": "1.1 million code points in sequences.", "anchors": ["tkrzw_str_util.cc:ConvertUTF8ToUCS4", "tkrzw_str_util.cc:ConvertUCS4ToUTF8"]}
{"id": "C38", "title": "Substring search finds the first occurrence, or all of them", "statement": "StrSearchBM, StrSearchRK, StrSearchKMP and StrSearchZ return the least position where the pattern occurs, or -1; StrSearchWhole and its KMP, BM and RK variants return exactly the first max_results (or all) positions in ascending order, and the StrSearchBatch functions do so for each pattern.", "quantifier": "all texts and patterns", "why_tests_cant": "Skipping tables depend on the pattern and text.", "anchors": ["tkrzw_str_util.cc:StrSearchBM", "tkrzw_str_util.cc:StrSearchRK", "tkrzw_str_util.cc:StrSearchKMP", "tkrzw_str_util.cc:StrSearchZ"]}
{"id": "C39", "title": "Split and join are inverse", "statement": "StrSplit by a delimiter followed by StrJoin gives the original string.", "quantifier": "all strings and delimiters", "why_tests_cant": "Empty fields in every position.", "anchors": ["tkrzw_str_util.cc:StrSplit", "tkrzw_str_util.h:StrJoin"]}
{"id": "C40", "title": "Edit distance is Levenshtein's", "statement": "EditDistanceLev returns the minimum number of insertions, deletions and substitutions turning one sequence into the other.", "quantifier": "all pairs of sequences", "why_tests_cant": "Minimality quantifies over all edit scripts.", "anchors": ["tkrzw_str_util.h:EditDistanceLev"]}
{"id": "C41", "title": "Key comparators are total orders", "statement": "Each comparator offered for ordered databases is antisymmetric in sign and transitive, so that an ordered database is well defined.", "quantifier": "all triples of byte strings", "why_tests_cant": "Transitivity quantifies over triples.", "anchors": ["tkrzw_key_comparators.h:LexicalKeyComparator", "tkrzw_key_comparators.h:LexicalCaseKeyComparator", "tkrzw_key_comparators.h:DecimalKeyComparator", "tkrzw_key_comparators.h:HexadecimalKeyComparator", "tkrzw_key_comparators.h:RealNumberKeyComparator"]}
{"id": "C42", "title": "LRU containers evict the least recently used entry", "statement": "LinkedHashMap keeps the insertion/move order and unique keys; LRUCache and DoubleLRUCache return what was added and evict in least-recently-used order.", "quantifier": "all histories", "why_tests_cant": "Order depends on the complete access history.", "anchors": ["tkrzw_containers.h:LinkedHashMap", "tkrzw_containers.h:LRUCache", "tkrzw_containers.h:DoubleLRUCache"]}
{"id": "C43", "title": "HeapByCost keeps the smallest costs", "statement": "After any number of additions a HeapByCost of capacity n holds the n items of smallest cost, sorted after Finish.", "quantifier": "all sequences of additions and capacities", "why_tests_cant": "Unbounded sequences.", "anchors": ["tkrzw_containers.h:HeapByCostAdd", "tkrzw_containers.h:HeapByCostFinish"]}
{"id": "C44", "title": "The page cache is transparent", "statement": "Reads through the page cache of a direct-I/O file return the bytes last written through it, for any write sizes, evictions and flushes; after a flush the file holds the same bytes.", "quantifier": "all sequences of reads, writes and flushes", "why_tests_cant": "Page boundaries and eviction depend on the history.", "anchors": ["tkrzw_file_util.cc:PageCache::Read", "tkrzw_file_util.cc:PageCache::Write", "tkrzw_file_util.cc:PageCache::Flush"]}
{"id": "C45", "title": "Path normalisation is idempotent and join-compatible", "statement": "NormalizePath(NormalizePath(p)) = NormalizePath(p); the result has no empty, dot or resolvable double-dot component; directory and base names rebuild the path.", "quantifier": "all strings", "why_tests_cant": "All component sequences.", "anchors": ["tkrzw_file_util.cc:NormalizePath", "tkrzw_file_util.cc:JoinPath", "tkrzw_file_util.cc:PathToBaseName", "tkrzw_file_util.cc:PathToDirectoryName"]}
{"id": "C46", "title": "Atomic file writing survives a crash", "statement": "At every crash point of WriteFileAtomic the target path holds either the old or the complete new content.", "quantifier": "all contents and crash points", "why_tests_cant": "Every crash point.", "anchors": ["tkrzw_file_util.cc:WriteFileAtomic"]}
{"id": "C47", "title": "Checksums are compositional and detect corruption", "statement": "The continuous CRC and Adler functions over pieces equal the one-shot result, table-driven CRC equals the polynomial definition, and any single changed byte changes the CRC / record checksum.", "quantifier": "all data, all splits, all positions", "why_tests_cant": "Unbounded data.", "anchors": ["tkrzw_hash_util.cc:HashCRC32Continuous", "tkrzw_hash_util.cc:HashAdler32", "tkrzw_hash_util.h:HashChecksum8"]}
{"id": "C48", "title": "Encryption round trips", "statement": "Decompress(Compress(data)) = data for the RC4 and AES compressors with any key and nonce.", "quantifier": "all data, keys, nonces", "why_tests_cant": "Unbounded data.", "anchors": ["tkrzw_compress.cc:RC4Compressor", "tkrzw_compress.cc:AESCompressor", "tkrzw_sys_compress_aes.h"]}
{"id": "C49", "title": "Day of week is right", "statement": "GetDayOfWeek(y,m,d) is the weekday of the Gregorian date.", "quantifier": "all dates from year 1 on", "why_tests_cant": "Infinitely many dates.", "anchors": ["tkrzw_time_util.cc:GetDayOfWeek"]}
{"id": "C50", "title": "Hash bucket counts are prime", "statement": "GetHashBucketSize(n) for n > 100 is the least prime not below n, and IsPrimeNumber decides primality.", "quantifier": "all n", "why_tests_cant": "Infinitely many n.", "anchors": ["tkrzw_dbm_common_impl.cc:GetHashBucketSize", "tkrzw_dbm_common_impl.cc:IsPrimeNumber"]}
{"id": "C51", "title": "Task queues run every task once", "statement": "Every task added to a TaskQueue while it runs is executed exactly once, in order with one worker, and Stop with time enough waits for all.", "quantifier": "all schedules, numbers of workers and tasks", "why_tests_cant": "Schedules are unbounded.", "anchors": ["tkrzw_thread_util.h:TaskQueue", "tkrzw_dbm_async.cc:AsyncDBM"]}
{"id": "C52", "title": "Index holds exactly the added pairs", "statement": "FileIndex/MemIndex/StdIndex: Check and GetValues reflect exactly the set of (key,value) pairs added and not removed, values in order.", "quantifier": "all histories", "why_tests_cant": "Composite keys may collide if serialization is ambiguous.", "anchors": ["tkrzw_index.h:FileIndex", "tkrzw_index.h:MemIndex", "tkrzw_index.h:StdIndex"]}
{"id": "C53", "title": "TSV export and import round trip", "statement": "ExportDBMToTSV with escaping followed by ImportDBMFromTSV with escaping restores all records.", "quantifier": "all record sets", "why_tests_cant": "All byte values.", "anchors": ["tkrzw_dbm_common_impl.cc:ExportDBMToTSV", "tkrzw_dbm_common_impl.cc:ImportDBMFromTSV"]}
{"id": "C54", "title": "Read-only processing never changes the database", "statement": "Process, ProcessMulti, ProcessEach and ProcessFirst called with writable=false leave all records as they are whatever the processor returns.", "quantifier": "all processors and states of every DBM", "why_tests_cant": "Processors are arbitrary functions.", "anchors": ["tkrzw_dbm_tiny.cc:TinyDBMImpl::Process", "tkrzw_dbm_hash.cc:HashDBMImpl::Process", "tkrzw_dbm_baby.cc:BabyDBMImpl::ProcessFirst"]}
{"id": "C55", "title": "Status merging keeps the first error", "statement": "Combining statuses with |= yields the first non-success status in order, else SUCCESS.", "quantifier": "all status sequences", "why_tests_cant": "Unbounded sequences.", "anchors": ["tkrzw_lib_common.h:Status::Set", "tkrzw_lib_common.h:Status::operator |="]}
{"id": "C56", "title": "Search modes return the records that match", "statement": "SearchDBM with the contain/begin/end modes returns keys of the database that match, without duplicates, up to the capacity, and all of them if capacity is 0.", "quantifier": "all databases, patterns, capacities", "why_tests_cant": "Unbounded contents.", "anchors": ["tkrzw_dbm_common_impl.h:SearchDBM", "tkrzw_dbm_common_impl.h:SearchDBMForwardMatch", "tkrzw_dbm_common_impl.h:SearchDBMModal"]}
{"id": "C57", "title": "Deserializers are safe on arbitrary data", "statement": "DeserializeStrPair, DeserializeStrVector and DeserializeStrMap, and the reading of a node page of a TreeDBM, given any byte string, return without hanging, throwing or looking outside the data.", "quantifier": "all byte strings", "why_tests_cant": "Malformed inputs form an unbounded set.", "anchors": ["tkrzw_str_util.cc:DeserializeStrPair", "tkrzw_str_util.cc:DeserializeStrVector", "tkrzw_str_util.cc:DeserializeStrMap"]}
{"id": "C58", "title": "Single- and multi-record methods behave as on a dictionary", "statement": "Get, GetSimple, GetMulti, Set, SetMulti, Remove, RemoveMulti, Append and AppendMulti return the statuses and values, and leave the contents, that the same calls give on a dictionary, for every database class whose Process behaves as on a dictionary.", "quantifier": "all databases, keys, values, flags and lists of records", "why_tests_cant": "Unbounded states and lists.", "anchors": ["tkrzw_dbm.h:DBM::Get", "tkrzw_dbm.h:DBM::SetMulti", "tkrzw_dbm.h:DBM::RemoveMulti", "tkrzw_dbm.h:DBM::AppendMulti"]}
{"id": "C59", "title": "Reading a file line by line yields its content", "statement": "FileReader::ReadLine, called until NOT_FOUND_ERROR, returns the lines of the file with their newlines: together they are exactly the file's content, newlines occur only at line ends, and no line exceeds the given limit.", "quantifier": "all file contents and size limits", "why_tests_cant": "Line lengths and buffer boundaries are unbounded.", "anchors": ["tkrzw_file_util.cc:FileReader::ReadLine"]}
{"id": "C60", "title": "Positional file behaves as a plain byte file", "statement": "A positional-access file opened for writing behaves, for any block size, with or without the page cache and a head buffer, as a plain array of bytes: every read inside the file succeeds and gives the bytes last written there, a write extends the file as needed, an append lands at the former end and reports that offset, truncation keeps the bytes below the new size, and closing (or closing and opening again) leaves a file of exactly the logical size with those bytes. A file opened for reading only gives the bytes of the file.", "quantifier": "every block size, cache setting, head buffer size, initial file and sequence of Read / Write / Append / Truncate / TruncateFakely / Synchronize / SetHeadBuffer / Close-and-Open", "why_tests_cant": "The interaction of unaligned offsets, block read-modify-write, cached pages, over-allocated file space and the head buffer has too many boundary combinations to enumerate; only an invariant over all histories covers them.", "anchors": ["tkrzw_file_pos.cc:PositionalParallelFileImpl::Open", "tkrzw_file_pos.cc:PositionalParallelFileImpl::ReadImpl", "tkrzw_file_pos.cc:PositionalParallelFileImpl::WriteImpl", "tkrzw_file_pos.cc:PositionalParallelFileImpl::AllocateSpace", "tkrzw_file_pos.cc:PositionalParallelFileImpl::Truncate", "tkrzw_file_pos.cc:PositionalParallelFileImpl::SetHeadBuffer"]}
{"id": "C61", "title": "The ciphers are the standard ones and use the whole key", "statement": "AESCompressor encrypts each block, chained with the block before, by the AES cipher of the standard with the key that was given (padded with zeros up to 16 or 32 bytes, or folded when longer), decryption inverts it, and RC4Compressor adds the RC4 stream of the key followed by the nonce: so data can be decrypted by any other implementation, and no byte of the key is ignored.", "quantifier": "all keys, all nonces and all data of any size", "why_tests_cant": "The key and block spaces have 2^128 elements and more; tests check a few vectors and would not see a wrong table entry or a part of the key that is never read.", "anchors": ["tkrzw_sys_compress_aes.h:AESKeySetupEnc", "tkrzw_sys_compress_aes.h:AESKeySetupDec", "tkrzw_sys_compress_aes.h:AESEncrypt", "tkrzw_sys_compress_aes.h:AESDecrypt", "tkrzw_compress.cc:AESCompressor", "tkrzw_compress.cc:RC4Compressor"]}
{"id": "C62", "title": "GetEffectiveDataSize of TreeDBM is the total size of its records", "statement": "After any history of calls, of nodes leaving the cache, of Synchronize and of Close with Open, Count gives the number of records of a TreeDBM and GetEffectiveDataSize the sum of the sizes of their keys and values.", "quantifier": "all histories, page sizes, numbers of branches and comparators", "why_tests_cant": "The numbers are maintained by differences in every kind of update; a drift shows only after particular histories.", "anchors": ["tkrzw_dbm_tree.cc:TreeDBMImpl::GetEffectiveDataSize", "tkrzw_dbm_tree.cc:TreeDBMImpl::Count", "tkrzw_dbm_tree.cc:TreeDBMImpl::SaveMetadata", "tkrzw_dbm_tree.cc:TreeDBMImpl::ProcessImpl"]}
{"id": "C63", "title": "TreeDBM is the same ordered map whatever its cache does, and after Close and Open", "statement": "The results of calls on a TreeDBM do not depend on which nodes are in its cache, on when nodes are saved or dropped, or on Synchronize; after Close and Open, and in a database opened from what Synchronize has written, all records and their order are as before, and every call, Last and JumpLower included, behaves as before except that iterators have lost their positions.", "quantifier": "all histories of calls, evictions, saves, Synchronize and Close with Open; all tuning parameters and comparators", "why_tests_cant": "Which nodes are cached depends on the whole history and on the size of the cache; there are too many interleavings of evictions with splits and merges to test.", "anchors": ["tkrzw_dbm_tree.cc:TreeDBMImpl::LoadLeafNode", "tkrzw_dbm_tree.cc:TreeDBMImpl::FlushLeafCacheAll", "tkrzw_dbm_tree.cc:TreeDBMImpl::AdjustCaches", "tkrzw_dbm_tree.cc:TreeDBMImpl::SaveMetadata", "tkrzw_dbm_tree.cc:TreeDBMImpl::LoadMetadata", "tkrzw_dbm_tree.cc:TreeDBM::ParseMetadata", "tkrzw_dbm_tree.cc:TreeDBMImpl::Synchronize", "tkrzw_dbm_tree.cc:TreeDBMImpl::Close"]}
{"id": "C64", "title": "SkipDBM survives the death of its process at any moment", "statement": "If a process that has a SkipDBM open for writing dies at any moment of any call, and even if further processes die while they open the database again, the next Open succeeds and the database holds exactly the records from before that call or exactly those from after it, never a mixture; a synchronization that has returned is never lost.", "quantifier": "all histories of calls and deaths, all moments within each call (between writes and within the writing of the metadata), all tuning parameters", "why_tests_cant": "The moments of death, the repeated deaths during restoration and the histories before them cannot be enumerated; a test kills a process at a few chosen points only.", "anchors": ["tkrzw_dbm_skip.cc:SkipDBMImpl::Open", "tkrzw_dbm_skip.cc:SkipDBMImpl::Close", "tkrzw_dbm_skip.cc:SkipDBMImpl::Clear", "tkrzw_dbm_skip.cc:SkipDBMImpl::Rebuild", "tkrzw_dbm_skip.cc:SkipDBMImpl::Synchronize", "tkrzw_dbm_skip.cc:SkipDBMImpl::FinishStorage", "tkrzw_dbm_skip.cc:SkipDBMImpl::SaveMetadata", "tkrzw_dbm_skip.cc:SkipDBM::RestoreDatabase", "tkrzw_file_mmap.cc:Truncate"]}
{"id": "C65", "title": "After automatic restoration a HashDBM works as if nothing had happened", "statement": "If a process that has a HashDBM open for writing dies between two file writes of a call, then after the automatic restoration by the next Open, Count and GetEffectiveDataSize fit the records which are there, and every further history of calls (with Clear, Rebuild, Synchronize and reopening) has the outcomes it would have on a fresh database with these records.", "quantifier": "all histories before and after the crash, all crash points, both update modes, with and without the shortcuts of the restoration", "why_tests_cant": "A wrong counter or a stale free list left by a restoration shows only in later calls; neither the crash points nor the later histories can be enumerated.", "anchors": ["tkrzw_dbm_hash.cc:HashDBMImpl::Open", "tkrzw_dbm_hash.cc:HashDBMImpl::ValidateHashBucketsImpl", "tkrzw_dbm_hash.cc:HashDBMImpl::ValidateRecordsImpl", "tkrzw_dbm_hash.cc:HashDBMImpl::CheckHashChain", "tkrzw_dbm_hash.cc:HashDBM::RestoreDatabase", "tkrzw_dbm_hash.cc:HashDBMImpl::SetUpdateModeAppending", "tkrzw_dbm_hash.cc:HashDBMImpl::Synchronize"]}
{"id": "C66", "title": "RESTORE_SYNC goes back to the last synchronized state", "statement": "If a process that has a HashDBM open for writing dies between two file writes of a call, then opening the file with the restore mode RESTORE_SYNC gives the records which the database had at the last Synchronize, with the right Count and effective data size.", "quantifier": "all histories before and after the synchronization, all crash points", "why_tests_cant": "Crash points and histories cannot be enumerated.", "anchors": ["tkrzw_dbm_hash.cc:HashDBMImpl::Open", "tkrzw_dbm_hash.cc:HashDBM::RestoreDatabase", "tkrzw_dbm_hash.cc:HashDBMImpl::Synchronize", "tkrzw_dbm_hash.h:RESTORE_SYNC"]}
{"id": "C67", "title": "A traversal during a Rebuild presents each record exactly once", "statement": "While one thread runs Rebuild of a HashDBM and other threads update the database, a read-only ProcessEach of a further thread presents every record that is live at that moment exactly once, with its current value, and no removed one.", "quantifier": "all histories, all schedules of the threads", "why_tests_cant": "The race needs a mode switch of another thread within a few instructions; a stress test meets it by luck only.", "anchors": ["tkrzw_dbm_hash.cc:HashDBMImpl::ProcessEach", "tkrzw_dbm_hash.cc:HashDBMImpl::RebuildImpl", "tkrzw_dbm_hash.cc:HashDBMImpl::ProcessImpl"]}
{"id": "C68", "title": "String editing helpers", "statement": "StrReplace replaces exactly the leftmost non-overlapping occurrences of a substring and nothing else; StrReplaceCharacters maps each character as its first match in the table says (deleting it when the table of replacements is shorter); StrStripSpace and StrStripLine remove exactly the spaces at both ends or the line breaks at the end; StrSqueezeAndStripSpace gives the words joined by one space; StrTrimForTSV keeps the length and leaves no separator in the text.", "quantifier": "all strings and tables", "why_tests_cant": "The strings are unbounded; the edges (overlaps, matches at the end, empty and blank strings) multiply.", "anchors": ["tkrzw_str_util.cc:StrReplace", "tkrzw_str_util.cc:StrReplaceCharacters", "tkrzw_str_util.cc:StrStripSpace", "tkrzw_str_util.cc:StrStripLine", "tkrzw_str_util.cc:StrSqueezeAndStripSpace", "tkrzw_str_util.cc:StrTrimForTSV"]}
{"id": "C69", "title": "Calls of an AsyncDBM take effect once and in an order that respects time", "statement": "Every call made on an AsyncDBM is executed at most once, and the outcomes in the futures are those of the calls executed one after another in some order in which a call whose future was ready before another call was made comes first; with one worker thread it is the order in which the calls were made. The common postprocessor is called once for each with its status. When the destructor has returned, every future has its value.", "quantifier": "all calls, numbers of worker threads and schedules", "why_tests_cant": "Schedules of callers and workers cannot be enumerated.", "anchors": ["tkrzw_dbm_async.cc:AsyncDBM::Get", "tkrzw_dbm_async.cc:AsyncDBM::Set", "tkrzw_dbm_async.cc:AsyncDBM::SetCommonPostprocessor", "tkrzw_thread_util.h:TaskQueue::Add"]}
{"id": "C70", "title": "WaitCounter wakes the threads that wait", "statement": "WaitCounter::Wait returns true exactly when the counter is zero or less at that moment, and false only when its time is up and the counter is positive; when the counter has become zero or less by calls of Add and Done, every thread in Wait returns without its time limit.", "quantifier": "all schedules of threads that call Add, Done and Wait", "why_tests_cant": "A lost wakeup needs a notification within a few instructions of another thread.", "anchors": ["tkrzw_thread_util.h:WaitCounter::Done", "tkrzw_thread_util.h:WaitCounter::Wait", "tkrzw_thread_util.h:WaitCounter::Add"]}
{"id": "C71", "title": "Signals of SignalBroker and KeySignalBroker reach the threads that wait", "statement": "Wait returns true only if a signal with its key was sent during the call, and false only if its time was up without one. A Send that returns true to all wakes every thread that waits for the key, to one wakes one of them; a Send returns false only if no thread waits. A signal sent after the construction of the Waiter is not missed by a following Wait. The locks do not block each other forever.", "quantifier": "all schedules of threads that wait and send, with and without deadlines", "why_tests_cant": "The races need a thread to begin to wait between two steps of another one; tests hide them by short timeouts.", "anchors": ["tkrzw_thread_util.h:SignalBroker::Send", "tkrzw_thread_util.h:SignalBroker::Waiter::Wait", "tkrzw_thread_util.h:KeySignalBroker<KEYTYPE>::Send", "tkrzw_thread_util.h:KeySignalBroker<KEYTYPE>::Waiter::Wait"]}
{"id": "C72", "title": "Concurrent calls of TinyDBM are linearizable", "statement": "When any threads call Process and ProcessMulti of one TinyDBM at once, there is one order of the calls that agrees with real time such that every call gave its processors the values that it would have given them if the calls had been done one after the other in this order. No freed memory is accessed, none is lost, and when no call is under way Count is the number of records and the update log reproduces them. Calls never wait for one another in a circle. The same holds of a read-only ProcessEach next to them.", "quantifier": "all numbers of threads, calls, keys, hash functions, numbers of buckets and slots, and all schedules of the single accesses to memory", "why_tests_cant": "Schedules at the level of single pointer accesses cannot be enumerated, and a use after free shows up only under a rare one.", "anchors": ["tkrzw_dbm_tiny.cc:TinyDBMImpl::Process", "tkrzw_dbm_tiny.cc:TinyDBMImpl::ProcessMulti", "tkrzw_dbm_tiny.cc:TinyDBMImpl::ProcessImpl", "tkrzw_dbm_tiny.cc:TinyDBMImpl::ProcessEach", "tkrzw_thread_util.h:ScopedHashLock", "tkrzw_thread_util.h:ScopedHashLockMulti"]}
{"id": "C73", "title": "Concurrent calls of HashDBM are linearizable", "statement": "When any threads call Process and ProcessMulti of one HashDBM at once, in the in-place or the appending mode, the file is never misread and no two updates damage each other's records, blocks or links; there is one order of the calls that agrees with real time such that every call gave its processors the values that it would have given them if the calls had been done one after the other in this order. When no call is under way, Count, the effective data size and the update log are those of the records, and everything later, including Rebuild and closing and opening the file again, sees exactly these records. Calls never wait for one another in a circle.", "quantifier": "all numbers of threads, calls, keys, hash functions, file parameters, numbers of slots, histories before and after, and all schedules of the single accesses to the file, the free block pool, the counters and the update log", "why_tests_cant": "Schedules at the level of single file accesses cannot be enumerated.", "anchors": ["tkrzw_dbm_hash.cc:HashDBMImpl::Process", "tkrzw_dbm_hash.cc:HashDBMImpl::ProcessMulti", "tkrzw_dbm_hash.cc:HashDBMImpl::ProcessImpl", "tkrzw_dbm_hash_impl.cc:FreeBlockPool::FetchFreeBlock", "tkrzw_thread_util.h:ScopedHashLock", "tkrzw_thread_util.h:ScopedHashLockMulti"]}
{"id": "C74", "title": "The memory-mapped parallel file is a file, also for concurrent calls", "statement": "When any threads call Read, Write, Append and Expand of one MemoryMapParallelFile at once, no memory outside the mapping is touched, the regions given by Append and Expand never overlap, one order of the calls that agrees with real time explains the sizes, the offsets and which reads are refused, and every byte that is read or left is one that was stored there and not overwritten by a later call (or the one from before). No call blocks another for good. With Truncate, TruncateFakely, Synchronize, Close and Open in between, while no call is under way, the file keeps its bytes; Truncate discards the data after the new end and fills with null codes when it extends the file.", "quantifier": "all files, page sizes, growth factors, programs of calls and operations, and all schedules of the single steps, including spurious failures of compare-and-exchange", "why_tests_cant": "Remapping while other threads copy, and races for the end of the file, need schedules that tests cannot enumerate.", "anchors": ["tkrzw_file_mmap.cc:MemoryMapParallelFile::Read", "tkrzw_file_mmap.cc:MemoryMapParallelFile::Write", "tkrzw_file_mmap.cc:MemoryMapParallelFile::Append", "tkrzw_file_mmap.cc:MemoryMapParallelFile::Expand", "tkrzw_file_mmap.cc:MemoryMapParallelFile::Zone::Zone", "tkrzw_file_mmap.cc:MemoryMapParallelFileImpl::AllocateSpace", "tkrzw_file_mmap.cc:MemoryMapParallelFileImpl::Truncate", "tkrzw_file_mmap.cc:MemoryMapParallelFileImpl::Synchronize"]}
{"id": "C75", "title": "Restoring a damaged HashDBM file keeps the records that are not damaged", "statement": "When a record in a HashDBM file has been overwritten by bytes that cannot be read as a record, RestoreDatabase gives a database with exactly the records that the file without the damaged one describes: in the in-place mode all the other records, in the appending mode what all the other operations give.", "quantifier": "all histories of updates that led to the file, all file parameters in both update modes, all records that may be damaged and all bytes that may be in their place", "why_tests_cant": "A damaged record can be anywhere, of any size and be followed by any records; the search for the next good offset is a heuristic that tests meet only on a few files.", "anchors": ["tkrzw_dbm_hash.cc:HashDBM::RestoreDatabase", "tkrzw_dbm_hash_impl.cc:HashRecord::FindNextOffset", "tkrzw_dbm_hash_impl.cc:HashRecord::ReplayOperations", "tkrzw_dbm_hash_impl.cc:HashRecord::ExtractOffsets", "tkrzw_dbm_hash.cc:ImportFromFileForward", "tkrzw_dbm_hash.cc:ImportFromFileBackward"]}
{"id": "C76", "title": "Concurrent calls of BabyDBM and TreeDBM are linearizable", "statement": "When several threads call Process and ProcessMulti of a BabyDBM or a TreeDBM at once, there is an order of the calls that respects which call returned before which began, such that doing them one after the other in this order gives every one the same outcome. No update of a call that has returned is lost, whichever leaves are divided, merged or dropped from the cache meanwhile, and the update log gives the records at every moment. The calls never block one another for ever: all that are under way can come to their end.", "quantifier": "every history before, every number of threads, every set of calls, every schedule of their steps, every choice of pages dropped from the cache", "why_tests_cant": "A lost update needs one leaf to be dropped from the cache and saved while another thread is between reading its page and entering it in the cache: no test produces this schedule on demand.", "anchors": ["tkrzw_dbm_tree.cc:TreeDBMImpl::Process", "tkrzw_dbm_tree.cc:ProcessMulti", "tkrzw_dbm_tree.cc:LoadLeafNode", "tkrzw_dbm_tree.cc:AdjustCaches", "tkrzw_dbm_tree.cc:ReorganizeTree", "tkrzw_dbm_baby.cc:BabyDBMImpl::Process", "tkrzw_dbm_baby.cc:ProcessMulti", "tkrzw_dbm_baby.cc:ReorganizeTree"]}
{"id": "C77", "title": "A HashDBM file survives a crash during Rebuild", "statement": "When the process dies during Rebuild of a HashDBM while other threads update the database, opening the file gives a database with exactly the effects of the updates that had returned, and of the one under way all or nothing: the counts are right and all later calls have the results that they have on a dictionary of these contents. It makes no difference whether the process dies during Rebuild before or after the new file has taken the place of the old one.", "quantifier": "all histories before, both update modes, all tuning parameters, all calls of other threads and moments at which they are made, all crash points, all parameters of the opening", "why_tests_cant": "The crash point and the interleaving with other threads range over every write of every call; a test kills the process at a few of them.", "anchors": ["tkrzw_dbm_hash.cc:HashDBMImpl::RebuildImpl", "tkrzw_dbm_hash.cc:HashDBMImpl::OpenImpl", "tkrzw_dbm_hash.cc:HashDBM::RestoreDatabase", "tkrzw_dbm_hash.cc:ValidateRecordsImpl"]}
{"id": "C78", "title": "Concurrent calls of CacheDBM are linearizable and keep the rule of the cache", "statement": "When several threads call Process and ProcessMulti of a CacheDBM at once, there is an order of the calls that respects which call returned before which began, such that doing them one after the other in this order gives every one the same outcome and leaves the same records. The rule of the cache is that of this order: the records dropped are those used longest ago in it, and reading counts as a use. The update log has the updates of each key in this order. The calls never wait for one another in a circle.", "quantifier": "all capacities, all histories before, every number of threads, every set of calls, every schedule of their steps", "why_tests_cant": "Reading calls change the order of the records, so even readers race with one another; which record is dropped depends on every use before, in any schedule.", "anchors": ["tkrzw_dbm_cache.cc:CacheDBMImpl::Process", "tkrzw_dbm_cache.cc:CacheDBMImpl::ProcessMulti", "tkrzw_dbm_cache.cc:CacheSlot::ProcessImpl", "tkrzw_dbm_cache.cc:CacheSlot::Lock", "tkrzw_dbm_cache.cc:CacheSlot::Unlock", "tkrzw_thread_util.h:SpinMutex"]}
{"id": "C79", "title": "Calls of ShardDBM for several records are isolated from one another", "statement": "When several threads call ProcessMulti, and methods built on it such as Rekey, of a ShardDBM at once, there is an order of the calls that respects which call returned before which began, such that doing them one after the other in this order gives every one the same outcome and leaves the same records, whichever shards the keys belong to. They never wait for one another in a circle. While Rekey moves a record, other threads find it under the old key or under the new key, never under neither. A call of CompareExchangeMulti is isolated from all other kinds of calls, ProcessMulti included.", "quantifier": "all databases as shards, every number of shards, every number of threads, every set of calls, every schedule of their steps", "why_tests_cant": "The calls work on several databases with locks of one of them; only some schedules show what the other threads can see in between.", "anchors": ["tkrzw_dbm_shard.cc:ShardDBM::ProcessMulti", "tkrzw_dbm_shard.cc:ShardDBM::Process", "tkrzw_dbm_shard.cc:ShardDBM::CompareExchangeMulti", "tkrzw_dbm_shard.h:CompareExchangeMulti", "tkrzw_dbm.h:Rekey"]}
{"id": "C80", "title": "Calls on a file for atomic access are atomic", "statement": "When several threads call Read, Write, Append, Expand, Truncate, TruncateFakely, Synchronize and GetSize of a memory-mapped file for atomic access (MemoryMapAtomicFile) at once, there is an order of the calls that respects which call returned before which began, such that doing them one after the other in this order on a sequence of bytes gives every one the same result: no call sees half of what another writes, and no byte is lost when the mapping grows or moves meanwhile. Closing the file leaves these bytes on the disk, and so does the death of the process while no call is under way, possibly followed by others. No call touches memory outside the mapping, and the calls never wait for one another for ever. Bytes that have never been written can be anything.", "quantifier": "all files, all allocation strategies and page sizes, every number of calls, every schedule of their steps down to the single byte copied", "why_tests_cant": "The mapping is moved by other threads while a call copies; a torn read or a stale pointer shows in few schedules only.", "anchors": ["tkrzw_file_mmap.cc:MemoryMapAtomicFileImpl::Truncate", "tkrzw_file_mmap.cc:MemoryMapAtomicFileImpl::Synchronize", "tkrzw_file_mmap.cc:MemoryMapAtomicFileImpl::AllocateSpace", "tkrzw_file_mmap.cc:MemoryMapAtomicFile::Read", "tkrzw_file_mmap.cc:MemoryMapAtomicFile::Write", "tkrzw_file_mmap.cc:MemoryMapAtomicFile::Append", "tkrzw_file_mmap.cc:MemoryMapAtomicFile::Zone::Zone"]}
{"id": "C81", "title": "StdFile is a sequence of bytes", "statement": "Whatever calls are made on a file on C++ streams (StdFile) in whatever order, with any number of openings and closings, they return what they would for plain sequences of bytes stored under paths: Read gives the bytes last put there and fails beyond the end, Write, Append, Expand and Truncate change exactly the bytes they name and fill a gap with null codes, GetSize is the number of bytes, and Append and Expand tell the old size. A call that fails leaves the file and the object as they were. Rename moves the file with all its bytes. Other files are never touched, and after Close the file on the disk is the sequence of bytes.", "quantifier": "all files, all sequences of calls, all sizes and offsets, every answer of the file system to a renaming", "why_tests_cant": "Sizes kept in memory and on the disk drift apart only after particular sequences of calls; tests try a few of them.", "anchors": ["tkrzw_file_std.cc:StdFileImpl::OpenImpl", "tkrzw_file_std.cc:StdFileImpl::CloseImpl", "tkrzw_file_std.cc:StdFileImpl::Truncate", "tkrzw_file_std.cc:StdFileImpl::TruncateFakely", "tkrzw_file_std.cc:StdFileImpl::Rename", "tkrzw_file_std.cc:StdFileImpl::WriteImpl", "tkrzw_file_std.cc:StdFileImpl::ExpandImpl", "tkrzw_file.h:Truncate"]}
{"id": "C82", "title": "PolyDBM opens what it is asked to open", "statement": "OpenAdvanced of PolyDBM opens a database of the class named by the parameter dbm, else of the class that the extension of the last component of the path stands for, else, without a path, a TinyDBM, on a file of the class named by the parameter file, by default a MemoryMapAtomicFile, with the comparator named by key_comparator; names are compared without regard to case. If no class is named, or one that does not exist, or a comparator that does not exist, or a parameter that the class does not support, it fails and touches no file. After a success Close succeeds, and after Close or a failure every call fails with PRECONDITION_ERROR and the object can be used again.", "quantifier": "all paths, all sets of parameters with all values, every outcome of opening the database and the update log, every history of openings and closings", "why_tests_cant": "There are endlessly many paths and parameters; a wrong choice goes unnoticed when the database can still be opened.", "anchors": ["tkrzw_dbm_poly.cc:PolyDBM::OpenAdvanced", "tkrzw_dbm_poly.cc:GuessClassNameFromPath", "tkrzw_dbm_poly.cc:GetKeyComparatorByName", "tkrzw_dbm_poly.cc:SetTreeTuningParams", "tkrzw_dbm_poly.cc:MakeOwnedUpdateLogger", "tkrzw_dbm_poly.cc:PolyDBM::Close", "tkrzw_dbm_poly.cc:PolyDBM::ProcessMulti", "tkrzw_file_poly.cc:PolyFile::MakeFileInstance", "tkrzw_dbm_poly.h:OpenAdvanced"]}
{"id": "C83", "title": "The parameters of PolyDBM and PolyFile mean what they say", "statement": "The modes named by update_mode, record_crc_mode, record_comp_mode and restore_mode, and the access options of PolyFile, are the ones that are used, whatever the case of the names. SynchronizeAdvanced of a PolyDBM merges exactly the databases listed in merge and applies the reducer that is named; RebuildAdvanced takes the parameters that OpenAdvanced takes for the same class, and for databases on files skip_broken_records and sync_hard; RestoreDatabase restores a database of the class named, or of that of the extension. A call with a parameter, a reducer or a class of files that does not exist is refused, and a call refused because of its parameters changes nothing.", "quantifier": "all sets of parameters with all values, every class of databases and files, every outcome of merging and opening", "why_tests_cant": "There are endlessly many values and combinations; a value that is not understood goes unnoticed because the call succeeds.", "anchors": ["tkrzw_dbm_poly.cc:SetHashTuningParams", "tkrzw_dbm_poly.cc:GetReducerByName", "tkrzw_dbm_poly.cc:PolyDBM::SynchronizeAdvanced", "tkrzw_dbm_poly.cc:PolyDBM::RebuildAdvanced", "tkrzw_dbm_poly.cc:PolyDBM::RestoreDatabase", "tkrzw_file_poly.cc:PolyFile::OpenAdvanced", "tkrzw_file_poly.cc:PolyFile::MakeFileInstance"]}
{"id": "C84", "title": "Concurrent calls on the positional file for atomic access are atomic", "statement": "When several threads call Read, Write, Append, Expand, Truncate, TruncateFakely, Synchronize and GetSize of a positional file for atomic access (PositionalAtomicFile) at once, there is an order of the calls that respects which call returned before which began, such that doing them one after the other in this order on a sequence of bytes gives every one the same result, however few bytes each system call transfers: no call sees half of what another writes, and no byte is lost when the file on the disk grows or shrinks meanwhile. Closing the file leaves these bytes on the disk, and so does the death of the process while no call is under way, possibly followed by others. The calls never wait for one another for ever. Opening the file, Truncate and calls that need room leave on the disk the room that SetAllocationStrategy asks for, and Synchronize leaves none beyond the end. Bytes that have never been written can be anything.", "quantifier": "all contents of the file, all initial sizes and factors of the allocation, all numbers of threads, all calls with all arguments, and all interleavings of their steps, down to single bytes", "why_tests_cant": "tests run a few threads for a short time with the default allocation, where a system call nearly always transfers all its bytes", "anchors": ["tkrzw_file_pos.cc:PositionalAtomicFileImpl::Open", "tkrzw_file_pos.cc:PositionalAtomicFileImpl::Close", "tkrzw_file_pos.cc:PositionalAtomicFileImpl::Read", "tkrzw_file_pos.cc:PositionalAtomicFileImpl::Write", "tkrzw_file_pos.cc:PositionalAtomicFileImpl::Append", "tkrzw_file_pos.cc:PositionalAtomicFileImpl::Truncate", "tkrzw_file_pos.cc:PositionalAtomicFileImpl::TruncateFakely", "tkrzw_file_pos.cc:PositionalAtomicFileImpl::Synchronize", "tkrzw_file_pos.cc:PositionalAtomicFileImpl::AllocateSpace", "tkrzw_sys_util_posix.h:PReadSequence", "tkrzw_sys_util_posix.h:PWriteSequence"]}
