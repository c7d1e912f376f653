#!/usr/bin/env python3
"""Writes ../properties.jsonl.  Kept as a script so the list is easy to extend."""
import json, os
H = "containers/cliffMap/hashMap.hpp"
P = "include/persistence.hpp"
M = "include/marking.hpp"
U = "containers/ucfMap.hpp"
S = "containers/stlMap.hpp"
K = "include/KCAS/pmwcas.hpp"
X = "hashing/xxhash.hpp"
props = []
def add(title, statement, quantifier, why, *anchors):
    props.append(dict(id="C%02d" % (len(props)+1), title=title, statement=statement,
                      quantifier=quantifier, why_tests_cant=why, anchors=list(anchors)))

add("Single-threaded calls behave like a finite map",
 "When one thread uses the map, the results of get, containsKey, put, putIfAbsent, putIfMatch, replace and remove(key,value) are exactly those of an ordinary finite map with the same history: put returns the previous value or the 'absent' marker, putIfAbsent writes only if absent, replace/remove(key,value) act only on a matching value, and get returns the last value written and not removed. Table growth in the middle of a call changes nothing.",
 "for every hash function, every initial capacity, every finite sequence of calls on non-reserved keys and values, and every number of automatic resizes",
 "the number of call sequences and of collision/resizing patterns is unbounded; a test fixes one hash and one sequence",
 H+": putIfMatch, getImpl, get, put, putIfAbsent, replace, remove, containsKey", H+": resize, copySlot, helpCopyImpl, copyCheckAndPromote")
add("Migration never changes what is stored",
 "Helping a table migration (which get, put, remove and replace may do on the way) leaves the value of every key as it was; when it completes, the new table is the current one.",
 "for every reachable single-threaded map state, every key and every hash function",
 "needs all table contents, all probe clusters, including wrapped ones and nested resizes",
 H+": helpCopy, helpCopyImpl, copySlot, copySlotAndCheck, copyCheckAndPromote")
add("Single-threaded use is free of undefined behaviour and of assertion failures",
 "With one thread, no call dereferences a null table, indexes outside a table, or makes any assert() of the map false.",
 "for every hash function and every finite sequence of calls on non-reserved keys and values",
 "absence of a bad event over unboundedly many histories",
 H+": assert(...) sites, table->newTable dereferences")
add("Reading and writing start probing at the same slot",
 "get narrows the 64-bit hash to int while put does not; both still start at the same slot for every table a machine can hold, so a stored key is looked for where it was put.",
 "for every 64-bit hash value and every power-of-two table length up to 2^32; beyond 2^32 slots the claim is false",
 "only hash values with bit 31 set or large tables expose the narrowing; 2^64 inputs",
 H+": getImpl(Table*, Key, int fullHash), putIfMatch idx computation")
add("Internal markers never collide with user data or each other",
 "The empty, tombstone, migrated-tombstone and wildcard markers are pairwise distinct where the code compares them; setting/clearing the dirty and migration bits loses no user bit; isKeyReserved/isValueReserved accept exactly the markers; a user word with its three low bits clear and not reserved is never mistaken for a marker after any marking.",
 "for every 64-bit word",
 "2^64 words; overflow in the sentinel initialisers (2^62-1)<<3 silently drops a bit",
 M+": setMark, clearMark, isMarked", H+": VINITIAL, VTOMBSTONE, TOMBPRIME, MATCH_ANY, NO_MATCH_OLD, KINITIAL, KTOMBSTONE, isKeyReserved, isValueReserved")
add("The UCF container stores distinct elements distinctly",
 "Two different elements given to the UCF container are two different keys of the map, no element is a reserved key, and get returns the element value that was stored.",
 "for every pair of elements below 2^61-4; for larger elements the claim is false (el and el+2^61 are the same key, and the four elements just below 2^61 are reserved as values)",
 "needs all pairs of 64-bit elements",
 U+": insert, erase, contains, get, increment")
add("Container insert reports whether the element was new",
 "insert(e) on the UCF container returns true exactly when e was not yet in the container, as the reference (STL) container does.",
 "for every container state and element",
 "a return-value convention over all states; existing tests only count successes",
 U+": insert", S+": insert", H+": put")
add("Erase reports whether something was removed",
 "remove(key)/erase(e) returns true exactly when the key was present before the call.",
 "for every map state and key",
 "all states; the bool conversion only misbehaves for absent keys and for the value 0",
 H+": bool remove(Key)", U+": erase", S+": erase")
add("Increment adds exactly one",
 "increment(e) leaves the counter of e one higher than before (or 1 if e was absent), and nothing else changes.",
 "for every map state, key and hash function, including calls during which the table grows",
 "the growth path is taken only for particular collision patterns",
 U+": increment", H+": update, Table::increment, putIfMatch (recursive calls without CAS)")
add("size() is the number of stored keys",
 "With one thread, size() equals the number of keys present, and isEmpty() tells whether there is none.",
 "for every finite sequence of calls and every hash function",
 "unbounded histories; disagreement needs a nested resize",
 H+": size, isEmpty, CHM::size, resize, putIfMatch size counters")
add("Growing always doubles",
 "Whenever the map grows, the new capacity is exactly twice the old one, whatever the element counter says (even if it has wrapped below zero); capacities stay powers of two, so slot arithmetic stays in range.",
 "for every counter value and every capacity below 2^63",
 "2^64 counter values; heuristics with several branches",
 H+": resize newSize computation, Table::MIN_SIZE")
add("Present keys are found within ten probes",
 "In single-threaded use, a key that is present is always stored fewer than 10 slots after its home slot, so get examines at most 10 slots in the table that holds it.",
 "for every finite sequence of calls, every hash function, every initial power-of-two capacity of at least 16",
 "worst-case bound over all collision patterns",
 H+": REPROBE_LIMIT, tableFull, putIfMatch reprobeCount")
add("Every call returns",
 "In single-threaded use each call finishes.",
 "for every reachable state and call; get always finishes, put of an eleventh key with the same hash never does",
 "non-termination cannot be observed by a finite test; the failing collision pattern is rare",
 H+": tableFull, resize, putIfMatch recursion")
add("get never invents a value",
 "Under concurrency, get(k) returns the absent marker or a value that some call asked to store under that same k; never another key's value or a marked word, and never an internal marker unless increments (whose placeholder may be stored, C09) are used.",
 "for every number of threads, every program of calls per thread, every interleaving of atomic steps, including any number of resizes",
 "all schedules of an unbounded number of threads",
 H+": getImpl, putIfMatch, copySlot", P+": pcas, pcas_read")
add("Keys stay where they were put; migrated slots stay dead",
 "Under concurrency, once a slot holds a key it holds that key forever; once a value is being migrated it is never overwritten by a user write; once migrated it stays migrated.",
 "for every number of threads, every program, every interleaving",
 "an invariant over all schedules",
 H+": CASkey, CASvalue, copySlot, putIfMatch")
add("No null or out-of-range table access under concurrency",
 "No thread ever follows a null 'new table' pointer or indexes outside a table.",
 "for every number of threads, every program, every interleaving, any number of resizes",
 "all schedules",
 H+": copySlotAndCheck, helpCopyImpl, resize, getImpl, putIfMatch")
add("The current table only moves forward",
 "The current-table pointer only ever moves from a table to that table's replacement, a replacement is fixed once chosen and is exactly twice as large.",
 "for every number of threads, every program, every interleaving",
 "all schedules",
 H+": copyCheckAndPromote, CASNewTable, resize")
add("Concurrent histories are linearizable",
 "Every concurrent history of get/put/putIfAbsent/replace/remove can be explained by some sequential order of the same calls that respects real-time order.",
 "for every number of threads, every program, every interleaving",
 "all schedules; the failing schedule needs a preemption between two adjacent instructions",
 H+": putIfMatch (CASkey failure path), getImpl", P+": pcas")
add("Results carry no internal bits under concurrency",
 "A value returned by put, putIfAbsent or putIfMatch to a user never has the dirty or migration bit set.",
 "for every number of threads, every program, every interleaving",
 "all schedules",
 H+": putIfMatch return V", P+": pcas")
add("A table is retired only when all its slots were migrated",
 "The current table is replaced only after every one of its slots has been migrated, and the migration counter never exceeds the number of slots.",
 "for every number of threads, every program, every interleaving",
 "all schedules; needs two helpers racing on one slot",
 H+": copyCheckAndPromote assert(copyDone + workDone <= oldLen), copySlot")
add("Increments are not lost",
 "If n increments of a key complete while the table does not grow, the counter is exactly n higher, whatever the threads' interleaving.",
 "for every number of threads and increments, every interleaving, as long as the table does not grow and the counter does not overflow",
 "all schedules",
 H+": Table::increment, putIfMatch loop", U+": increment")
add("A completed update survives a crash",
 "After put returns, a crash followed by reopening the table file still shows the new value (or a later one).",
 "for every state, schedule and crash point",
 "a crash may happen between any two instructions and may keep any subset of unflushed cache lines",
 P+": pcas, persist, pcas_read", H+": putIfMatch")
add("What has been read survives a crash",
 "Once a get has returned a value for a key, a crash at any later point followed by reopening never shows a state older than that: the key is found, with that value or one written later.",
 "for every number of threads, every program, every interleaving, every crash point and every set of cache lines evicted early",
 "all schedules x crash points x eviction choices",
 P+": persist, pcas_read, pcas", H+": getImpl, mmapTable existing-file branch")
add("A crash never corrupts the table",
 "Whatever the crash point, every key/value pair found in the file after a crash was really stored as that pair (or the key was claimed and its value never arrived, in which case it reads as absent); no value appears under a key slot that is still empty.",
 "for every number of threads, every program, every interleaving, every crash point, every set of evicted cache lines",
 "all schedules x crash points x eviction choices",
 P+": persist, pcas_read, pcas", H+": KVpair, mmapTable existing-file branch")
add("Reopening a table file restores the map",
 "Opening an existing table file (no migration in progress when it was closed) yields a map with exactly the stored pairs, half-finished insertions read as absent, and size() equal to the number of pairs.",
 "for every file content that satisfies the table invariant",
 "all file contents",
 H+": mmapTable existing-file branch")
add("The recovery constructor recovers",
 "Constructing the map with reconstruct=true over a directory of table files yields the stored map.",
 "for every directory listing",
 "all directory listings and file names",
 H+": ConcurrentHashMap(const char*, size_t, bool), mmapTable, munmapTable, numFromName")
add("Table file names encode and decode",
 "The number read back from a generated table file name is the number it was generated from.",
 "for every table number below 2^31",
 "all numbers of all digit lengths",
 H+": getOrderedFileName, numFromName")
add("Recovered tables are visited oldest first",
 "Sorting table file names as recovery does lists tables in the order they were created.",
 "for every list of table numbers",
 "fails only once numbers of different digit counts coexist (ten or more tables)",
 H+": constructor std::sort of file names")
add("A table created after recovery gets a fresh file",
 "After recovery, the next table to be created uses a file that is not already in use by the map.",
 "for every set of existing table numbers",
 "all sets",
 H+": fileNameCounter.store(numFromName(last)), resize fetch_add")
add("A crash while a table is being created invents no entry",
 "If the machine stops while a fresh table file is being initialised, reopening that file shows an empty table.",
 "for every crash point in the initialisation loop and every set of cache lines that reached memory",
 "all crash points and eviction sets",
 H+": mmapTable new-file branch")
add("PERSIST flushes every byte it was asked to",
 "Every cache line that overlaps the requested byte range is flushed, and none outside the lines of that range.",
 "for every start address and length that do not wrap the address space",
 "all addresses and lengths",
 P+": PERSIST, PERSIST_FLUSH_ONLY")
add("Test work is split exactly",
 "The operations given to the threads add up to the requested total, the main loop of each thread is never larger than its share, and no element is generated twice by different threads.",
 "for every total, thread count and thread number",
 "all totals and thread counts, including non-divisible ones",
 "tests/test.hpp: opsPerThread, opsMainLoop", "tests/alternating.hpp: genElem")
add("The reference container is a map",
 "The STL container used as a reference behaves as a set with counters: insert is true exactly on new elements, erase exactly on present ones, increment returns the new counter.",
 "for every sequence of calls",
 "all sequences",
 S+": insert, erase, contains, get, increment, count")
add("Descriptor references round-trip",
 "Packing (thread, sequence, flags) into a 64-bit PMwCAS descriptor reference and unpacking gives the same thread, sequence and flags; the packed descriptor states do likewise.",
 "for every thread count, every thread id below it, every sequence number that fits, and all flags",
 "all 64-bit fields and thread counts (non powers of two fail)",
 K+": DescRef, KCASDescriptor::Mutable, WordDescriptor::Mutable")
add("An uncontended multi-word CAS is all-or-nothing",
 "Run without interference, a multi-word compare-and-swap writes every new value and reports success if all words hold their expected values, and otherwise reports failure and leaves every word as it was.",
 "for every number of words and every memory content",
 "unbounded word counts and contents",
 K+": PMwCAS, InstallMwCASDescriptor, CompleteInstall, PMwCASRead")
add("A helped multi-word CAS is all-or-nothing",
 "With helpers running, a multi-word compare-and-swap still takes effect on all words or on none, and its owner's return value says which.",
 "for every number of helpers and every interleaving",
 "all schedules",
 K+": PMwCAS phase 2 (uses the local st instead of the decided status)")
add("The 64-bit hash never collides on 8-byte keys",
 "The seeded xxHash-64 of an 8-byte key is a one-to-one function of the key.",
 "for every seed and every pair of 64-bit keys",
 "2^128 pairs",
 X+": endian_align<64>, round, endian_align_sub_ending, rotl", "hashing/hash.hpp: xxhash")
add("The alternating test accepts a correct container",
 "The alternating self-test reports success when run on a correct set container, and its final contents are the elements it did not delete.",
 "for every share of operations and every injective element numbering (a share that is even and below ten is a counterexample; so is a share of at least twenty of a thread other than 0, whose prefix the driver never runs)",
 "a test of the test: all shares",
 "tests/alternating.hpp:10-88: prefix and main loop", "tests/alternating.hpp:124-223: check_elements", "runTest.hpp:153-154: the prefix of thread 0")
add("A table created after a restart starts empty",
 "When the map grows after a restart, the replacement table starts with no entries.",
 "for every content of the directory",
 "needs every set of left-over files; the tests delete the directory first",
 H+": resize (fileNameCounter), mmapTable opening an existing file")
add("Container increment returns the new counter",
 "increment(e) on the UCF container returns the counter after the increment, as the reference (STL) container does.",
 "for every reachable container state and element",
 "all states; the tests never look at the result",
 "containers/ucfMap.hpp: increment", "containers/stlMap.hpp: increment", "containers/cliffMap/hashMap.hpp: update")
add("A map that has grown survives a restart",
 "Restarting the process over its table files (without the recovery constructor, the way every test and benchmark does) shows the entries the map had when it was closed cleanly.",
 "for every reachable map state with every word written to its file, including maps that have grown",
 "needs every state and restarts at all of them; the tests start from an empty directory",
 H+": constructor with reconstruct=false, mmapTable, fileNameCounter", H+": getImpl on a migrated slot without new table")
add("YCSB operations are dealt to the threads without loss",
 "Reading a YCSB file, the benchmark puts operation j*T+t of the file at place j of thread t's queue, loses none of the first 16000001 operations and writes nothing outside the queues.",
 "for every number of threads and every well-formed file (one thread and more than 16000000 operations is a counterexample)",
 "files beyond 16 million operations are never tried with one thread",
 "tests/ycsb.hpp:57-119: reading of the run file, operationCount, the break test")
add("Command-line options take effect as given",
 "Every list of options, each followed by its value, sets exactly the fields it names (the last of a kind counts), and an option without value, an unknown option or -h is reported.",
 "for every list of options and values",
 "all option lists in all orders",
 "runTest.cpp:17-33", "runTest.hpp: matchOpt1, matchOpt0")
add("The start barrier lets nobody through early and holds nobody back",
 "No thread leaves the start barrier before every thread has arrived, and once all have arrived each thread's next test lets it through; the barrier's assert never fails.",
 "for every number of threads (below 2^64) and every interleaving",
 "all schedules",
 "tests/test.hpp:14-22: sync_start")
add("The degree test counts outbound connections",
 "After the degree benchmark, the counter of each node is the number of edges going out of it in the edge files.",
 "for every number of threads, all edge files and every order of the threads' increments (false: it counts the edges going in)",
 "the benchmark is never compared with an expected count",
 "tests/degree.hpp: header comment, the line loop, the limit of four files")
add("The reddit test counts every number as often as it occurs",
 "After the reddit benchmark on a file with one number on each line, the counter of each number is how often it occurs (modulo 2^64).",
 "for every file with one number on each line",
 "unbounded files; the benchmark never checks a count",
 "tests/reddit.hpp: the line loop")
add("The capacity option gives 2^n slots",
 "The option for the capacity n makes the map start with 2^n slots, a capacity the map accepts.",
 "for every n (from 31 on the property is false)",
 "large capacities are never tried",
 "containers/ucfMap.hpp:50, pmemMap.hpp:91, levelMap.hpp:100, onefileMap.hpp:79: 1 << opt.capacity")
add("Every adapter answers like the reference container",
 "Assuming the library's map is correct, the libpmemobj, clevel and OneFile adapters answer every sequence of container calls as the STL container does.",
 "for every sequence of calls",
 "all call sequences; the tests never look at increment's result",
 "containers/pmemMap.hpp: every method", "containers/levelMap.hpp: every method", "containers/onefileMap.hpp: every method", "containers/stlMap.hpp: every method")
add("Recovery completes or undoes an interrupted multi-word CAS",
 "If a crash interrupts a multi-word CAS at any step, then after recover() every word it names holds its new value or every one holds its old value, no other word has changed, no assertion fails, and every word can be read again.",
 "for every number of words, every memory without other operations under way, every thread and every step at which the crash comes (every store counted as durable once made)",
 "a crash at each step of each operation; recover() is never run by any test",
 "include/KCAS/pmwcas.hpp:890-999: recover", "include/KCAS/pmwcas.hpp:553-714: PMwCAS")
add("When all calls have ended, size() is the number of keys present",
 "Whenever no call is in progress, there is an order of all calls made so far, each thread's calls in its own order, such that size() is the number of keys that order leaves in the map, isEmpty() says whether there are none, and get returns what it leaves under each key.",
 "for every number of threads, all calls they make and every interleaving (false when two threads write the same key)",
 "all interleavings; the tests never compare size() with the keys stored",
 "containers/cliffMap/hashMap.hpp:1199-1211: the size counter", "containers/cliffMap/hashMap.hpp:896-904: size, isEmpty")
add("After a crash the reopened map is a map",
 "After a crash and a restart the map behaves as an ordinary map: there is a finite map M such that size() is its number of keys and every later sequence of calls gets the results of an ordinary map that starts as M.",
 "for every number of earlier crashes, all calls, every crash point before the first growth and every choice of write-backs (false with several threads)",
 "crash points times write-back choices times later call sequences; no test opens a file a crash has left",
 "containers/cliffMap/hashMap.hpp:1055-1136: the probe loop of putIfMatch", "containers/cliffMap/hashMap.hpp:637-700: opening an existing file", "include/persistence.hpp:64-104: persist, pcas_read, pcas")
add("When no call is in progress the map is an ordinary map again, and keys may change writers",
 "Whenever no call is in progress, a map that several threads have used is an ordinary map with the contents their calls left: it may be handed to other writers, whose history is linearizable from those contents, or to one thread, whose further results are those of an ordinary map.",
 "for every number of phases, threads, keys and schedules",
 "all schedules of all phases and all later calls",
 "containers/cliffMap/hashMap.hpp:896-944: public calls", "containers/cliffMap/hashMap.hpp:1046-1225: putIfMatch", "tests/test.hpp: prefix on the main thread, then parallel phase, then suffix")
add("The alternating self-test passes on the concurrent map",
 "When the driver has run the alternating self-test on a new map and all threads have ended, the test's check finds the map consistent: the number of elements found equals count() and every thread's elements are as expected.",
 "for every number of threads, every number of operations, every table length and every interleaving (false from twenty operations per thread on, for every interleaving: the driver runs no prefix for threads other than 0)",
 "all interleavings of all threads' calls; the test itself is run on few of them",
 "runTest.hpp:145-189: run_test", "tests/alternating.hpp:10-88: the calls", "tests/alternating.hpp:94-105, 124-254: the check", "containers/ucfMap.hpp:13-41: the container")
add("The map's assertions hold in every interleaving",
 "No assert of hashMap.hpp or of persistence.hpp (pcas) that the public calls reach fails, whatever the threads call and however they interleave.",
 "for every number of threads, all valid calls, every hash function, table size and schedule (false of one assertion, the one on the number of migrated slots)",
 "all interleavings of all calls; the release build of the tests compiles the assertions away",
 "containers/cliffMap/hashMap.hpp:131, 207, 302, 346, 370-372, 384, 405: migration and growth", "containers/cliffMap/hashMap.hpp:939-942, 1035, 1046-1049, 1170: public calls and putIfMatch", "include/persistence.hpp:102: pcas")
add("A thread that stops does not stop the others",
 "Whichever threads are delayed or stopped, the calls of the others get done: some call of theirs returns after finitely many of their steps (lock-freedom); where threads do not write the same keys and the table does not grow, every call returns after a number of the caller's own steps that depends on the length of the table only (wait-freedom).",
 "for every number of threads, all their calls and every schedule, in particular those in which a thread is never run again (false while a table grows)",
 "a thread would have to be stopped at each of its steps; the tests let every thread run to its end",
 "containers/cliffMap/hashMap.hpp:398-469: help_copy_impl, with the early return at 461-464 commented out", "containers/cliffMap/hashMap.hpp:121-148, 374-393: counting migrated slots after migrating them", "containers/cliffMap/hashMap.hpp:946-1225: getImpl, putIfMatch", "README.md: the map is called lock-free")
add("Of several threads that claim a value exactly one wins",
 "When several threads call replace(k, v, w) or remove(k, v) on a key with value v and no call stores v under k again, at most one of these calls returns true; if these are the only calls that change k, at least one was made and no call is in progress, exactly one has returned true.",
 "for every number of threads and every schedule, together with any other calls on present keys (not increments or putIfMatch with MATCH_ANY together with removals), while the table does not grow",
 "all interleavings of the claims and of the other calls",
 "containers/cliffMap/hashMap.hpp:922-929: remove(key, value), replace", "containers/cliffMap/hashMap.hpp:1165-1230: the update loop of putIfMatch")
add("The random test keeps to elements the map can hold",
 "Whatever numbers rand() returns, the random test ends its loops that draw again, makes no more calls than it was asked for, and calls the map with elements the map can hold only, so that no interleaving of its threads has undefined behaviour.",
 "for every number of threads and operations, all results of rand() (0 to 2^31-1), every table size and hash function, and every interleaving",
 "the test draws a few thousand of 2^31 numbers and runs one interleaving",
 "tests/random.hpp:14-81: container_test_prefix, container_test", "tests/test.hpp:49-60: opsPerThread", "containers/ucfMap.hpp:13-46: the container")
add("A key works as a lock",
 "Let a key hold a value that means free, and let each thread have a value of its own. If threads change the key only by replace(k, free, own) to take the lock and replace(k, own, free) to give it back, then at most one thread has the lock at a time, a thread that has it never fails to give it back, and the lock is never lost: the key shows the value of the thread that has it, and shows free when no thread has it and no call is in progress.",
 "for every number of threads and every schedule, together with any other calls on other present keys, while the table does not grow",
 "all interleavings of taking, giving back and the other calls",
 "containers/cliffMap/hashMap.hpp:926-929: replace", "containers/cliffMap/hashMap.hpp:1165-1230: the update loop of putIfMatch")
add("A key that lies in the current table is found",
 "Every key lies on its probe path, within the limit at which probing stops, with no empty slot before it; and a get of a key that lies in the current table when the call begins returns what a slot with that key held at some moment during the call. In particular a put that has returned is found by a later get when no other call is in progress and nothing has been removed.",
 "for every number of threads, all valid calls, every hash function, table size and schedule, also after growths (false of the second part once a table has grown)",
 "all interleavings of claims of slots, growth and migration; the tests check a few hundred keys after one interleaving",
 "containers/cliffMap/hashMap.hpp:1055, 1067-1137: the probe loop of putIfMatch", "containers/cliffMap/hashMap.hpp:966-1022: the probe loop of getImpl", "containers/cliffMap/hashMap.hpp:150-229: copySlot, which puts tombstone keys into empty slots")
add("Hashing in pieces gives the hash of the whole",
 "However an input is cut into pieces, hashing it piece by piece with hash_state_t writes only inside the state's buffer, a digest may be taken at any time, and the digest is the hash that xxhash computes of the whole input at once, which for 64 bits is the map's hash function. The 128-bit product put together from 32-bit ones loses no carry, and the canonical form of a hash gives the hash back.",
 "for both widths, every seed and every sequence of pieces, of no bytes too, whose lengths add up to less than 2^64 - 32",
 "all inputs and all ways to cut them; a sample of lengths misses the boundaries of the 16- and 32-byte buffer",
 "hashing/xxhash.hpp:1821-1977: hash_state_t", "hashing/xxhash.hpp:795-921: the hash at once", "hashing/xxhash.hpp:312-324: mult64to128", "hashing/xxhash.hpp:2214-2254: canonical_t")
add("XXH3 in pieces, in vector mode and within bounds",
 "However an input is cut into pieces, hashing it piece by piece with hash3_state_t gives the XXH3 hash of the whole input; the SSE2 and AVX2 versions compute what the scalar version does; no read is outside the input or the secret; and 128-bit hashes are ordered as numbers.",
 "for both widths, every seed, every secret of at least 136 bytes and all pieces (false of the pieces and of the order)",
 "all inputs and all ways to cut them; the wrong digests need a piece of more than 256 bytes that ends in the first quarter of a buffer",
 "hashing/xxhash.hpp:1979-2206: hash3_state_t", "hashing/xxhash.hpp:1185-1679: the hash at once", "hashing/xxhash.hpp:83-96: uint128_t")
add("The clevel table is a map for one caller",
 "Calls of search, insert, erase and update made one after the other on a new clevel table, with rounds of its background thread between them, end; they touch no memory that is not theirs, fail no assertion and report what a map reports, unless the pool is full. A search or an erase reports it even then.",
 "for every hash function, allocator, initial size, pool size that admits at most 15 doublings, every sequence of calls with thread numbers below set_thread_num, and every number of rounds between them",
 "all sequences and all hash functions; growth, moving and dropping of levels depend on how the keys share buckets",
 "include/libpmemobj++/experimental/clevel_hash.hpp:548-606: search", "include/libpmemobj++/experimental/clevel_hash.hpp:651-1096: find, find_empty_slot, generic_insert", "include/libpmemobj++/experimental/clevel_hash.hpp:1101-1289: erase, generic_update", "include/libpmemobj++/experimental/clevel_hash.hpp:1294-1580: expand, resize")
add("The clevel table frees what it no longer uses",
 "After any calls on a new clevel table, made one after the other, the live entries are one for each pair in the map, and the live levels and metadata are those in use.",
 "for every hash function, allocator, initial size and sequence of calls and rounds of the background thread (false of updates and of dropped levels)",
 "a leak is not visible in what calls return",
 "include/libpmemobj++/experimental/clevel_hash.hpp:1219-1289: generic_update", "include/libpmemobj++/experimental/clevel_hash.hpp:1538-1571: dropping a level", "include/libpmemobj++/experimental/clevel_hash.hpp:1101-1214: erase")
add("The clevel table is safe beside its background thread and for several threads",
 "Calls by several threads of levelMap.hpp, beside the background thread of the table, touch no memory that is not theirs, and each reports what a map reports at some moment during the call.",
 "for every number of threads and every schedule (false)",
 "the failures need a slot to be cleared or a level to be added between two accesses of another thread",
 "containers/levelMap.hpp:42-115: the calls and set_thread_num(1)", "include/libpmemobj++/experimental/clevel_hash.hpp:548-606: search", "include/libpmemobj++/experimental/clevel_hash.hpp:1432-1580: the background thread")
add("The clevel table after a power failure",
 "When the power fails during a call on the clevel table or a round of its background thread, the reopened table holds the map of the calls that had returned, with the interrupted call done or not; calls on it end, touch no memory that is not theirs, report what that map reports, and at most one entry is lost for each failure.",
 "for every hash function, allocator, initial size, sequence of calls and rounds, any number of failures and every point at which one strikes (false of points between the two stores of a move, of growth, and of the end of a level)",
 "the state after a failure depends on the exact access at which it strikes; the bad ones last for a few accesses",
 "include/libpmemobj++/experimental/clevel_hash.hpp:1294-1427: expand", "include/libpmemobj++/experimental/clevel_hash.hpp:1485-1515: moving an entry", "include/libpmemobj++/experimental/clevel_hash.hpp:1101-1214: erase", "containers/levelMap.hpp:100-115: opening the pool")
add("The libpmemobj table behind pmemMap is linearizable",
 "Calls of pmemMap.hpp by several threads on libpmemobj's concurrent_hash_map take effect one after the other, each between its call and its return, on an ordinary map; none touches memory that is not its own or another thread is changing, no assertion fails; a thread that waits for a lock waits for one that can go on; a call made alone ends; and when no call runs, count() is the number of keys.",
 "for every number of threads, every schedule of accesses, every hash function and allocator, every pool without room for 2^31 buckets, also after power failures; until an allocation fails",
 "all interleavings of the locks with growth and with the lazy moving of nodes between buckets",
 "containers/pmemMap.hpp:34-69: the calls", "include/libpmemobj++/container/concurrent_hash_map.hpp:1773-1794, 1898-1980: acquire, rehash_bucket", "include/libpmemobj++/container/concurrent_hash_map.hpp:1199-1242, 3052-3275: check_mask_race, internal_find, internal_insert, internal_erase", "include/libpmemobj++/container/concurrent_hash_map.hpp:1134-1176, 1300-1329: enable_segment, check_growth")
add("The libpmemobj table behind pmemMap survives power failures",
 "At whichever moment the power fails, the pool can be opened again, and the map is that of the calls that had returned, with each interrupted call done or not; an insert or erase that has returned is still done, no node is leaked, and the calls afterwards are linearizable again, any number of times.",
 "for every number of threads, every schedule, every moment of failure, every choice of the bucket marks that had reached the memory though not flushed, any number of failures; until an allocation fails",
 "a test would have to cut the power at every access of every interleaving",
 "include/libpmemobj++/container/concurrent_hash_map.hpp:852-880: the mark rehashed of a bucket", "include/libpmemobj++/container/concurrent_hash_map.hpp:1898-1980: rehash_bucket", "include/libpmemobj++/container/concurrent_hash_map.hpp:990-1012, 1080-1104, 2184-2219: tls_restore, calculate_mask, runtime_initialize", "containers/pmemMap.hpp:86-130: opening the pool")
add("The threads' counters of the libpmemobj table add up",
 "The counters that libpmemobj's concurrent_hash_map keeps for each thread add up, with the number kept since the pool was opened, to all that was ever added to them; no two running threads share a counter, no access is outside the array of counters, a thread waits for its lock only on one that can go on, and there are never more counters than there were threads at a time.",
 "for every number of threads that begin, call and end at any time, every schedule of their accesses, and power failures at any moment, also while the pool is being opened",
 "the array grows under one thread while others read its cached size, and numbers of threads that ended are given to new ones",
 "include/libpmemobj++/detail/enumerable_thread_specific.hpp:65-96, 165-249: id_manager, thread_id_type", "include/libpmemobj++/detail/enumerable_thread_specific.hpp:334-365: local", "include/libpmemobj++/detail/enumerable_thread_specific.hpp:374-383: clear", "include/libpmemobj++/container/concurrent_hash_map.hpp:982-1012: thread_size_diff, tls_restore")
add("libpmemobj's vector is a list",
 "Calls on pmem::obj::vector do to its elements what they do to a list: its size, its elements and the room for them are right after every call, a call fails only by throwing when there cannot be that many elements, no call touches memory outside the array or without an object, and every object created in the array is destroyed before its memory is used again or freed.",
 "for every type, every sequence of calls with positions that exist, every value and every limit of the allocator (false of resize(count, value) at the capacity, of inserting an element of the vector itself, and of destroying what erase and insert leave behind)",
 "the cells behind the last element cannot be seen by a test, and each call has a path with and one without a new array",
 "include/libpmemobj++/container/vector.hpp:2257-2386: move_elements_backward, construct_or_assign, internal_insert", "include/libpmemobj++/container/vector.hpp:1847-1876: erase", "include/libpmemobj++/container/vector.hpp:1962-2010: resize", "include/libpmemobj++/container/vector.hpp:2397-2474: realloc, shrink")
add("libpmemobj's segment_vector is a list",
 "Calls on pmem::obj::segment_vector do to its elements what they do to a list, wherever the borders of its segments are: size, capacity and elements are right after every call, a call fails only by throwing when there cannot be that many elements, no segment or element that does not exist is touched, no assertion fails, elements that are removed are destroyed and free_data frees all memory.",
 "for both policies (segments of one size, segments of 2, 2, 4, 8, ... elements), segments in an array or a vector, every sequence of calls with positions that exist, every value and limit (false of inserting an element of the vector itself, of destroying removed elements, and of free_data after erase)",
 "each call works on one to all segments and the number in use moves up and down; borders, empty and kept segments multiply",
 "include/libpmemobj++/container/segment_vector.hpp:2451-2652: internal_reserve, construct, insert_gap, shrink", "include/libpmemobj++/container/segment_vector.hpp:2224-2261: erase", "include/libpmemobj++/container/segment_vector.hpp:1089-1117, 1820-1880: assign, shrink_to_fit, free_data", "include/libpmemobj++/container/detail/segment_vector_policies.hpp:85-264: the policies", "include/libpmemobj++/detail/enumerable_thread_specific.hpp:118-119: the array of counters")
add("CCEH finds exactly the inserted keys",
 "After any insertions of one thread into the extendible hash table CCEH every insert has returned, and get finds a key if and only if it was inserted, whatever segments were split and however often the directory was doubled; after a crash inside insert this goes on to hold.",
 "Every hash function, initial depth, and finite sequence of inserted keys of any lengths; every key looked for; a crash between Split and the change of the directory.",
 "What is lost depends on which keys collide in the last cache lines of a segment that is then split; std::hash of random keys makes it so rare that a test does not meet it, and a crash in the window between Split and the directory is not reproducible.",
 "include/libpmemobj++/experimental/cceh.hpp:178-233: segment_insert", "include/libpmemobj++/experimental/cceh.hpp:238-290: Insert4split, Split", "include/libpmemobj++/experimental/cceh.hpp:353-452: insert", "include/libpmemobj++/experimental/cceh.hpp:454-484: get")
add("level_hash is a map",
 "Calls of one thread on the two-level hash table level_hash do what they do on a map, whatever entries are displaced and however often the table is expanded: each key has at most one entry, every call returns, and no entry is lost or doubled, also by a crash.",
 "Every two hash functions, first size the constructor accepts, number of threads it was made for, and finite sequence of calls insert, query, erase and update; a crash in expand or try_movement (false of repeated inserts, of keys whose hashes collide, of tables made for several threads, of size 1, and of crashes)",
 "An entry can lie in any of four buckets of two levels and is moved by the insertions of others; what fails needs full buckets, which random keys rarely give, or a crash between two stores.",
 "include/libpmemobj++/experimental/level_hash.hpp:343-428: generic_insert", "include/libpmemobj++/experimental/level_hash.hpp:432-520: query, erase", "include/libpmemobj++/experimental/level_hash.hpp:522-574: generic_update", "include/libpmemobj++/experimental/level_hash.hpp:576-661: expand", "include/libpmemobj++/experimental/level_hash.hpp:716-751: try_movement")
add("clht is a map",
 "Calls of one thread on the hash table clht do what they do on a map, however often it is resized: put stores an absent key and keeps a present one, get finds exactly the keys stored and not erased and returns their place, erase removes them, every call returns, and this goes on to hold after a crash.",
 "Every hash function, first number of buckets, and finite sequence of calls put, get and erase; a crash after put or inside erase (false of resizings with more than three entries of one new bucket, of more than 256 buckets in a row, of no buckets, and of crashes)",
 "An entry is lost only when four keys fall into one bucket while the table is resized, and the lock that stays taken is seen only after a crash.",
 "include/libpmemobj++/experimental/clht.hpp:335-359: get", "include/libpmemobj++/experimental/clht.hpp:412-500: generic_insert", "include/libpmemobj++/experimental/clht.hpp:502-552: erase", "include/libpmemobj++/experimental/clht.hpp:580-758: ht_status, ht_resize_pes", "include/libpmemobj++/experimental/clht.hpp:760-817: bucket_cpy, put_seq")

out = os.path.join(os.path.dirname(__file__), "..", "properties.jsonl")
with open(out, "w") as f:
    for p in props:
        f.write(json.dumps(p) + "\n")
print(len(props))
