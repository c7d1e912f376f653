# Formal model of PMap (ucf-cs/PMap) — design

Source: `/repo` (read as text only).  Prover: Lean 4.33.0 + Mathlib.
Everything lives in `lean/Verif/`; `lean/Verif.lean` imports every module.

## 1. Trusted base

* The Lean kernel.  Theorems may depend on `propext`, `Classical.choice`, `Quot.sound` and on nothing else
  (no own axioms, no `sorry`, no `native_decide`, no `bv_decide`).
* The transcription of the C++ into the Lean definitions; each definition cites file and lines.
* Memory model assumption: `std::atomic` operations with the default order are sequentially consistent, so an
  execution is an interleaving of the threads' atomic operations.
* Persistence assumption (only for the crash properties): a cache line reaches memory as a whole and holds the
  content it had at some moment; `clflush` makes the line's present content durable; any line may be written back
  at any time on its own; the two words of a key/value pair are in one line (16-byte pairs, page-aligned map).
* `KeyT = ValT = size_t` is 64 bits (`include/define.hpp`), so words are `BitVec 64`.

### Modelled
`include/marking.hpp`, `include/persistence.hpp`, `containers/cliffMap/hashMap.hpp` (all operations, resize,
migration, constructor/recovery, file names), `containers/ucfMap.hpp`, `containers/stlMap.hpp`, `tests/test.hpp` and
`tests/alternating.hpp` (arithmetic, calls and check; with the calls of `run_test` in `runTest.hpp`), `include/KCAS/pmwcas.hpp`,
`hashing/xxhash.hpp` (32-bit, 64-bit and XXH3, in one call and in pieces; without prefetching, assignment and the 32-bit variant of
`len_9to16`), `tests/ycsb.hpp`, `tests/degree.hpp` and `tests/reddit.hpp`, the option parser of
`runTest.cpp`, the start barrier of `tests/test.hpp`, `tests/random.hpp`, the adapters `containers/pmemMap.hpp`,
`containers/levelMap.hpp` and `containers/onefileMap.hpp` (over a library map assumed perfect),
`include/libpmemobj++/experimental/clevel_hash.hpp` (search, insert, erase, update, capacity, expand, the background thread;
without destruction and debugging output; the allocator and the pool are parameters; its flushes are not actions of their own: each
store is followed by `persist` of the word before the same thread stores again, at 1062→1076, 1136→1138, 1176→1178, 1258→1260,
1312-1316, 1319→1332, 1350→1352, 1400→1402, 1493→1496, 1510→1512, 1550→1556, 1559, so with one caller a power failure is modelled by
cutting a program after an access, `CP.cut`), and `levelMap.hpp` on top of it;
`include/libpmemobj++/container/vector.hpp` and `segment_vector.hpp` with `detail/segment_vector_policies.hpp` (the calls of `VOp`, one thread, each call one transaction; C69, C70),
`include/libpmemobj++/experimental/cceh.hpp` (`insert`, `get` and what they call, one thread, no values, allocation never fails; C71),
`include/libpmemobj++/experimental/level_hash.hpp` (insert, query, erase, update, expand, try_movement, one thread; without `b2t_movement`, which is never called; C72),
`include/libpmemobj++/experimental/clht.hpp` (put, get, erase, resizing, one thread; without helpers, `size`, `capacity` and `print`; C73),
`include/libpmemobj++/detail/enumerable_thread_specific.hpp` (the counters of its threads, C68), `include/libpmemobj++/container/concurrent_hash_map.hpp` (the table behind `pmemMap.hpp`: find, insert and erase as `pmemMap.hpp` uses
them, locks, rehashing, growth, `runtime_initialize`; without `insert_or_assign`, `rehash`, `clear`, `defragment`, iterators, swap,
destruction and debugging output; a transaction of libpmemobj is one action, and so is walking a list under its lock; an exception from
the allocator stops the thread).

### Not modelled
The external libraries OneFile (behind `onefileMap`) and libpmemobj itself (pools, transactions, its allocator and mutexes), timing and printing, the memory allocator, the kernel's mmap.

## 2. How the code is modelled

`Verif/Prog.lean`: a free monad of *atomic actions* (load/CAS of a key or value word, flush, load/CAS of the control
words, allocation of a table, assert).  The C++ functions are transcribed one by one as programs of this monad
(`Verif/Code.lean`).  One transcription is used for all of

* sequential execution (`run`),
* concurrent execution (interleaving of the actions of any number of threads),
* crashes (each word has a volatile and a durable copy).

Undefined behaviour (null table, index out of range) is a separate outcome `ub`; a C++ exception is the outcome
`threw`; a loop or recursion that has not finished within the given fuel is the outcome `fuel`.  All theorems
quantify over the fuel, so no execution is excluded; with as much fuel as there are steps in the schedule it
never runs out [`c13_fuel_lasts`] and its amount changes nothing [`c13_fuel_irrelevant`].  A failing `assert` sets the ghost flag `failed` and execution
goes on (that is the release build, `-DNDEBUG`); "`failed` stays false" is the debug build's view.

Loops are `loop n body` with fuel `n`.  Recursive calls of `putIfMatch`/`getImpl` consume fuel.

## 3. Plan per property

| id | model | proof |
|----|-------|-------|
| C01 | `run` of the transcribed operations | refinement to a finite map: invariant on all tables in the chain (probe-path invariant, each claimed key passes through all older tables), induction over calls; partial correctness for all fuel |
| C02 | same | the migration lemma of C01 stated on its own |
| C03 | same | `run` never yields `ub`, `failed` stays false; by the same invariant |
| C04 | index computation on `BitVec 64`/`BitVec 32` | bit extensionality; counterexample for 2^33 slots |
| C05 | marks and sentinels on `BitVec 64` | bit extensionality |
| C06 | `ucfMap` adapter | shift arithmetic; counterexamples above 2^61 |
| C07 | `ucfMap::insert` over the map | false of the code: refuted, and the exact meaning of the result proved |
| C08 | `remove` | false of the code: refuted, and the exact meaning proved |
| C09 | `update` with `increment` | false when the table grows: witness; `_partial` for calls that find their slot in the current table |
| C10 | `size` | false after a nested resize: witness; `_partial` when no replacement table is pending between calls |
| C11 | `resize` length computation | case analysis, for all counter values |
| C12 | invariant on probe distance | induction over calls |
| C13 | `run` with fuel | refutation: for every fuel the put of an 11th equal-hash key runs out; `_partial`: get/put terminate when a free slot is near; at most ten keys; key sets that fit in some length the file system accepts (total correctness of resize, migration and helping); fuel does not matter in interleavings either: with at least as much as there are steps in the schedule it never runs out, and the amount changes nothing; several threads without growth: all calls end, from the lock-freedom of C55, also in reopened maps (`Props/Readback`) |
| C14–C17 | interleaving semantics | rely/guarantee logic over programs, one invariant + one guarantee for the whole code; the same invariant holds of a file opened after any crashed sessions (`Restarted` in `Props/Restarts`), so C14–C17, C24 and the unconditional parts of C19, C20, C54 hold there too |
| C18 | interleaving semantics + history | false: witness schedule; `_partial`: linearizable on keys that are present (`Fixed/*`), and from an empty map when each key has one writer (`Own/*`), while the table does not grow; with conditional calls, up to their giving up when another thread may store the expected value (`WeakRun`, `Rivalled`); with one writer per key also in a map opened from a file (`Own/Reopened`: `Cfg.re`; with increments `Props/Recount`, and C19, C21, C50 there too) |
| C19 | same | false: witness schedule; `_partial` for get, and for all calls with one writer per key (`Own/*`) |
| C20 | same | false: witness schedule; `_partial` |
| C21 | same | false when the key is not yet present: witness; `_partial` for present keys (`Fixed/*`) and for one writer (`Own/*`) |
| C22 | volatile/durable words | false: witness; `_partial`: one thread, before the first growth, loses at most the last change of each key (`Durable/Guard`, `Durable/Last`); the same for several threads with one writer per key when no value returns (`Durable/Owned`, `Durable/OwnedLast`), witness that two changes are lost when one does |
| C23 | same | false in general (ABA in `persist`): witness; `_partial` without ABA, before the first growth (`Durable/*`); the same after any crashed sessions (`Restarted`, `Props/Readback`) |
| C24 | same | invariant: the durable pair is a snapshot of a past volatile pair |
| C25 | `mmapTable` existing-file branch, and that branch cut short by a crash at any step with any write-backs (`cutOpen`) | loop invariant; what an opening that was cut short leaves (`Seq/CutOpen`) |
| C26 | constructor with `reconstruct = true` | false: for every directory listing the outcome is `ub` or an exception |
| C27 | decimal strings | induction on digits |
| C28 | lexicographic sort | false: witness; `_partial` for equal digit counts |
| C29 | counter | false: witness for every non-empty set |
| C30 | initialisation loop with crash | false: witness |
| C31 | loop on addresses | induction |
| C32 | arithmetic | induction |
| C33 | `stlMap` | refinement |
| C34 | bit fields | bit arithmetic |
| C35 | `PMwCAS` sequential run | induction over words |
| C36 | `PMwCAS` with helpers | false: witness |
| C37 | xxHash | composition of bijections |
| C38 | the self-test on a perfect container | arithmetic; witness where the oracle rejects a correct run |
| C39 | which file a new table maps | witness from a real earlier session; `_partial` when the file does not exist |
| C40 | `ucfMap::increment` | false of the code: refuted for every reachable state |
| C41 | restart over the files | witness after growth; `_partial` before the first growth |
| C42 | YCSB reader on lists of lines | induction over lines; refuted for one thread and long files; `_partial` otherwise |
| C43 | option parser on lists of words | induction over the options |
| C44 | `sync_start`, interleaved | invariant over schedules |
| C45, C46 | degree and reddit readers, increments on the reference container | induction over lines and increments; C45 refuted (inbound, not outbound) |
| C47 | `1 << capacity` in `int` | case analysis; refuted from 31 on |
| C48 | adapters over a perfect library map | refinement to the STL container; `increment` refuted |
| C49 | `recover` after a crash at any step of a solo `PMwCAS` | invariant over all cut points, then total correctness of `recover`; refuted behind the decision |
| C50 | interleaving semantics, idle threads | false: witness; `_partial` with one writer per key, from the invariant of `Own/*` |
| C51 | sessions, crashes, restarts | false with several threads, even with one writer per key: witness; `_partial`: one thread, by `Opened` (a memory in order) over sessions (`Durable/Crash`); several threads whose keys do not collide, by `AtHome` (every key in its home slot) over sessions (`Durable/Sessions`); the openings after a crash being cut short any number of times (`Seq/CutOpen`) |
| C52 | interleaving semantics, phases separated by moments without calls | false with growth (witness of C20); `_partial` with one writer per key and phase, from the invariant of `Own/*` at idle moments, which implies the single-threaded invariant (`Own/Good`); with growth between the phases by leaving out the tables before the current one (`Own/Shift`: a simulation of every call) |
| C53 | the calls of the self-test under all interleavings, its check as a program on the map | two phases (C52), contents by induction over the loops (C38), the check by total correctness; refuted from twenty operations per thread on |
| C54 | interleaving semantics, every `assert` an action | false of line 131 (witness of C20), and of line 1046 when `update` and a growth meet (`c54_update_growth`); `_partial` for all others: the rely/guarantee logic `Par/Logic` asks of every failing assertion that it is that one (`Counting`) |
| C55 | interleaving semantics; threads that are never scheduled again | false: witness and general theorem (a memory whose slots are all migrated but not all counted keeps every call on a key waiting, logic `swp` of `Live/Stuck`); `_partial` while the table does not grow: lock-freedom for all calls, by a budget that refills when another thread writes a value (logic `fwp` of `Live/Free`), wait-freedom of readers, and of all calls with one writer per key (step budgets of `Live/Bound`); the first two also in reopened maps (`Props/Readback`) |
| C56 | same as C18 with conditional calls | by induction over the explanation of the history (`WeakRun`) |
| C57 | the random test on lists of draws, its calls under all interleavings | induction over the rounds, then C16 |
| C58 | same as C56 | by induction over the explanation of the history: what each thread's phase says of the ordinary map (`Turn`) |
| C59 | all interleavings, any growth; slots and probe paths | a second logic `kwp` on top of `wp`: every claim of a slot keeps `KInv`; a logic over the memories of one call for get (`zwp`); reopened maps in `Props/Refound`: true of files in order, refuted in general |
| C60 | both widths, all pieces; writes outside an array are a distinct outcome | invariant `Absorbed`: what the state says about the bytes so far |
| C61 | both widths, all pieces, all secrets; reads and writes outside an array are a distinct outcome | false of the pieces and of the order (witnesses); `_partial` by the invariant `Fed`; bounds and vector modes in full |
| C62 | all sequences of calls and rounds, all hash functions and allocators; programs of accesses run alone | total-correctness logic `cwp`, invariant `Inv` (levels, slots, entries), one lemma per function; a counting argument shows that a round expands at most once |
| C63 | same as C62 | false of updates and levels (witnesses); `_partial` from `c62_map` |
| C64 | all interleavings of accesses of any number of searches with the background thread | false (witnesses); `_partial` by a rely-guarantee argument: `rwp` for searches, `mwp` for the background thread, an invariant `Ahead` (the key is in a slot the search still has before it, or the metadata will have changed) |
| C65 | all sequences of calls, all points of failure | false (witnesses); `_partial` by a logic `gcwp` in which each access keeps a condition, so that the condition holds wherever the program is cut (`gcwp_cut`); the invariant has a part that only the background thread needs (parameter `B`), and that part alone is lost when a round is cut at the end of a level |
| C66 | all interleavings of accesses of any number of threads, with power failures | rely-guarantee logic `W` with linearization points: an invariant `Inv` of memory against the abstract map, what each thread owns (`Own`), what the others keep (`Rel`); progress from an order on the locks |
| C67 | the same, every choice of unflushed marks | `Inv` holds after each access and does not mention unflushed marks, so `reopen` gives it back (`reopen_ok`); durable linearizability `DLin` |
| C68 | every number of threads, schedule and moment of failure | invariant of the steps: numbers in the queue and of threads are distinct and below the capacity, the cached size is at most the size; the bound on the counters is an invariant of its own over runs with at most `n` threads |
| C69 | every sequence of calls | cell-by-cell model, `Rep v l` (the cells hold the list) kept by every function, `Tidy` (nothing behind the last element) by all but insert and erase; refuted for resize(count, value), own elements and destruction |
| C70 | every policy with the stated laws, sequence of calls | the segments hold the slices of a list (`RepF`: segment i holds `f i`), each segment call is a call of C69, loops over segments by induction; the two policies are shown to meet the laws; refuted for own elements, destruction and memory kept |
| C71 | every hash function, initial depth, sequence of insertions, key looked for | invariant: the directory entries of a chunk name one segment, whose pattern is the prefix they share; every key in a slot lies at most 15 slots from its home; every inserted key is in the segment of its hash; the number of slots with hash h is the number of insertions of h. `Split` copies the slots in order, so a key never moves to a higher slot and always finds one |
| C72 | every two hash functions, first size, sequence of calls that return | invariant: every entry lies in one of the two buckets of its hashes, and for every predicate the slots count what the bag counts; refuted by general arguments (two entries, sixteen per hash, crashes) and by evaluation (exit, wait) |
| C73 | every hash function, number of buckets, sequence of calls | invariant: entries lie in the buckets of their hashes, no key twice; while a new table is filled, each copied entry is there or its bucket is full; the number of entries bounds the recursion of ht_status |

Statuses in MANIFEST.json: `proved` means the statement of properties.jsonl is proved for its whole quantifier.  `partial`
covers both "proved in part" and "refuted": where the code does not have the property the note says so, and the listed
theorems prove the negation and whatever weaker statement does hold.

## 4. Modules

| module | content |
|--------|---------|
| `Word` | words, marks, sentinels |
| `Prog` | actions, the program monad, memory, sequential run, `Safe` (no undefined behaviour and every assert true) |
| `Code` | persistence.hpp and hashMap.hpp, function by function |
| `Conc` | calls, threads, schedules (thread steps and evictions), histories |
| `AMap` | finite maps, what each call should do, reachable states |
| `Fast`, `Seq/*` | sequential logic: invariant of the table chain, one lemma per function, refinement (C01–C03, C08–C12), fuel monotonicity (`Fuel`), termination (`Total`), crowded tables (`Crowd`), growth that ends (`Grow`), openings cut short (`CutOpen`) |
| `Par/*` | rely/guarantee logic: one invariant and one guarantee for every function (C14–C17, C19, C20, C24, C54); `Path`, `Find` where keys lie and that gets meet them (C59) |
| `Fixed/*` | linearization logic for calls on present keys in a table that does not grow (C18, C21); `Fixed/Spec` holds the vocabulary of the statements |
| `Own/*` | linearization logic for all calls, from an empty map, when each key has one writer, until the table grows (`Cfg.grow`), which it never does if the keys fit (C18, C19, C21, C50): `Spec` the vocabulary of the statements, `Near` probing stays within ten slots (a counting argument), `Logic` the logic `owp`, `Get`/`Put`/`Ops` one lemma per function, `Sys` all threads, `End` when calls have ended, `Good` the single-threaded invariant holds between calls, `Phases` writers change between phases (C52), `Shift` calls do not see the tables before the current one, `Eras` phases with growth between them, `Reopened` the same logic for a table read from a file, where values may be further than ten slots from home and the slot counter starts at 0 (`Cfg.re`), `Check`/`Contents`/`Verdict` the alternating self-test (C53) |
| `Live/*` | waiting: `Stuck` the logic `swp` for programs that never get past a migration that is not counted, `Sys` all threads, more fuel in interleavings (C13, C55); step budgets: `Bound` programs cut off after `N` actions, `Own` every call of the one-writer setting within `callBound`, `Pace` all threads; `Deep` a program with fuel `n` takes more than `n` steps before it runs out; `Free`/`FreeOps`/`FreeSys` budgets that refill when another thread writes a value: lock-freedom without growth |
| `Durable/*` | what has been read survives a crash (C23): `Disc` the flush-before-clear discipline of every call, `Time` executions as lists of prefixes, `Read`/`Get` what a get has seen, `Distinct` calls that store different values, `Guard` what a thread running alone knows when it writes, `Last` what the file can then lack (C22), `Owned` and `OwnedLast` the same for several threads that each change only keys of their own, `Crash` the file is in order at every crash point (C51); `Durable/Spec` holds the vocabulary of the statements; `Sessions` sessions of several threads that start with a reopened map (C22, C51) |
| `Lin`, `LinSearch` | linearizability of a history (C18); a search that refutes it for a concrete history, proved complete |
| `Reopen` | table files, creation, reopening, restart (C24, C25, C30, C39, C41) |
| `Ucf` | the two containers (C06, C07, C33, C40) |
| `Names`, `Persist`, `Harness`, `XXHash` | file names and recovery, flushing, self-test arithmetic, hashing |
| `XXStream`, `XXH3` | the rest of xxhash.hpp: hashing in pieces, canonical forms (C60); XXH3, its vector modes as lists of lanes (C61) |
| `SelfTest` | the calls `run_test` makes for the alternating test, its check as a program on the map (C53) |
| `Workload` | YCSB, degree and reddit readers, option parser, start barrier, adapters `pmemMap`, `levelMap` and `onefileMap` (C42–C48) |
| `Clevel/*` | the clevel table behind `levelMap` (C62–C65, C48): `Mem` its memory and accesses, `Code` its functions, `Logic` the logic `cwp`, `Inv` the invariant, `Search`/`Find`/`Change`/`Erase`/`Expand`/`Insert`/`Round` one lemma per function, `Seq` sequences of calls and the adapter, `Conc` threads taking turns, `Rely` searches beside others, `Mover` what the background thread guarantees, `Cut` calls cut short, `RoundCut` rounds of the background thread cut short, `Reopen` searches and inserts on a table that was cut |
| `Pmem/*` | libpmemobj's concurrent_hash_map behind `pmemMap` (C66, C67): `Mem` memory and accesses, `Code` its functions, `System` threads and power failures, `Index` segments and blocks, `Inv` the invariant, `Locks`/`Lists`/`Data`/`Move` what each access does to it, `Logic` the logic `W`, `Acquire`/`Race`/`Calls`/`Grow` one lemma per function, `Crash` reopening, `Hist` histories and progress, `Size` the counter; `Tls` the counters of the threads (C68) |
| `Pmem/Vec`, `Pmem/VecRep`, `Pmem/SegVec`, `Pmem/SegRep` | libpmemobj's vector (C69) and segment_vector (C70): the code, and what the cells and segments hold |
| `CCEH/Model`, `CCEH/Inv` | the vendored extendible hash table CCEH (C71): the code for one thread, and its invariant |
| `LevelHash/Model`, `LevelHash/Inv` | the vendored two-level hash table level_hash (C72): the code for one thread, and its invariant |
| `Clht/Model`, `Clht/Inv` | the vendored hash table clht (C73): the code for one thread, and its invariant |
| `Random` | the random test (C57) |
| `KCAS/Code` | pmwcas.hpp: packing, descriptors, RDCSS, PMwCAS, read, single CAS.  Its flushes have no effect in this model: C49, the one crash property stated of it, counts every store as durable once made |
| `KCAS/{Bits,Logic,Seq,Ops,Calls}` | packing lemmas, total-correctness logic with footprints, solo runs, separation of disjoint threads (C34, C35, C36) |
| `KCAS/Decide` | every step of every interleaving keeps decisions (C36) |
| `KCAS/Recover` | pmwcas.hpp:921-998 `recover`, behind the mapping of the file |
| `KCAS/{Crash,RecoverW,RecoverRun,RecoverHalt}` | memory at every cut point of a solo `PMwCAS`; an operation taken up again; runs of `recover`, and runs that do not return (C49) |
| `Props/*` | the property theorems, each with an example meeting its hypotheses |

The ghost field `Mem.reopened` records that the map was opened from an existing file; no program reads it.

## 5. Findings

Each is a place where the code does not do what the property (or the comment in the code) says; the theorem in brackets proves it
of the model.

Map, one thread:
* `remove(key)` is true for an absent key and false only when the removed value was 0 [`c08_remove_absent_true`, `c08_remove_result`].
* UCF `insert` is true exactly when the element was already present, the opposite of the STL container [`c07_insert_result`].
* UCF `increment` returns the old word, still shifted [`c40_increment_never_new`].
* `update` loses its CAS function when the call moves to a new table (hashMap.hpp:1128, 1164, 1225), so the placeholder is stored
  as the counter [`c09_growth_destroys_counter`, `c09_lost_on_growth`] and stays [`c09_placeholder_stuck`].
* `size()` is wrong after a resize inside a resize [`c10_size_wrong`].
* `slots` starts at the capacity (hashMap.hpp:277), so `tableFull` is only the reprobe count; an eleventh key with the hash of ten
  others makes the table grow for ever [`c13_eleventh_never`].  Growth does end, for one thread, as soon as a length is reached in
  which the keys are spread out [`c13_growth_partial`, `c13_distinct_partial`].
* `get` and `put` start at different slots beyond 2^32 slots [`c04_home_slots_differ_beyond`].

Map, several threads:
* A failed CAS returns the raw word with its dirty bit.  Hence a fresh key can be claimed twice [`c18_not_linearizable`] and a caller
  can receive a dirty word [`c19_dirty_result`].
* The update loop compares the word found by its failed CAS, dirty bit included (hashMap.hpp:1227, 1175-1185), with the clean expected
  value.  So a conditional call can fail although the key has the expected value throughout [`c18_replace_not_linearizable`,
  `c18_removeIf_not_linearizable`, `c18_putIfMatch_not_linearizable`].  It takes another thread that stores that value
  [`c18_unrivalled_partial`].
* The "removed" marker with its dirty bit is taken for a value (hashMap.hpp:534-538, 1175-1185).  An increment of it stores the marker
  for "no value" and is lost [`c21_increment_of_marker`]; putIfMatch with MATCH_ANY stores under a removed key
  [`c18_matchAny_not_linearizable`].  If the increment stores the marker while the slot is being copied, the next helper is asked to
  put "no value" into the new table and `assert(newVal != VINITIAL)` (hashMap.hpp:1046) fails [`c54_update_growth`].
* `copyDone` is read before it is added to, so a table can be retired early [`c20_early_retirement`], a key lost [`c20_lost_key`],
  and the counter overrun [`c20_counter_overrun`].
* Two increments of a key that is not yet there can count as one [`c21_lost_increment`].
* One writer suffices to lose a key: while its put grows the table, two readers help with the same slot and count it twice, and the
  table is retired with an unmigrated key [`c18_growth_not_linearizable`, `c20_readers_retire_early`].
* `copySlot` compares the word its failed CAS has found with TOMBPRIME, dirty bit included (hashMap.hpp:163-196).  When another
  helper has just marked an empty slot, it goes on and puts the key KTOMBSTONE into the new table; and a put whose CAS on a key fails
  against that key, not yet flushed, does not see that it is a tombstone and goes past it.  So a put that has returned can lie behind a
  tombstone key in the current table, where get does not look: with no call in progress, nothing removed and one writer for each
  key, the key is absent, and comes back with the next growth [`c59_returned_put_not_found`].
* The size counter compares the replaced word with the "removed" marker without clearing the dirty bit (hashMap.hpp:1199-1211), so
  it can stay 0 with a key present, no call in progress and no growth [`c50_size_drift`].

Persistence:
* `put` returns before its value is flushed [`c22_put_lost`].  When a value returns to an earlier one while a reader is inside
  `persist`, the only writer of a key can lose two changes [`c22_two_changes_lost`].
* ABA in `persist`: the CAS clears the dirty bit of a later store of the same value [`c23_read_lost`].
* A put goes on past a slot another thread has just claimed without writing that slot back (hashMap.hpp:1094-1137), so a crash can
  leave a pair that probing does not reach; after the restart the next growth revives it, even if its key has been put and removed
  meanwhile [`c51_not_a_map`].
* The recovery constructor passes `newTable = !reconstruct`, so it re-initialises the files it should read, and then uses deleted
  tables [`c26_recovery_never_recovers`]; it passes bare names to `numFromName` [`c26_bare_name_is_ub`]; it sorts names as text
  [`c28_sort_order_wrong`]; the next file number is one in use [`c29_next_file_already_used`].
* A crash during file creation leaves zero pairs, which reopen as key 0 with value 0 [`c30_crash_invents_entry`].
* A restart after growth opens the stale table 0 [`c41_restart_after_growth`]; growth after a restart adopts an existing file
  [`c39_adopts_stale_file`].
* `PERSIST` never ends at the very top of the address space [`c31_top_of_memory_never_ends`].

Test harness:
* Elements pass through `int` [`c32_passed_elem_wrong`]; the self-test rejects some correct runs [`c38_oracle_rejects_correct`].
* `run_test` runs the prefix of thread 0 only (runTest.hpp:153-154), but `check_elements` asks for every thread's prefix: with two or
  more threads and at least twenty operations each the check fails whatever the container does [`c38_missing_prefix_rejected`,
  `c53_rejects`].
* YCSB with one thread and more than 16000000 operations writes behind its queue [`c42_one_thread_overflow`].
* `-r true` switches recovery off [`c43_true_is_false`]; a capacity from 31 on is not `2^n` [`c47_capacity`].
* The degree test counts edges going in, its comment says out; with fewer than four threads files stay unread
  [`c45_outbound_wrong`, `c45_counts_inbound`]; short first lines read an unset variable [`c45_bad_lines`]; a blank line of the reddit
  file counts the number before it again [`c46_blank_line`].
* `increment` of the libpmemobj, clevel and OneFile adapters does nothing for a present element [`c48_increment_does_nothing`], and
  `get` of the OneFile adapter returns an uninitialised variable for an absent one [`c48_onefile_junk`].
* The random test draws again while a word is reserved, but tests `val << 3` in one place and `val` in the other
  [`c57_filters_differ`]; harmless, as `rand()` is below 2^31 [`c57_no_ub`].
* Read but not stated as theorems: `-p 0` divides by zero (runTest.cpp:57); the YCSB reader gives POSIX
  `getline` a stack buffer of 1024 bytes, which a longer line makes it `realloc` (undefined).

Hashing (vendored; the map uses only the 64-bit hash at once, which is right):
* XXH3 in pieces: `update` consumes whole buffers straight from the input (xxhash.hpp:2048-2057) without keeping their last 64 bytes,
  with which `digest` completes the last stripe (2082-2091); so a piece of 257 bytes has the digest of other bytes
  [`c61_wrong_digest`].
* `operator>` on 128-bit hashes is true when either half is greater (xxhash.hpp:83-86): each of 1 and 2^64 is greater than the other
  [`c61_not_an_order`].
* Read but not stated as theorems: both `operator=` of the states lack a return statement (1920-1923, 2096-2099).

The clevel table (vendored, `include/libpmemobj++/experimental/clevel_hash.hpp`, and `levelMap.hpp`):
* levelMap.hpp:114 calls `set_thread_num(1)` but passes `localThreadNum` to `insert` (48), so every insert by a thread other than the
  first writes outside `tmp_entry` [`c64_thread_number`].
* `generic_update` never frees the entry it replaces [`c63_update_leaks`]; a level that is dropped and metadata that is replaced are
  never freed [`c63_level_leaks`].
* `search` loads a slot three times (573-577): the background thread can empty it in between and the search dereferences null
  [`c64_search_null`].  One load in place of three repairs it [`c64_search_once`].
* Entries are freed at once: a search, an insert or the background thread can read the key of an entry that an erase has just freed
  [`c64_search_freed`, `c64_insert_freed`, `c64_move_freed`], and the background thread can put a pointer to it back into the table
  after the erase has returned [`c64_erased_back`].
* The background thread is thread 0 to the arrays of temporaries (1433), and so is the first thread of the program: one can free the
  level that the other has linked in [`c64_shared_level`].
* Two inserts of one key can both succeed when an erase frees a slot in between [`c64_inserted_twice`].
* If the power fails between the two stores of a move (1493, 1499) two slots hold one entry; `erase` (1119-1209) frees it at the first
  and reads its key at the second [`c65_moved_freed`].  `update` looks for such pairs and repairs them [`c65_update_repairs`].
* If the power fails between linking a new level (1319) and replacing the metadata (1350) nothing completes the step: 1382 takes
  the capacity of the old top level for that of the new one, so 1388-1391 replace the metadata by a copy of it, again and again, and an
  insert into full buckets runs for ever [`c65_cut_growth`, `c65_stuck`].
* The position of the background thread and the level it is in are changed by separate stores.  If the power fails after the last bucket
  was counted as done (1533) and before the level is dropped (1550), a background thread that runs again reads behind the last bucket
  [`c65_past_the_end`]; if it fails after that and before the position is set to 0 (1558), a background thread that runs again leaves out
  buckets of the next level and drops it with their keys [`c65_lost_keys`].  That the thread is not started again when a pool is opened
  hides both.
* `count` returns the capacity, 196608 for an empty table [`c48_clevel_count`].
* Read but not stated as theorems: `del_dup` compares a key with itself (632); `erase` reads `expand_bucket_old`, which is never
  assigned (1156, 1196; without effect); `set_thread_num` tests `tmp_level` where `tmp_meta` is meant (459); the background
  thread is not started again when a pool is opened; with `HashPower` 1 the indices divide by zero; levelMap.hpp ignores the
  capacity option.

libpmemobj's `vector` and `segment_vector` (vendored; the array of thread counters of C68 is a `segment_vector` of numbers, for which none of these matters):

- `vector::resize(count, value)` returns at once when `_capacity == count` (vector.hpp:1997), whatever the size is (`c69_resize_ignored`).
- `insert` of an element of the vector itself inserts the value that was moved into its place, in both containers (`c69_insert_own`, `c70_insert_own`).
- `vector::erase` lowers `_size` without destroying (vector.hpp:1868-1871), and `move_elements_backward` compares with `>=` so that it creates an object on top of a live one (2259); destructors of such objects never run (`c69_not_destroyed`, `c69_overwritten`). `segment_vector::shrink` uses that `erase` (segment_vector.hpp:2649), so `clear`, `pop_back` and `resize` do not destroy what they remove from the last segment (`c70_not_destroyed`).
- `segment_vector::free_data` frees the segments in use only; `erase` and `assign` lower their number and keep the memory of the rest (`c70_memory_kept`).

CCEH (vendored, not used by the map; include/libpmemobj++/experimental/cceh.hpp):
- A split can lose a key: slot numbers wrap round at 1024, `Split` copies slot 0 first, and `Insert4split` drops a key for which it finds no free slot (`c71_lost_in_split`).
- `segment_insert` hashes the key in a slot with the length of the new key (190): with keys of several lengths it overwrites live keys (`c71_other_length`) or reads past the end (`c71_read_past_end`). `get` compares with `strncmp` and the length looked for (`c71_prefix_found`, `c71_nul_found`).
- `insert` never looks whether the key is there: each repetition uses up a slot, and the seventeenth insertion for one hash splits for ever (`c71_at_most_sixteen`).
- A crash between `Split` and the change of the directory leaves a segment whose depth and pattern are those of the left half only: `insert` of a key of the right half starts over for ever (`c71_cut_split`); `get` is still right (`c71_cut_split_get_partial`).
- When the directory is doubled, 437 releases a mutex inside the directory deleted at 435 (not modelled); the array of two pointers made by `Split` (264) is never freed.

level_hash (vendored, not used by the map; include/libpmemobj++/experimental/level_hash.hpp):
- `insert` does not look for the key: a second insert makes a second entry, and one `erase` leaves the other (`c72_two_entries`).
- Not more than sixteen entries with the same two hashes fit, whatever the size; the insertion of a seventeenth expands for ever or exits (`c72_at_most_sixteen`). `expand` ends the program when the two buckets of an entry in the new level are full (634-638); twenty keys suffice, at most twelve with the same hashes (`c72_exit`).
- A call that finds `need_resizing` waits until all the threads the table was made for have come (155-160): a thread that has finished its work leaves the others waiting (`c72_waits`).
- The constructor accepts `level_power` 1 (246), and the first `query` then divides by `1 / 2` (`c72_power_one`).
- A crash in `expand` loses the keys already moved: nothing reads `interim_level` after a restart (`c72_cut_expand`). A crash in `try_movement` leaves an entry twice (`c72_cut_move`).
- `update` and `erase` do not free the old entry; `generic_update` of an absent key leaks the new one; it takes a reader lock and writes (545-552) and does not come to the barrier, so it may work on levels that `expand` deletes (not modelled: one thread). `level_expand_time` is never raised, so `b2t_movement` is dead code; it would fail its assertion at 759 and copy the destination to itself (773-774).

clht (vendored, not used by the map; include/libpmemobj++/experimental/clht.hpp):
- `put_seq` never links the bucket it makes when three slots are full (806-811): each resizing loses all entries of a new bucket except three, even the one whose `put` has just succeeded (`c73_lost`).
- `persist` of a slot in the first bucket writes the line with the taken lock, and `unlock` (329-333) does not write it back; nothing resets locks after a restart. A bucket can be locked for ever by a `put` that returned (`c73_lock_kept`). `resize_lock` and `status_lock` are in the pool too.
- `erase` frees the entry before the slot is null (536-538): after a crash in between `get` reads freed memory (`c73_cut_erase`).
- `step` is a `uint8_t` and wraps (`c73_step_wraps`); a table of 0 buckets divides by zero (`c73_no_buckets`).
- `bucket_s()` starts its loop at an uninitialised `j` (173), so slots may not be set to null (taken to be null in the model). `size()` and `print()` do not compile if used (564, 859). `put` of a present key leaks the new entry. Old tables are never freed. `ht_status(true, …)` makes the table smaller if it is less than 5 % full.

libpmemobj's concurrent_hash_map (`pmemMap.hpp`): no disagreement found; C66, C67 and C68 hold.  Notes:
* A thread that stops while it holds the lock of a bucket stops the others that need the bucket [`c66_waits`]; the table is not lock-free.
* An insert that finds no room throws `std::bad_alloc` or `transaction_alloc_error`, which `pmemMap.hpp` does not catch
  [`c66_out_of_memory`]; the pool has a fixed size of 160 MB (pmemMap.hpp:93-95).
* `increment` is `insert` (pmemMap.hpp:67-68; C48).

Progress:
* A helper leaves the migration loop only when every slot is counted (hashMap.hpp:417; the early return at 461-464 is commented
  out), and a slot is counted by the thread that migrated it, later (:390, :454).  If that thread stops in between, every call of
  every other thread that names a key runs for ever [`c55_not_lock_free`, `c55_all_wait`]; the README's paper calls the map
  lock-free.  Without growth it is [`c55_no_growth_partial`].

PMwCAS:
* Phase 2 uses the local status instead of the decided one, so a helper that comes late undoes a decided operation
  [`c36_torn`], and an owner that comes late reports failure for an operation that took effect [`c36_wrong_answer`].
* Thread counts that are not powers of two lose thread ids [`c34_not_power_of_two`]; the code asserts against them (pmwcas.hpp:281).
* `recover` leaves alone every operation that was already decided [`c49_decided_left`].  The next reader of a word with its
  descriptor undoes that word only [`c49_torn`]; if its owner's descriptor has been reset meanwhile the reader never returns
  [`c49_word_lost`].
* The inner loop of `recover` hides the index of the outer one (pmwcas.hpp:968), so it checks word `i` of descriptor `i`: it reads
  past the descriptors [`c49_beyond`] and its assertions fail where nothing is wrong [`c49_false_alarm`].
* Read but not stated as theorems: marking.hpp:8-9 has the two PMwCAS flags commented out, so pmwcas.hpp does not compile as
  committed (the model takes the values in the comments).
* Sequence numbers have 61 − tidSize bits in a reference but 61 in a descriptor: once a descriptor has been used often enough, every
  reference to it is taken for an outdated one [`c34_sequence_overflow`].

## 6. Axioms

Written by `scripts/gen_axioms.py` from `#print axioms`.

<!-- axioms begin -->

**none** (9):

`c38_oracle_rejects_correct`, `c61_not_an_order`, `c69_insert_own`, `c69_not_destroyed`, `c69_overwritten`, `c69_resize_ignored`, `c72_exit`, `c72_waits`, `c73_no_buckets`

**propext** (16):

`c05_isKeyReserved`, `c11_wraps_at_2_63`, `c26_recovery_never_recovers`, `c32_passed_elem_wrong`, `c48_increment_does_nothing`, `c48_onefile_junk`, `c70_insert_own`, `c70_memory_kept`, `c70_not_destroyed`, `c71_lost_in_split`, `c71_nul_found`, `c71_other_length`, `c71_prefix_found`, `c71_read_past_end`, `c73_cut_erase`, `c73_lost`

**propext, Classical.choice, Quot.sound** (261):

`c01_call_result`, `c01_get`, `c01_single_thread_map`, `c02_help_preserves`, `c03_no_ub_no_assert`, `c04_home_slots_differ_beyond`, `c04_put_home`, `c04_same_home_slot`, `c05_marks_roundtrip`, `c05_user_word_never_marker`, `c06_container_reads`, `c07_insert_result`, `c08_container_erase`, `c08_remove_present_partial`, `c08_remove_result`, `c09_growth_destroys_counter`, `c09_increment_partial`, `c09_placeholder_stuck`, `c10_counter`, `c10_size_exact_partial`, `c10_size_wrong`, `c11_map_growth`, `c11_stays_power_of_two`, `c12_ten_probes`, `c13_distinct_partial`, `c13_eleventh_never`, `c13_get_partial`, `c13_growth_partial`, `c13_interleaved_partial`, `c13_interleaved_reopened_partial`, `c13_put_partial`, `c13_ten_keys_partial`, `c14_contains_asked`, `c14_contains_asked_reopened`, `c14_get_asked`, `c14_get_asked_reopened`, `c14_no_marks`, `c14_no_marks_reopened`, `c15_stable`, `c15_stable_reopened`, `c16_no_ub`, `c16_no_ub_reopened`, `c17_double`, `c17_double_reopened`, `c17_fixed`, `c17_fixed_reopened`, `c17_root_step`, `c17_root_step_reopened`, `c18_conditional_partial`, `c18_matchAny_not_linearizable`, `c18_one_writer_increments_no_growth_partial`, `c18_one_writer_increments_partial`, `c18_one_writer_no_growth_partial`, `c18_one_writer_partial`, `c18_opened_one_writer_no_growth_partial`, `c18_opened_with_increments_no_growth_partial`, `c18_present_keys_partial`, `c18_putIfMatch_not_linearizable`, `c18_removeIf_not_linearizable`, `c18_reopened_no_collisions_before_partial`, `c18_reopened_one_thread_before_partial`, `c18_replace_not_linearizable`, `c18_unrivalled_partial`, `c18_with_increments_partial`, `c19_one_writer_no_growth_partial`, `c19_one_writer_partial`, `c19_opened_one_writer_no_growth_partial`, `c19_results_partial`, `c19_results_reopened_partial`, `c20_counted_partial`, `c20_counted_reopened_partial`, `c21_increment_of_marker`, `c21_one_writer_no_growth_partial`, `c21_one_writer_partial`, `c21_opened_counter_no_growth_partial`, `c21_present_key_partial`, `c22_one_thread_partial`, `c22_one_writer_distinct_partial`, `c22_one_writer_partial`, `c22_one_writer_reopened_partial`, `c23_distinct_values_partial`, `c23_distinct_values_reopened_partial`, `c23_keys`, `c23_keys_reopened`, `c23_one_thread_partial`, `c23_one_thread_reopened_partial`, `c23_one_thread_words`, `c23_one_thread_words_reopened`, `c23_read_survives_partial`, `c23_read_survives_reopened_partial`, `c23_words_partial`, `c23_words_reopened_partial`, `c24_pairs`, `c24_pairs_reopened`, `c24_restart`, `c24_restart_reopened`, `c25_cut_opening`, `c25_half_inserted`, `c25_reopen`, `c25_sessions`, `c27_name_roundtrip`, `c27_name_roundtrip_fails_from_2_31`, `c27_names_distinct`, `c28_sort_order_partial`, `c28_sort_order_wrong`, `c29_next_file_already_used`, `c30_crash_invents_entry`, `c30_created_partial`, `c32_main_loop_le`, `c32_passed_elem_partial`, `c32_share_bound`, `c32_shares_add_up`, `c33_reference_container`, `c34_flags`, `c34_kcas_state`, `c34_not_power_of_two`, `c34_reference`, `c34_sequence_overflow`, `c34_word`, `c34_word_state`, `c35_all_or_nothing`, `c35_refines`, `c36_decided_once_partial`, `c36_separate_words_partial`, `c37_hashKey_bijective`, `c37_xxh64_injective_on_keys`, `c38_final_contents`, `c38_missing_prefix_accepted_partial`, `c38_missing_prefix_rejected`, `c38_oracle_accepts_partial`, `c40_increment_never_new`, `c41_restart_partial`, `c42_dealt_partial`, `c42_load`, `c42_one_thread_overflow`, `c42_run_partial`, `c43_options`, `c43_rejects`, `c43_true_is_false`, `c43_truth`, `c44_none_early`, `c44_released`, `c45_bad_lines`, `c45_counts_inbound`, `c45_outbound_wrong`, `c46_blank_line`, `c46_counts`, `c47_capacity`, `c47_capacity_partial`, `c48_adapters_partial`, `c48_clevel_count`, `c48_clevel_partial`, `c48_onefile_partial`, `c49_at_rest`, `c49_beyond`, `c49_decided_left`, `c49_undecided_partial`, `c49_word_lost`, `c50_one_writer_no_growth_partial`, `c50_one_writer_partial`, `c50_opened_one_writer_no_growth_partial`, `c51_no_collisions_partial`, `c51_one_thread_partial`, `c52_between_eras_partial`, `c52_between_phases_no_growth_partial`, `c52_between_phases_partial`, `c52_eras_then_one_thread_partial`, `c52_next_phase_after_growth_partial`, `c52_next_phase_no_growth_partial`, `c52_next_phase_partial`, `c52_opened_phases_no_growth_partial`, `c52_opened_then_one_thread_partial`, `c52_then_one_thread_no_growth_partial`, `c52_then_one_thread_partial`, `c53_accepts_no_growth_partial`, `c53_accepts_partial`, `c53_accepts_reopened_no_growth_partial`, `c53_accepts_reopened_partial`, `c53_rejects`, `c53_rejects_no_growth`, `c54_count_or_update_partial`, `c54_count_or_update_reopened_partial`, `c54_first_failure_partial`, `c54_no_growth`, `c54_no_growth_reopened`, `c54_only_the_count_partial`, `c54_update_growth`, `c55_all_wait`, `c55_no_growth_partial`, `c55_no_growth_reopened_partial`, `c55_not_lock_free`, `c55_one_writer_increments_partial`, `c55_one_writer_partial`, `c55_readers_partial`, `c55_readers_reopened_partial`, `c56_exactly_one`, `c56_one_winner`, `c57_no_ub`, `c57_prefix`, `c57_rounds`, `c58_mutual_exclusion`, `c58_never_lost`, `c59_found_before_growth`, `c59_found_before_growth_reopened_partial`, `c59_found_partial`, `c59_found_reopened_partial`, `c59_orphan`, `c59_path_without_gaps`, `c59_path_without_gaps_reopened_partial`, `c59_returned_put_not_found`, `c60_canonical`, `c60_canonical128`, `c60_product`, `c61_any_pieces_partial`, `c61_in_bounds`, `c61_less`, `c61_short_pieces_partial`, `c61_vector_modes`, `c62_map`, `c62_search_erase`, `c63_entries_partial`, `c64_search_once`, `c64_searches_partial`, `c65_goes_on_partial`, `c65_searches`, `c65_stuck`, `c66_alone`, `c66_contains`, `c66_count`, `c66_linearizable`, `c66_map`, `c66_no_deadlock`, `c66_safe`, `c67_no_leak`, `c67_reopen`, `c67_same_answers`, `c67_survives`, `c68_counters`, `c68_few_counters`, `c68_in_bounds`, `c68_no_deadlock`, `c68_own_counter`, `c68_restore`, `c69_destroyed_partial`, `c69_vector_partial`, `c70_exponential_partial`, `c70_fixed_partial`, `c71_at_most_sixteen`, `c71_cut_split`, `c71_cut_split_get_partial`, `c71_no_wrap_partial`, `c72_at_most_sixteen`, `c72_bag_partial`, `c72_cut_expand`, `c72_cut_move`, `c72_map_partial`, `c72_two_entries`, `c73_lock_kept`, `c73_lossy_partial`, `c73_small_partial`, `c73_step_wraps`

**propext, Quot.sound** (67):

`c05_isValueReserved`, `c05_markers_distinct`, `c05_sentinel_values`, `c06_beyond`, `c06_element_word`, `c07_insert_witness`, `c08_remove_absent_true`, `c09_lost_on_growth`, `c11_growth_doubles`, `c13_fuel`, `c13_fuel_interleaved`, `c13_fuel_irrelevant`, `c13_fuel_lasts`, `c18_growth_not_linearizable`, `c18_not_linearizable`, `c19_dirty_result`, `c20_counter_overrun`, `c20_early_retirement`, `c20_lost_key`, `c20_readers_retire_early`, `c21_lost_increment`, `c22_put_lost`, `c22_two_changes_lost`, `c23_read_lost`, `c24_snapshot`, `c26_bare_name_is_ub`, `c30_pairs`, `c31_every_byte_flushed`, `c31_persist_exact`, `c31_top_of_memory_never_ends`, `c32_elements_distinct`, `c36_torn`, `c36_wrong_answer`, `c39_adopts_stale_file`, `c39_new_file_partial`, `c40_increment_witness`, `c41_restart_after_growth`, `c49_false_alarm`, `c49_torn`, `c50_size_drift`, `c51_not_a_map`, `c57_every_call`, `c57_filters_differ`, `c60_digest_between`, `c60_pieces`, `c60_same_hash`, `c61_short_secret`, `c61_wrong_digest`, `c63_level_leaks`, `c63_update_leaks`, `c64_erased_back`, `c64_insert_freed`, `c64_inserted_twice`, `c64_move_freed`, `c64_search_freed`, `c64_search_null`, `c64_shared_level`, `c64_thread_number`, `c65_cut_growth`, `c65_lost_keys`, `c65_moved_freed`, `c65_past_the_end`, `c65_update_repairs`, `c66_not_vacuous`, `c66_out_of_memory`, `c66_waits`, `c72_power_one`

<!-- axioms end -->

## 7. Seeded bugs

`seeded/LOG.jsonl` has one line per experiment: the edited definition, the edit, the claim it breaks, the declarations whose proofs
then fail, the property theorems that can no longer be checked because they rest on those, those still proved, and what was tightened.
