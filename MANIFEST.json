{
 "claims": [
  {
   "property": "C01",
   "status": "proved",
   "theorems": [
    "PMap.c01_single_thread_map",
    "PMap.c01_call_result",
    "PMap.c01_get"
   ],
   "note": "About calls that return (C13 says which do). For every hash function, fuel and list of valid calls; capacities are powers of two, which hashMap.hpp:17 asks for, and no table exceeds 2^32 slots, beyond which C04 is false. The result of remove(key) is C08, update is C09, size/isEmpty are C10."
  },
  {
   "property": "C02",
   "status": "proved",
   "theorems": [
    "PMap.c02_help_preserves"
   ],
   "note": "Single-threaded; from every state reachable by any valid calls including update."
  },
  {
   "property": "C03",
   "status": "proved",
   "theorems": [
    "PMap.c03_no_ub_no_assert"
   ],
   "note": "Safe = no undefined behaviour and every assert true, also for calls that do not finish."
  },
  {
   "property": "C04",
   "status": "proved",
   "theorems": [
    "PMap.c04_put_home",
    "PMap.c04_same_home_slot",
    "PMap.c04_home_slots_differ_beyond"
   ],
   "note": "Proved up to 2^32 slots; proved false for every larger power of two."
  },
  {
   "property": "C05",
   "status": "proved",
   "theorems": [
    "PMap.c05_sentinel_values",
    "PMap.c05_markers_distinct",
    "PMap.c05_isKeyReserved",
    "PMap.c05_isValueReserved",
    "PMap.c05_marks_roundtrip",
    "PMap.c05_user_word_never_marker"
   ],
   "note": ""
  },
  {
   "property": "C06",
   "status": "proved",
   "theorems": [
    "PMap.c06_element_word",
    "PMap.c06_beyond",
    "PMap.c06_container_reads"
   ],
   "note": "Words and single-threaded container behaviour; the exact limits are proved too."
  },
  {
   "property": "C07",
   "status": "partial",
   "theorems": [
    "PMap.c07_insert_result",
    "PMap.c07_insert_witness"
   ],
   "note": "Refuted: the property does not hold of the code. Proved instead, for every reachable container state and element, that insert returns true exactly when the element was already present, with a witness. Nothing of the property as stated is proved."
  },
  {
   "property": "C08",
   "status": "partial",
   "theorems": [
    "PMap.c08_container_erase",
    "PMap.c08_remove_result",
    "PMap.c08_remove_present_partial",
    "PMap.c08_remove_absent_true"
   ],
   "note": "The property is false of the code (witness proved); the exact meaning of the result is proved, and the claim for present keys with non-zero value."
  },
  {
   "property": "C09",
   "status": "partial",
   "theorems": [
    "PMap.c09_increment_partial",
    "PMap.c09_growth_destroys_counter",
    "PMap.c09_placeholder_stuck",
    "PMap.c09_lost_on_growth"
   ],
   "note": "False when the table grows: proved for every growing call, with a concrete witness; proved when it does not grow."
  },
  {
   "property": "C10",
   "status": "partial",
   "theorems": [
    "PMap.c10_counter",
    "PMap.c10_size_exact_partial",
    "PMap.c10_size_wrong"
   ],
   "note": "False after a nested resize (witness); proved when every call ends without a pending migration."
  },
  {
   "property": "C11",
   "status": "proved",
   "theorems": [
    "PMap.c11_growth_doubles",
    "PMap.c11_stays_power_of_two",
    "PMap.c11_wraps_at_2_63",
    "PMap.c11_map_growth"
   ],
   "note": "Includes the wrap at 2^63 slots."
  },
  {
   "property": "C12",
   "status": "proved",
   "theorems": [
    "PMap.c12_ten_probes"
   ],
   "note": "For initial capacity at least 16."
  },
  {
   "property": "C13",
   "status": "partial",
   "theorems": [
    "PMap.c13_fuel",
    "PMap.c13_get_partial",
    "PMap.c13_put_partial",
    "PMap.c13_ten_keys_partial",
    "PMap.c13_eleventh_never",
    "PMap.c13_growth_partial",
    "PMap.c13_distinct_partial",
    "PMap.c13_fuel_interleaved",
    "PMap.c13_fuel_lasts",
    "PMap.c13_fuel_irrelevant",
    "PMap.c13_interleaved_partial",
    "PMap.c13_interleaved_reopened_partial"
   ],
   "note": "False as stated, and proved false: for every hash function, capacity (at least 16) and amount of fuel, putting an eleventh key with the hash of ten present ones never returns. Proved: fuel is only a bound (more fuel never changes a call that ended; in an interleaving with at least as much fuel as steps no thread runs out and the amount changes nothing); get finishes in every reachable state without a pending migration; put finishes if one of the first ten probed slots is free or holds the key; any sequence of calls naming at most ten keys finishes; and, including every resize, migration and helping loop, any sequence of calls finishes whose keys fit in some length the file system accepts (fewer keys than slots, and any m >= 10 consecutive slots are the home of at most m keys; for instance keys whose hashes differ in the low bits), without ever growing past that length. With several threads: while the table does not grow all calls end after a bounded number of steps of any scheduler that schedules unfinished threads (c13_interleaved_partial). Missing: key sets that fit in no accepted length, where the statement is false at least for equal hashes; growth with several threads (false, C55). The bound for several threads without growth holds also in maps opened again after any number of crashed sessions (c13_interleaved_reopened_partial)."
  },
  {
   "property": "C14",
   "status": "proved",
   "theorems": [
    "PMap.c14_get_asked",
    "PMap.c14_no_marks",
    "PMap.c14_contains_asked",
    "PMap.c14_get_asked_reopened",
    "PMap.c14_no_marks_reopened",
    "PMap.c14_contains_asked_reopened"
   ],
   "note": "Every thread count, program and interleaving, through any number of resizes. Also for a map opened again after any number of sessions, of any threads and with any collisions, that ended in a crash before their first growth (c14_get_asked_reopened, c14_no_marks_reopened, c14_contains_asked_reopened)."
  },
  {
   "property": "C15",
   "status": "proved",
   "theorems": [
    "PMap.c15_stable",
    "PMap.c15_stable_reopened"
   ],
   "note": "Also for a map opened again after any number of sessions, of any threads and with any collisions, that ended in a crash before their first growth (c15_stable_reopened)."
  },
  {
   "property": "C16",
   "status": "proved",
   "theorems": [
    "PMap.c16_no_ub",
    "PMap.c16_no_ub_reopened"
   ],
   "note": "Also for a map opened again after any number of sessions, of any threads and with any collisions, that ended in a crash before their first growth (c16_no_ub_reopened)."
  },
  {
   "property": "C17",
   "status": "proved",
   "theorems": [
    "PMap.c17_root_step",
    "PMap.c17_double",
    "PMap.c17_fixed",
    "PMap.c17_root_step_reopened",
    "PMap.c17_double_reopened",
    "PMap.c17_fixed_reopened"
   ],
   "note": "Also for a map opened again after any number of sessions, of any threads and with any collisions, that ended in a crash before their first growth (c17_root_step_reopened, c17_double_reopened, c17_fixed_reopened)."
  },
  {
   "property": "C18",
   "status": "partial",
   "theorems": [
    "PMap.c18_present_keys_partial",
    "PMap.c18_with_increments_partial",
    "PMap.c18_one_writer_no_growth_partial",
    "PMap.c18_one_writer_partial",
    "PMap.c18_one_writer_increments_no_growth_partial",
    "PMap.c18_one_writer_increments_partial",
    "PMap.c18_growth_not_linearizable",
    "PMap.c18_opened_with_increments_no_growth_partial",
    "PMap.c18_opened_one_writer_no_growth_partial",
    "PMap.c18_reopened_one_thread_before_partial",
    "PMap.c18_reopened_no_collisions_before_partial",
    "PMap.c18_replace_not_linearizable",
    "PMap.c18_removeIf_not_linearizable",
    "PMap.c18_putIfMatch_not_linearizable",
    "PMap.c18_conditional_partial",
    "PMap.c18_unrivalled_partial",
    "PMap.c18_matchAny_not_linearizable",
    "PMap.c18_not_linearizable"
   ],
   "note": "The property is false of the code: a two-thread history without any resize is proved not linearizable, and so is one with growth, one writer and three readers. Proved linearizable, for every schedule and number of threads, until the table grows: for all calls on any keys, starting empty, when each key has one writer (if the keys fit it never grows); and with any number of writers on keys that are present. Two writers one of which calls replace, remove(key, value) or putIfMatch with an expected value: refuted on a key present throughout, the conditional call fails although the value matches (proved for these: linearizable except that a conditional call may give up, and that only if another thread makes a call that may store the expected value; without such rivals linearizable outright, c18_unrivalled_partial). putIfMatch with MATCH_ANY mixed with removals: refuted, it stores under a removed key. Missing: two writers one of which adds the key (refuted), and growth (refuted). Also proved, for one writer per key and calls other than update, in a map opened from a file in order (c18_opened_one_writer_no_growth_partial), and so after any number of crashed sessions of one thread each, or of several threads whose keys do not collide (c18_reopened_one_thread_before_partial, c18_reopened_no_collisions_before_partial). With increments too in a map opened from a file in order, one writer per key, before its first growth (c18_opened_with_increments_no_growth_partial)."
  },
  {
   "property": "C19",
   "status": "partial",
   "theorems": [
    "PMap.c19_results_partial",
    "PMap.c19_one_writer_no_growth_partial",
    "PMap.c19_one_writer_partial",
    "PMap.c19_opened_one_writer_no_growth_partial",
    "PMap.c19_results_reopened_partial",
    "PMap.c19_dirty_result"
   ],
   "note": "The property is false of the code: witness schedule in which a caller receives a dirty word; proved for every execution that results never have the migration bit and, apart from the dirty bit, are absent or asked for; proved in full when each key has one writer, for calls that return before the table grows. Also for a map opened again after any number of sessions, of any threads and with any collisions, that ended in a crash before their first growth (c19_results_reopened_partial: the unconditional part). Also with one writer per key in a map opened from a file in order, before its first growth (c19_opened_one_writer_no_growth_partial)."
  },
  {
   "property": "C20",
   "status": "partial",
   "theorems": [
    "PMap.c20_counted_partial",
    "PMap.c20_readers_retire_early",
    "PMap.c20_counted_reopened_partial",
    "PMap.c20_early_retirement",
    "PMap.c20_lost_key",
    "PMap.c20_counter_overrun"
   ],
   "note": "The property is false of the code: witness schedules for early retirement (also when all helpers are readers), the lost key and the counter overrun; proved that the table is replaced only when the counter has reached its length. Also for a map opened again after any number of sessions, of any threads and with any collisions, that ended in a crash before their first growth (c20_counted_reopened_partial)."
  },
  {
   "property": "C21",
   "status": "partial",
   "theorems": [
    "PMap.c21_present_key_partial",
    "PMap.c21_one_writer_no_growth_partial",
    "PMap.c21_one_writer_partial",
    "PMap.c21_opened_counter_no_growth_partial",
    "PMap.c21_increment_of_marker",
    "PMap.c21_lost_increment"
   ],
   "note": "False of the code for a key that is not yet in the map: witness in which one of two increments is lost. False too for a key being removed: an increment takes the dirty removed marker for a number and is lost. Proved for every schedule when the key is already present and only incremented (whatever the other calls do to other present keys), and from an empty map, until the table grows, when one thread increments the key. Also in a map opened from a file in order, where the counter continues from the file's value (c21_opened_counter_no_growth_partial)."
  },
  {
   "property": "C22",
   "status": "partial",
   "theorems": [
    "PMap.c22_one_thread_partial",
    "PMap.c22_one_writer_partial",
    "PMap.c22_one_writer_distinct_partial",
    "PMap.c22_two_changes_lost",
    "PMap.c22_put_lost",
    "PMap.c22_one_writer_reopened_partial"
   ],
   "note": "The property is false of the code: a put that returned is lost by a crash. Proved how much can be lost when one thread runs and the table does not grow: for every crash point and every choice of write-backs, after the restart each key has the value it had at the crash or the one it had just before its last change. The same with any number of threads if each key is changed by one thread (all may read it) and no value word returns to an earlier value (in particular if the calls store different values); if a value returns, two changes of a key with one writer can be lost (c22_two_changes_lost). The same for a session of several threads in a map reopened after any number of crashed sessions of one thread (c22_one_writer_reopened_partial)."
  },
  {
   "property": "C23",
   "status": "partial",
   "theorems": [
    "PMap.c23_words_partial",
    "PMap.c23_keys",
    "PMap.c23_one_thread_words",
    "PMap.c23_read_survives_partial",
    "PMap.c23_one_thread_partial",
    "PMap.c23_distinct_values_partial",
    "PMap.c23_words_reopened_partial",
    "PMap.c23_keys_reopened",
    "PMap.c23_one_thread_words_reopened",
    "PMap.c23_read_survives_reopened_partial",
    "PMap.c23_one_thread_reopened_partial",
    "PMap.c23_distinct_values_reopened_partial",
    "PMap.c23_read_lost"
   ],
   "note": "The property is false of the code (ABA in persist): witness schedule, crash and reopen. Proved for every schedule and crash point before the first growth if no value word returns to an earlier value, in particular if no two calls store the same value under the same key, and with no condition on the values if one thread runs; key words are always durable once their dirty bit is off. All of it also for a map opened again after any number of sessions, of any threads and with any collisions, that ended in a crash before their first growth (c23_words_reopened_partial, c23_keys_reopened, c23_one_thread_words_reopened, c23_read_survives_reopened_partial, c23_one_thread_reopened_partial; with hypotheses on the calls and the file only: c23_distinct_values_reopened_partial)."
  },
  {
   "property": "C24",
   "status": "proved",
   "theorems": [
    "PMap.c24_snapshot",
    "PMap.c24_pairs",
    "PMap.c24_restart",
    "PMap.c24_pairs_reopened",
    "PMap.c24_restart_reopened"
   ],
   "note": "Every crash point; the behaviour after reopening is proved for maps that had not grown (C41 covers the rest). Also for a map opened again after any number of sessions, of any threads and with any collisions, that ended in a crash before their first growth (c24_pairs_reopened, c24_restart_reopened)."
  },
  {
   "property": "C25",
   "status": "proved",
   "theorems": [
    "PMap.c25_reopen",
    "PMap.c25_half_inserted",
    "PMap.c25_cut_opening",
    "PMap.c25_sessions"
   ],
   "note": "For every file satisfying the table invariant, and over any number of sessions before the first growth. Opening may itself be cut short by a crash any number of times, with any write-backs (c25_cut_opening, Session.cutRestart)."
  },
  {
   "property": "C26",
   "status": "partial",
   "theorems": [
    "PMap.Names.c26_recovery_never_recovers",
    "PMap.Names.c26_bare_name_is_ub"
   ],
   "note": "Refuted: the property does not hold of the code. Proved instead, for every directory listing, that the recovery constructor never yields a map. Nothing of the property as stated is proved."
  },
  {
   "property": "C27",
   "status": "proved",
   "theorems": [
    "PMap.Names.c27_name_roundtrip",
    "PMap.Names.c27_names_distinct",
    "PMap.Names.c27_name_roundtrip_fails_from_2_31"
   ],
   "note": "Proved below 2^31, and the round trip fails at 2^31."
  },
  {
   "property": "C28",
   "status": "partial",
   "theorems": [
    "PMap.Names.c28_sort_order_wrong",
    "PMap.Names.c28_sort_order_partial"
   ],
   "note": "False in general (witness proved); proved for numbers with the same number of digits."
  },
  {
   "property": "C29",
   "status": "partial",
   "theorems": [
    "PMap.Names.c29_next_file_already_used"
   ],
   "note": "Refuted: the property does not hold of the code. Proved instead, for every non-empty set of tables, that the next file is one already in use. Nothing of the property as stated is proved."
  },
  {
   "property": "C30",
   "status": "partial",
   "theorems": [
    "PMap.c30_pairs",
    "PMap.c30_crash_invents_entry",
    "PMap.c30_created_partial"
   ],
   "note": "False before PERSIST completes: proved for every hash function, length and crash point; proved true afterwards."
  },
  {
   "property": "C31",
   "status": "proved",
   "theorems": [
    "PMap.Persist.c31_persist_exact",
    "PMap.Persist.c31_every_byte_flushed",
    "PMap.Persist.c31_top_of_memory_never_ends"
   ],
   "note": "Exact flushed set; at the very top of the address space the loop never ends (proved)."
  },
  {
   "property": "C32",
   "status": "partial",
   "theorems": [
    "PMap.Harness.c32_shares_add_up",
    "PMap.Harness.c32_share_bound",
    "PMap.Harness.c32_main_loop_le",
    "PMap.Harness.c32_elements_distinct",
    "PMap.Harness.c32_passed_elem_partial",
    "PMap.Harness.c32_passed_elem_wrong"
   ],
   "note": "Shares and distinctness proved; the element handed to the container is truncated to int, proved right below 2^31 and wrong beyond."
  },
  {
   "property": "C33",
   "status": "proved",
   "theorems": [
    "PMap.c33_reference_container"
   ],
   "note": "std::map is modelled as its sorted list of entries."
  },
  {
   "property": "C34",
   "status": "partial",
   "theorems": [
    "PMap.KCAS.c34_reference",
    "PMap.KCAS.c34_word",
    "PMap.KCAS.c34_flags",
    "PMap.KCAS.c34_kcas_state",
    "PMap.KCAS.c34_word_state",
    "PMap.KCAS.c34_not_power_of_two",
    "PMap.KCAS.c34_sequence_overflow"
   ],
   "note": "Proved for every thread count that is a power of two (up to 2^16), which the code asserts; the quantifier says every thread count, and for every other count it is proved false (c34_not_power_of_two). A descriptor number beyond the reference's bits is lost in the reference (c34_sequence_overflow)."
  },
  {
   "property": "C35",
   "status": "proved",
   "theorems": [
    "PMap.KCAS.c35_all_or_nothing",
    "PMap.KCAS.c35_refines"
   ],
   "note": "Run alone from any memory whose named words hold values (not descriptors), as long as sequence numbers do not overflow; and for any sequence of calls by threads taking turns."
  },
  {
   "property": "C36",
   "status": "partial",
   "theorems": [
    "PMap.KCAS.c36_separate_words_partial",
    "PMap.KCAS.c36_decided_once_partial",
    "PMap.KCAS.c36_torn",
    "PMap.KCAS.c36_wrong_answer"
   ],
   "note": "False of the code, with two witness schedules: a torn update reported as success, and a complete update reported as failure. Proved: with threads naming different words every interleaving behaves atomically; with any overlap and helping, a decided operation never changes its decision. Missing: overlapping words, where the statement is false."
  },
  {
   "property": "C37",
   "status": "proved",
   "theorems": [
    "PMap.XXH.c37_xxh64_injective_on_keys",
    "PMap.XXH.c37_hashKey_bijective"
   ],
   "note": ""
  },
  {
   "property": "C38",
   "status": "partial",
   "theorems": [
    "PMap.Harness.c38_final_contents",
    "PMap.Harness.c38_oracle_accepts_partial",
    "PMap.Harness.c38_oracle_rejects_correct",
    "PMap.Harness.c38_missing_prefix_rejected",
    "PMap.Harness.c38_missing_prefix_accepted_partial"
   ],
   "note": "False for even shares below ten (witness), and in the driver's own use for shares of at least twenty of threads other than 0, whose prefix nobody runs (c38_missing_prefix_rejected, for all such shares); proved otherwise."
  },
  {
   "property": "C39",
   "status": "partial",
   "theorems": [
    "PMap.c39_new_file_partial",
    "PMap.c39_adopts_stale_file"
   ],
   "note": "False when the file already exists (witness from a real previous session); proved when it does not."
  },
  {
   "property": "C40",
   "status": "partial",
   "theorems": [
    "PMap.c40_increment_never_new",
    "PMap.c40_increment_witness"
   ],
   "note": "Refuted: the property does not hold of the code. Proved instead that no increment in any reachable state returns the new counter, with a witness. Nothing of the property as stated is proved."
  },
  {
   "property": "C41",
   "status": "partial",
   "theorems": [
    "PMap.c41_restart_after_growth",
    "PMap.c41_restart_partial"
   ],
   "note": "False after growth (witness: lost key and null dereference); proved before the first growth."
  },
  {
   "property": "C42",
   "status": "partial",
   "theorems": [
    "PMap.Work.c42_dealt_partial",
    "PMap.Work.c42_one_thread_overflow",
    "PMap.Work.c42_run_partial",
    "PMap.Work.c42_load"
   ],
   "note": "False with one thread and more than 16000000 operations: the queue is overrun (proved for every such file); proved for every other number of threads and, with one thread, up to that length."
  },
  {
   "property": "C43",
   "status": "proved",
   "theorems": [
    "PMap.Work.c43_options",
    "PMap.Work.c43_rejects",
    "PMap.Work.c43_truth",
    "PMap.Work.c43_true_is_false"
   ],
   "note": "Includes what is refused, what numbers mean as truth values, and that a truth value given as a word means false."
  },
  {
   "property": "C44",
   "status": "proved",
   "theorems": [
    "PMap.Work.c44_none_early",
    "PMap.Work.c44_released"
   ],
   "note": "Every interleaving; both directions."
  },
  {
   "property": "C45",
   "status": "partial",
   "theorems": [
    "PMap.Work.c45_counts_inbound",
    "PMap.Work.c45_outbound_wrong",
    "PMap.Work.c45_bad_lines"
   ],
   "note": "False of the code, with a witness: it is the inbound edges that are counted. Proved for every set of edge files and every interleaving what is counted instead; only the files of the first min(T, 4) threads are read. Nothing of the property as stated is proved."
  },
  {
   "property": "C46",
   "status": "proved",
   "theorems": [
    "PMap.Work.c46_counts",
    "PMap.Work.c46_blank_line"
   ],
   "note": "For files with one number on each line; a blank line counts the number before it again (proved)."
  },
  {
   "property": "C47",
   "status": "partial",
   "theorems": [
    "PMap.Work.c47_capacity",
    "PMap.Work.c47_capacity_partial"
   ],
   "note": "False from 31 on (int shift); proved below."
  },
  {
   "property": "C48",
   "status": "partial",
   "theorems": [
    "PMap.Clevel.c48_clevel_partial",
    "PMap.Clevel.c48_clevel_count",
    "PMap.Work.c48_increment_does_nothing",
    "PMap.Work.c48_adapters_partial",
    "PMap.Work.c48_onefile_partial",
    "PMap.Work.c48_onefile_junk"
   ],
   "note": "False of the code: increment of a present element does nothing in any of the adapters (proved for every state); clevel's count is its capacity; OneFile's get of an absent element returns an uninitialised variable. Proved for all other calls."
  },
  {
   "property": "C49",
   "status": "partial",
   "theorems": [
    "PMap.KCAS.c49_at_rest",
    "PMap.KCAS.c49_undecided_partial",
    "PMap.KCAS.c49_decided_left",
    "PMap.KCAS.c49_torn",
    "PMap.KCAS.c49_word_lost",
    "PMap.KCAS.c49_false_alarm",
    "PMap.KCAS.c49_beyond"
   ],
   "note": "False of the code, with witnesses: after a crash behind the decision one word stays changed and the other goes back (c49_torn), a word can become unreadable for ever (c49_word_lost), assertions fail without cause (c49_false_alarm), and the check runs past the descriptors (c49_beyond, for every memory where thread i's last operation had more than i words). Proved for every crash point before the decision, apart from the assertions; memory at rest is left alone. Missing: crashes after the decision, several interrupted threads, stores not yet written back."
  },
  {
   "property": "C50",
   "status": "partial",
   "theorems": [
    "PMap.c50_one_writer_no_growth_partial",
    "PMap.c50_one_writer_partial",
    "PMap.c50_size_drift",
    "PMap.c50_opened_one_writer_no_growth_partial"
   ],
   "note": "False of the code: witness of two threads after which the key is there and size() is 0. Proved for every schedule and number of threads when each key has one writer and the table has not grown. Also in a map opened from a file in order, before its first growth (c50_opened_one_writer_no_growth_partial)."
  },
  {
   "property": "C51",
   "status": "partial",
   "theorems": [
    "PMap.c51_one_thread_partial",
    "PMap.c51_not_a_map",
    "PMap.c51_no_collisions_partial"
   ],
   "note": "False of the code with several threads: a witness in which an unreachable pair is left in the file, and a key that was put and removed after the restart comes back after a growth. The witness has one writer for each key. Proved for one thread over any number of crashes before the first growth; and for any number of threads, over any number of crashes, when the changed keys have different home slots, each key has one writer in a session, and no value word returns (c51_no_collisions_partial). Crashes while the file is being opened are included, any number of them after each crash."
  },
  {
   "property": "C52",
   "status": "partial",
   "theorems": [
    "PMap.c52_next_phase_no_growth_partial",
    "PMap.c52_next_phase_partial",
    "PMap.c52_between_phases_no_growth_partial",
    "PMap.c52_between_phases_partial",
    "PMap.c52_then_one_thread_no_growth_partial",
    "PMap.c52_then_one_thread_partial",
    "PMap.c52_next_phase_after_growth_partial",
    "PMap.c52_between_eras_partial",
    "PMap.c52_eras_then_one_thread_partial",
    "PMap.c52_opened_phases_no_growth_partial",
    "PMap.c52_opened_then_one_thread_partial"
   ],
   "note": "False of the code with growth (c20_lost_key: an entry is gone when all calls have ended) and with two writers of one key at a time (c18_not_linearizable, c50_size_drift). Proved for any number of phases in each of which every key has one writer, writers changing between phases, while no table is allocated during a phase; between the phases one thread may make any calls, with any number of growths, as long as each ends with no migration pending (c52_next_phase_after_growth_partial, c52_between_eras_partial); at the end one thread may go on with any calls and any growth. Also for maps opened from a file in order (c52_opened_phases_no_growth_partial, c52_opened_then_one_thread_partial)."
  },
  {
   "property": "C53",
   "status": "partial",
   "theorems": [
    "PMap.Harness.c53_accepts_no_growth_partial",
    "PMap.Harness.c53_accepts_partial",
    "PMap.Harness.c53_accepts_reopened_no_growth_partial",
    "PMap.Harness.c53_accepts_reopened_partial",
    "PMap.Harness.c53_rejects_no_growth",
    "PMap.Harness.c53_rejects"
   ],
   "note": "False for two or more threads with at least twenty operations each: the check throws after every run (c53_rejects). Proved for all interleavings otherwise (shares odd or at least ten, below twenty except for thread 0), when the table has not grown (which keys that fit ensure), both for the map as it is and after a clean restart. Growth is not covered (C20), nor the constructor call of line 96, which never succeeds (C26)."
  },
  {
   "property": "C54",
   "status": "partial",
   "theorems": [
    "PMap.c54_count_or_update_partial",
    "PMap.c54_only_the_count_partial",
    "PMap.c54_first_failure_partial",
    "PMap.c54_no_growth",
    "PMap.c54_update_growth",
    "PMap.c54_count_or_update_reopened_partial",
    "PMap.c54_no_growth_reopened"
   ],
   "note": "False of hashMap.hpp:131 (c20_counter_overrun: the count of migrated slots exceeds the table's length). Also false of line 1046 when update and a growth meet (c54_update_growth: an update stores the absent marker while the slot is being copied, and the next helper is asked to put it into the new table). Proved for every interleaving of valid calls other than update: an assertion that fails is the one of line 131, the table it speaks of has a successor, and its count really would exceed its length (c54_only_the_count_partial, c54_first_failure_partial); with update: that, or some table has a successor and update has been called (c54_count_or_update_partial). So for all valid calls, as long as no table has a successor no assertion fails (c54_no_growth). The index assertions (502-534) are undefined behaviour in the model and covered by C16; 487-488 follow from C17 when the first table has at least 8 slots. Not covered: which assertions can fail with update after a growth, and the constructors' assertions. Also for a map opened again after any number of sessions, of any threads and with any collisions, that ended in a crash before their first growth (c54_count_or_update_reopened_partial, c54_no_growth_reopened)."
  },
  {
   "property": "C55",
   "status": "partial",
   "theorems": [
    "PMap.c55_all_wait",
    "PMap.c55_not_lock_free",
    "PMap.c55_one_writer_partial",
    "PMap.c55_one_writer_increments_partial",
    "PMap.c55_no_growth_partial",
    "PMap.c55_readers_partial",
    "PMap.c55_no_growth_reopened_partial",
    "PMap.c55_readers_reopened_partial"
   ],
   "note": "False of the code while a table grows: a thread that stops between migrating slots and counting them makes every other call on a key wait for ever (c55_not_lock_free, for every schedule of the others; c55_all_wait for every such memory). Proved: while each key has one writer and the table does not grow, calls are wait-free with an explicit bound on own steps (c55_one_writer_partial, c55_one_writer_increments_partial); while the table does not grow, for any valid calls on shared keys, the map is lock-free with an explicit bound on the steps without a return (c55_no_growth_partial), and threads that only read are wait-free (c55_readers_partial). Missing: growth, where it is false. What is proved while the table does not grow holds also in maps opened again after any number of crashed sessions (c55_no_growth_reopened_partial, c55_readers_reopened_partial)."
  },
  {
   "property": "C56",
   "status": "proved",
   "theorems": [
    "PMap.c56_one_winner",
    "PMap.c56_exactly_one"
   ],
   "note": "Proved for every schedule and number of threads on keys that are present, in a table that does not grow."
  },
  {
   "property": "C57",
   "status": "proved",
   "theorems": [
    "PMap.Random.c57_prefix",
    "PMap.Random.c57_rounds",
    "PMap.Random.c57_every_call",
    "PMap.Random.c57_no_ub",
    "PMap.Random.c57_filters_differ"
   ],
   "note": "Assertions are C54. The two loops that draw again test different words (c57_filters_differ); neither ever does for what rand() returns."
  },
  {
   "property": "C58",
   "status": "proved",
   "theorems": [
    "PMap.c58_mutual_exclusion",
    "PMap.c58_never_lost"
   ],
   "note": "Proved for every schedule and number of threads on a key that is present, in a table that does not grow; taking the lock may fail although it is free (c18_replace_not_linearizable)."
  },
  {
   "property": "C59",
   "status": "partial",
   "theorems": [
    "PMap.c59_path_without_gaps",
    "PMap.c59_found_partial",
    "PMap.c59_found_before_growth",
    "PMap.c59_returned_put_not_found",
    "PMap.c59_path_without_gaps_reopened_partial",
    "PMap.c59_found_reopened_partial",
    "PMap.c59_found_before_growth_reopened_partial",
    "PMap.c59_orphan"
   ],
   "note": "The first part is proved for every interleaving and any growth (c59_path_without_gaps). The second is false of the code once a table has grown, with a witness in which nothing is removed and each key has one writer: a put has returned, no call is in progress, and get does not find the key, which reappears after the next growth (c59_returned_put_not_found). Proved: every get that meets no tombstone key before its key, in a table without successor (c59_found_partial), which is every get before the first growth (c59_found_before_growth). Missing: gets while the table is being copied, where C20 shows keys can be lost. Also in a map opened from a file in order, as one thread, or several whose keys do not collide, leave it (c59_path_without_gaps_reopened_partial, c59_found_reopened_partial, c59_found_before_growth_reopened_partial); false of reopened maps in general (c59_orphan)."
  },
  {
   "property": "C60",
   "status": "proved",
   "theorems": [
    "PMap.XXH.c60_pieces",
    "PMap.XXH.c60_digest_between",
    "PMap.XXH.c60_same_hash",
    "PMap.XXH.c60_product",
    "PMap.XXH.c60_canonical",
    "PMap.XXH.c60_canonical128"
   ],
   "note": "Hypothesis: the lengths of all pieces add up to at most 2^64 - 32 (the code adds a length to the size of the buffered part in 64 bits). The pointer bEnd - N/2 at line 1861, which may lie before the buffer, is compared as a number. operator= (1920-1923), which lacks its return statement, is not modelled."
  },
  {
   "property": "C61",
   "status": "partial",
   "theorems": [
    "PMap.XXH.c61_short_pieces_partial",
    "PMap.XXH.c61_any_pieces_partial",
    "PMap.XXH.c61_wrong_digest",
    "PMap.XXH.c61_in_bounds",
    "PMap.XXH.c61_short_secret",
    "PMap.XXH.c61_vector_modes",
    "PMap.XXH.c61_not_an_order",
    "PMap.XXH.c61_less"
   ],
   "note": "The part on pieces is false of the code, with a witness (c61_wrong_digest: one piece of 257 bytes): whole buffers are consumed straight from the input, and the last stripe is completed from the end of a buffer that does not hold the bytes before it. Proved instead: the digest is right if every piece has less than 256 bytes (c61_short_pieces_partial), and for all pieces if the input has at most 240 bytes or does not end in the first 63 bytes of a group of 256 (c61_any_pieces_partial). The vector modes (c61_vector_modes) and the bounds (c61_in_bounds, for secrets from 135 bytes; c61_short_secret shows that 134 are too few) are proved in full. The order is false of the code (c61_not_an_order); c61_less says what operator< does compute."
  },
  {
   "property": "C62",
   "status": "proved",
   "theorems": [
    "PMap.Clevel.c62_map",
    "PMap.Clevel.c62_search_erase"
   ],
   "note": "c62_map for all calls, c62_search_erase for the two that allocate nothing. That the pool admits at most 15 doublings is so for the pool of levelMap.hpp (2621440 buckets of 64 bytes, HashPower 14)."
  },
  {
   "property": "C63",
   "status": "partial",
   "theorems": [
    "PMap.Clevel.c63_update_leaks",
    "PMap.Clevel.c63_level_leaks",
    "PMap.Clevel.c63_entries_partial"
   ],
   "note": "False of the code, with witnesses: an update leaves the entry it replaces (c63_update_leaks), and a level that is dropped and metadata that is replaced are never freed (c63_level_leaks). Proved instead: without updates that find their key the live entries are one for each pair (c63_entries_partial); with them, one more for each (c62_map)."
  },
  {
   "property": "C64",
   "status": "partial",
   "theorems": [
    "PMap.Clevel.c64_thread_number",
    "PMap.Clevel.c64_search_null",
    "PMap.Clevel.c64_search_freed",
    "PMap.Clevel.c64_insert_freed",
    "PMap.Clevel.c64_move_freed",
    "PMap.Clevel.c64_erased_back",
    "PMap.Clevel.c64_shared_level",
    "PMap.Clevel.c64_inserted_twice",
    "PMap.Clevel.c64_searches_partial",
    "PMap.Clevel.c64_search_once"
   ],
   "note": "False of the code: levelMap.hpp calls set_thread_num(1), so any insert by a thread other than the first writes outside an array (c64_thread_number); a search beside the background thread dereferences null (c64_search_null); entries are freed while others use them (c64_search_freed, c64_insert_freed, c64_move_freed, c64_erased_back); the background thread shares the temporaries of thread 0 (c64_shared_level); two inserts of one key both succeed (c64_inserted_twice). Proved: any number of searches beside the background thread answer correctly whenever they return (c64_searches_partial), and with one load of the slot in place of three their behaviour is defined too (c64_search_once). Missing: inserts, erases and updates beside others."
  },
  {
   "property": "C65",
   "status": "partial",
   "theorems": [
    "PMap.Clevel.c65_moved_freed",
    "PMap.Clevel.c65_update_repairs",
    "PMap.Clevel.c65_cut_growth",
    "PMap.Clevel.c65_past_the_end",
    "PMap.Clevel.c65_lost_keys",
    "PMap.Clevel.c65_goes_on_partial",
    "PMap.Clevel.c65_searches",
    "PMap.Clevel.c65_stuck"
   ],
   "note": "False of the code: a failure between the two stores of a move leaves two pointers to one entry, and an erase then frees it and reads it (c65_moved_freed; an update of the key would have repaired it, c65_update_repairs); a failure between linking a new level and replacing the metadata makes inserts into full buckets run for ever (c65_cut_growth, and in general c65_stuck). The position of the background thread and the dropping of a level are separate stores: if the thread runs again after a failure between them it reads outside the level (c65_past_the_end) or loses keys (c65_lost_keys); the code does not start it again. Proved: failures at any other point of calls and of rounds of the background thread, any number of them, with any calls afterwards, also rounds if the position is right (c65_goes_on_partial); searches after a failure anywhere (c65_searches). Missing: inserts, erases and updates after a failure between the two stores of a move or of growth, where the property is false."
  },
  {
   "property": "C66",
   "status": "proved",
   "theorems": [
    "PMap.Pmem.c66_linearizable",
    "PMap.Pmem.c66_not_vacuous",
    "PMap.Pmem.c66_safe",
    "PMap.Pmem.c66_no_deadlock",
    "PMap.Pmem.c66_waits",
    "PMap.Pmem.c66_alone",
    "PMap.Pmem.c66_out_of_memory",
    "PMap.Pmem.c66_map",
    "PMap.Pmem.c66_count",
    "PMap.Pmem.c66_contains"
   ],
   "note": "A transaction of libpmemobj is one atomic action and is durable or not as a whole; walking the list of a bucket is one action, which is justified since an access without the bucket's lock is undefined behaviour in the model and c66_safe shows there is none. The behaviour after an allocation has failed (c66_out_of_memory shows it can) is not modelled: the thread stops. Threads can block each other (c66_waits), which the claim allows. count() while calls run is not claimed."
  },
  {
   "property": "C67",
   "status": "proved",
   "theorems": [
    "PMap.Pmem.c67_reopen",
    "PMap.Pmem.c67_same_answers",
    "PMap.Pmem.c67_survives",
    "PMap.Pmem.c67_no_leak"
   ],
   "note": "Hypotheses as for C66. The durable state is what transactions have committed and, of the mark of a bucket, either value if it was not flushed. That the transactions of libpmemobj are atomic is assumed."
  },
  {
   "property": "C68",
   "status": "proved",
   "theorems": [
    "PMap.Pmem.Tls.c68_counters",
    "PMap.Pmem.Tls.c68_restore",
    "PMap.Pmem.Tls.c68_own_counter",
    "PMap.Pmem.Tls.c68_in_bounds",
    "PMap.Pmem.Tls.c68_no_deadlock",
    "PMap.Pmem.Tls.c68_few_counters"
   ],
   "note": "Justifies the one number diff in the model of C66 and C67. Simplified: segment_vector is a list and its resize one transaction. The cached size is not part of a transaction, so after a failure it holds any value until the pool has been opened."
  },
  {
   "property": "C69",
   "status": "partial",
   "theorems": [
    "PMap.Pmem.Seg.c69_vector_partial",
    "PMap.Pmem.Seg.c69_destroyed_partial",
    "PMap.Pmem.Seg.c69_resize_ignored",
    "PMap.Pmem.Seg.c69_insert_own",
    "PMap.Pmem.Seg.c69_not_destroyed",
    "PMap.Pmem.Seg.c69_overwritten"
   ],
   "note": "Proved for all calls modelled except where refuted: resize(count, value) does nothing when count is the capacity (c69_resize_ignored), insert of an own element inserts another value (c69_insert_own), erase does not destroy and insert creates over a live object (c69_not_destroyed, c69_overwritten). Not modelled: ranges of iterators other than copies of a value, snapshots, moved-from values that differ, constructors that throw."
  },
  {
   "property": "C70",
   "status": "partial",
   "theorems": [
    "PMap.Pmem.Seg.c70_exponential_partial",
    "PMap.Pmem.Seg.c70_fixed_partial",
    "PMap.Pmem.Seg.c70_insert_own",
    "PMap.Pmem.Seg.c70_not_destroyed",
    "PMap.Pmem.Seg.c70_memory_kept"
   ],
   "note": "Proved for both policies and both kinds of storage except where refuted: insert of an own element (c70_insert_own), removed elements of the last segment are not destroyed (c70_not_destroyed), free_data after erase keeps memory (c70_memory_kept). The array of segments is a list whose own growth is one step. Not modelled: ranges of iterators other than copies of a value, copies and swaps of whole vectors, snapshots."
  },
  {
   "property": "C71",
   "status": "partial",
   "theorems": [
    "PMap.CCEH.c71_no_wrap_partial",
    "PMap.CCEH.c71_at_most_sixteen",
    "PMap.CCEH.c71_cut_split",
    "PMap.CCEH.c71_cut_split_get_partial",
    "PMap.CCEH.c71_lost_in_split",
    "PMap.CCEH.c71_other_length",
    "PMap.CCEH.c71_read_past_end",
    "PMap.CCEH.c71_prefix_found",
    "PMap.CCEH.c71_nul_found"
   ],
   "note": "c71_no_wrap_partial: keys of one length of at least 8 bytes, without zero bytes, with homes in the first 253 of 256 cache lines and at most 16 insertions per hash value; then everything returns and get is exact. Each of the conditions is needed: c71_lost_in_split, c71_other_length, c71_read_past_end, c71_prefix_found, c71_nul_found, c71_at_most_sixteen refute the claim without it. After a crash in a split get is still right (c71_cut_split_get_partial), but inserts of the other half hang (c71_cut_split). Missing: several threads; allocation failures; the mutex released at 437 in a directory deleted at 435."
  },
  {
   "property": "C72",
   "status": "partial",
   "theorems": [
    "PMap.LevelHash.c72_bag_partial",
    "PMap.LevelHash.c72_map_partial",
    "PMap.LevelHash.c72_two_entries",
    "PMap.LevelHash.c72_at_most_sixteen",
    "PMap.LevelHash.c72_power_one",
    "PMap.LevelHash.c72_cut_expand",
    "PMap.LevelHash.c72_cut_move",
    "PMap.LevelHash.c72_exit",
    "PMap.LevelHash.c72_waits"
   ],
   "note": "c72_bag_partial, c72_map_partial: for power at least 2 and calls that return, the table is a bag of entries, and a map for a caller that inserts absent keys only, through all displacements and expansions. Refuted: insert of a key that is there (c72_two_entries), calls that never return or end the program (c72_at_most_sixteen, c72_exit, c72_waits), level_power 1 (c72_power_one), crashes (c72_cut_expand, c72_cut_move). One thread; step 3 of generic_insert is left out, being dead code."
  },
  {
   "property": "C73",
   "status": "partial",
   "theorems": [
    "PMap.Clht.c73_lossy_partial",
    "PMap.Clht.c73_small_partial",
    "PMap.Clht.c73_lost",
    "PMap.Clht.c73_step_wraps",
    "PMap.Clht.c73_no_buckets",
    "PMap.Clht.c73_lock_kept",
    "PMap.Clht.c73_cut_erase"
   ],
   "note": "c73_lossy_partial: for every hash function and sequence of calls every call returns, and the table is a map from which a resizing takes exactly the entries beyond three per new bucket; c73_small_partial: exactly a map up to three puts per bucket of the first table. Refuted: entries are lost in resizings (c73_lost), the place returned (c73_step_wraps), no buckets (c73_no_buckets), crashes (c73_lock_kept, c73_cut_erase). One thread; the uninitialised j of bucket_s() is taken to be 0."
  }
 ]
}