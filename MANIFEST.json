{
 "claims": [
  {
   "property": "C01",
   "status": "proved",
   "theorems": [
    "Verif.BitVector.C01_fillField",
    "Verif.BitVector.C01_peekField",
    "Verif.BitVector.C01_roundtrip",
    "Verif.BitVector.C01_bit_after_fill",
    "Verif.BitVector.C01_fillField_misfit",
    "Verif.BitVector.C01_peekField_safe_iff"
   ],
   "note": ""
  },
  {
   "property": "C02",
   "status": "proved",
   "theorems": [
    "Verif.BitVector.C02_fillFieldReversed",
    "Verif.BitVector.C02_peekFieldReversed",
    "Verif.BitVector.C02_roundtrip",
    "Verif.BitVector.C02_misfit",
    "Verif.BitVector.C02_mirror_read",
    "Verif.BitVector.C02_mirror_write"
   ],
   "note": ""
  },
  {
   "property": "C03",
   "status": "proved",
   "theorems": [
    "Verif.BitVector.C03_serialise",
    "Verif.BitVector.C03_serialise_reversed",
    "Verif.BitVector.C03_no_overrun"
   ],
   "note": ""
  },
  {
   "property": "C04",
   "status": "proved",
   "theorems": [
    "Verif.BitVector.C04_pack_layout",
    "Verif.BitVector.C04_packToString_eq_pack",
    "Verif.BitVector.C04_unpack_layout",
    "Verif.BitVector.C04_roundtrip"
   ],
   "note": ""
  },
  {
   "property": "C05",
   "status": "partial",
   "theorems": [
    "Verif.BitVector.C05_unhex",
    "Verif.BitVector.C05_hex_roundtrip_partial",
    "Verif.BitVector.C05_refuted",
    "Verif.BitVector.C05_hex_not_injective",
    "Verif.BitVector.C05_unhex_whitespace_rereads"
   ],
   "note": "hex()/unhex() round trip fails for lengths not a multiple of 4 (the printed hex does not carry the length): C05_refuted and C05_hex_not_injective give witnesses; C05_hex_roundtrip_partial proves the round trip for whole nibbles."
  },
  {
   "property": "C06",
   "status": "proved",
   "theorems": [
    "Verif.Crc.C06_codeword_checks",
    "Verif.Crc.C06_inverted_codeword",
    "Verif.Crc.C06_target_frame"
   ],
   "note": ""
  },
  {
   "property": "C07",
   "status": "proved",
   "theorems": [
    "Verif.Crc.C07_burst_syndrome_nonzero",
    "Verif.Crc.C07_burst_detected",
    "Verif.Crc.C07_single_bit_detected",
    "Verif.Crc.C07_constant_term_needed"
   ],
   "note": ""
  },
  {
   "property": "C08",
   "status": "proved",
   "theorems": [
    "Verif.Crc.C08_syndrome_is_remainder",
    "Verif.Crc.C08_parity_is_remainder",
    "Verif.Crc.C08_lengths",
    "Verif.Crc.C08_linear"
   ],
   "note": ""
  },
  {
   "property": "C09",
   "status": "proved",
   "theorems": [
    "Verif.BitVector.C09_map",
    "Verif.BitVector.C09_unmap",
    "Verif.BitVector.C09_unmap_map",
    "Verif.BitVector.C09_map_unmap"
   ],
   "note": ""
  },
  {
   "property": "C10",
   "status": "proved",
   "theorems": [
    "Verif.Soft.C10_copyPunctured",
    "Verif.Soft.C10_copyPunctured_rejects",
    "Verif.Soft.C10_copyUnPunctured",
    "Verif.Soft.C10_copyUnPunctured_rejects",
    "Verif.Soft.C10_puncture_unpuncture",
    "Verif.Soft.C10_unpuncture_puncture"
   ],
   "note": ""
  },
  {
   "property": "C11",
   "status": "proved",
   "theorems": [
    "Verif.BitVector.C11_LSB8MSB",
    "Verif.BitVector.C11_involution"
   ],
   "note": ""
  },
  {
   "property": "C12",
   "status": "partial",
   "theorems": [
    "Verif.BitVector.C12_invert_bit",
    "Verif.BitVector.C12_invert_invert",
    "Verif.BitVector.C12_eq_sound",
    "Verif.BitVector.C12_eq_refuted",
    "Verif.BitVector.C12_eq_iff_bits_partial"
   ],
   "note": "operator== compares the raw chars, so two vectors with the same bits but different char values are unequal (C12_eq_refuted); C12_eq_iff_bits_partial proves the equivalence for normalised vectors."
  },
  {
   "property": "C13",
   "status": "proved",
   "theorems": [
    "Verif.BitVector.C13_sum",
    "Verif.BitVector.C13_sum_invert",
    "Verif.BitVector.C13_sum_append"
   ],
   "note": ""
  },
  {
   "property": "C14",
   "status": "proved",
   "theorems": [
    "Verif.Soft.C14_slice_of_bits",
    "Verif.Soft.C14_slice_threshold"
   ],
   "note": ""
  },
  {
   "property": "C15",
   "status": "proved",
   "theorems": [
    "Verif.VectorHeap.C15_segment_aliases",
    "Verif.VectorHeap.C15_clone_independent"
   ],
   "note": ""
  },
  {
   "property": "C16",
   "status": "proved",
   "theorems": [
    "Verif.VectorHeap.C16_owned_once",
    "Verif.VectorHeap.C16_no_leak",
    "Verif.VectorHeap.C16_destroy_total"
   ],
   "note": ""
  },
  {
   "property": "C17",
   "status": "partial",
   "theorems": [
    "Verif.VectorHeap.C17_assign_partial",
    "Verif.VectorHeap.C17_self_refuted",
    "Verif.VectorHeap.C17_own_segment_refuted"
   ],
   "note": "Self-assignment of an owning vector frees the contents it is about to copy (C17_self_refuted) and assigning a vector from a segment of itself leaves a dangling source (C17_own_segment_refuted); C17_assign_partial proves assignment for every other pair."
  },
  {
   "property": "C18",
   "status": "partial",
   "theorems": [
    "Verif.VectorHeap.C18_concat",
    "Verif.VectorHeap.C18_segment",
    "Verif.VectorHeap.C18_head_tail",
    "Verif.VectorHeap.C18_out_of_range_partial",
    "Verif.VectorHeap.C18_tail_refuted",
    "Verif.VectorHeap.C18_segment_wrap_refuted",
    "Verif.VectorHeap.C18_copyToSegment_partial",
    "Verif.VectorHeap.C18_segmentCopyTo_partial",
    "Verif.VectorHeap.C18_copyToSegment_overlap_refuted",
    "Verif.VectorHeap.C18_segmentCopyTo_overlap_refuted",
    "Verif.VectorHeap.C18_read_partial",
    "Verif.VectorHeap.C18_write_partial",
    "Verif.VectorHeap.C18_index_wrap_refuted",
    "Verif.VectorHeap.C18_fill_partial",
    "Verif.VectorHeap.C18_copy_out_of_range_partial"
   ],
   "note": "tail() beyond the end passes its assertion (C18_tail_refuted), a segment whose end wraps around passes too (C18_segment_wrap_refuted), and copying between overlapping segments is an undefined memcpy (C18_copyToSegment_overlap_refuted, C18_segmentCopyTo_overlap_refuted); contents of concat, segment, head and tail are proved for all in-range arguments and copies for non-overlapping ranges."
  },
  {
   "property": "C19",
   "status": "partial",
   "theorems": [
    "Verif.Lists.C19_ideal_deque",
    "Verif.Lists.C19_size_partial",
    "Verif.Lists.C19_size_refuted",
    "Verif.Lists.C19_null_iff_empty"
   ],
   "note": "Order and results are proved for every history; size() is a 32-bit counter and is 0 with 2^32 elements (C19_size_refuted), exact below (C19_size_partial)."
  },
  {
   "property": "C20",
   "status": "proved",
   "theorems": [
    "Verif.Lists.C20_recycling",
    "Verif.Lists.C20_high_water"
   ],
   "note": ""
  },
  {
   "property": "C21",
   "status": "proved",
   "theorems": [
    "Verif.Lists.C21_list"
   ],
   "note": "Pushing an element that is already in the list loses elements (example beside the theorem), hence the condition."
  },
  {
   "property": "C22",
   "status": "proved",
   "theorems": [
    "Verif.Interthread.C22_linearizable",
    "Verif.Interthread.C22_real_time",
    "Verif.Interthread.C22_fifo",
    "Verif.Interthread.C22_conservation"
   ],
   "note": ""
  },
  {
   "property": "C23",
   "status": "proved",
   "theorems": [
    "Verif.Interthread.C23_covered",
    "Verif.Interthread.C23_no_lost_wakeup",
    "Verif.Interthread.C23_settled",
    "Verif.Interthread.C23_progress",
    "Verif.Interthread.C23_nonnull_needed"
   ],
   "note": ""
  },
  {
   "property": "C24",
   "status": "partial",
   "theorems": [
    "Verif.Interthread.C24_null_only_near_deadline_partial",
    "Verif.Interthread.C24_takes_item",
    "Verif.Interthread.C24_returns_at_deadline_partial",
    "Verif.Interthread.C24_long_timeout_refuted"
   ],
   "note": "Timeouts of about 24.9 days or more overflow the remaining-time computation and the call gives up at once (C24_long_timeout_refuted); the partials cover deadlines within 24 days of the clock."
  },
  {
   "property": "C25",
   "status": "partial",
   "theorems": [
    "Verif.Interthread.C25_returns_only_nonempty",
    "Verif.Interthread.C25_returns_when_nonempty_partial",
    "Verif.Interthread.C25_timeout_refuted"
   ],
   "note": "False: once the deadline has passed iqWaitForEither loops forever holding the lock (C25_timeout_refuted, quantified over every continuation). Proved: it returns only, and whenever it looks and finds, a non-empty queue; before the deadline no wakeup is lost for a single waiting thread (C33_wakeup_partial)."
  },
  {
   "property": "C26",
   "status": "partial",
   "theorems": [
    "Verif.Interthread.C26_returns_only_low",
    "Verif.Interthread.C26_readers_settled",
    "Verif.Interthread.C26_one_waiter_partial",
    "Verif.Interthread.C26_two_waiters_refuted",
    "Verif.Interthread.C26_bounds_refuted"
   ],
   "note": "False with several waiters: read signals once, so with two waiters, or with different bounds, one stays blocked although the size is at most its bound (C26_two_waiters_refuted, C26_bounds_refuted). Proved: wait returns only at or below its bound, readers lose no wakeup, and a single waiter is always released (C26_one_waiter_partial)."
  },
  {
   "property": "C27",
   "status": "partial",
   "theorems": [
    "Verif.Interthread.C27_linearizable",
    "Verif.Interthread.C27_real_time",
    "Verif.Interthread.C27_get_returns_own_key",
    "Verif.Interthread.C27_no_lost_wakeup",
    "Verif.Interthread.C27_ownership_partial",
    "Verif.Interthread.C27_destructor_refuted"
   ],
   "note": "The destructor of InterthreadMap drops the elements still stored without destroying them (C27_destructor_refuted); C27_ownership_partial proves the ownership account for every history while the map lives."
  },
  {
   "property": "C28",
   "status": "proved",
   "theorems": [
    "Verif.Interthread.C28_linearizable",
    "Verif.Interthread.C28_real_time",
    "Verif.Interthread.C28_conservation",
    "Verif.Interthread.C28_sorted",
    "Verif.Interthread.C28_no_lost_wakeup",
    "Verif.Interthread.C28_top_exists"
   ],
   "note": ""
  },
  {
   "property": "C29",
   "status": "proved",
   "theorems": [
    "Verif.Interthread.C29_linearizable",
    "Verif.Interthread.C29_real_time",
    "Verif.Interthread.C29_at_most_one_success_per_post",
    "Verif.Interthread.C29_remembered",
    "Verif.Interthread.C29_no_lost_wakeup"
   ],
   "note": ""
  },
  {
   "property": "C30",
   "status": "partial",
   "theorems": [
    "Verif.Threads.C30_success_means_held_partial",
    "Verif.Threads.C30_released_partial",
    "Verif.Threads.C30_lockcnt_partial",
    "Verif.Threads.C30_timedlock_refuted",
    "Verif.Threads.C30_lockcnt_refuted"
   ],
   "note": "timedlock reports success on any error other than ETIMEDOUT, in particular EINVAL for a microsecond part out of range (C30_timedlock_refuted); lockcnt() is not advanced by timedlock (C30_lockcnt_refuted). The partials cover lock, trylock, unlock and timedlock with a valid deadline."
  },
  {
   "property": "C31",
   "status": "proved",
   "theorems": [
    "Verif.Threads.C31_holds_all",
    "Verif.Threads.C31_restored"
   ],
   "note": ""
  },
  {
   "property": "C32",
   "status": "partial",
   "theorems": [
    "Verif.Threads.C32_no_deadlock_partial",
    "Verif.Threads.C32_not_all_blocked_partial",
    "Verif.Threads.C32_deadlock_refuted"
   ],
   "note": "Proved when the mutexes owned at entry are a prefix of the argument list (none, first, first two, all) and nothing else is held. For every other combination of owner bits two threads deadlock (C32_deadlock_refuted, quantified over the combination)."
  },
  {
   "property": "C33",
   "status": "partial",
   "theorems": [
    "Verif.Interthread.C33_client_lock_refuted",
    "Verif.Interthread.C33_reconnect_refuted",
    "Verif.Interthread.C33_group_partial",
    "Verif.Interthread.C33_client_lock_partial",
    "Verif.Interthread.C33_wakeup_refuted",
    "Verif.Interthread.C33_wakeup_partial"
   ],
   "note": "False in three ways: qGetLock hands out the wrong mutex after iqConnect, connecting the other queue elsewhere afterwards splits the lock, and one signal may wake the reader of the other queue (refutations). The partials cover unconnected queues and a single blocking thread."
  },
  {
   "property": "C34",
   "status": "partial",
   "theorems": [
    "Verif.Timeval.C34_future_exact",
    "Verif.Timeval.C34_future_normal_partial",
    "Verif.Timeval.C34_refuted",
    "Verif.Timeval.C34_timespec"
   ],
   "note": "future() can leave tv_usec equal to 1000000 (test is > instead of >=): C34_refuted gives the witness; the instant is always exact (C34_future_exact) and normal in every other case (C34_future_normal_partial)."
  },
  {
   "property": "C35",
   "status": "partial",
   "theorems": [
    "Verif.Timeval.C35_delta_partial",
    "Verif.Timeval.C35_antisymmetric_partial",
    "Verif.Timeval.C35_monotone",
    "Verif.Timeval.C35_documented_range_refuted"
   ],
   "note": "delta() overflows int arithmetic inside its documented range of 2^31 milliseconds (C35_documented_range_refuted); within the range where the seconds difference times 1000 fits an int the result is exact (C35_delta_partial) and antisymmetric; monotonicity is proved."
  },
  {
   "property": "C36",
   "status": "proved",
   "theorems": [
    "Verif.Timeval.C36_passed_iff",
    "Verif.Timeval.C36_passed_remaining",
    "Verif.Timeval.C36_passed_monotone",
    "Verif.Timeval.C36_future_deadline"
   ],
   "note": ""
  },
  {
   "property": "C37",
   "status": "proved",
   "theorems": [
    "Verif.Encoding.C37_encode_rfc",
    "Verif.Encoding.C37_encode_shape",
    "Verif.Encoding.C37_roundtrip"
   ],
   "note": ""
  },
  {
   "property": "C38",
   "status": "partial",
   "theorems": [
    "Verif.Encoding.C38_roundtrip",
    "Verif.Encoding.C38_unknown",
    "Verif.Encoding.C38_case_refuted"
   ],
   "note": "Documentation says encoding names are case-insensitive; code compares exactly (C38_case_refuted). Round trip for every name accepted is proved."
  },
  {
   "property": "C39",
   "status": "partial",
   "theorems": [
    "Verif.Encoding.C39_base64_message",
    "Verif.Encoding.C39_hex_message",
    "Verif.Encoding.C39_hex_error",
    "Verif.Encoding.C39_hex_result",
    "Verif.Encoding.C39_base64_decode",
    "Verif.Encoding.C39_base64_depends_only",
    "Verif.Encoding.C39_base64_refuted"
   ],
   "note": "hexDecode error conditions fully proved; base64Decode silently accepts truncated groups and misplaced padding (C39_base64_refuted); C39_base64_decode characterises its result for every text."
  },
  {
   "property": "C40",
   "status": "partial",
   "theorems": [
    "Verif.Url.C40_roundtrip_partial",
    "Verif.Url.C40_refuted",
    "Verif.Url.C40_unchanged",
    "Verif.Url.C40_output_alphabet_partial"
   ],
   "note": "The digit table has a duplicated 0, so escapes with a nibble above 9 are wrong: C40_refuted shows two strings with the same encoding; C40_roundtrip_partial proves the round trip for exactly the strings for which it holds, C40_unchanged says which strings are not changed."
  },
  {
   "property": "C41",
   "status": "partial",
   "theorems": [
    "Verif.Utils.C41_gcd_positive_partial",
    "Verif.Utils.C41_zero_refuted",
    "Verif.Utils.C41_negative_diverges_refuted"
   ],
   "note": "Zero arguments divide by zero (C41_zero_refuted) and negative ones can recurse forever (C41_negative_diverges_refuted); C41_gcd_positive_partial proves termination and correctness for positive arguments."
  },
  {
   "property": "C42",
   "status": "partial",
   "theorems": [
    "Verif.Utils.C42_replaceAll_partial",
    "Verif.Utils.C42_no_occurrence",
    "Verif.Utils.C42_empty_search_refuted",
    "Verif.Utils.C42_spurious_error_log"
   ],
   "note": "replaceAll with an empty search string never terminates (C42_empty_search_refuted); with a non-empty search string and texts below 4 GB the result is exactly the left-to-right replacement (C42_replaceAll_partial). On LP64 an unfounded error is logged (C42_spurious_error_log)."
  },
  {
   "property": "C43",
   "status": "partial",
   "theorems": [
    "Verif.Utils.C43_cstrSplit",
    "Verif.Utils.C43_rest_refuted",
    "Verif.Utils.C43_stringSplit",
    "Verif.Utils.C43_stringSplit_partial",
    "Verif.Utils.C43_forty_refuted",
    "Verif.Utils.C43_cstrGetArg",
    "Verif.Utils.C43_words_are_runs"
   ],
   "note": "The header's claim that the last argv receives the rest of the text is false (C43_rest_refuted) and stringSplit silently drops words beyond the fortieth (C43_forty_refuted); C43_cstrSplit, C43_stringSplit and C43_cstrGetArg give the exact result for every text."
  },
  {
   "property": "C44",
   "status": "proved",
   "theorems": [
    "Verif.Utils.C44_firstlines",
    "Verif.Utils.C44_monotone"
   ],
   "note": ""
  },
  {
   "property": "C45",
   "status": "partial",
   "theorems": [
    "Verif.Utils.C45_format_partial",
    "Verif.Utils.C45_refuted",
    "Verif.Utils.C45_osprintf"
   ],
   "note": "format() loses the last character of a result of exactly 199 characters (C45_refuted); every other length is exact (C45_format_partial)."
  },
  {
   "property": "C46",
   "status": "partial",
   "theorems": [
    "Verif.Utils.RefCnt.C46_counts_partial",
    "Verif.Utils.RefCnt.C46_step_partial",
    "Verif.Utils.RefCnt.C46_self_assign",
    "Verif.Utils.RefCnt.C46_overflow_refuted"
   ],
   "note": "The 16-bit reference count overflows at 32768 references and the object is freed while referenced (C46_overflow_refuted); with at most 32765 references the object lives exactly as long as it is referenced and is freed once (C46_counts_partial, C46_step_partial)."
  },
  {
   "property": "C47",
   "status": "partial",
   "theorems": [
    "Verif.Utils.C47_statistic_partial",
    "Verif.Utils.C47_wrap_refuted"
   ],
   "note": "The unsigned sample count wraps at 2^32 and the statistic then claims to be empty (C47_wrap_refuted); C47_statistic_partial proves everything for 1 to 2^32-1 samples, with an exact sum in place of a double (C156 is about the double)."
  },
  {
   "property": "C48",
   "status": "proved",
   "theorems": [
    "Verif.Utils.C48_bitset",
    "Verif.Utils.C48_range"
   ],
   "note": ""
  },
  {
   "property": "C49",
   "status": "proved",
   "theorems": [
    "Verif.Utils.C49_roundtrip",
    "Verif.Utils.C49_shape",
    "Verif.Utils.C49_reverse",
    "Verif.Utils.C49_uint32"
   ],
   "note": ""
  },
  {
   "property": "C50",
   "status": "partial",
   "theorems": [
    "Verif.F16.C50_add",
    "Verif.F16.C50_sub",
    "Verif.F16.C50_mul",
    "Verif.F16.C50_div",
    "Verif.F16.C50_compare",
    "Verif.F16.C50_ofInt",
    "Verif.F16.C50_saturation_refuted",
    "Verif.F16.C50_mul_modulo_partial"
   ],
   "note": "No saturation: results outside the range wrap or are undefined (C50_saturation_refuted); exact results proved whenever they are representable; multiplication modulo 2^32 (C50_mul_modulo_partial)."
  },
  {
   "property": "C51",
   "status": "partial",
   "theorems": [
    "Verif.F16.C51_chain_partial",
    "Verif.F16.C51_refuted"
   ],
   "note": "An assignment expression from int/float does not yield the assigned value (C51_refuted); C51_chain_partial proves what chained assignment does otherwise."
  },
  {
   "property": "C52",
   "status": "proved",
   "theorems": [
    "Verif.Utils.C52_aligned",
    "Verif.Utils.C52_thirty_columns",
    "Verif.Utils.C52_tabs"
   ],
   "note": ""
  },
  {
   "property": "C53",
   "status": "partial",
   "theorems": [
    "Verif.Config.C53_getStr_partial",
    "Verif.Config.C53_defines_partial",
    "Verif.Config.C53_cache_invisible_partial",
    "Verif.Config.C53_reports_partial",
    "Verif.Config.C53_failed_set",
    "Verif.Config.C53_quotes_refuted",
    "Verif.Config.C53_column_refuted",
    "Verif.Config.C53_validation_refuted"
   ],
   "note": "Under the assumptions on SQLite stated in Config/Sql.lean. False for values or keys with quotes, for keys that are column names, and after isValidValue was asked about an unknown key (C53_quotes_refuted, C53_column_refuted, C53_validation_refuted); the partials cover clean keys."
  },
  {
   "property": "C54",
   "status": "partial",
   "theorems": [
    "Verif.Config.C54_visible_partial",
    "Verif.Config.C54_two_tables_refuted",
    "Verif.Config.C54_two_tables_forever_refuted",
    "Verif.Config.C54_clock_refuted"
   ],
   "note": "The cache lifetime timer is shared by all tables, so a second table may serve stale values, even forever (C54_two_tables_refuted, C54_two_tables_forever_refuted), and setting the clock back postpones the refresh (C54_clock_refuted); C54_visible_partial covers a single table and a clock that does not go back."
  },
  {
   "property": "C55",
   "status": "partial",
   "theorems": [
    "Verif.Config.C55_round_trip",
    "Verif.Config.C55_set_get_partial",
    "Verif.Config.C55_notations",
    "Verif.Config.C55_decimal",
    "Verif.Config.C55_hexadecimal",
    "Verif.Config.C55_octal"
   ],
   "note": "Number formats and the round trip of the text are proved for every 64-bit value; C55_set_get_partial carries it through the table and database under the clean-text hypotheses of C61 (without them set followed by a read can return another value, C53_column_refuted)."
  },
  {
   "property": "C56",
   "status": "partial",
   "theorems": [
    "Verif.Config.C56_strings",
    "Verif.Config.C56_numbers_partial",
    "Verif.Config.C56_tab_refuted"
   ],
   "note": "Words are proved for every value; for numbers a word separated by a tab is read twice (C56_tab_refuted), C56_numbers_partial covers values in which every space-separated word has a character that is not white space."
  },
  {
   "property": "C57",
   "status": "partial",
   "theorems": [
    "Verif.Config.C57_boolean",
    "Verif.Config.C57_ip_partial",
    "Verif.Config.C57_ip_complete",
    "Verif.Config.C57_path_partial",
    "Verif.Config.C57_port_partial",
    "Verif.Config.C57_optional",
    "Verif.Config.C57_garbage_refuted",
    "Verif.Config.C57_empty_refuted",
    "Verif.Config.C57_nul_refuted"
   ],
   "note": "Boolean keys exact. IP and path keys exact for values without NUL (C57_nul_refuted otherwise). Port keys exact on decimal numbers; a number followed by garbage is accepted (C57_garbage_refuted) and a blank value reads an uninitialised variable (C57_empty_refuted)."
  },
  {
   "property": "C58",
   "status": "partial",
   "theorems": [
    "Verif.Config.C58_described_partial",
    "Verif.Config.C58_plain_32_partial",
    "Verif.Config.C58_plain_64",
    "Verif.Config.C58_plain_refuted",
    "Verif.Config.C58_first_refuted"
   ],
   "note": "Exact with descriptions, and without descriptions on 32 bits; on 64 bits a list without descriptions accepts exactly its own ends, commas included (C58_plain_64, C58_plain_refuted, C58_first_refuted)."
  },
  {
   "property": "C59",
   "status": "partial",
   "theorems": [
    "Verif.Config.C59_cidr_partial",
    "Verif.Config.C59_ipport_partial",
    "Verif.Config.C59_hostport_partial",
    "Verif.Config.C59_missing_32_partial",
    "Verif.Config.C59_missing_refuted",
    "Verif.Config.C59_no_port_refuted",
    "Verif.Config.C59_garbage_refuted"
   ],
   "note": "Exact for values with the delimiter and a decimal second part; on 64 bits a value without the delimiter may be accepted (C59_missing_refuted, C59_no_port_refuted) and garbage after the number is accepted (C59_garbage_refuted). MIPADDRESS is C95, REGEX C119, floating point ranges C114."
  },
  {
   "property": "C60",
   "status": "partial",
   "theorems": [
    "Verif.Config.C60_range_partial",
    "Verif.Config.C60_reject",
    "Verif.Config.C60_dash_refuted",
    "Verif.Config.C60_overflow_refuted"
   ],
   "note": "Exact for 32-bit integers; minus signs anywhere (C60_dash_refuted) and numbers beyond 32 bits (C60_overflow_refuted) are accepted wrongly."
  },
  {
   "property": "C61",
   "status": "partial",
   "theorems": [
    "Verif.Config.C61_set_partial",
    "Verif.Config.C61_remove_partial",
    "Verif.Config.C61_lookup_partial",
    "Verif.Config.C61_quotes_refuted",
    "Verif.Config.C61_quote_refuted",
    "Verif.Config.C61_injection_refuted",
    "Verif.Config.C61_other_key_refuted",
    "Verif.Config.C61_description_refuted",
    "Verif.Config.C61_column_refuted"
   ],
   "note": "Under the assumptions on SQLite stated in Config/Sql.lean. Keys, values and schema descriptions are pasted into the command without quoting: five refutations, including injection that changes another key; the partials cover texts free of the quote characters."
  },
  {
   "property": "C62",
   "status": "proved",
   "theorems": [
    "Verif.Config.C62_addItems",
    "Verif.Config.C62_pairs",
    "Verif.Config.C62_getNum"
   ],
   "note": "For every text. getNum never sets its validity flag to true, it only clears it (C62_getNum)."
  },
  {
   "property": "C63",
   "status": "partial",
   "theorems": [
    "Verif.Config.C63_common_ending",
    "Verif.Config.C63_collision_refuted",
    "Verif.Config.C63_file_names_refuted",
    "Verif.Config.C63_short_partial",
    "Verif.Config.C63_equivalence",
    "Verif.Logger.C63_cache_refuted"
   ],
   "note": "False: C63_collision_refuted gives two 13-letter names with the same hash, and every common ending preserves the collision (C63_common_ending, C63_file_names_refuted). C63_short_partial: names differing only in initial parts of at most nine ASCII characters are told apart."
  },
  {
   "property": "C64",
   "status": "partial",
   "theorems": [
    "Verif.Logger.C64_kept",
    "Verif.Logger.C64_constant_partial",
    "Verif.Logger.C64_wrap_refuted",
    "Verif.Logger.C64_undefined_refuted",
    "Verif.Logger.C64_raise_refuted"
   ],
   "note": "C64_kept is exact for every sequence of alarms and limits (as unsigned numbers); a constant limit below 2^32 gives the newest alarms (C64_constant_partial). Limits are cut to 32 bits (C64_wrap_refuted); without a configured limit the exception leaves the list locked (C64_undefined_refuted); dropped alarms do not return when the limit grows (C64_raise_refuted)."
  },
  {
   "property": "C65",
   "status": "partial",
   "theorems": [
    "Verif.Logger.LevelThreads.C65_threads_partial",
    "Verif.Logger.LevelThreads.C65_change_partial",
    "Verif.Logger.C65_recent_partial",
    "Verif.Logger.C65_own_level_partial",
    "Verif.Logger.C65_threads_refuted"
   ],
   "note": "Proved for every sequence of undisturbed checks and every course of the configuration, up to names with equal hash (C65_own_level_partial without collisions); false with threads, because the answer is stored after the lock was released in between (C65_threads_refuted). With threads the age is at most 1000 checks plus those that come between a thread's asking and storing (C65_threads_partial), so that a change takes effect after that many (C65_change_partial)."
  },
  {
   "property": "C66",
   "status": "partial",
   "theorems": [
    "Verif.Logger.C66_names",
    "Verif.Logger.C66_file",
    "Verif.Logger.C66_default",
    "Verif.Logger.C66_unknown",
    "Verif.Logger.C66_unknown_refuted",
    "Verif.Logger.C66_logged_partial",
    "Verif.Logger.C66_group_refuted",
    "Verif.Logger.C66_group"
   ],
   "note": "File and general level proved (C66_file, C66_default, C66_names); a file level that is not a level name gives the schema default instead of Log.Level and overwrites the configuration (C66_unknown, C66_unknown_refuted); the level check of a log statement after any history of log statements, with the level cache (C66_logged_partial, C66_group); a group level can only add messages (C66_group_refuted)."
  },
  {
   "property": "C67",
   "status": "partial",
   "theorems": [
    "Verif.Reporting.C67_counts_partial",
    "Verif.Reporting.C67_commit",
    "Verif.Reporting.C67_max",
    "Verif.Reporting.C67_clear",
    "Verif.Reporting.C67_clear_rows",
    "Verif.Reporting.C67_clear_refuted",
    "Verif.Reporting.C67_uncreated_refuted",
    "Verif.Reporting.C67_failure_refuted",
    "Verif.Reporting.C67_wrap_refuted"
   ],
   "note": "Every interleaving of the parts of all calls with a working database and no clear of that name (C67_counts_partial), undisturbed commit (C67_commit), maxima (C67_max). False for increments before a clear (C67_clear_refuted), for names not created (C67_uncreated_refuted), when a statement fails (C67_failure_refuted) and for 2^32 increments in one batch (C67_wrap_refuted)."
  },
  {
   "property": "C68",
   "status": "partial",
   "theorems": [
    "Verif.Reporting.C68_exact",
    "Verif.Reporting.C68_commands_partial",
    "Verif.Reporting.C68_index_partial",
    "Verif.Reporting.C68_index_refuted",
    "Verif.Reporting.C68_long_name_refuted"
   ],
   "note": "C68_exact gives the exact condition for each command; names of 137 characters (C68_long_name_refuted) and indices of nine digits (C68_index_refuted) overrun."
  },
  {
   "property": "C69",
   "status": "proved",
   "theorems": [
    "Verif.Sqlite.C69_first",
    "Verif.Sqlite.C69_run",
    "Verif.Sqlite.C69_prepare"
   ],
   "note": "For every engine behaviour and bound; with bound 0 no attempt is made and busy is returned."
  },
  {
   "property": "C70",
   "status": "partial",
   "theorems": [
    "Verif.Process.C70_one_instance_partial",
    "Verif.Process.C70_race_refuted",
    "Verif.Process.C70_resize_refuted"
   ],
   "note": "Any number of processes, interleavings, crashes; registrations must not overlap, pid files must not be registered as ordinary files, and no signal may clean up without ending the process. False otherwise (C70_race_refuted, C70_resize_refuted)."
  },
  {
   "property": "C71",
   "status": "partial",
   "theorems": [
    "Verif.Process.C71_exit",
    "Verif.Process.C71_registering",
    "Verif.Process.C71_turned_away",
    "Verif.Process.C71_not_created",
    "Verif.Process.C71_early_refuted",
    "Verif.Process.C71_last_signal_refuted",
    "Verif.Process.C71_unregistered_refuted",
    "Verif.Process.C71_alive_refuted",
    "Verif.Process.C71_signals"
   ],
   "note": "Exact effect of exit and of a handled signal after any history (C71_exit); processes turned away change nothing; what is removed inside of RegisterProgram or before it: C71_registering. False in the moment before RegisterProgram returns, for signal 64, without registration; five signals remove the pid file of a process that goes on (C71_alive_refuted)."
  },
  {
   "property": "C72",
   "status": "partial",
   "theorems": [
    "Verif.Process.C72_history",
    "Verif.Process.C72_first_partial",
    "Verif.Process.C72_out_of_range",
    "Verif.Process.C72_second_refuted",
    "Verif.Process.C72_kill_refuted",
    "Verif.Process.C72_last_refuted",
    "Verif.Process.C72_program"
   ],
   "note": "C72_history is exact for any history; the English claim holds for the first delivery. False for later ones, for 9 and 19, and for signal 64."
  },
  {
   "property": "C73",
   "status": "partial",
   "theorems": [
    "Verif.Sockets.C73_exact",
    "Verif.Sockets.C73_host_port_partial",
    "Verif.Sockets.C73_no_colon",
    "Verif.Sockets.C73_wrap_refuted",
    "Verif.Sockets.C73_garbage_refuted"
   ],
   "note": "C73_exact for every text with a colon; ports beyond 65535 and texts that are not numbers are accepted (refutations)."
  },
  {
   "property": "C74",
   "status": "proved",
   "theorems": [
    "Verif.Sockets.C74_limit"
   ],
   "note": "For every timeout."
  },
  {
   "property": "C75",
   "status": "partial",
   "theorems": [
    "Verif.Soft.C75_energy",
    "Verif.Soft.C75_unknown",
    "Verif.Soft.C75_snr_range_partial",
    "Verif.Soft.C75_snr_clamp_refuted"
   ],
   "note": "The clamp in getSNR does not bound the result by 999 (C75_snr_clamp_refuted: exactly 1000 is possible); C75_snr_range_partial proves 0..1000 and no division by zero; the energy part is fully proved over exact rationals."
  },
  {
   "property": "C76",
   "status": "partial",
   "theorems": [
    "Verif.Config.C76_less_partial",
    "Verif.Config.C76_greater_refuted",
    "Verif.Config.C76_opposite_refuted"
   ],
   "note": "operator> is written with < (C76_greater_refuted, C76_opposite_refuted); < is a strict order (C76_less_partial)."
  },
  {
   "property": "C77",
   "status": "partial",
   "theorems": [
    "Verif.Config.C77_leak_refuted",
    "Verif.Config.C77_addItem_partial"
   ],
   "note": "addItems frees a null pointer instead of its copy, addItem returns without freeing when there is no = (C77_leak_refuted gives the exact number)."
  },
  {
   "property": "C78",
   "status": "partial",
   "theorems": [
    "Verif.Logger.C78_dangling_refuted",
    "Verif.Logger.C78_unset_partial"
   ],
   "note": "getNonEmptyStrIfDefined returns a pointer into a local string, so any configured group level is undefined behaviour (C78_dangling_refuted)."
  },
  {
   "property": "C79",
   "status": "partial",
   "theorems": [
    "Verif.Config.C79_removed_partial",
    "Verif.Config.C79_nothing_refuted"
   ],
   "note": "true is returned for every key without single quote and NUL, stored or not (C79_nothing_refuted)."
  },
  {
   "property": "C80",
   "status": "partial",
   "theorems": [
    "Verif.Reporting.C80_range_partial",
    "Verif.Reporting.C80_large_refuted",
    "Verif.Reporting.C80_endless_refuted"
   ],
   "note": "Exact for indices below 10^8 and names up to 95 characters; larger indices overrun (C80_large_refuted), with the largest index as upper end the loop does not end (C80_endless_refuted)."
  },
  {
   "property": "C81",
   "status": "partial",
   "theorems": [
    "Verif.Sqlite.C81_lookup",
    "Verif.Sqlite.C81_command",
    "Verif.Sqlite.C81_query",
    "Verif.Sqlite.C81_zero_refuted"
   ],
   "note": "For every engine behaviour with at least one attempt; with none an unwritten pointer is finalised (C81_zero_refuted)."
  },
  {
   "property": "C82",
   "status": "partial",
   "theorems": [
    "Verif.Sqlite.C82_exists_partial",
    "Verif.Sqlite.C82_lookup_partial",
    "Verif.Sqlite.C82_number",
    "Verif.Sqlite.C82_value_partial",
    "Verif.Sqlite.C82_text_partial",
    "Verif.Sqlite.C82_unsigned_partial",
    "Verif.Sqlite.C82_column_refuted",
    "Verif.Sqlite.C82_quote_refuted",
    "Verif.Sqlite.C82_cut_refuted",
    "Verif.Sqlite.C82_long_refuted",
    "Verif.Sqlite.C82_199_refuted",
    "Verif.Sqlite.C82_contention_partial",
    "Verif.Sqlite.C82_busy_refuted"
   ],
   "note": "Missing: keys with quotes, keys equal to column names, long conditions, sqlQuery texts of 199 or more than 5000 characters (format shortens them), and more refusals than attempts; all refuted with witnesses."
  },
  {
   "property": "C83",
   "status": "partial",
   "theorems": [
    "Verif.Sqlite.C83_attributes_partial",
    "Verif.Sqlite.C83_long_refuted",
    "Verif.Sqlite.C83_quote_refuted"
   ],
   "note": "Missing: quotes, and names and values of together 40 characters or more; both refuted."
  },
  {
   "property": "C84",
   "status": "partial",
   "theorems": [
    "Verif.Sqlite.C84_rows_partial",
    "Verif.Sqlite.C84_again_refuted",
    "Verif.Sqlite.C84_error_refuted"
   ],
   "note": "Missing: refused or failing steps, and queries of 199 or more than 5000 characters; refuted."
  },
  {
   "property": "C85",
   "status": "proved",
   "theorems": [
    "Verif.Sqlite.C85_texts"
   ],
   "note": "For all names and keys."
  },
  {
   "property": "C86",
   "status": "partial",
   "theorems": [
    "Verif.Process.C86_file_partial",
    "Verif.Process.C86_own_partial",
    "Verif.Process.C86_long_refuted"
   ],
   "note": "Names of at most 84 characters; longer ones share files (C86_long_refuted)."
  },
  {
   "property": "C87",
   "status": "partial",
   "theorems": [
    "Verif.Process.C87_settings_refuted",
    "Verif.Process.C87_range_refuted",
    "Verif.Process.C87_delivered_partial"
   ],
   "note": "For every history of registrations, settings and delivered signals: these use gSigVec, whose storage is zeroed. False for Handler called by the program: with an object of its own (C87_settings_refuted), or a number out of range (C87_range_refuted)."
  },
  {
   "property": "C88",
   "status": "partial",
   "theorems": [
    "Verif.Sockets.C88_udp_partial",
    "Verif.Sockets.C88_silent_refuted",
    "Verif.Sockets.C88_unix_refuted",
    "Verif.Sockets.C88_reply",
    "Verif.Sockets.C88_text",
    "Verif.Sockets.C88_text_cut",
    "Verif.Sockets.C88_reply_refuted",
    "Verif.Sockets.C88_path_refuted"
   ],
   "note": "Missing: names that cannot be resolved (packets go on to the old destination), Unix destinations (family never set; paths over 253 characters overrun the field), replies before a packet was read."
  },
  {
   "property": "C89",
   "status": "partial",
   "theorems": [
    "Verif.Sockets.C89_text_partial",
    "Verif.Sockets.C89_long_refuted"
   ],
   "note": "Texts of at most 1499 characters; longer ones arrive without their end."
  },
  {
   "property": "C90",
   "status": "partial",
   "theorems": [
    "Verif.Sockets.C90_timed_partial",
    "Verif.Sockets.C90_descriptor_refuted"
   ],
   "note": "Descriptors below 1024."
  },
  {
   "property": "C91",
   "status": "partial",
   "theorems": [
    "Verif.Sockets.Descriptors.C91_descriptors_partial",
    "Verif.Sockets.Descriptors.C91_no_leak_partial",
    "Verif.Sockets.Descriptors.C91_close_refuted",
    "Verif.Sockets.Descriptors.C91_copy_refuted",
    "Verif.Sockets.Descriptors.C91_unopened_closes_refuted",
    "Verif.Sockets.Descriptors.C91_leak_refuted",
    "Verif.Sockets.C91_path_refuted"
   ],
   "note": "True for any program whose sockets are constructed with an address and destroyed, with failing constructors in between (C91_descriptors_partial, C91_no_leak_partial). False after close() by hand and for copies (the destructor closes a number that may belong to something else by then), for a UDDSocket without local path (closes an arbitrary number), for a socket opened twice (leaks one); long paths overrun the address."
  },
  {
   "property": "C92",
   "status": "partial",
   "theorems": [
    "Verif.F16.C92_toFloat_error",
    "Verif.F16.C92_toFloat_exact",
    "Verif.F16.C92_ofFloat_error",
    "Verif.F16.C92_ofFloat_exact_partial",
    "Verif.F16.C92_nearest_refuted",
    "Verif.F16.C92_roundtrip_iff",
    "Verif.F16.C92_roundtrip_partial",
    "Verif.F16.C92_roundtrip_refuted",
    "Verif.F16.C92_roundtrip_max_refuted",
    "Verif.F16.C92_ofDouble"
   ],
   "note": "Rounding of floats is modelled exactly (Core/Float.lean, exponents unbounded). C92_roundtrip_iff describes completely which F16 survive; false above 128 for odd raw values, and undefined for the largest (C92_roundtrip_max_refuted); nearest is false just below half a step (C92_nearest_refuted)."
  },
  {
   "property": "C93",
   "status": "partial",
   "theorems": [
    "Verif.F16.C93_mulFloat_error",
    "Verif.F16.C93_divFloat_error",
    "Verif.F16.C93_one_partial",
    "Verif.F16.C93_one_refuted",
    "Verif.F16.C93_compare_partial",
    "Verif.F16.C93_compare_sound",
    "Verif.F16.C93_compare_refuted",
    "Verif.F16.C93_div_zero"
   ],
   "note": "Values of at most 256; above, the float has fewer bits than the F16 (C93_one_refuted, C93_compare_refuted). A reported strict order is right for all values (C93_compare_sound)."
  },
  {
   "property": "C94",
   "status": "partial",
   "theorems": [
    "Verif.BitVector.C94_parse",
    "Verif.BitVector.C94_parse_bit",
    "Verif.BitVector.C94_print",
    "Verif.BitVector.C94_text_roundtrip",
    "Verif.BitVector.C94_vector_roundtrip",
    "Verif.BitVector.C94_length",
    "Verif.BitVector.C94_other_refuted",
    "Verif.BitVector.C94_soft_ofBits",
    "Verif.BitVector.C94_soft_sliced"
   ],
   "note": "All texts and vectors; only the rejection of other characters is false (C94_other_refuted)."
  },
  {
   "property": "C95",
   "status": "partial",
   "theorems": [
    "Verif.Config.C95_plain_partial",
    "Verif.Config.C95_first_port_partial",
    "Verif.Config.C95_optional",
    "Verif.Config.C95_empty",
    "Verif.Config.C95_second_port_refuted",
    "Verif.Config.C95_illegal_refuted"
   ],
   "note": "Lists without ports (equivalence) and lists whose first entry alone has a port (acceptance). False otherwise: legal lists are refused and illegal ones accepted."
  },
  {
   "property": "C96",
   "status": "partial",
   "theorems": [
    "Verif.Config.C96_script_partial",
    "Verif.Config.C96_fresh_partial",
    "Verif.Config.C96_twice_partial",
    "Verif.Config.C96_default_refuted",
    "Verif.Config.C96_both_quotes_refuted",
    "Verif.Config.C96_doubled_refuted",
    "Verif.Config.C96_injection_refuted"
   ],
   "note": "Names and defaults without single quote, descriptions without one of the two quotes; all three restrictions are needed (refutations). SQLite's lexer is assumed as in Config/Script.lean."
  },
  {
   "property": "C97",
   "status": "partial",
   "theorems": [
    "Verif.Config.C97_text_partial",
    "Verif.Config.C97_sections_partial",
    "Verif.Config.C97_percent_refuted",
    "Verif.Config.C97_unset_refuted"
   ],
   "note": "Text below 400 MB (the replacement loop has 32-bit indices); the other special characters of TeX are not escaped (C97_percent_refuted), and a key made by a lookup has no visibility (C97_unset_refuted)."
  },
  {
   "property": "C98",
   "status": "partial",
   "theorems": [
    "Verif.Config.C98_find_partial",
    "Verif.Config.C98_wildcard_refuted",
    "Verif.Config.C98_quote_refuted",
    "Verif.Config.C98_value_refuted",
    "Verif.Config.C98_similar",
    "Verif.Config.C98_case_refuted"
   ],
   "note": "Texts without wildcards, quotes and NUL (C98_find_partial); the search in the schema holds for all texts (C98_similar). False: an underscore matches any character, a quote makes the search fail silently, values are printed ambiguously, and the two searches differ on capitals."
  },
  {
   "property": "C99",
   "status": "partial",
   "theorems": [
    "Verif.Config.C99_pairs",
    "Verif.Config.C99_history_partial"
   ],
   "note": "C99_pairs for every table with unique keys; C99_history_partial for histories whose keys and values contain no quotes or NUL (see C53)."
  },
  {
   "property": "C100",
   "status": "partial",
   "theorems": [
    "Verif.Timeval.C100_iso_partial",
    "Verif.Timeval.C100_unique",
    "Verif.Timeval.C100_order_partial",
    "Verif.Timeval.C100_year10000_refuted",
    "Verif.Timeval.C100_far_refuted",
    "Verif.Timeval.C100_range",
    "Verif.Timeval.C100_local_refuted"
   ],
   "note": "Years 0 to 9999. False outside: texts no longer sort (C100_year10000_refuted), far instants print an unwritten structure (C100_far_refuted; C100_range gives them to the second), local texts are ambiguous when the clock is set back (C100_local_refuted). gmtime_r is assumed to follow the Gregorian calendar."
  },
  {
   "property": "C101",
   "status": "partial",
   "theorems": [
    "Verif.Threads.C101_exclusion_partial",
    "Verif.Threads.C101_progress_partial",
    "Verif.Threads.C101_upgrade_waits",
    "Verif.Threads.C101_nested_refuted",
    "Verif.Threads.C101_read_in_write_refuted",
    "Verif.Threads.C101_readers_refuted"
   ],
   "note": "Callers that do not lock inside their own writing section, unlock only what they hold, and stay below the reader limit. False for nested writing, reading inside writing and too many readers, where an ignored error leaves the caller without the lock (refutations)."
  },
  {
   "property": "C102",
   "status": "partial",
   "theorems": [
    "Verif.Threads.Start.C102_life",
    "Verif.Threads.Start.C102_blocks",
    "Verif.Threads.Start.C102_polite_partial",
    "Verif.Threads.Start.C102_race_refuted",
    "Verif.Threads.Start.C102_unstarted_refuted",
    "Verif.Threads.Start.C102_error_refuted"
   ],
   "note": "Life of a thread and ownership of blocks in all executions (C102_life, C102_blocks); no thread lost if calls on one object do not overlap. False otherwise (C102_race_refuted); joining an unstarted object is undefined; the error number is lost."
  },
  {
   "property": "C103",
   "status": "partial",
   "theorems": [
    "Verif.Scalar.C103_exact",
    "Verif.Scalar.C103_wrap",
    "Verif.Scalar.C103_narrow_refuted",
    "Verif.Scalar.C103_overflow_refuted",
    "Verif.Scalar.C103_field_refuted"
   ],
   "note": "Exact while all values are in range; outside, the value is right modulo 2^bits for all types but the signed 32-bit ones, where it is undefined. The width of a field is not enforced (C103_field_refuted)."
  },
  {
   "property": "C104",
   "status": "partial",
   "theorems": [
    "Verif.Memory.C104_counts_partial",
    "Verif.Memory.C104_copy_refuted",
    "Verif.Memory.C104_relabel_refuted",
    "Verif.Memory.C104_unlabelled_refuted",
    "Verif.Memory.C104_overflow_refuted"
   ],
   "note": "Partial: copies, assignments, relabelling and 2^31 creations are excluded in C104_counts_partial and refuted separately. The calls are sequential; threads are C133."
  },
  {
   "property": "C105",
   "status": "partial",
   "theorems": [
    "Verif.Utils.Scanf.C105_scan_partial",
    "Verif.Utils.Scanf.C105_unique",
    "Verif.Utils.Scanf.C105_single_refuted",
    "Verif.Utils.Scanf.C105_char_refuted",
    "Verif.Utils.Scanf.C105_tail_refuted"
   ],
   "note": "Partial: %c, and a single string with nothing stored, are excluded and refuted. The format is given as a list of directives; sscanf is modelled after the C standard."
  },
  {
   "property": "C106",
   "status": "partial",
   "theorems": [
    "Verif.Utils.Timestr.C106_time_partial",
    "Verif.Utils.Timestr.C106_date_partial",
    "Verif.Utils.Timestr.C106_order_partial",
    "Verif.Utils.Timestr.C106_wrap_refuted",
    "Verif.Utils.Timestr.C106_range_refuted"
   ],
   "note": "Partial: with date, years outside 0 to 9999 are excluded; without date, years whose offset from 1900 does not fit an int (C106_range_refuted gives the instants to the second). localtime_r is the model of C100 shifted by the zone's offset."
  },
  {
   "property": "C107",
   "status": "partial",
   "theorems": [
    "Verif.Timeval.Seconds.C107_accurate_partial",
    "Verif.Timeval.Seconds.C107_monotone_partial",
    "Verif.Timeval.Seconds.C107_sleepf_partial",
    "Verif.Timeval.Seconds.C107_msleep_partial",
    "Verif.Timeval.Seconds.C107_msleep_refuted",
    "Verif.Timeval.Seconds.C107_msleep_exact",
    "Verif.Timeval.Seconds.C107_long_sleep_refuted"
   ],
   "note": "Partial: ranges as stated; outside them refuted. What usleep then does (signals) is not modelled."
  },
  {
   "property": "C108",
   "status": "partial",
   "theorems": [
    "Verif.Logger.Record.C108_file",
    "Verif.Logger.Record.C108_lines",
    "Verif.Logger.Record.C108_sys",
    "Verif.Logger.Record.C108_text",
    "Verif.Logger.Record.C108_zero_refuted",
    "Verif.Logger.Record.C108_stderr_refuted"
   ],
   "note": "The theorem on the file assumes that gLogToFile is open during the whole execution; C143 covers opening it meanwhile. Each output call is atomic."
  },
  {
   "property": "C109",
   "status": "partial",
   "theorems": [
    "Verif.Config.Builtin.C109_schema",
    "Verif.Config.Builtin.C109_level",
    "Verif.Config.Builtin.C109_alias_refuted",
    "Verif.Config.Builtin.C109_range_partial",
    "Verif.Config.Builtin.C109_octal_refuted",
    "Verif.Config.Builtin.C109_defaults",
    "Verif.Config.Builtin.C109_name",
    "Verif.Config.Builtin.C109_hook",
    "Verif.Config.Builtin.C109_open_refuted",
    "Verif.Config.Builtin.C109_static_partial",
    "Verif.Config.Builtin.C109_unknown_refuted"
   ],
   "note": "Values with a leading zero are excluded and refuted (C109_octal_refuted); isStatic after validating an unknown key, and a database that cannot be opened, are refuted separately. The list of changed values at the end of the constructor is C131."
  },
  {
   "property": "C110",
   "status": "partial",
   "theorems": [
    "Verif.Config.Describe.C110_names",
    "Verif.Config.Describe.C110_read",
    "Verif.Config.Describe.C110_choice_partial",
    "Verif.Config.Describe.C110_plain_refuted",
    "Verif.Config.Describe.C110_range",
    "Verif.Config.Describe.C110_other",
    "Verif.Config.Describe.C110_scope",
    "Verif.Config.Describe.C110_scope_refuted",
    "Verif.Config.Describe.C110_key_partial",
    "Verif.Config.Describe.C110_key_refuted",
    "Verif.Config.Describe.C110_read_refuted"
   ],
   "note": "Partial: lists of choices without descriptions are excluded and refuted for 64-bit size_t (C110_plain_refuted); printKey for names without spaces and values unlike the marks (C110_key_refuted); fields with line ends refuted (C110_read_refuted)."
  },
  {
   "property": "C111",
   "status": "partial",
   "theorems": [
    "Verif.Logger.Init.C111_once",
    "Verif.Logger.Init.C111_program",
    "Verif.Logger.Init.C111_level_partial",
    "Verif.Logger.Init.C111_unknown_refuted",
    "Verif.Logger.Init.C111_stale_refuted",
    "Verif.Logger.Init.C111_kept_refuted",
    "Verif.Logger.Init.C111_short_refuted",
    "Verif.Logger.Init.C111_no_level_refuted",
    "Verif.Logger.Init.C111_groups",
    "Verif.Logger.Init.C111_group_init"
   ],
   "note": "The level theorem is partial: for names of levels, a configuration without a level for Mutex.cpp, and files whose level was not looked up before (levels are kept, C111_kept_refuted); other texts are refuted (C111_unknown_refuted), and configurations without Log.Level (C111_no_level_refuted). Not modelled: the first line of the file, openlog, gPid."
  },
  {
   "property": "C112",
   "status": "partial",
   "theorems": [
    "Verif.Reporting.Committer.C112_conserved",
    "Verif.Reporting.Committer.C112_delay",
    "Verif.Reporting.Committer.C112_ends",
    "Verif.Reporting.Committer.C112_stored_partial",
    "Verif.Reporting.Committer.C112_commit_refuted",
    "Verif.Reporting.Committer.C112_early_refuted",
    "Verif.Reporting.Committer.C112_other_refuted",
    "Verif.Reporting.Committer.C112_construct"
   ],
   "note": "The stored theorem is partial (shutdown while the thread sleeps); the other cases are refuted (C112_commit_refuted, C112_early_refuted, C112_other_refuted). Time in whole seconds, the thread goes on at once when not asleep, writing succeeds (failures in C67)."
  },
  {
   "property": "C113",
   "status": "partial",
   "theorems": [
    "Verif.Logger.Locks.C113_no_deadlock",
    "Verif.Logger.Locks.C113_hook_refuted",
    "Verif.Logger.Locks.C113_signal_refuted"
   ],
   "note": "Only the five mutexes are modelled; every branch is possible and loops run any number of times. Refuted for update hooks and for signal handlers (C113_hook_refuted, C113_signal_refuted)."
  },
  {
   "property": "C114",
   "status": "partial",
   "theorems": [
    "Verif.Config.C114_range",
    "Verif.Config.C114_inside",
    "Verif.Config.C114_outside_partial",
    "Verif.Config.C114_rounding_refuted",
    "Verif.Config.C114_garbage_refuted",
    "Verif.Config.C114_reject"
   ],
   "note": "Floats as exact rationals with unbounded exponent. Refuted for values within the rounding of a limit and for texts such as 1.5.7 (C114_rounding_refuted, C114_garbage_refuted)."
  },
  {
   "property": "C115",
   "status": "proved",
   "theorems": [
    "Verif.Config.C115_same",
    "Verif.Config.C115_once",
    "Verif.Config.C115_warn_integer",
    "Verif.Config.C115_float",
    "Verif.Config.C115_warn_float"
   ],
   "note": "strtol and strtof after the C standard; hexadecimal floats, infinity and NaN left open (any behaviour); floats with unbounded exponent."
  },
  {
   "property": "C116",
   "status": "partial",
   "theorems": [
    "Verif.Config.Conc.C116_atomic_partial",
    "Verif.Config.Conc.C116_values_partial",
    "Verif.Config.Conc.C116_steps",
    "Verif.Config.Conc.C116_progress",
    "Verif.Config.Conc.C116_accesses",
    "Verif.Config.Conc.C116_race_partial",
    "Verif.Config.Conc.C116_schema_refuted"
   ],
   "note": "False for isValidValue with a key that is not in the schema: mSchema[name] then writes to the map without lock while another thread reads it (C116_schema_refuted). One table per program (the time of the last purge is shared by all tables but each has its own lock); sequentially consistent steps; find and getAllPairs, which use no shared variable but the connection, are C140; the generators, which only read mSchema, are not included."
  },
  {
   "property": "C117",
   "status": "partial",
   "theorems": [
    "Verif.Sockets.Resolve.C117_reentrant_partial",
    "Verif.Sockets.Resolve.C117_apart_partial",
    "Verif.Sockets.Resolve.C117_one_at_a_time",
    "Verif.Sockets.Resolve.C117_threads_refuted"
   ],
   "note": "True with gethostbyname2_r. False with gethostbyname: the mutex covers the call but not the use of the structure it returns, so thread 0 can get the address of the host thread 1 asked for (C117_threads_refuted); proved there for calls that do not overlap."
  },
  {
   "property": "C118",
   "status": "partial",
   "theorems": [
    "Verif.Threads.Console.C118_lines_partial",
    "Verif.Threads.Console.C118_quiet_partial",
    "Verif.Threads.Console.C118_mixed_refuted",
    "Verif.Threads.Console.C118_text"
   ],
   "note": "True among COUT and CERR, and among log records. False for both together: COUT and CERR take gStreamLock, the log takes gLogToLock, so a log record can come into the middle of a line (C118_mixed_refuted). The format of the streams (precision, width) and a COUT inside the arguments of another are left out."
  },
  {
   "property": "C119",
   "status": "partial",
   "theorems": [
    "Verif.Config.Regex.C119_regex_partial",
    "Verif.Config.Regex.C119_regex_opt_partial",
    "Verif.Config.Regex.C119_string",
    "Verif.Config.Regex.C119_use",
    "Verif.Config.Regex.C119_objects_partial",
    "Verif.Config.Regex.C119_copy_refuted",
    "Verif.Config.Regex.C119_regfree_refuted",
    "Verif.Config.Regex.C119_empty_refuted"
   ],
   "note": "regcomp and regexec are arbitrary functions. False for copied Regexp objects (freed twice, C119_copy_refuted), on systems where regfree after a failed regcomp is undefined (POSIX; C119_regfree_refuted), and for REGEX_OPT where the empty text is no expression (C119_empty_refuted)."
  },
  {
   "property": "C120",
   "status": "partial",
   "theorems": [
    "Verif.Process.ExitStatus.C120_codes_partial",
    "Verif.Process.ExitStatus.C120_distinct_partial",
    "Verif.Process.ExitStatus.C120_success_refuted"
   ],
   "note": "True for 0 to 255. An unsupported status is printed but used anyway: 256 and all its multiples look like success (C120_success_refuted)."
  },
  {
   "property": "C121",
   "status": "partial",
   "theorems": [
    "Verif.Config.HashObject.C121_hash_partial",
    "Verif.Config.HashObject.C121_equal_partial",
    "Verif.Config.HashObject.C121_inherited_refuted"
   ],
   "note": "True for the operations of the class. The operations inherited from std::string change the text only (C121_inherited_refuted)."
  },
  {
   "property": "C122",
   "status": "partial",
   "theorems": [
    "Verif.Process.SignalThreads.C122_all_called",
    "Verif.Process.SignalThreads.C122_progress",
    "Verif.Process.SignalThreads.C122_once_partial",
    "Verif.Process.SignalThreads.C122_twice_refuted",
    "Verif.Process.SignalThreads.C122_again_refuted"
   ],
   "note": "All called and no deadlock are proved. At most once is proved for a single interruption; false for two signals at nearly the same moment (C122_twice_refuted) and for one signal while another thread registers (C122_again_refuted). One signal number; the handlers return and register nothing; printf and malloc in a signal handler are not considered."
  },
  {
   "property": "C123",
   "status": "partial",
   "theorems": [
    "Verif.Sockets.Readers.C123_each_once",
    "Verif.Sockets.Readers.C123_blocking",
    "Verif.Sockets.Readers.C123_nonblocking",
    "Verif.Sockets.Readers.C123_in_time_partial",
    "Verif.Sockets.Readers.C123_not_early_partial",
    "Verif.Sockets.Readers.C123_reply_partial",
    "Verif.Sockets.Readers.C123_waits_refuted",
    "Verif.Sockets.Readers.C123_early_refuted",
    "Verif.Sockets.Readers.C123_reply_refuted",
    "Verif.Sockets.Readers.C123_switch_refuted"
   ],
   "note": "The first two sentences and the nonblocking case are proved for any number of threads; the end in time, no early -1 and the reply for one reader. False with two readers: on a blocking socket the thread that loses the packet after select waits beyond its timeout until another packet arrives (C123_waits_refuted), on a nonblocking one it reports a timeout at once (C123_early_refuted); a reply goes to the sender of the packet read last by any thread (C123_reply_refuted); nonblocking() does not wake a waiting thread (C123_switch_refuted)."
  },
  {
   "property": "C124",
   "status": "partial",
   "theorems": [
    "Verif.Sockets.Ports.C124_port",
    "Verif.Sockets.Ports.C124_throws",
    "Verif.Sockets.Ports.C124_exclusive_partial",
    "Verif.Sockets.Ports.C124_shared_refuted"
   ],
   "note": "The first sentence is proved. The last is false: open sets SO_REUSEADDR, with which Linux lets any number of UDP sockets that all set it have one port, so two UDPSockets (or two instances of a program) get the same port without any error (C124_shared_refuted). Ports held without SO_REUSEADDR are never shared."
  },
  {
   "property": "C125",
   "status": "partial",
   "theorems": [
    "Verif.Timeval.C125_minutes_partial",
    "Verif.Timeval.C125_passed_partial",
    "Verif.Timeval.C125_wrap_refuted"
   ],
   "note": "True up to 71582788 minutes in each call; from then on minutes*60 wraps in unsigned (C125_wrap_refuted)."
  },
  {
   "property": "C126",
   "status": "partial",
   "theorems": [
    "C126_statement_partial",
    "C126_else_refuted",
    "C126_assert_refuted",
    "C126_evaluations",
    "C126_twice_refuted"
   ],
   "note": "False in three ways: LOG before else takes the else (C126_else_refuted), LOG_ASSERT in an if asserts even if the condition does not hold (C126_assert_refuted) and evaluates its argument twice (C126_twice_refuted). All other uses: compiles exactly if no macro stands before else, and then does what was meant."
  },
  {
   "property": "C127",
   "status": "partial",
   "theorems": [
    "Verif.Process.Objects.C127_called_partial",
    "Verif.Process.Objects.C127_destroyed",
    "Verif.Process.Objects.C127_own",
    "Verif.Process.Objects.C127_dump",
    "Verif.Process.Objects.C127_other_refuted",
    "Verif.Process.Objects.C127_destroy_refuted",
    "Verif.Process.Objects.C127_end_refuted"
   ],
   "note": "Holds for gSigVec until an object is destroyed; after that nothing is called. False for handlers of any other object, which are never called (C127_other_refuted); for gSigVec and the program's own settings when another object is destroyed (C127_destroy_refuted); and registering after the end of gSigVec makes the signal use destroyed lists (C127_end_refuted)."
  },
  {
   "property": "C128",
   "status": "partial",
   "theorems": [
    "Verif.VectorHeap.C128_cast_const",
    "Verif.VectorHeap.C128_cast_shared_refuted",
    "Verif.VectorHeap.C128_cast_end_refuted",
    "Verif.VectorHeap.C128_segment",
    "Verif.VectorHeap.C128_segment_partial",
    "Verif.VectorHeap.C128_segment_refuted",
    "Verif.VectorHeap.C128_segment_outside_partial",
    "Verif.VectorHeap.C128_head_tail",
    "Verif.VectorHeap.C128_dup_partial",
    "Verif.VectorHeap.C128_dup_owner",
    "Verif.VectorHeap.C128_dup_refuted"
   ],
   "note": "Casts of constant vectors are copies and constant segments show the right elements. False for casts of other vectors, which share the elements and take them along when they end (C128_cast_shared_refuted, C128_cast_end_refuted); for constant segments where the compiler leaves out the copy (C128_segment_refuted); and for dup from an owner, which shows freed memory (C128_dup_refuted)."
  },
  {
   "property": "C129",
   "status": "partial",
   "theorems": [
    "Verif.Threads.Report.C129_report_partial",
    "Verif.Threads.Report.C129_any_partial",
    "Verif.Threads.Report.C129_torn_refuted",
    "Verif.Threads.Report.C129_timedlock_refuted",
    "Verif.Threads.Report.C129_long_refuted"
   ],
   "note": "Exact when no thread is in the middle of lock, trylock or unlock; at any other moment every name and every line shown was used by some call. False for reports read meanwhile, which can join the name of one lock and the line of another (C129_torn_refuted; the comment in Threads.cpp warns of changes while printing), and for programs that call timedlock, which does not count (C129_timedlock_refuted), and for names of files so long that format cuts the piece: line 12 of a name of 195 characters is shown as line 1 (C129_long_refuted)."
  },
  {
   "property": "C130",
   "status": "partial",
   "theorems": [
    "Verif.Interthread.C130_limit",
    "Verif.Interthread.C130_read_partial",
    "Verif.Interthread.C130_readW_partial",
    "Verif.Interthread.C130_map_partial",
    "Verif.Interthread.C130_priority_partial",
    "Verif.Interthread.C130_either_partial",
    "Verif.Interthread.C130_refuted"
   ],
   "note": "For clock readings that are not whole milliseconds, with two milliseconds or more left (one for iqWaitForEither), deadlines within 24 days. False when the clock shows a whole number of milliseconds and the sleep would end on a whole second: Timeval::future then gives one million microseconds, pthread_cond_timedwait rejects the limit, and the call looks again without releasing the lock (C130_refuted)."
  },
  {
   "property": "C131",
   "status": "partial",
   "theorems": [
    "Verif.Config.C131_dump_partial",
    "Verif.Config.C131_default_level",
    "Verif.Config.C131_column_refuted",
    "Verif.Config.C131_corrupt_refuted",
    "Verif.Config.C131_complete",
    "Verif.Config.C131_ambiguous_refuted"
   ],
   "note": "Names free of quotes and not equal to column names, as in C53 (C131_column_refuted otherwise). A key whose own name is not its place in the schema makes the log call the database corrupt, with any database (C131_corrupt_refuted); the lines are ambiguous (C131_ambiguous_refuted)."
  },
  {
   "property": "C132",
   "status": "partial",
   "theorems": [
    "Verif.Interthread.Iterate.C132_snapshot_partial",
    "Verif.Interthread.Iterate.C132_excludes",
    "Verif.Interthread.Iterate.C132_assertion",
    "Verif.Interthread.Iterate.C132_connected_refuted",
    "Verif.Interthread.Iterate.C132_unlocked_refuted",
    "Verif.Interthread.Iterate.C132_read_refuted"
   ],
   "note": "False for a queue that was connected with iqConnect: qGetLock returns mLock, but the calls lock *mLockPointer, so readers go on removing items (C132_connected_refuted). The assertion asks whether any thread has the lock, not whether the caller has it (C132_unlocked_refuted). A body that reads is undefined (C132_read_refuted)."
  },
  {
   "property": "C133",
   "status": "partial",
   "theorems": [
    "Verif.Memory.Threads.C133_exact_partial",
    "Verif.Memory.Threads.C133_printed_partial",
    "Verif.Memory.Threads.C133_safe_partial",
    "Verif.Memory.Threads.C133_torn_refuted",
    "Verif.Memory.Threads.C133_static_refuted",
    "Verif.Memory.Threads.C133_label_refuted",
    "Verif.Memory.Threads.C133_label_partial"
   ],
   "note": "Proved for the classes. A listing can show more objects alive than ever made (C133_torn_refuted). False for labels, whose map is used without the mutex (C133_label_refuted; exact if the uses do not overlap), and for objects made before gMemStats is constructed, which make the number negative when destroyed (C133_static_refuted)."
  },
  {
   "property": "C134",
   "status": "partial",
   "theorems": [
    "Verif.Reporting.Arrays.C134_names",
    "Verif.Reporting.Arrays.C134_counts_partial",
    "Verif.Reporting.Arrays.C134_full_name_refuted"
   ],
   "note": "Bases up to 95 characters and indices below 10^8 (C68); no failing writes and no clear (C67). A call with the full name counts for the element (C134_full_name_refuted)."
  },
  {
   "property": "C135",
   "status": "partial",
   "theorems": [
    "Verif.F16.C135_commutative",
    "Verif.F16.C135_associative_sum",
    "Verif.F16.C135_inverse",
    "Verif.F16.C135_units",
    "Verif.F16.C135_monotone",
    "Verif.F16.C135_quotient",
    "Verif.F16.C135_distributive",
    "Verif.F16.C135_regroup",
    "Verif.F16.C135_signs",
    "Verif.F16.C135_exact_refuted",
    "Verif.F16.C135_monotone_refuted"
   ],
   "note": "The bounds are proved; the exact laws fail for quotients, regrouped and distributed products and signs (C135_exact_refuted), and the order fails when a product does not fit (C135_monotone_refuted)."
  },
  {
   "property": "C136",
   "status": "partial",
   "theorems": [
    "Verif.Utils.Printf.C136_format_partial",
    "Verif.Utils.Printf.C136_width",
    "Verif.Utils.Printf.C136_long_refuted",
    "Verif.Utils.Printf.C136_zero_refuted",
    "Verif.Utils.Printf.C136_nul_refuted"
   ],
   "note": "C136_format_partial says exactly which combinations of types are right. False for a long number or double in one of the eight orders, which is converted to int (C136_long_refuted), for the literal 0, which becomes string(NULL) (C136_zero_refuted: format(\"%d\",0) is undefined), and for strings with zeros (C136_nul_refuted); results of 199 characters are C45."
  },
  {
   "property": "C137",
   "status": "partial",
   "theorems": [
    "Verif.Utils.RefThreads.C137_counts_partial",
    "Verif.Utils.RefThreads.C137_safe_partial",
    "Verif.Utils.RefThreads.C137_progress_partial",
    "Verif.Utils.RefThreads.C137_shared_refuted"
   ],
   "note": "Proved for any number of threads (C137_counts_partial, C137_safe_partial, C137_progress_partial). Missing: copying a variable of another thread, which can use a deleted object (C137_shared_refuted); more than 32767 pointers (C46_overflow_refuted)."
  },
  {
   "property": "C138",
   "status": "partial",
   "theorems": [
    "Verif.Interthread.Life.C138_safe_partial",
    "Verif.Interthread.Life.C138_items_partial",
    "Verif.Interthread.Life.C138_reader_refuted",
    "Verif.Interthread.Life.C138_order_refuted"
   ],
   "note": "Proved for programs that destroy a queue when no call on it is under way and before the queues it is connected to (C138_safe_partial, C138_items_partial). False if the reader of the last item destroys the queue: the writer may still be about to signal (C138_reader_refuted). False for connected queues in the other order, with one thread and no items: the destructor locks the mutex of the queue destroyed before (C138_order_refuted)."
  },
  {
   "property": "C139",
   "status": "partial",
   "theorems": [
    "Verif.Logger.Statics.C139_messages",
    "Verif.Logger.Statics.C139_safe_partial",
    "Verif.Logger.Statics.C139_constructor_refuted",
    "Verif.Logger.Statics.C139_destructor_refuted",
    "Verif.Logger.Statics.C139_alarms"
   ],
   "note": "Proved for programs that keep to rules about what objects before the configuration table or the logger may do (C139_safe_partial); what is logged is proved for every program that ends properly (C139_messages, C139_alarms). False otherwise: an object before the configuration table may not use LOG, and after the logger not even _LOG with an alarm, since sLoggerInited says nothing about the table that addAlarm asks (C139_constructor_refuted); its destructor may not either (C139_destructor_refuted). That destructors of later objects may log rests on the messages that the constructor of the table logs itself, which bring the cache of the levels into being before it."
  },
  {
   "property": "C140",
   "status": "partial",
   "theorems": [
    "Verif.Config.Listing.C140_untouched",
    "Verif.Config.Listing.C140_pairs_untouched",
    "Verif.Config.Listing.C140_origin",
    "Verif.Config.Listing.C140_sets_partial",
    "Verif.Config.Listing.C140_remove_refuted",
    "Verif.Config.Listing.C140_twice_refuted"
   ],
   "note": "Both functions take no lock and fetch row by row. Proved: a key that nobody changes appears exactly once, with its value (C140_untouched, C140_pairs_untouched); every row shown was in the table during the call (C140_origin); while nobody removes keys, getAllPairs returns the table as it is when the call ends (C140_sets_partial: a replaced row gets a new number after the cursor). False: with a removal the result may hold a pair of values that were never there together (C140_remove_refuted); find prints a key that is set meanwhile twice (C140_twice_refuted). Assumes the order in which SQLite numbers and fetches rows, stated in the file."
  },
  {
   "property": "C141",
   "status": "partial",
   "theorems": [
    "Verif.Interthread.C141_posts_left",
    "Verif.Interthread.C141_destroy_partial",
    "Verif.Interthread.C141_once",
    "Verif.Interthread.C141_two_posts_refuted"
   ],
   "note": "Proved for as many successful gets as posts begun, whatever their order (C141_destroy_partial, C141_posts_left), which includes the single use (C141_once): post signals before it unlocks, unlike InterthreadQueue::write (C138). False if posts run together: two posts and one get (C141_two_posts_refuted). Assumes that a mutex may be destroyed as soon as pthread_mutex_unlock has released it, as POSIX demands."
  },
  {
   "property": "C142",
   "status": "partial",
   "theorems": [
    "Verif.Encoding.Early.C142_order",
    "Verif.Encoding.Early.C142_roundtrip",
    "Verif.Encoding.Early.C142_silent_refuted"
   ],
   "note": "False of the code (C142_silent_refuted): the tables of the decoders are zero until the static object sBaseNDecoderInit is constructed, so an earlier call returns zero bytes and finds no wrong character. C142_order says for every order of construction what each call returns: the calls after that object are right (C37-C39), those before return zeros, as many as the text has digits for, with an error only for an odd number of hex digits or data after '='. C142_roundtrip: an early decoding of an encoded text is right just if all bytes are zero."
  },
  {
   "property": "C143",
   "status": "partial",
   "theorems": [
    "Verif.Logger.FileOpen.C143_file_partial",
    "Verif.Logger.FileOpen.C143_apart_partial",
    "Verif.Logger.FileOpen.C143_untouched",
    "Verif.Logger.FileOpen.C143_split_refuted",
    "Verif.Logger.FileOpen.C143_twice_refuted",
    "Verif.Logger.FileOpen.C143_overwritten_refuted"
   ],
   "note": "Without two calls at the same time nothing is lost and the records of each thread are in order (C143_file_partial), but the first line can come after records and even between the text of a record and its line end (C143_split_refuted), since it is written without the lock; if no record is destroyed during the call, the first line comes first and every record is one line (C143_apart_partial). Two calls at the same time can lose records that were already written, or write over them (C143_twice_refuted, C143_overwritten_refuted). Until the file is opened its old contents stay (C143_untouched)."
  },
  {
   "property": "C144",
   "status": "partial",
   "theorems": [
    "C144_values_partial",
    "C144_cond_refuted",
    "C144_shift_refuted",
    "C144_and_refuted",
    "C144_compare_rejected",
    "C144_opt_refuted",
    "C144_byte_refuted",
    "C144_hex_refuted"
   ],
   "note": "The grammar is proved unambiguous, so the reading is the compiler's. It holds for arguments that bind more tightly than << (as tightly as a cast for LOGHEX); LOGVAR2, LOGHEX2 and LOGVARRANGE take any argument (C144_values_partial). LOGVAR(a ? b : c) prints a (C144_cond_refuted), LOGVAR(a && b) and LOGVAR(a || b) print a (C144_and_refuted), LOGVAR(a << b) prints both (C144_shift_refuted), other operators do not compile (C144_compare_rejected); LOGHEX(a >> b) casts only a (C144_hex_refuted); numbers of 8 bits print as characters, a zero ends the record (C144_byte_refuted); RN_WRITE_OPT_TEXT writes the stream to itself (C144_opt_refuted)."
  },
  {
   "property": "C145",
   "status": "partial",
   "theorems": [
    "Verif.Macros.Bound.C145_bound_partial",
    "Verif.Macros.Bound.C145_nearest",
    "Verif.Macros.Bound.C145_steady_partial",
    "Verif.Macros.Bound.C145_unsigned_refuted",
    "Verif.Macros.Bound.C145_changing_refuted"
   ],
   "note": "It holds if all types are signed or all three values are at least zero (C145_bound_partial, C145_nearest), and if the arguments keep their values (C145_steady_partial). With an unsigned value and the bounds -1 and 10, 5 becomes 4294967295 (C145_unsigned_refuted); the value is evaluated up to three times, so if it changes meanwhile the result can be outside any bounds (C145_changing_refuted)."
  },
  {
   "property": "C146",
   "status": "partial",
   "theorems": [
    "Verif.Reporting.Crash.C146_life",
    "Verif.Reporting.Crash.C146_lives",
    "Verif.Reporting.Crash.C146_max",
    "Verif.Reporting.Crash.C146_create",
    "Verif.Reporting.Crash.C146_acknowledged_refuted",
    "Verif.Reporting.Crash.C146_torn_refuted",
    "Verif.Reporting.Crash.C146_callers_refuted"
   ],
   "note": "Counters that are not cleared and whose statements succeed (C67 has the rest), fewer than 2^32 increments in each life. Increments that returned are lost if the process ends before the next commit (C146_acknowledged_refuted). A commit is not a transaction, so counters together can belong to no moment: a success without an attempt stays for ever (C146_torn_refuted). With two callers of commit one may return and what was counted before it began is lost (C146_callers_refuted)."
  },
  {
   "property": "C147",
   "status": "partial",
   "theorems": [
    "Verif.Crc.Channel.C147_sends",
    "Verif.Crc.Channel.C147_check",
    "Verif.Crc.Channel.C147_noise",
    "Verif.Crc.Channel.C147_odd",
    "Verif.Crc.Channel.C147_burst",
    "Verif.Crc.Channel.C147_two",
    "Verif.Crc.Channel.C147_neighbours_refuted"
   ],
   "note": "Two errors pass exactly if the generator divides X^d+1, d their distance in the block (C147_two); errors near each other in the channel need not be found: with three parity bits two neighbouring wrong bits pass (C147_neighbours_refuted). Soft bits are exact rationals."
  },
  {
   "property": "C148",
   "status": "partial",
   "theorems": [
    "Verif.Config.Conc.C148_durable_partial",
    "Verif.Config.Conc.C148_kept_partial"
   ],
   "note": "Keys and values without quotes, as in C53; processes at the same time are C54. SQLite is assumed to do each statement wholly or not at all and to keep it when the process ends."
  },
  {
   "property": "C149",
   "status": "partial",
   "theorems": [
    "Verif.Utils.StatText.C149_count_partial",
    "Verif.Utils.StatText.C149_order_partial",
    "Verif.Utils.StatText.C149_text_partial",
    "Verif.Utils.StatText.C149_overlap_refuted"
   ],
   "note": "By the C standard the short form is undefined: strcpy moves a text by one character within its buffer (C149_overlap_refuted). The theorems assume a strcpy that copies from front to back. How a double looks is a parameter; from 2^32 samples on see C47."
  },
  {
   "property": "C150",
   "status": "partial",
   "theorems": [
    "Verif.Streams.C150_flags",
    "Verif.Streams.C150_independent_partial",
    "Verif.Streams.C150_fixed",
    "Verif.Streams.C150_width_partial",
    "Verif.Streams.C150_width_refuted",
    "Verif.Streams.C150_after_timeval",
    "Verif.Streams.C150_timeval_refuted",
    "Verif.Streams.C150_hex_refuted",
    "Verif.Streams.C150_hex"
   ],
   "note": "False after a Timeval, which leaves the stream in fixed notation, after BitVector::hex, which leaves it in decimal, and for a width, which fills up only the first part of all values but objects and texts."
  },
  {
   "property": "C151",
   "status": "partial",
   "theorems": [
    "Verif.Interthread.Walk.C151_walk",
    "Verif.Interthread.Walk.C151_later",
    "Verif.Interthread.Walk.C151_ends",
    "Verif.Interthread.Walk.C151_alone",
    "Verif.Interthread.Walk.C151_unlocked_refuted",
    "Verif.Interthread.Walk.C151_current_refuted",
    "Verif.Interthread.Walk.C151_grows_refuted"
   ],
   "note": "For turns that do not erase the element the iterator is at; otherwise, and without the lock, moving the iterator is undefined; turns that write ahead may keep the loop from ending."
  },
  {
   "property": "C152",
   "status": "partial",
   "theorems": [
    "Verif.Logger.AlarmThreads.C152_turns",
    "Verif.Logger.AlarmThreads.C152_each",
    "Verif.Logger.AlarmThreads.C152_newest_partial",
    "Verif.Logger.AlarmThreads.C152_undefined_refuted"
   ],
   "note": "False without a limit in the configuration: the exception leaves the lock with the thread, and every other thread waits for ever."
  },
  {
   "property": "C153",
   "status": "partial",
   "theorems": [
    "Verif.Config.Programs.C153_recent_partial",
    "Verif.Config.Programs.C153_agree_partial",
    "Verif.Config.Programs.C153_order_refuted",
    "Verif.Config.Programs.C153_busy_refuted"
   ],
   "note": "For keys and values that mean themselves in SQL (C61) and one table per program (C54). Values of different keys need not belong to one moment (C153_order_refuted). A query that the busy database refuses five times reads as the default, which then stays in the cache (C153_busy_refuted)."
  },
  {
   "property": "C154",
   "status": "partial",
   "theorems": [
    "Verif.Reporting.Crash.Programs.C154_counts_partial",
    "Verif.Reporting.Crash.Programs.C154_grows_partial",
    "Verif.Reporting.Crash.Programs.C154_total_partial",
    "Verif.Reporting.Crash.Programs.C154_max",
    "Verif.Reporting.Crash.Programs.C154_clear_refuted",
    "Verif.Reporting.Crash.Programs.C154_busy_refuted"
   ],
   "note": "Counters that are not cleared and whose statements succeed, one committing thread per program, fewer than 2^32 increments in each run. A clear does not clear what another program has not committed yet (C154_clear_refuted); a statement refused because another program keeps the database busy loses the increments although commit returns (C154_busy_refuted)."
  },
  {
   "property": "C155",
   "status": "partial",
   "theorems": [
    "Verif.Interthread.Holding.C155_private",
    "Verif.Interthread.Holding.C155_read_refuted",
    "Verif.Interthread.Holding.C155_until"
   ],
   "note": "The first two parts hold (C155_private). The last is false for read() on an empty queue: pthread_cond_wait gives a recursive mutex back only once, so the thread sleeps with the lock, and neither it nor any other call on the queue ever returns (C155_read_refuted, for all continuations). read(timeout) returns NULL at the limit and keeps everybody else out until then (C155_until)."
  },
  {
   "property": "C156",
   "status": "partial",
   "theorems": [
    "Verif.Utils.Average.C156_bound",
    "Verif.Utils.Average.C156_exact_partial",
    "Verif.Utils.Average.C156_small_partial",
    "Verif.Utils.Average.C156_lost_refuted",
    "Verif.Utils.Average.C156_range_refuted"
   ],
   "note": "For whole samples whose partial sums stay within 2^53 (always the case for fewer than 2^32 samples of magnitude up to 2^21, C156_small_partial) the sum is exact, the average is the double nearest to the mean and lies between the samples (C156_exact_partial). Beyond that samples can be lost altogether (C156_lost_refuted), and with fractions the average can be above the largest sample (C156_range_refuted, three times 0.1). In all cases the error is at most the largest magnitude divided by 2^20 (C156_bound)."
  },
  {
   "property": "C157",
   "status": "partial",
   "theorems": [
    "Verif.Config.Checked.C157_boolean_partial",
    "Verif.Config.Checked.C157_range_partial",
    "Verif.Config.Checked.C157_port_partial",
    "Verif.Config.Checked.C157_float_partial",
    "Verif.Config.Checked.C157_address_partial",
    "Verif.Config.Checked.C157_octal_refuted",
    "Verif.Config.Checked.C157_overflow_refuted",
    "Verif.Config.Checked.C157_colon_refuted"
   ],
   "note": "True for BOOLEAN, for ranges with a decimal point, and for addresses with a colon; for integer ranges and ports, true for every accepted text (also such as 5-3) without leading zero and ranges within the int limits. False for a leading zero, which the check ignores and strtol takes as octal: 010 is accepted for 10:20 and read as 8, 08 is accepted as a port and read as 0 (C157_octal_refuted); for limits at the end of int (C157_overflow_refuted); for an address without colon on 64 bits (C157_colon_refuted). Keys and values clean as in C53."
  },
  {
   "property": "C158",
   "status": "partial",
   "theorems": [
    "Verif.Sockets.Frames.C158_frame_partial",
    "Verif.Sockets.Frames.C158_whole_partial",
    "Verif.Sockets.Frames.C158_long_refuted",
    "Verif.Sockets.Frames.C158_mixed_refuted",
    "Verif.Sockets.Frames.C158_text_refuted"
   ],
   "note": "True for vectors of one size of at most 12000 bits (C158_whole_partial); a shorter receiving vector gets the beginning of the one sent (C158_frame_partial). False above 12000 bits, since read takes 1500 bytes (C158_long_refuted), for different sizes, where the rest of the buffer shows an earlier packet unless the caller looks at the length (C158_mixed_refuted), and for packToString with write(const char*), which stops at the first zero byte (C158_text_refuted)."
  },
  {
   "property": "C159",
   "status": "partial",
   "theorems": [
    "Verif.Interthread.ClockSet.C159_limit_partial",
    "Verif.Interthread.ClockSet.C159_goes_on_partial",
    "Verif.Interthread.ClockSet.C159_back_refuted",
    "Verif.Interthread.ClockSet.C159_forward_refuted"
   ],
   "note": "Both gettimeofday and pthread_cond_timedwait follow the clock of the system, so the property is false: setting it back by h makes the call last h longer, for every h (C159_back_refuted), setting it on by the limit ends the call at once (C159_forward_refuted). What remains: moved by at most J from its first difference to real time, the call returns at most J + 2 ms early and J + 1 ms plus three times the reaction time of the thread late, and does not stay longer (C159_limit_partial), and never gets stuck (C159_goes_on_partial)."
  },
  {
   "property": "C160",
   "status": "proved",
   "theorems": [
    "Verif.BitVector.Views.C160_segment",
    "Verif.BitVector.Views.C160_views",
    "Verif.BitVector.Views.C160_history",
    "Verif.BitVector.Views.C160_last_write",
    "Verif.BitVector.Views.C160_read",
    "Verif.BitVector.Views.C160_misfit"
   ],
   "note": "Calls that write given values are described by the last one covering a bit (C160_last_write, C160_read); invert and copyToSegment, which depend on the bits before, by a function on bits (C160_history). Copies whose ranges overlap are undefined and not among the calls that fit (C18)."
  },
  {
   "property": "C161",
   "status": "partial",
   "theorems": [
    "Verif.Config.Hook.C161_set_partial",
    "Verif.Config.Hook.C161_remove_partial",
    "Verif.Config.Hook.C161_same_partial",
    "Verif.Config.Hook.C161_other_refuted",
    "Verif.Config.Hook.C161_nothing_refuted"
   ],
   "note": "SQLite tells the hook only about rows changed through the same connection. So a change by another program stays unseen for up to three seconds (C161_other_refuted), also over a remove that finds nothing (C161_nothing_refuted). What the hook achieves: each set, and each remove of a key that is there, makes all earlier changes by others visible at once in all keys (C161_set_partial, C161_remove_partial), and nothing changes for a program on its own (C161_same_partial)."
  },
  {
   "property": "C162",
   "status": "partial",
   "theorems": [
    "Verif.Interthread.Bounded.C162_bound_partial",
    "Verif.Interthread.Bounded.C162_awake_partial",
    "Verif.Interthread.Bounded.C162_no_deadlock_partial",
    "Verif.Interthread.Bounded.C162_tight_refuted",
    "Verif.Interthread.Bounded.C162_asleep_refuted"
   ],
   "note": "The check in wait and the write are two separate calls, so the bound is N plus the number of producers (C162_bound_partial), and for every N and every number of producers some schedule attains it (C162_tight_refuted). It never happens that all producers sleep in wait with at most N items in the queue (C162_awake_partial), so never all producers while a reader sleeps (C162_no_deadlock_partial). But with two producers one can sleep on over an empty queue for as long as the other does not write and nobody reads (C162_asleep_refuted)."
  },
  {
   "property": "C163",
   "status": "proved",
   "theorems": [
    "Verif.Interthread.Chain.C163_order",
    "Verif.Interthread.Chain.C163_prefix",
    "Verif.Interthread.Chain.C163_one",
    "Verif.Interthread.Chain.C163_complete"
   ],
   "note": "With two threads between the same two queues the order is not kept: the claim has one. Nobody else writes into the later queues, reads from the earlier ones, or clears."
  },
  {
   "property": "C164",
   "status": "partial",
   "theorems": [
    "Verif.Utils.RefGraph.C164_safe",
    "Verif.Utils.RefGraph.C164_counted",
    "Verif.Utils.RefGraph.C164_kept",
    "Verif.Utils.RefGraph.C164_complete_partial",
    "Verif.Utils.RefGraph.C164_nothing_left_partial",
    "Verif.Utils.RefGraph.C164_cycle_refuted",
    "Verif.Utils.RefGraph.C164_depth_refuted"
   ],
   "note": "Objects that point to each other in a circle are never deleted (C164_cycle_refuted); without circles exactly what is reachable exists (C164_complete_partial). The other parts hold for all structures (C164_safe, C164_counted, C164_kept). The calls nest as deep as the structure: for every depth there is a list whose deletion needs more (C164_depth_refuted), so that C164_safe presumes stack enough. One thread."
  },
  {
   "property": "C165",
   "status": "proved",
   "theorems": [
    "Verif.Interthread.C165_queue",
    "Verif.Interthread.C165_with_wait",
    "Verif.Interthread.C165_priority",
    "Verif.Interthread.C165_pair",
    "Verif.Interthread.C165_semaphore",
    "Verif.Interthread.C165_map",
    "Verif.Interthread.C165_under_way",
    "Verif.Interthread.C165_under_way_map",
    "Verif.Interthread.C165_no_spins",
    "Verif.Interthread.C165_settles",
    "Verif.Interthread.C165_comes_to_rest"
   ],
   "note": "Looks at the data that change nothing for any thread are counted apart: a timed read just before its limit, waitEither after its limit (C25). Without time limits there are none (C165_no_spins). That a thread that can go on is given the processor is left to the operating system; C165_settles holds for whichever order it chooses."
  },
  {
   "property": "C166",
   "status": "proved",
   "theorems": [
    "Verif.Interthread.C166_bounded",
    "Verif.Interthread.C166_comes_to_rest",
    "Verif.Interthread.C166_indivisible",
    "Verif.Interthread.C166_no_new_deadlock",
    "Verif.Interthread.C166_exact"
   ],
   "note": "Writes of non-NULL pointers to queues, as in C22. A call with a time limit may, in the description, return empty-handed whenever its queue is empty; C166_no_new_deadlock counts threads in such calls as able to go on, C166_exact leaves them out, as well as the order in which clear of a priority queue deletes the items. A thread is inside one object at a time. Each object has its own reading of the clock. C166_bounded and C166_comes_to_rest take a number that falls with every step and call of the program with indivisible calls; the latter is for programs without time limits, and priority queues with a strict order; looks at the data on a wakeup that finds nothing are counted, the clock is not."
  },
  {
   "property": "C167",
   "status": "proved",
   "theorems": [
    "Verif.Interthread.Pool.C167_once",
    "Verif.Interthread.Pool.C167_complete",
    "Verif.Interthread.Pool.C167_bounded",
    "Verif.Interthread.Pool.C167_finishes"
   ],
   "note": "Items and results are non-NULL pointers, the workers' function is any function of the item. The threads are scheduled in any order; that each thread that can go on eventually does is not assumed: the number of steps is bounded, and when no thread can go on everything has been collected."
  },
  {
   "property": "C168",
   "status": "proved",
   "theorems": [
    "Verif.Interthread.Lock.C168_exclusive",
    "Verif.Interthread.Lock.C168_not_lost",
    "Verif.Interthread.Lock.C168_rounds"
   ],
   "note": "A thread inside post or get is not counted as owning it. Nothing is said about the order in which threads get it. If two threads set it up both can own it at once, by an example in the file."
  },
  {
   "property": "C169",
   "status": "proved",
   "theorems": [
    "Verif.Interthread.Answers.C169_own",
    "Verif.Interthread.Answers.C169_complete",
    "Verif.Interthread.Answers.C169_bounded",
    "Verif.Interthread.Answers.C169_finishes"
   ],
   "note": "Keys are different numbers. Two clients with the same key can get each other's answers, by an example in the file. That each thread that can go on eventually does is not assumed: the number of steps is bounded, and when no thread can go on every client has its answers."
  },
  {
   "property": "C170",
   "status": "proved",
   "theorems": [
    "Verif.Interthread.PoolStop.C170_once",
    "Verif.Interthread.PoolStop.C170_complete",
    "Verif.Interthread.PoolStop.C170_finishes"
   ],
   "note": "A stop item is any value the program has chosen; a NULL pointer cannot serve (read passes over it). Where a producer's last item is not a stop item, an item can stay unread, by an example in the file. That each thread that can go on eventually does is not assumed: the number of steps is bounded, and when no thread can go on the claim holds."
  },
  {
   "property": "C171",
   "status": "proved",
   "theorems": [
    "Verif.Interthread.Nodes.C171_queue",
    "Verif.Interthread.Nodes.C171_safe",
    "Verif.Interthread.Nodes.C171_queue_exact",
    "Verif.Interthread.Nodes.C171_readers",
    "Verif.Monitor.C171_indivisible",
    "Verif.Monitor.C171_exact"
   ],
   "note": "In Timeval::remaining and Signal::wait the clock is read twice, once for the remaining time and once for the limit of the wait; the model uses the first reading for both, as in C24. Destructors of items (run by clear) do not call the queue."
  },
  {
   "property": "C172",
   "status": "proved",
   "theorems": [
    "Verif.Interthread.Containers.C172_queue",
    "Verif.Interthread.Containers.C172_queue_exact",
    "Verif.Interthread.Containers.C172_queue_safe",
    "Verif.Interthread.Containers.C172_pair",
    "Verif.Interthread.Containers.C172_pair_exact",
    "Verif.Interthread.Containers.C172_pair_safe",
    "Verif.Interthread.Containers.C172_map",
    "Verif.Interthread.Containers.C172_map_exact",
    "Verif.Interthread.Containers.C172_map_safe",
    "Verif.Interthread.Containers.C172_semaphore",
    "Verif.Interthread.Containers.C172_semaphore_exact",
    "Verif.Interthread.Containers.C172_priority",
    "Verif.Interthread.Containers.C172_priority_safe",
    "Verif.Monitor.Tree.C172_safe"
   ],
   "note": "Calls on the standard containers are single steps that do what the C++ standard says; the time is read once per pass (see C171). Destructors of items do not call the queue or map."
  },
  {
   "property": "C173",
   "status": "proved",
   "theorems": [
    "Verif.Interthread.HandOver.C173_classes",
    "Verif.Interthread.HandOver.C173_alone",
    "Verif.Interthread.HandOver.C173_not_lost_classes",
    "Verif.Monitor.C173_no_race",
    "Verif.Monitor.C173_one_place",
    "Verif.Monitor.C173_not_lost"
   ],
   "note": "Happens-before consists of the order within each thread and of the order from each unlock of a mutex (including the one inside of pthread_cond_wait) to each later lock of it, which C++ and POSIX guarantee. An item that front or peek shows, or that a get leaves in the map, is not handed over."
  },
  {
   "property": "C174",
   "status": "proved",
   "theorems": [
    "Verif.Threads.C174_no_race",
    "Verif.Threads.C174_timedlock_race"
   ],
   "note": "Happens-before consists of the order within each thread, and of the order from a release of a lock to later acquisitions of it (for RWLocks: unless both are for reading), which C++ and POSIX guarantee; of nested locks and unlocks only the outermost count. Clock readings are normalised."
  },
  {
   "property": "C175",
   "status": "partial",
   "theorems": [
    "Verif.Memory.Exhausted.C175_queue_write",
    "Verif.Memory.Exhausted.C175_map_write",
    "Verif.Memory.Exhausted.C175_manual_partial",
    "Verif.Memory.Exhausted.C175_manual_refuted",
    "Verif.Memory.Exhausted.C175_commit_refuted",
    "Verif.Memory.Exhausted.C175_register_refuted",
    "Verif.Memory.Exhausted.C175_config_lock",
    "Verif.Memory.Exhausted.C175_config_value_refuted",
    "Verif.Memory.Exhausted.C175_config_entry_refuted",
    "Verif.Memory.Exhausted.C175_config_partial",
    "Verif.Memory.Exhausted.C175_blocked"
   ],
   "note": "Partial: code with lock() and unlock() keeps the lock when thrown out of (refuted with witnesses, and shown exactly for all patterns); a failed strdup of a configuration value is taken for an absent row (refuted). How many allocations a node or string needs is a parameter; comparisons and destructors throw nothing."
  },
  {
   "property": "C176",
   "status": "partial",
   "theorems": [
    "Verif.Threads.Library.C176_no_race_partial",
    "Verif.Threads.Library.C176_one_table_partial",
    "Verif.Threads.Library.C176_memory_partial",
    "Verif.Threads.Library.C176_races_refuted"
   ],
   "note": "Partial: eight variables have data races (two-call witnesses in C176_races_refuted). Kept of the functions are locks, unlocks and accesses along all paths; a container is one variable; callbacks of signals use none of the variables; the report of a blocked mutex is left out (C129)."
  },
  {
   "property": "C177",
   "status": "proved",
   "theorems": [
    "Verif.Threads.Start.C177_no_race",
    "Verif.Threads.Start.C177_polite",
    "Verif.Threads.Start.C177_early_races"
   ],
   "note": "The order of uses is that of C++ and POSIX for pthread_create and pthread_join; mThread counts as written by pthread_create after the new thread has begun; freed blocks are not reused."
  },
  {
   "property": "C178",
   "status": "partial",
   "theorems": [
    "Verif.Threads.Own.C178_no_race_partial",
    "Verif.Threads.Own.C178_polite",
    "Verif.Threads.Own.C178_covered",
    "Verif.Threads.Own.C178_report_refuted"
   ],
   "note": "Partial: the report of a lock that takes longer than a second reads the record without the mutex (witness in C178_report_refuted); timedlock with a deadline at a full second is left out (C30)."
  },
  {
   "property": "C179",
   "status": "proved",
   "theorems": [
    "Verif.Together.C179_no_race",
    "Verif.Together.C179_arrives",
    "Verif.Together.C179_away",
    "Verif.Together.C179_after_races"
   ],
   "note": "The record a mutex keeps of its locks is left out here, see C178."
  },
  {
   "property": "C180",
   "status": "proved",
   "theorems": [
    "Verif.Values.C180_together",
    "Verif.Values.C180_guarded",
    "Verif.Values.C180_stale"
   ],
   "note": "The record a mutex keeps of its locks is left out here, see C178."
  },
  {
   "property": "C181",
   "status": "partial",
   "theorems": [
    "Verif.Interthread.MapLife.C181_writer_left",
    "Verif.Interthread.MapLife.C181_destroy_map",
    "Verif.Interthread.MapLife.C181_queue_with_wait_refuted",
    "Verif.Interthread.MapLife.C181_priority_refuted"
   ],
   "note": "True for InterthreadMap, which notifies before it unlocks, for elements stored once under their key (C181_destroy_map, C181_writer_left). False for InterthreadQueueWithWait and InterthreadPriorityQueue, which signal after the unlock: the writer may be about to use the signal of an object that its reader has destroyed (C181_queue_with_wait_refuted, C181_priority_refuted). InterthreadQueue is C138, Semaphore C141."
  },
  {
   "property": "C182",
   "status": "proved",
   "theorems": [
    "Verif.LockOrder.C182_goes_on",
    "Verif.LockOrder.C182_no_cycle",
    "Verif.LockOrder.C182_rest",
    "Verif.LockOrder.C182_order_needed",
    "Verif.LockOrder.C182_no_lock_needed"
   ],
   "note": "Proved: C182_goes_on, C182_no_cycle; and when nothing goes on any more, threads are left only waiting for elements (C182_rest). Both rules are needed: opposite orders (C182_order_needed), and a blocking read with a mutex locked (C182_no_lock_needed). The passes about to run must be defined (no overflow of the clock in calls with a time limit, comparisons that order); for calls without time limit on objects other than priority queues they always are (defined_plain)."
  },
  {
   "property": "C183",
   "status": "partial",
   "theorems": [
    "Verif.Process.C183_again_partial",
    "Verif.Process.C183_ends",
    "Verif.Process.C183_stale",
    "Verif.Process.C183_killed_refuted",
    "Verif.Process.C183_early_refuted",
    "Verif.Process.C183_delete"
   ],
   "note": "True if every process that wrote its pid file ended after RegisterProgram returned, with exit or by a signal with a handler (C183_again_partial), and these are exactly the ways to end that remove the file (C183_ends). False after a process was killed or ended while registering (C183_killed_refuted, C183_early_refuted): then no start succeeds ever, whatever other processes do (C183_stale), until someone deletes the file, which always suffices and is of no use for other programs (C183_delete)."
  },
  {
   "property": "C184",
   "status": "proved",
   "theorems": [
    "Verif.Threads.RwOrder.C184_goes_on",
    "Verif.Threads.RwOrder.C184_order_needed",
    "Verif.Threads.RwOrder.C184_nested_needed"
   ],
   "note": "Proved: C184_goes_on. The order is needed (C184_order_needed), and nested reading needs locks that prefer readers (C184_nested_needed); going from reading to writing waits for oneself (C101_upgrade_waits). Unlocking what one does not have is undefined (C101)."
  },
  {
   "property": "C185",
   "status": "proved",
   "theorems": [
    "Verif.AllLocks.C185_goes_on",
    "Verif.AllLocks.C185_no_cycle",
    "Verif.AllLocks.C185_order_needed"
   ],
   "note": "Proved: C185_goes_on, C185_no_cycle. An order for each kind of lock is not enough (C185_order_needed). Passes inside of objects must be defined (as in C182), and unlocking what one does not have is undefined (C101)."
  },
  {
   "property": "C186",
   "status": "partial",
   "theorems": [
    "Verif.Utils.Backtrace.C186_stringcat",
    "Verif.Utils.Backtrace.C186_report_partial",
    "Verif.Utils.Backtrace.C186_readable",
    "Verif.Utils.Backtrace.C186_whole",
    "Verif.Utils.Backtrace.C186_kept",
    "Verif.Utils.Backtrace.C186_kept_refuted",
    "Verif.Utils.Backtrace.C186_throws_refuted"
   ],
   "note": "With enough memory proved (C186_report_partial; read back by C186_readable), and never a part of a list (C186_whole). False when memory runs out: the block of backtrace_symbols is kept (C186_kept says exactly when, C186_kept_refuted), and the copy of the text \"backtrace failed\" can throw (C186_throws_refuted)."
  },
  {
   "property": "C187",
   "status": "proved",
   "theorems": [
    "Verif.JoinOrder.C187_locks",
    "Verif.JoinOrder.C187_goes_on",
    "Verif.JoinOrder.C187_join",
    "Verif.JoinOrder.C187_order_needed",
    "Verif.JoinOrder.C187_bare_needed"
   ],
   "note": "Proved: C187_goes_on, C187_locks. Both parts of the rule are needed: C187_order_needed, C187_bare_needed. All threads are there from the beginning; what join says about a thread is in C102."
  },
  {
   "property": "C188",
   "status": "partial",
   "theorems": [
    "Verif.Process.Interrupted.C188_read",
    "Verif.Process.Interrupted.C188_timed_partial",
    "Verif.Process.Interrupted.C188_interrupted",
    "Verif.Process.Interrupted.C188_sleep",
    "Verif.Process.Interrupted.C188_once",
    "Verif.Process.Interrupted.C188_few",
    "Verif.Process.Interrupted.C188_resize_refuted"
   ],
   "note": "True of read without a limit: C188_read; of read with a limit when the signals have no handler: C188_timed_partial. False in programs that have called RegisterProgram: C188_resize_refuted (signal 28: a timed read throws SocketError, a sleep of an hour ends after a second). Exactly when a timed read fails: C188_interrupted. How long a sleep takes: C188_sleep. Each signal disturbs one wait at most: C188_once."
  }
 ]
}
