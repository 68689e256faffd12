{
 "claims": [
  {
   "property": "C24",
   "status": "proved",
   "theorems": [
    "Verif.CxQueue.C24_cx_queue_refines_fifo",
    "Verif.CxQueue.C24_cx_queue_fifo_order"
   ],
   "note": "All capacities below 2^64, all policies, handlers and moved-from residues."
  },
  {
   "property": "C25",
   "status": "partial",
   "theorems": [
    "Verif.CxQueue.C25_cx_queue_safe_policy_partial",
    "Verif.CxQueue.C25_cx_queue_panic_iff_partial",
    "Verif.CxQueue.C25_returning_handler_push_overwrites",
    "Verif.CxQueue.C25_returning_handler_underflow_unreported",
    "Verif.CxQueue.C25_returning_handler_history"
   ],
   "note": "In full for a handler that does not return. With the default (returning) handler a push on a full queue overwrites an element and an underflow after the first is not reported (proved)."
  },
  {
   "property": "C26",
   "status": "proved",
   "theorems": [
    "Verif.CxVector.C26_cx_vector_refines_list",
    "Verif.CxVector.C26_default_ctor",
    "Verif.CxVector.C26_cx_vector_ub_iff"
   ],
   "note": "Iterator types are represented by iterate/index. Undefined cases outside the statement, all listed by C26_cx_vector_ub_iff: indexing or assigning at or past the capacity, front of a vector of capacity zero, and a resize_and_overwrite callback that writes outside the array. A callback that returns more than the capacity is excluded by admissibility."
  },
  {
   "property": "C27",
   "status": "proved",
   "theorems": [
    "Verif.CxVector.C27_cx_vector_eq_any",
    "Verif.CxVector.C27_cx_vector_eq",
    "Verif.CxVector.C27_cx_vector_eq_histories"
   ],
   "note": ""
  },
  {
   "property": "C28",
   "status": "proved",
   "theorems": [
    "Verif.CxMap.C28_cx_map_refines_partial_function",
    "Verif.CxMap.C28_cx_map_ub_iff"
   ],
   "note": ""
  },
  {
   "property": "C29",
   "status": "proved",
   "theorems": [
    "Verif.CxSet.C29_cx_set_refines_set",
    "Verif.CxSet.C29_cx_set_merge_union",
    "Verif.CxSet.C29_cx_set_ub_iff"
   ],
   "note": ""
  },
  {
   "property": "C30",
   "status": "partial",
   "theorems": [
    "Verif.CxSet.C30_cx_set_initial_contains",
    "Verif.CxSet.C30_cx_set_initial_partial",
    "Verif.CxSet.C30_cx_set_initial_fails",
    "Verif.CxSet.C30_cx_set_initial_size_fails",
    "Verif.CxMap.C30_cx_map_initial_partial",
    "Verif.CxMap.C30_cx_map_initial_abs_exists",
    "Verif.CxMap.C30_cx_map_initial_get",
    "Verif.CxMap.C30_cx_map_initial_fails"
   ],
   "note": "The code does not remove duplicates given to the constructors: false with repeated elements (proved), true without."
  },
  {
   "property": "C31",
   "status": "partial",
   "theorems": [
    "Verif.CxMultimap.C31_cx_multimap_refines_partial",
    "Verif.CxMultimap.C31_cx_multimap_erase_violated",
    "Verif.CxMultimap.C31_cx_multimap_erase_violated_witness",
    "Verif.CxMultimap.C31_cx_multimap_exact",
    "Verif.CxMultimap.C31_cx_multimap_ub_iff"
   ],
   "note": "erase(k, v) on a key with an empty value set returns 0 but removes the key (proved); everything else holds."
  },
  {
   "property": "C18",
   "status": "partial",
   "theorems": [
    "Verif.IList.C18_intrusive_list_refines_sequence_partial",
    "Verif.IList.C18_insert_end_histories",
    "Verif.IList.C18_empty_access_undefined"
   ],
   "note": "All histories with the checked policy. With the unchecked policy, all those in which a node given to insert(end(), n) of a non-empty list was the last of its list when it left it (or has a null next from the start); for any other node the claim is false (C22_insert_end_exact)."
  },
  {
   "property": "C19",
   "status": "partial",
   "theorems": [
    "Verif.IList.C19_operation_frame_partial",
    "Verif.IList.C19_lists_independent_partial",
    "Verif.IList.C19_insert_end_frame",
    "Verif.IList.C19_insert_end_independent",
    "Verif.IList.C19_interference_violated",
    "Verif.FList.C19_forward_operation_frame",
    "Verif.FList.C19_forward_lists_independent"
   ],
   "note": "Forward lists: all histories. Doubly linked lists: all histories with the checked policy; with the unchecked policy all those in which a node given to insert(end(), n) of a non-empty list was the last of its list when it left it (or has a null next from the start). A node inserted there with a stale link can, when removed, change a node of another list (proved)."
  },
  {
   "property": "C20",
   "status": "proved",
   "theorems": [
    "Verif.IList.C20_checked_reuse_never_panics"
   ],
   "note": ""
  },
  {
   "property": "C21",
   "status": "partial",
   "theorems": [
    "Verif.IList.C21_checked_detects_member_partial",
    "Verif.IList.C21_history_partial",
    "Verif.IList.C21_sole_member_violated",
    "Verif.IList.C21_sole_member_undetected"
   ],
   "note": "The only member of a list has null links and is not detected (proved)."
  },
  {
   "property": "C22",
   "status": "partial",
   "theorems": [
    "Verif.IList.C22_insert_before",
    "Verif.IList.C22_insert_end_partial",
    "Verif.IList.C22_insert_end_violated",
    "Verif.IList.C22_insert_end_exact",
    "Verif.IList.C22_remove"
   ],
   "note": "insert(end(), n) with the unchecked policy keeps a stale n->next: iteration goes on to the node n was followed by when it left its list (proved for every history, exactly when)."
  },
  {
   "property": "C23",
   "status": "proved",
   "theorems": [
    "Verif.FList.C23_forward_list_refines_sequence",
    "Verif.FList.C23_empty_access_undefined"
   ],
   "note": ""
  },
  {
   "property": "C77",
   "status": "proved",
   "theorems": [
    "Verif.FList.C77_forward_list_checked_reuse"
   ],
   "note": ""
  },
  {
   "property": "C78",
   "status": "partial",
   "theorems": [
    "Verif.FList.C78_forward_list_detects_member_partial",
    "Verif.FList.C78_history_partial",
    "Verif.FList.C78_tail_repush_violated"
   ],
   "note": "The last node of a list has a null next link and is not detected (proved)."
  },
  {
   "property": "C01",
   "status": "proved",
   "theorems": [
    "Verif.BitMask.C01_bit_mask",
    "Verif.BitMask.C01_bit_mask_static"
   ],
   "note": ""
  },
  {
   "property": "C02",
   "status": "proved",
   "theorems": [
    "Verif.BitMask.C02_bit_mask_array"
   ],
   "note": ""
  },
  {
   "property": "C03",
   "status": "proved",
   "theorems": [
    "Verif.Endian.C03_unpack_numeral",
    "Verif.Endian.C03_unpack_endian_independent",
    "Verif.Endian.C03_pack_numeral",
    "Verif.Endian.C03_unpack_pack",
    "Verif.Endian.C03_pack_unpack"
   ],
   "note": ""
  },
  {
   "property": "C04",
   "status": "proved",
   "theorems": [
    "Verif.Endian.C04_byteswap",
    "Verif.Endian.C04_stored_order",
    "Verif.Endian.C04_round_trip"
   ],
   "note": ""
  },
  {
   "property": "C05",
   "status": "partial",
   "theorems": [
    "Verif.BitMask.C05_zero_split_violated",
    "Verif.BitMask.C05_bit_destructure_fields_partial",
    "Verif.BitMask.C05_bit_destructure_sum_partial",
    "Verif.BitMask.C05_bit_destructure_rejects"
   ],
   "note": "Proved for split points strictly between zero and the width. A first split point of zero is below the width but does not compile (proved), as do points that do not increase."
  },
  {
   "property": "C06",
   "status": "partial",
   "theorems": [
    "Verif.BitOps.C06_rotations_clang_partial",
    "Verif.BitOps.C06_rotations_other_partial",
    "Verif.BitOps.C06_legal_wide",
    "Verif.BitOps.C06_rotl_undefined",
    "Verif.BitOps.C06_least_amount_undefined",
    "Verif.BitOps.C06_rotation_laws"
   ],
   "note": "On the clang path every amount but the least int. On the generic path some further amounts shift out of range. Rotating by the least int is undefined on both, as it is negated (proved)."
  },
  {
   "property": "C07",
   "status": "partial",
   "theorems": [
    "Verif.BitOps.C07_popcount",
    "Verif.BitOps.C07_countr_zero",
    "Verif.BitOps.C07_countl_zero",
    "Verif.BitOps.C07_count_ones",
    "Verif.BitOps.C07_bit_width",
    "Verif.BitOps.C07_has_single_bit",
    "Verif.BitOps.C07_bit_floor_partial",
    "Verif.BitOps.C07_bit_ceil_partial",
    "Verif.BitOps.C07_bit_floor_wide_undefined",
    "Verif.BitOps.C07_bit_ceil_wide_undefined"
   ],
   "note": "bit_floor and bit_ceil shift a 32-bit 1U and are undefined for large 64-bit values (proved); all the rest is proved."
  },
  {
   "property": "C08",
   "status": "proved",
   "theorems": [
    "Verif.BitMask.C08_smallest_uint"
   ],
   "note": ""
  },
  {
   "property": "C09",
   "status": "partial",
   "theorems": [
    "Verif.Bitset.C09_bitset_storage_exact",
    "Verif.Bitset.C09_bitset_refines_set_partial",
    "Verif.Bitset.C09_bitset_refines_set_tidy_partial",
    "Verif.Bitset.C09_bitset_refines_set_whole_words",
    "Verif.Bitset.C09_bitset_right_shift_violated"
   ],
   "note": "Every history built from constructors and operations. Right shift brings down bits stored above N after flip/~/all-setting operations: false there (proved); true without right shift of such a value, and always when N fills whole words."
  },
  {
   "property": "C10",
   "status": "proved",
   "theorems": [
    "Verif.Bitset.C10_bitset_eq",
    "Verif.Bitset.C10_bitset_count",
    "Verif.Bitset.C10_bitset_predicates",
    "Verif.Bitset.C10_bitset_unused_bits_invisible"
   ],
   "note": ""
  },
  {
   "property": "C11",
   "status": "partial",
   "theorems": [
    "Verif.Bitset.C11_bitset_for_each_partial",
    "Verif.Bitset.C11_bitset_for_each_empty_undefined",
    "Verif.Bitset.C11_bitset_for_each_order"
   ],
   "note": "All N > 0. For N = 0 the code reads before the array (proved undefined)."
  },
  {
   "property": "C12",
   "status": "partial",
   "theorems": [
    "Verif.Bitset.C12_bitset_transform_reduce_stored",
    "Verif.Bitset.C12_bitset_transform_reduce_partial",
    "Verif.Bitset.C12_tidy_histories_clean",
    "Verif.Bitset.C12_bitset_transform_reduce_violated"
   ],
   "note": "The code visits stored bits above N too: false after set()/flip()/~ on sizes that do not fill the words (proved); true for values whose unused bits are clear, which tidy histories guarantee."
  },
  {
   "property": "C13",
   "status": "partial",
   "theorems": [
    "Verif.Bitset.C13_bitset_lowest_unset_partial",
    "Verif.Bitset.C13_bitset_lowest_unset_violated"
   ],
   "note": "If some bit below N is clear the result is the least such position; otherwise it is at least N, and exactly N if nothing is stored above N. After set() with N not a whole number of words it exceeds N, and an equal bitset answers N (proved)."
  },
  {
   "property": "C14",
   "status": "partial",
   "theorems": [
    "Verif.Bitset.C14_bitset_shift_partial",
    "Verif.Bitset.C14_bitset_left_shift_undefined",
    "Verif.Bitset.C14_bitset_right_shift_violated"
   ],
   "note": "Shifts below the stored size, the right shift with nothing stored above N (C09 shows what it brings down otherwise). By the stored size or more the left shift is undefined and the right shift leaves part of the last word (both proved)."
  },
  {
   "property": "C15",
   "status": "partial",
   "theorems": [
    "Verif.Bitset.C15_bitset_range",
    "Verif.Bitset.C15_bitset_empty_range_partial",
    "Verif.Bitset.C15_bitset_empty_range_undefined"
   ],
   "note": "Empty length at a word boundary is undefined (proved)."
  },
  {
   "property": "C16",
   "status": "partial",
   "theorems": [
    "Verif.Bitset.C16_bitset_constructors_partial",
    "Verif.Bitset.C16_bitset_to",
    "Verif.Bitset.C16_bitset_value_round_trip_partial",
    "Verif.Bitset.C16_bitset_to_natural",
    "Verif.Bitset.C16_bitset_ct_string",
    "Verif.Bitset.C16_empty_value_undefined",
    "Verif.Bitset.C16_word_type_partial",
    "Verif.Bitset.C16_word_type_undefined",
    "Verif.Bitset.C16_to_type",
    "Verif.Bitset.C16_to_type_violated"
   ],
   "note": "Everything but four cases, each proved. A bitset of no bits with 64-bit words made from a value writes outside its storage. With a 64-bit word type that is not std::uint64_t a value other than 0 is shifted by 64. to<T> does not compile if T is narrower than a word, though it holds all positions. It does not compile either if T is a scoped enumeration with an underlying type that is not the word type."
  },
  {
   "property": "C17",
   "status": "partial",
   "theorems": [
    "Verif.TypeBitset.C17_type_bitset_partial",
    "Verif.TypeBitset.C17_type_bitset_exact",
    "Verif.TypeBitset.C17_repetition_after_partial",
    "Verif.TypeBitset.C17_repetition_before_violated",
    "Verif.TypeBitset.C17_list_constructor",
    "Verif.TypeBitset.C17_whole_set",
    "Verif.TypeBitset.C17_for_each",
    "Verif.TypeBitset.C17_get_unlisted",
    "Verif.TypeBitset.C17_get_unlisted_violated",
    "Verif.TypeBitset.C17_for_each_bit_violated",
    "Verif.TypeBitset.C17_type_bitset_repeated_violated"
   ],
   "note": "The list constructor, whole-set operations and traversal for every list of types; set/reset/flip of a type for every type with no repetition before its first occurrence. For every other type set<U> does not compile or changes another type (proved). set<>(false) sets everything. With a repetition, operator[] for a type not listed compiles and reads a bit behind the capacity; for_each over all bits does not compile (both proved)."
  },
  {
   "property": "C32",
   "status": "partial",
   "theorems": [
    "Verif.Rollover.C32_rollover_add_sub",
    "Verif.Rollover.C32_rollover_mul_partial",
    "Verif.Rollover.C32_rollover_mul_undefined",
    "Verif.Rollover.C32_rollover_div_mod",
    "Verif.Rollover.C32_rollover_cancel",
    "Verif.Rollover.C32_rollover_programs_partial",
    "Verif.Rollover.C32_rollover_construct",
    "Verif.Rollover.C32_rollover_narrowing",
    "Verif.Rollover.C32_rollover_histories",
    "Verif.Rollover.C32_bool_partial",
    "Verif.Rollover.C32_bool_violated"
   ],
   "note": "Everything except * on 16-bit values whose product reaches 2^31: undefined there (proved); and except rollover_t<bool>, which is accepted but for which true + true is true and ++ does not compile (proved)."
  },
  {
   "property": "C33",
   "status": "proved",
   "theorems": [
    "Verif.Rollover.C33_cmp_less_window",
    "Verif.Rollover.C33_cmp_less_strict_total",
    "Verif.Rollover.C33_equality"
   ],
   "note": "Every width but 31 bits, which no integer type has (a difference promoted to int would not fit)."
  },
  {
   "property": "C34",
   "status": "proved",
   "theorems": [
    "Verif.Rollover.C34_cmp_less_iff",
    "Verif.Rollover.C34_cmp_less_counts",
    "Verif.Rollover.C34_cmp_less_both",
    "Verif.Rollover.C34_bool"
   ],
   "note": "Every width but 31 bits, which no integer type has."
  },
  {
   "property": "C35",
   "status": "proved",
   "theorems": [
    "Verif.Byterator.C35_byterator_round_trip",
    "Verif.Byterator.C35_byterator_ub_iff",
    "Verif.Byterator.C35_byterator_peek",
    "Verif.Byterator.C35_byterator_bytes",
    "Verif.Byterator.C35_byterator_histories",
    "Verif.Byterator.C35_byterator_holds",
    "Verif.Byterator.C35_byterator_step_ub_iff",
    "Verif.Byterator.C35_byterator_signed",
    "Verif.Byterator.C35_byterator_signed_argument"
   ],
   "note": "Values are unsigned and signed integers of any byte count on either endianness."
  },
  {
   "property": "C36",
   "status": "partial",
   "theorems": [
    "Verif.Byterator.C36_align_address",
    "Verif.Byterator.C36_advance_to_alignment_partial",
    "Verif.Byterator.C36_align_uses_size_violated",
    "Verif.Byterator.C36_align_moves_violated",
    "Verif.Byterator.C36_align_size_not_power_violated",
    "Verif.Byterator.C36_align_outside",
    "Verif.Byterator.C35_byterator_histories",
    "Verif.Byterator.C35_byterator_step_ub_iff"
   ],
   "note": "True when the size is a power of two equal to the alignment; the code rounds to sizeof, so false for other types (proved)."
  },
  {
   "property": "C37",
   "status": "proved",
   "theorems": [
    "Verif.Byterator.C37_byterator_arithmetic",
    "Verif.Byterator.C37_byterator_index",
    "Verif.Byterator.C37_byterator_order",
    "Verif.Byterator.C37_byterator_underlying"
   ],
   "note": ""
  },
  {
   "property": "C38",
   "status": "proved",
   "theorems": [
    "Verif.AtomicBitset.C38_atomic_bitset_linearizable",
    "Verif.AtomicBitset.C38_atomic_bitset_disjoint",
    "Verif.AtomicBitset.C38_any_memory_order",
    "Verif.AtomicBitset.C38_interleavings_are_executions",
    "Verif.AtomicBitset.C38_disjoint_any_memory_order"
   ],
   "note": "First for schedules of indivisible steps, then for every execution that the coherence rules of one object allow under any memory orders. A size of zero does not compile (C41_no_bits_rejected)."
  },
  {
   "property": "C39",
   "status": "proved",
   "theorems": [
    "Verif.AtomicBitset.C39_atomic_bitset_test_and_set",
    "Verif.AtomicBitset.C39_any_memory_order",
    "Verif.AtomicBitset.C41_no_bits_rejected"
   ],
   "note": "A size of zero does not compile (proved)."
  },
  {
   "property": "C40",
   "status": "proved",
   "theorems": [
    "Verif.Atomic.C40_atomic_linearizable",
    "Verif.Atomic.C40_atomic_tickets",
    "Verif.Atomic.C40_atomic_sum",
    "Verif.Atomic.C40_any_memory_order",
    "Verif.Atomic.C40_tickets_any_memory_order",
    "Verif.Atomic.C40_sum_any_memory_order",
    "Verif.Atomic.C40_interleavings_are_executions",
    "Verif.Atomic.C40_atomic_undefined_exactly",
    "Verif.Atomic.C40_atomic_signed_undefined",
    "Verif.Atomic.C40_atomic_stored_number",
    "Verif.Atomic.C40_atomic_in_range"
   ],
   "note": "Every integral T and every storage type at least as wide; the claim about unsigned types has no side condition. Beyond the claim: for signed types of at least 32 bits += -= ++x --x are undefined on overflow, exactly when C40_atomic_undefined_exactly says, and defined as long as the numbers stay in the range of T."
  },
  {
   "property": "C41",
   "status": "proved",
   "theorems": [
    "Verif.AtomicBitset.C41_atomic_bitset_observers",
    "Verif.AtomicBitset.C41_atomic_bitset_constructors",
    "Verif.AtomicBitset.C38_atomic_bitset_linearizable",
    "Verif.AtomicBitset.C41_no_bits_rejected"
   ],
   "note": "A size of zero does not compile (proved)."
  },
  {
   "property": "C42",
   "status": "partial",
   "theorems": [
    "Verif.Opt.C42_optional_history_partial",
    "Verif.Opt.C42_optional_history_proper",
    "Verif.Opt.C42_optional_construct",
    "Verif.Opt.C42_optional_value_or",
    "Verif.Opt.C42_optional_transform",
    "Verif.Opt.C42_optional_functor_partial",
    "Verif.Opt.C42_optional_monad_partial",
    "Verif.Opt.C42_optional_or_else",
    "Verif.Opt.C42_optional_functor_violated",
    "Verif.Opt.C42_optional_nan_tombstone_violated",
    "Verif.Opt.C42_optional_assign_tombstone",
    "Verif.Opt.C42_optional_identity_violated",
    "Verif.Opt.C42_optional_by_reference",
    "Verif.Opt.C42_optional_by_reference_const",
    "Verif.Opt.C42_optional_tuple",
    "Verif.Opt.C42_construct_as_std_partial",
    "Verif.Opt.C42_braces_violated",
    "Verif.Opt.C42_narrowing_violated",
    "Verif.Opt.C42_assign_as_std_partial",
    "Verif.Opt.C42_assign_class_violated",
    "Verif.Opt.C42_assign_braces_violated",
    "Verif.Opt.C42_lifetime_partial",
    "Verif.Opt.C42_emplace_self_undefined",
    "Verif.Opt.C42_throwing_emplace_undefined",
    "Verif.Opt.C42_throws_iff_dead",
    "Verif.Opt.C42_transform_result_partial",
    "Verif.Opt.C42_transform_aggregate_violated",
    "Verif.Opt.C42_transform_not_called_violated"
   ],
   "note": "False for a tombstone that is not equal to itself (NaN), and the identity law for an optional with its own tombstone that holds the default one. Also false: a value of a class type cannot be assigned to an optional of that type; o = {} makes an optional of a scalar hold zero; in_place construction uses braces and emplace parentheses, which differ for vector-like types, and narrowing conversions do not compile; transform does not compile if the function returns an aggregate, and does not call a function that returns a type which can be made from its wrapper; emplace from the contained value is undefined, and so is everything after an emplace or reset that throws. The side conditions (no tombstone results, tombstone equal to itself, contained value not the default tombstone of the result type) are shown necessary."
  },
  {
   "property": "C43",
   "status": "proved",
   "theorems": [
    "Verif.Opt.C43_optional_order",
    "Verif.Opt.C43_optional_tuple_order"
   ],
   "note": ""
  },
  {
   "property": "C44",
   "status": "partial",
   "theorems": [
    "Verif.Opt.C44_transform_n_partial",
    "Verif.Opt.C44_transform_n_engaged_partial",
    "Verif.Opt.C44_tombstone_result_violated",
    "Verif.Opt.C44_transform_std",
    "Verif.Opt.C44_transform_result_partial",
    "Verif.Opt.C44_transform_aggregate_violated",
    "Verif.Opt.C44_transform_not_called_violated",
    "Verif.Opt.C44_kinds_iff",
    "Verif.Opt.C44_mixed_violated"
   ],
   "note": "Any number of arguments of any types. False when the function returns the tombstone of the result: it is called and the result is disengaged (proved). A tombstone must equal itself (see C42). Also false: with stdx::optional arguments a function that returns an aggregate does not compile; no arguments, or arguments of both kinds, do not compile; a function that returns a type which can be made from its wrapper is not called."
  },
  {
   "property": "C45",
   "status": "partial",
   "theorems": [
    "Verif.Cached.C45_latched",
    "Verif.Cached.C45_latched_once",
    "Verif.Cached.C45_latched_initialised_partial",
    "Verif.Cached.C45_constructor_for_anything_violated"
   ],
   "note": "False of functions that return a type with a constructor that takes the wrapper of the function, such as std::any or std::function<void()>: the function is never called and the value is made from the wrapper (proved for every history). For all other types proved, also for functions that throw. Copies are C103, functions that re-enter their own object C110."
  },
  {
   "property": "C46",
   "status": "partial",
   "theorems": [
    "Verif.Cached.C46_cached",
    "Verif.Cached.C46_cached_throwing",
    "Verif.Cached.C46_cached_initialised_partial",
    "Verif.Cached.C46_constructor_for_anything_violated"
   ],
   "note": "False of functions that return a type with a constructor that takes the wrapper of the function, such as std::any or std::function<void()>: no access or refresh ever calls it (proved). For all other types proved, also for functions that throw. Assignment through the reference refresh() returns is in C110."
  },
  {
   "property": "C47",
   "status": "partial",
   "theorems": [
    "Verif.Algorithm.C47_transform",
    "Verif.Algorithm.C47_transform_n_partial",
    "Verif.Algorithm.C47_for_each",
    "Verif.Algorithm.C47_for_each_n_partial",
    "Verif.Algorithm.C47_for_each_in_place",
    "Verif.Algorithm.C47_transform_calls",
    "Verif.Algorithm.C47_transform_n_calls_partial",
    "Verif.Algorithm.C47_for_each_calls",
    "Verif.Algorithm.C47_for_each_n_calls_partial",
    "Verif.Algorithm.C47_transform_ub_iff",
    "Verif.Algorithm.C47_transform_n_ub_iff",
    "Verif.Algorithm.C47_for_each_ub_iff",
    "Verif.Algorithm.C47_for_each_n_ub_iff",
    "Verif.Algorithm.C47_transform_n_least_undefined"
   ],
   "note": "Operations get references and may change any element; ranges may overlap. One count is excluded and proved undefined: the least value of a signed count type of at least 32 bits."
  },
  {
   "property": "C48",
   "status": "partial",
   "theorems": [
    "Verif.Algorithm.C48_for_each_butlastn_partial",
    "Verif.Algorithm.C48_for_each_butlastn_values",
    "Verif.Algorithm.C48_for_each_butlast",
    "Verif.Algorithm.C48_butlastn_large_violated",
    "Verif.Adl.C48_adl_violated"
   ],
   "note": "Proved for n up to the largest ptrdiff_t; for larger size_t values the two versions disagree (proved). The unqualified call of for_each_n finds std::for_each_n for random access iterators or operations of the standard library: only the iterator is returned (proved)."
  },
  {
   "property": "C49",
   "status": "partial",
   "theorems": [
    "Verif.Algorithm.C49_initial_medial_final_partial",
    "Verif.Algorithm.C49_initial_medial_final_values_partial",
    "Verif.Adl.C49_adl_violated"
   ],
   "note": "Proved when the library's own for_each_n is called. For random access iterators or medial operations of the standard library the unqualified call means std::for_each_n, and initial_medial_final does not compile (proved)."
  },
  {
   "property": "C50",
   "status": "partial",
   "theorems": [
    "Verif.Algorithm.C50_transform_reduce",
    "Verif.Algorithm.C50_transform_reduce_ub_iff",
    "Verif.Algorithm.C50_reduce_values",
    "Verif.Algorithm.C50_transform_reduce_n_partial",
    "Verif.Algorithm.C50_transform_reduce_n_negative_undefined",
    "Verif.Algorithm.C50_transform_reduce_n_negative_short_violated"
   ],
   "note": "False for negative counts (proved: undefined for types of 32 bits and more, 2^width + n calls for shorter ones)."
  },
  {
   "property": "C51",
   "status": "partial",
   "theorems": [
    "Verif.Saturate.C51_saturate_cast_partial",
    "Verif.Saturate.C51_saturate_cast_clamp_undefined",
    "Verif.Saturate.C51_saturate_cast_wraps_violated"
   ],
   "note": "False for wider unsigned to narrower signed and for negative values to a wider unsigned type (both proved)."
  },
  {
   "property": "C52",
   "status": "partial",
   "theorems": [
    "Verif.Span.C52_span_subviews_partial",
    "Verif.Span.C52_span_static_checks",
    "Verif.Span.C52_span_chain",
    "Verif.Span.C52_span_access",
    "Verif.Span.C52_span_get",
    "Verif.Span.C52_span_alias",
    "Verif.Span.C52_subspan_beyond_violated",
    "Verif.Span.C52_static_on_dynamic_undefined"
   ],
   "note": "Requests within the span; beyond it nothing is checked (proved). On dynamic-extent spans the static forms are not checked at all (proved)."
  },
  {
   "property": "C53",
   "status": "partial",
   "theorems": [
    "Verif.Span.C53_span_construct_partial",
    "Verif.Span.C53_span_array_checked",
    "Verif.Span.C53_span_extent_unchecked_violated",
    "Verif.Span.C53_span_as_bytes",
    "Verif.Span.C53_span_default",
    "Verif.Span.C53_span_as_bytes_extent"
   ],
   "note": "A static extent larger than the source is rejected only for arrays; from ranges, spans and by default construction it is accepted and reads outside (proved)."
  },
  {
   "property": "C54",
   "status": "partial",
   "theorems": [
    "Verif.CtString.C54_ct_string_construct_partial",
    "Verif.CtString.C54_literal",
    "Verif.CtString.C54_ct_string_concat",
    "Verif.CtString.C54_ct_string_monoid",
    "Verif.CtString.C54_ct_string_observe",
    "Verif.CtString.C54_from_pointer",
    "Verif.CtString.C54_ct_string_expressions",
    "Verif.CtString.C54_unterminated_array_violated",
    "Verif.CtString.C54_no_characters_undefined"
   ],
   "note": "For terminated strings; a character array without a terminator is accepted and is not one (proved)."
  },
  {
   "property": "C55",
   "status": "partial",
   "theorems": [
    "Verif.CtString.C55_split_at_first",
    "Verif.CtString.C55_split_absent_partial",
    "Verif.CtString.C55_split_rejoin",
    "Verif.CtString.C55_split_all",
    "Verif.CtString.C55_split_nul_violated"
   ],
   "note": "Splitting at NUL a string that does not contain it does not compile, instead of returning (S, \"\") (proved)."
  },
  {
   "property": "C58",
   "status": "partial",
   "theorems": [
    "Verif.Fmt.C58_format_partial",
    "Verif.Fmt.C58_format_integer_partial",
    "Verif.Fmt.C58_numeral_reads_back",
    "Verif.Fmt.C58_bool_violated",
    "Verif.Fmt.C58_specifier_rejected",
    "Verif.Fmt.C58_specifiers",
    "Verif.Fmt.C58_nul_in_tail_violated",
    "Verif.Fmt.C58_unterminated_undefined"
   ],
   "note": "All integer types except bool, for which the loops never end (proved), and format strings without NUL characters; text after a NUL character behind the field is lost (proved). Exactly the format strings beginning with {} or {:x} at their first brace are accepted."
  },
  {
   "property": "C56",
   "status": "partial",
   "theorems": [
    "Verif.CtFormat.C56_ct_format_partial",
    "Verif.CtFormat.C56_ct_format_arity",
    "Verif.CtFormat.C56_freestanding_contract",
    "Verif.CtFormat.C56_ct_format_escapes",
    "Verif.CtFormat.C56_escapes_violated",
    "Verif.CtFormat.C56_unclosed_violated",
    "Verif.CtFormat.C56_trailing_brace_violated",
    "Verif.CtFormat.C56_tuple_argument_violated"
   ],
   "note": "Proved for every format string whose texts before compile-time arguments have no braces, for any formatter meeting a one-field contract (the modelled freestanding formatter meets it). With a formatter that unescapes braces, as fmtlib does, escaped braces before a compile-time argument are not preserved (exact result and violation proved). Format strings that are not well formed are accepted for runtime arguments (proved). A runtime argument that is a stdx::tuple is replaced by its elements in the argument tuple, since tuple{arg} copies it (proved for every call)."
  },
  {
   "property": "C57",
   "status": "partial",
   "theorems": [
    "Verif.CtFormat.C57_nested_format_partial",
    "Verif.CtFormat.C57_named_arguments_partial",
    "Verif.CtFormat.C57_escapes_violated",
    "Verif.CtFormat.C57_names_escapes_violated",
    "Verif.CtFormat.C57_padding_violated",
    "Verif.CtFormat.C57_names_tuple_violated"
   ],
   "note": "Any nesting depth, string, arguments and named arguments, for texts without braces and nested fields without a specifier; false with escaped braces, and for names when a specifier pads the nested text or when the named argument is a stdx::tuple (proved)."
  },
  {
   "property": "C79",
   "status": "partial",
   "theorems": [
    "Verif.CtFormat.C79_result_fields_partial",
    "Verif.CtFormat.C79_tuple_violated"
   ],
   "note": "Proved for all arguments that are not stdx::tuples. A runtime argument that is a stdx::tuple leaves one field in the string but contributes its elements, however many, to the arguments (proved)."
  },
  {
   "property": "C59",
   "status": "partial",
   "theorems": [
    "Verif.Tuple.C59_fold_left",
    "Verif.Tuple.C59_fold_right",
    "Verif.Tuple.C59_join",
    "Verif.Tuple.C59_tail",
    "Verif.Tuple.C59_own_state_partial",
    "Verif.Tuple.C59_own_state_violated",
    "Verif.Tuple.C59_documented_partial",
    "Verif.Tuple.C59_documented_violated"
   ],
   "note": "fold_right puts the initial value last, x1 + (x2 + (x3 + init)); the documentation says (init + (x1 + (x2 + x3))), which is the same for associative and commutative functions (C59_documented_partial) and another value for subtraction (C59_documented_violated). Every call is made by the function object in the state in which it was passed: fold_left, fold_right and join copy it for each step, so that one that changes its own members does not see its changes (C59_own_state_violated; C59_own_state_partial for those that do not)."
  },
  {
   "property": "C60",
   "status": "proved",
   "theorems": [
    "Verif.Tuple.C60_three_way",
    "Verif.Tuple.C60_equality",
    "Verif.Tuple.C60_total_order"
   ],
   "note": ""
  },
  {
   "property": "C61",
   "status": "proved",
   "theorems": [
    "Verif.Tuple.C61_tuple_cat",
    "Verif.Tuple.C61_cons_snoc",
    "Verif.Tuple.C61_tuple_cat_assoc"
   ],
   "note": "Elements as values; for indexed_tuple tuple_cons does not compile (C101)."
  },
  {
   "property": "C62",
   "status": "proved",
   "theorems": [
    "Verif.Tuple.C62_filter",
    "Verif.Tuple.C62_filter_spec"
   ],
   "note": ""
  },
  {
   "property": "C63",
   "status": "proved",
   "theorems": [
    "Verif.Tuple.C63_zip_length",
    "Verif.Tuple.C63_transform",
    "Verif.Tuple.C63_enumerate",
    "Verif.Tuple.C63_for_each",
    "Verif.Tuple.C63_transform_single",
    "Verif.Tuple.C63_transform_indexed",
    "Verif.Tuple.C63_apply"
   ],
   "note": ""
  },
  {
   "property": "C64",
   "status": "proved",
   "theorems": [
    "Verif.Tuple.C64_short_circuit",
    "Verif.Tuple.C64_quantifiers",
    "Verif.Tuple.C64_de_morgan",
    "Verif.Tuple.C64_one_of"
   ],
   "note": ""
  },
  {
   "property": "C65",
   "status": "proved",
   "theorems": [
    "Verif.Tuple.C65_chunk_by",
    "Verif.Tuple.C65_runs_unique"
   ],
   "note": ""
  },
  {
   "property": "C66",
   "status": "proved",
   "theorems": [
    "Verif.Tuple.C66_sort",
    "Verif.Tuple.C66_gather_by",
    "Verif.Tuple.C66_gather_by_groups",
    "Verif.Tuple.C66_equal_names_violated"
   ],
   "note": "For every permutation a correct std::sort may produce; the condition that distinct keys have distinct names is shown necessary."
  },
  {
   "property": "C67",
   "status": "partial",
   "theorems": [
    "Verif.Tuple.C67_cartesian_product",
    "Verif.Tuple.C67_cartesian_empty",
    "Verif.Tuple.C67_rvalue_copy_partial",
    "Verif.Tuple.C67_rvalue_copy_violated",
    "Verif.Adl.C67_adl_violated"
   ],
   "note": "Proved for cartesian_product and for cartesian_product_copy of lvalues. cartesian_product_copy of rvalue tuples moves each element out once per combination, so later combinations hold moved-from values (proved for every evaluation order); holds when moving leaves the value unchanged. For elements of types of the standard library the unqualified calls of make_tuple and forward_as_tuple are ambiguous and the product does not compile (proved)."
  },
  {
   "property": "C68",
   "status": "partial",
   "theorems": [
    "Verif.Tuple.C68_unique",
    "Verif.Tuple.C68_to_sorted_set_partial",
    "Verif.Tuple.C68_equal_names_violated",
    "Verif.Tuple.C68_to_unsorted_set_partial",
    "Verif.Tuple.C68_to_unsorted_set_spec_partial",
    "Verif.TupleBuild.C68_to_unsorted_set_elements",
    "Verif.TupleBuild.C68_to_unsorted_set_indexed_violated",
    "Verif.TupleBuild.C68_to_unsorted_set_second_violated"
   ],
   "note": "unique for every tuple, to_sorted_set for every tuple whose different types have different names (closure types and local classes may not: then a type can be there twice, proved), to_unsorted_set for every stdx::tuple. For an indexed_tuple to_unsorted_set looks its elements up by their position among the template arguments, the first of which is the list of index functions: whenever it compiles it takes the element behind the first of each type (proved)."
  },
  {
   "property": "C69",
   "status": "partial",
   "theorems": [
    "Verif.Env.C69_query",
    "Verif.Env.C69_default",
    "Verif.Env.C69_extend",
    "Verif.Env.C69_extend_chain",
    "Verif.Env.C69_built_unique",
    "Verif.Env.C69_append_partial",
    "Verif.Env.C69_append_general",
    "Verif.Env.C69_append_none",
    "Verif.Env.C69_extend_twice",
    "Verif.Env.C69_extend_nested",
    "Verif.Env.C69_append_handwritten_violated",
    "Verif.Env.C69_append_conversion_violated"
   ],
   "note": "For environments built by extension, any template arguments and any conversions between query types. A hand-written environment type with one key twice changes meaning when appended, and so does a built one queried by a type that converts to two of its keys (both proved)."
  },
  {
   "property": "C70",
   "status": "partial",
   "theorems": [
    "Verif.Need.C70_choice_unique",
    "Verif.Need.C70_calls",
    "Verif.Need.C70_no_call",
    "Verif.Need.C70_every_argument",
    "Verif.Need.C70_results_partial",
    "Verif.Need.C70_rvalue_partial",
    "Verif.Need.C70_rvalue_shared_violated",
    "Verif.Need.C70_lvalue_functions_violated",
    "Verif.Need.C70_lvalue_no_functions"
   ],
   "note": "Which arguments each function gets is proved in full. Disproved for functions given as an lvalue, as in the documentation: tuple_size_v of a reference type is 0, so no function is called; the program does not compile, or the argument is returned in place of the result. And the value of an argument can be lost: an rvalue argument wanted by two functions taking it by value is moved out twice (proved)."
  },
  {
   "property": "C72",
   "status": "partial",
   "theorems": [
    "Verif.Udl.C72_parse_literal_partial",
    "Verif.Udl.C72_parse_unsigned",
    "Verif.Udl.C72_signed_overflow_violated",
    "Verif.Udl.C72_literal_has_value",
    "Verif.Udl.C72_rejected"
   ],
   "note": "Modulo 2^W for unsigned types and for signed types below 32 bits. For signed types of at least 32 bits a literal that does not fit does not compile (proved)."
  },
  {
   "property": "C80",
   "status": "partial",
   "theorems": [
    "Verif.Udl.C80_units_partial",
    "Verif.Udl.C80_overflow_violated",
    "Verif.Udl.C80_bit_literals"
   ],
   "note": "False when the product does not fit: the literals wrap silently (proved)."
  },
  {
   "property": "C71",
   "status": "partial",
   "theorems": [
    "Verif.Util.C71_lookup",
    "Verif.Util.C71_reverse_lookup",
    "Verif.Util.C71_inverse",
    "Verif.Util.C71_lookup_v",
    "Verif.Util.C71_reverse_lookup_v",
    "Verif.Util.C71_ambiguous",
    "Verif.Util.C71_duplicate_pair",
    "Verif.Meta.C71_types_partial",
    "Verif.Meta.C71_types_violated"
   ],
   "note": "A key bound to two different values is looked up as if unbound (proved). Because the value is the return type of a function, a key bound to a qualified scalar type gives the unqualified type, and one bound to an array or function type gives the default (proved)."
  },
  {
   "property": "C73",
   "status": "partial",
   "theorems": [
    "Verif.Util.C73_least_partial",
    "Verif.Util.C73_enough",
    "Verif.Util.C73_exact_multiple_violated",
    "Verif.Util.C73_overflow_violated"
   ],
   "note": "False for totals that are whole multiples when the larger source size is not (one too many), and when the total wraps (too few); both proved for all such inputs."
  },
  {
   "property": "C74",
   "status": "proved",
   "theorems": [
    "Verif.Util.C74_integral",
    "Verif.Util.C74_pointer"
   ],
   "note": ""
  },
  {
   "property": "C75",
   "status": "proved",
   "theorems": [
    "Verif.Util.C75_for_each_n_args",
    "Verif.Util.C75_batches"
   ],
   "note": ""
  },
  {
   "property": "C76",
   "status": "partial",
   "theorems": [
    "Verif.Util.C76_one_call_partial",
    "Verif.Util.C76_front_stages",
    "Verif.Util.C76_back_stages",
    "Verif.Util.C76_front_back_commute",
    "Verif.Util.C76_const_calls",
    "Verif.Util.C76_category",
    "Verif.Util.C76_reference_violated",
    "Verif.Util.C76_callee_partial",
    "Verif.Util.C76_callee_violated"
   ],
   "note": "If the function returns a reference the bound object returns a copy, unlike std::bind_front. A function that is named, not given as a pointer or template argument, and a pointer to a member cannot be bound (all proved)."
  },
  {
   "property": "C81",
   "status": "partial",
   "theorems": [
    "Verif.Iter.C81_steps",
    "Verif.Iter.C81_counts",
    "Verif.Iter.C81_round_trips",
    "Verif.Iter.C81_distance_partial",
    "Verif.Iter.C81_distance_unsigned_violated",
    "Verif.Iter.C81_past_the_end",
    "Verif.Iter.C81_order"
   ],
   "note": "Everything but the distance to an earlier iterator of an unsigned type at least as wide as int, which is not negative (proved)."
  },
  {
   "property": "C82",
   "status": "partial",
   "theorems": [
    "Verif.Traits.C82_get_index",
    "Verif.Traits.C82_get_type",
    "Verif.Traits.C82_contains_partial",
    "Verif.Traits.C82_contains_reference_violated",
    "Verif.Traits.C82_apply_indices"
   ],
   "note": "contains_type disagrees with get for index functions on elements of reference type (proved)."
  },
  {
   "property": "C83",
   "status": "partial",
   "theorems": [
    "Verif.TypeName.C83_type_as_string_partial",
    "Verif.TypeName.C83_equals_sign_violated",
    "Verif.TypeName.C83_template_base",
    "Verif.TypeName.C83_same_template_partial",
    "Verif.TypeName.C83_member_type_violated",
    "Verif.TypeName.C83_not_a_template_violated",
    "Verif.TypeName.C83_qualified_violated"
   ],
   "note": "False for names containing an equals sign; is_same_template_v is true of a specialisation and its member types and of any other type and itself, and false for a qualified specialisation and an unqualified one (all proved)."
  },
  {
   "property": "C84",
   "status": "partial",
   "theorems": [
    "Verif.TypeName.C84_enumerator_partial",
    "Verif.TypeName.C84_cast",
    "Verif.TypeName.C84_parenthesis_violated"
   ],
   "note": "False for scopes whose last closing parenthesis is not followed by a colon (proved)."
  },
  {
   "property": "C85",
   "status": "partial",
   "theorems": [
    "Verif.Traits.C85_forward_like_partial",
    "Verif.Traits.C85_lvalue_violated"
   ],
   "note": "False for lvalue arguments with a non-const rvalue T (proved)."
  },
  {
   "property": "C86",
   "status": "partial",
   "theorems": [
    "Verif.Traits.C86_arity",
    "Verif.Traits.C86_not_callable",
    "Verif.Traits.C86_parameters_partial",
    "Verif.Traits.C86_lvalue_reference_violated",
    "Verif.Traits.C86_noexcept_violated",
    "Verif.Traits.C86_member_reference_violated"
   ],
   "note": "A function with a parameter that is an lvalue reference to non-const, and a noexcept member function or call operator, has no arity (proved): the search for a number of accepted arguments is made in any case and does not end. The documentation gives arity 2 for f(int&, std::string&)."
  },
  {
   "property": "C87",
   "status": "partial",
   "theorems": [
    "Verif.Traits.C87_function_traits_partial",
    "Verif.Traits.C87_noexcept_violated",
    "Verif.Traits.C87_reference_violated"
   ],
   "note": "noexcept functions, and references to functions and function pointers, have no traits (proved)."
  },
  {
   "property": "C88",
   "status": "partial",
   "theorems": [
    "Verif.Meta.C88_specialization_partial",
    "Verif.Meta.C88_void_and_volatile_violated"
   ],
   "note": "Does not compile for void and qualified function types, false for volatile specialisations (proved)."
  },
  {
   "property": "C89",
   "status": "partial",
   "theorems": [
    "Verif.Meta.C89_function",
    "Verif.Meta.C89_callable_partial",
    "Verif.Meta.C89_final_union_violated"
   ],
   "note": "Does not compile for final classes, false for unions with a call operator (proved)."
  },
  {
   "property": "C90",
   "status": "partial",
   "theorems": [
    "Verif.Meta.C90_round_trip_partial",
    "Verif.Meta.C90_not_restored_violated"
   ],
   "note": "Qualified scalars lose their qualification; arrays and functions are not restored (proved)."
  },
  {
   "property": "C91",
   "status": "partial",
   "theorems": [
    "Verif.Meta.C91_in_order_partial",
    "Verif.Meta.C91_make_sequence_violated",
    "Verif.Meta.C91_nth",
    "Verif.Meta.C91_sequence_tuple"
   ],
   "note": "False for stdx::make_integer_sequence<T, N>, which gives one call with N (proved). The documentation uses template_for_each with stdx::make_index_sequence<3>, where the sum happens to be the same."
  },
  {
   "property": "C92",
   "status": "partial",
   "theorems": [
    "Verif.Meta.C92_arguments",
    "Verif.Meta.C92_calls",
    "Verif.Meta.C92_below",
    "Verif.Meta.C92_integers_partial",
    "Verif.Meta.C92_mixed_sign_violated",
    "Verif.Meta.C92_mixed_sign_wider",
    "Verif.Meta.C92_zero_required_violated"
   ],
   "note": "Integers of mixed signedness may be rejected as narrowing, and a function must have a result for 0 even if 0 is not in the sequence (proved)."
  },
  {
   "property": "C93",
   "status": "proved",
   "theorems": [
    "Verif.Meta.C93_conversions"
   ],
   "note": ""
  },
  {
   "property": "C94",
   "status": "partial",
   "theorems": [
    "Verif.Meta.C94_cx_wrap",
    "Verif.Meta.C94_ct_wrap_partial",
    "Verif.Meta.C94_ct_wrap_static_violated"
   ],
   "note": "CT_WRAP of a non-constant expression without local variables (a call, a static variable), or of a constant that is not of structural type, does not compile (proved)."
  },
  {
   "property": "C95",
   "status": "partial",
   "theorems": [
    "Verif.Opt.C95_product_partial",
    "Verif.Opt.C95_types",
    "Verif.Opt.C95_empty",
    "Verif.Opt.C95_array_violated"
   ],
   "note": "False for std::array, although the documentation says tuple-like types (proved)."
  },
  {
   "property": "C96",
   "status": "partial",
   "theorems": [
    "Verif.Opt.C96_unpack_partial",
    "Verif.Opt.C96_unpack_violated",
    "Verif.Opt.C96_free"
   ],
   "note": "A function that takes a tuple whole is rejected or called with the elements; a class template that is not tuple-like but has std as associated namespace accepts no function; std::array is not unpacked; the free function transform, which the documentation uses, does not unpack (proved)."
  },
  {
   "property": "C97",
   "status": "partial",
   "theorems": [
    "Verif.TupleAccess.C97_access_partial",
    "Verif.TupleAccess.C97_const_rvalue_violated",
    "Verif.TupleAccess.C97_safe",
    "Verif.TupleAccess.C97_by_type",
    "Verif.TupleAccess.C97_sfinae_violated",
    "Verif.TupleAccess.C97_forward",
    "Verif.TupleAccess.C97_fold",
    "Verif.TupleAccess.C97_tail"
   ],
   "note": "False for tuples given as const rvalues, whose elements come as lvalues; and a get that cannot be satisfied is an error rather than removed from the candidates, contrary to the documentation (both proved)."
  },
  {
   "property": "C98",
   "status": "partial",
   "theorems": [
    "Verif.TupleAccess.C98_bindings_partial",
    "Verif.TupleAccess.C98_const_element_violated"
   ],
   "note": "A binding without const is rejected if an element is const or refers to a const object (proved); names of reference elements have the type of the object."
  },
  {
   "property": "C99",
   "status": "partial",
   "theorems": [
    "Verif.PPMap.C99_map_partial",
    "Verif.PPMap.C99_function_partial",
    "Verif.PPMap.C99_compose_partial",
    "Verif.PPMap.C99_none",
    "Verif.PPMap.C99_many_violated",
    "Verif.PPMap.C99_stop_violated"
   ],
   "note": "Holds up to 367 arguments that do not begin with three groups in parentheses; with 368 or more, names of the library's macros are left behind the 368th result; an argument (a)(b)() ends the map and drops what follows (proved). A macro f may be any that gives a text without further macros."
  },
  {
   "property": "C100",
   "status": "partial",
   "theorems": [
    "Verif.CtFormat.C100_stands",
    "Verif.CtFormat.C100_forms",
    "Verif.CtFormat.C100_same",
    "Verif.CtFormat.C100_text_partial",
    "Verif.CtFormat.C100_tuple_violated"
   ],
   "note": "A runtime argument that is a stdx::tuple is not kept as an argument, its elements are; an empty one leaves a result without arguments, which converts to a string (proved). The formatting library and the names of enumerators and types are parameters."
  },
  {
   "property": "C101",
   "status": "partial",
   "theorems": [
    "Verif.TupleBuild.C101_cons_partial",
    "Verif.TupleBuild.C101_decay_violated",
    "Verif.TupleBuild.C101_indexed_violated",
    "Verif.TupleBuild.C101_array_violated",
    "Verif.TupleBuild.C101_make",
    "Verif.TupleBuild.C101_keep_partial",
    "Verif.TupleBuild.C101_cat",
    "Verif.TupleBuild.C101_pick",
    "Verif.TupleBuild.C101_safe"
   ],
   "note": "An array or a function is not decayed by tuple_cons and tuple_snoc, which are then ill-formed, contrary to the documentation; tuple_cons and filter are ill-formed for every indexed_tuple, and tuple_cons, tuple_snoc and filter for every std::array (proved)."
  },
  {
   "property": "C102",
   "status": "partial",
   "theorems": [
    "Verif.Reverse.C102_span",
    "Verif.Reverse.C102_span_iterators",
    "Verif.Reverse.C102_cx_vector_iterators",
    "Verif.Reverse.C102_ct_string",
    "Verif.Reverse.C102_cx_vector_violated",
    "Verif.Reverse.C102_cx_vector_partial"
   ],
   "note": "Proved for span and ct_string. The reverse iterators of cx_vector, which the documentation lists, do not compile (proved, with the rule that the constructor of std::reverse_iterator is explicit in the model); reverse iterators made by the caller work."
  },
  {
   "property": "C103",
   "status": "proved",
   "theorems": [
    "Verif.Cached.C103_copies"
   ],
   "note": "For functions that do not throw, on state that the copies share. The objects are copied; for moves see C124."
  },
  {
   "property": "C104",
   "status": "partial",
   "theorems": [
    "Verif.Callee.C104_for_each_many",
    "Verif.Callee.C104_enumerate",
    "Verif.Callee.C104_for_each_one_partial",
    "Verif.Callee.C104_for_each_one_violated",
    "Verif.Callee.C104_none",
    "Verif.Callee.C104_bitset"
   ],
   "note": "Proved for several tuples, unrolled_for_each, enumerate and bitsets. for_each over exactly one tuple does not compile for a function object passed as a non-const lvalue or that cannot be copied, and returns a dangling reference for one passed as a const lvalue (proved). mutable members of const function objects are not modelled."
  },
  {
   "property": "C105",
   "status": "partial",
   "theorems": [
    "Verif.Like.C105_protocol_partial",
    "Verif.Like.C105_protocol_violated",
    "Verif.Like.C105_calls",
    "Verif.Like.C105_transform_partial",
    "Verif.Like.C105_transform_violated",
    "Verif.Like.C105_sequence",
    "Verif.Like.C105_sequence_violated"
   ],
   "note": "The calls are proved for every mixture on every target. Violations (proved): where std::size_t is unsigned int every argument is accepted, and one that is not like a tuple silently makes the algorithms do nothing; transform does not compile if the first of several arguments is an array, span, integer sequence or indexed_tuple, or a pair and not exactly two results; get of an integer sequence outside its length is not rejected."
  },
  {
   "property": "C106",
   "status": "partial",
   "theorems": [
    "Verif.Span.C106_elements_partial",
    "Verif.Span.C106_accepted_partial",
    "Verif.Span.C106_rejected",
    "Verif.Span.C106_array_checked",
    "Verif.Span.C106_array_unchecked_violated",
    "Verif.Span.C106_derived_violated",
    "Verif.Span.C106_not_contiguous_violated"
   ],
   "note": "Three exceptions, each proved. Arrays of a derived class convert to spans of the base class, and only the first element can then be accessed. std::deque and std::list are accepted, with the same effect. With direct initialisation the extent is not checked against a built-in array to which const is added, nor against an rvalue std::array."
  },
  {
   "property": "C107",
   "status": "partial",
   "theorems": [
    "Verif.IList.C107_transfer_partial",
    "Verif.IList.C107_copy_reads",
    "Verif.IList.C107_both_violated",
    "Verif.IList.C107_overwrite_violated",
    "Verif.IList.C107_overwrite_history_violated",
    "Verif.FList.C107_forward_transfer_partial",
    "Verif.FList.C107_forward_copy_reads",
    "Verif.FList.C107_forward_both_violated",
    "Verif.FList.C107_forward_overwrite_violated",
    "Verif.FList.C107_forward_overwrite_history_violated"
   ],
   "note": "Histories in which one of the two objects is used after a copy or move and no list that holds nodes is overwritten. Otherwise the property fails (proved for every reachable state): the objects share their nodes and overwritten nodes stay linked."
  },
  {
   "property": "C108",
   "status": "partial",
   "theorems": [
    "Verif.Functional.C108_with_result_of_partial",
    "Verif.Functional.C108_unused_never_called",
    "Verif.Functional.C108_accepts_iff",
    "Verif.Functional.C108_pointers_rejected_fails",
    "Verif.Functional.C108_constant_mutable_rejected_fails",
    "Verif.Functional.C108_constructor_for_anything_violated"
   ],
   "note": "Proved for class-type callables and result types without a constructor for anything. Disproved: function pointers (the example of docs/functional.adoc) and final classes do not compile; constant wrappers of mutable lambdas do not compile; a value of a type such as std::any holds the wrapper and the function is never called. Which elisions take place is not modelled."
  },
  {
   "property": "C109",
   "status": "partial",
   "theorems": [
    "Verif.Functional.C109_safe_identity",
    "Verif.Functional.C109_safe_identity_accepts_iff",
    "Verif.Functional.C109_immovable_rejected_fails",
    "Verif.Functional.C109_safe_identity_moves",
    "Verif.Functional.C109_unary_plus",
    "Verif.Functional.C109_unlike_negate_fails",
    "Verif.Functional.C109_dereference"
   ],
   "note": "Disproved: safe_identity does not take temporaries that can be neither copied nor moved; unary_plus<T> takes exactly T and returns int for narrower types, unlike std::negate<T>. Class types with their own operators + and * are not modelled."
  },
  {
   "property": "C110",
   "status": "partial",
   "theorems": [
    "Verif.Cached.C110_not_reentrant_partial",
    "Verif.Cached.C110_reentrant_twice_violated",
    "Verif.Cached.C110_values_held_or_lost",
    "Verif.Cached.C110_reentrant_endless_violated",
    "Verif.Cached.C110_write_through_refresh",
    "Verif.Cached.C110_write_violates_latest_violated",
    "Verif.Cached.C110_threads_after_first_access_partial",
    "Verif.Cached.C110_threads_race_violated",
    "Verif.Cached.C110_threads_calls_violated",
    "Verif.Cached.C110_threads_value_race_violated",
    "Verif.Cached.C110_one_thread",
    "Verif.Cached.C110_threads_progress"
   ],
   "note": "Holds for functions that at most ask for has_value(), for a single thread, and for threads once a value is held. Disproved: a function that accesses its object is called at least twice or never ends; two threads that access an empty object race in every execution; a value written through refresh() replaces the computed one."
  },
  {
   "property": "C111",
   "status": "partial",
   "theorems": [
    "Verif.Macro.C111_static_assert_partial",
    "Verif.Macro.C111_argument_text",
    "Verif.Macro.C111_parenthesised",
    "Verif.Macro.C111_greater_violated",
    "Verif.Macro.C111_comma_violated",
    "Verif.Macro.C111_not_bool_violated"
   ],
   "note": "Holds for conditions in parentheses and for those without >, >> and commas. Disproved for the others: sizeof(T) > 4 and std::is_same_v<T, U> do not compile as conditions, whatever their value; nor do conditions of arithmetic or pointer type."
  },
  {
   "property": "C112",
   "status": "partial",
   "theorems": [
    "Verif.Macro.C112_panic",
    "Verif.Macro.C112_macro_partial",
    "Verif.Macro.C112_local_violated",
    "Verif.Macro.C112_message_violated"
   ],
   "note": "The functions do; the macro takes no local variables as arguments, and no message that is not a string literal (proved)."
  },
  {
   "property": "C113",
   "status": "partial",
   "theorems": [
    "Verif.CtString.C113_expression",
    "Verif.CtString.C113_rejected",
    "Verif.CtString.C113_equality_partial",
    "Verif.CtString.C113_mixed_equality_violated"
   ],
   "note": "A ct_string and a cts_t can be concatenated but not compared (proved)."
  },
  {
   "property": "C114",
   "status": "partial",
   "theorems": [
    "Verif.Detect.C114_complete_partial",
    "Verif.Detect.C114_complete_later_violated",
    "Verif.Detect.C114_structural_sound",
    "Verif.Detect.C114_structural_iff",
    "Verif.Detect.C114_default_constructible_partial",
    "Verif.Detect.C114_overloaded_violated",
    "Verif.Detect.C114_many_parameters_violated",
    "Verif.Detect.C114_not_constexpr_violated",
    "Verif.Detect.C114_mutual_violated"
   ],
   "note": "is_complete_v keeps its first value when the type is defined later. is_structural_v has no false positives; it is exactly characterised for classes whose constructors take unqualified types by value, and false for structural types with overloaded constructors, more than ten parameters, a shortest constructor that is not constexpr, or that are made from each other (proved; the documentation says that such types are rare)."
  },
  {
   "property": "C115",
   "status": "partial",
   "theorems": [
    "Verif.Refs.C115_vector_reference",
    "Verif.Refs.C115_map_reference_partial",
    "Verif.Refs.C115_map_reference_violated",
    "Verif.Refs.C115_set_reference_partial",
    "Verif.Refs.C115_set_reference_violated",
    "Verif.Refs.C115_map_update_values",
    "Verif.Refs.C115_map_keys_violated",
    "Verif.Refs.C115_set_update_partial",
    "Verif.Refs.C115_set_update_violated",
    "Verif.Refs.C115_alias"
   ],
   "note": "Holds for vectors (resize_and_overwrite aside), for values of maps written in loops and for arguments that refer to own elements. Disproved: erasing another element moves the last one, so a reference to it goes stale; keys of maps and elements of sets can be written through iterators and then be there twice."
  },
  {
   "property": "C116",
   "status": "partial",
   "theorems": [
    "Verif.Priority.C116_highest_partial",
    "Verif.Priority.C116_distinct_partial",
    "Verif.Priority.C116_conversion_violated"
   ],
   "note": "Holds if the other arguments convert equally well for all overloads. Otherwise a call is ambiguous whenever the overload with the higher priority needs the worse conversion (proved). Conversion sequences are compared by rank."
  },
  {
   "property": "C117",
   "status": "partial",
   "theorems": [
    "Verif.Throw.C117_no_throw",
    "Verif.Throw.C117_vector_partial",
    "Verif.Throw.C117_vector_violated",
    "Verif.Throw.C117_set_erase_violated",
    "Verif.Throw.C117_set_insert_violated",
    "Verif.Throw.C117_map_assign_partial",
    "Verif.Throw.C117_map_violated",
    "Verif.Throw.C117_queue_push_partial",
    "Verif.Throw.C117_queue_pop_violated",
    "Verif.Throw.C117_queue_pop_reachable_violated"
   ],
   "note": "Disproved for all containers: the size is changed before the copy is made. Vectors remain sequences, and so do queues after push; a set may then hold an element twice, a map loses an unrelated pair, and after a pop that throws front() may read outside the array."
  },
  {
   "property": "C118",
   "status": "partial",
   "theorems": [
    "Verif.Iter.C118_value",
    "Verif.Iter.C118_plus_value",
    "Verif.Iter.C118_reference_moves_violated",
    "Verif.Iter.C118_reference_dangles_violated",
    "Verif.Iter.C118_equal_violated",
    "Verif.Iter.C118_write_violated",
    "Verif.Iter.C118_reverse_undefined",
    "Verif.Iter.C118_plus_reference_undefined"
   ],
   "note": "The value read at once is right in every history. The rest is disproved for every iterator: operator* returns a reference to a member of the iterator, so it moves and ends with it, writing through it moves the iterator, and dereferencing a std::reverse_iterator is undefined."
  },
  {
   "property": "C119",
   "status": "partial",
   "theorems": [
    "Verif.Atomic.C119_basic_partial",
    "Verif.Atomic.C119_integer",
    "Verif.Atomic.C119_same_type",
    "Verif.Atomic.C119_bool_partial",
    "Verif.Atomic.C119_bool_results",
    "Verif.Atomic.C119_enum_violated",
    "Verif.Atomic.C119_pointer_violated",
    "Verif.Atomic.C119_bool_violated"
   ],
   "note": "Integers as in C40. For every T load, store and assignment, for bool also exchange and the bitwise operations. Disproved: an enumeration stored as an integer (as the test configuration does) has no exchange and no arithmetic, a pointer stored as an integer cannot be used at all, and a bool stored as a wider integer still reads true after true + true - true (all proved). Increments of pointers are left to the external library and not modelled."
  },
  {
   "property": "C120",
   "status": "partial",
   "theorems": [
    "Verif.IList.C120_iterators_partial",
    "Verif.IList.C120_loop_partial",
    "Verif.IList.C120_erase",
    "Verif.IList.C120_move",
    "Verif.IList.C120_advance_after_remove",
    "Verif.IList.C120_iterators_insert_end",
    "Verif.IList.C120_loop_insert_end",
    "Verif.IList.C120_erase_move_insert_end",
    "Verif.FList.C120_forward_iterators"
   ],
   "note": "Forward lists: all histories. Doubly linked lists: all histories in which nodes given to insert(end(), n) of a non-empty list under the unchecked policy were the last of their list when they left it, or have a null next; with others the iteration goes on elsewhere or never ends (C22). A loop that advances after removing its element ends there with checked nodes (determined for both policies)."
  },
  {
   "property": "C121",
   "status": "proved",
   "theorems": [
    "Verif.CxMap.C121_cx_map_equivalent_keys",
    "Verif.CxMap.C121_cx_map_irreflexive_key",
    "Verif.CxSet.C121_cx_set_equivalent_keys"
   ],
   "note": "Copies of keys and values are assumed not to throw (C117) and == to have no side effects."
  },
  {
   "property": "C122",
   "status": "partial",
   "theorems": [
    "Verif.CxValue.C122_type",
    "Verif.CxValue.C122_value_partial",
    "Verif.CxValue.C122_vexing_violated",
    "Verif.CxValue.C122_rejected"
   ],
   "note": "Disproved for expressions of the form T(), T(U()) and so on: they are read as function types and do not compile. Classes with further constructors of one parameter are not modelled as types."
  },
  {
   "property": "C123",
   "status": "partial",
   "theorems": [
    "Verif.IList.C123_inner_partial",
    "Verif.IList.C123_unlinked_violated",
    "Verif.IList.C123_first_of_other_violated",
    "Verif.IList.C123_last_of_other_violated"
   ],
   "note": "remove does not check that the node is in the list: a node in no list empties it silently, the first node of another list redirects it into that list, and after the last node of another list nodes that are added go there (all proved, with the checked policy too)."
  },
  {
   "property": "C124",
   "status": "partial",
   "theorems": [
    "Verif.Cached.C124_moves_partial",
    "Verif.Cached.C124_trivial_moves",
    "Verif.Cached.C124_moved_from_violated"
   ],
   "note": "A moved-from object that had a value still says it has one and gives the moved-from value without calling the function (proved). The callables share their state and are not affected by moves."
  },
  {
   "property": "C125",
   "status": "partial",
   "theorems": [
    "Verif.Adl.C125_for_each_butlastn_partial",
    "Verif.Adl.C125_initial_medial_final_partial",
    "Verif.Adl.C125_cartesian_partial",
    "Verif.Adl.C48_adl_violated",
    "Verif.Adl.C49_adl_violated",
    "Verif.Adl.C67_adl_violated"
   ],
   "note": "Proved for types that are not related to the standard library (and for forward iterators, and for more than one range). Unqualified calls find the functions of the standard library for its types: for_each_butlastn returns another result, initial_medial_final and the Cartesian products do not compile (proved for all such types). Other libraries' functions of the same names are not modelled."
  },
  {
   "property": "C126",
   "status": "partial",
   "theorems": [
    "Verif.TupleCompare.C126_equality_partial",
    "Verif.TupleCompare.C126_order_partial",
    "Verif.TupleCompare.C126_accepts_iff",
    "Verif.TupleCompare.C126_order_accepts_iff",
    "Verif.TupleCompare.C126_one_shared_violated",
    "Verif.TupleCompare.C126_longer_violated",
    "Verif.TupleCompare.C126_non_tuple_rejected"
   ],
   "note": "Comparable tuples are accepted and compared as stated; other operands are rejected except when exactly one index has the same element type in both tuples: then the comparison operator of that element is found through the base classes, and only that element is compared, so that tuple{1} == tuple{1, 2} is true (proved). Operators in the namespaces of the element types, and operands convertible to base classes of a tuple, are not modelled."
  },
  {
   "property": "C127",
   "status": "partial",
   "theorems": [
    "Verif.Rollover.C127_common_type_partial",
    "Verif.Rollover.C127_rollovers_symmetric",
    "Verif.Rollover.C127_narrow_violated",
    "Verif.Rollover.C127_order_violated",
    "Verif.Rollover.C127_conversion",
    "Verif.Rollover.C127_duration_cast"
   ],
   "note": "For two different types narrower than int the common type is rollover_t<int>, which does not compile when used; for an integer type in the first place, and for bool as the integer type, there is no common type (proved)."
  },
  {
   "property": "C128",
   "status": "partial",
   "theorems": [
    "Verif.Capacity.C128_ct_capacity",
    "Verif.Capacity.C128_ct_capacity_v_partial",
    "Verif.Capacity.C128_ct_capacity_v_iff",
    "Verif.Capacity.C128_const_array_violated",
    "Verif.Capacity.C128_cx_vector",
    "Verif.Capacity.C128_cx_set",
    "Verif.Capacity.C128_cx_map",
    "Verif.Capacity.C128_cx_multimap",
    "Verif.Capacity.C128_cx_queue",
    "Verif.Capacity.C128_span"
   ],
   "note": "ct_capacity: proved. ct_capacity_v<T const[N]> does not compile, since two partial specialisations match and neither is more specialised; nor does ct_capacity_v of a volatile container. All arguments for which it differs are given by C128_ct_capacity_v_iff. Queues: for the policy that panics on overflow."
  },
  {
   "property": "C129",
   "status": "partial",
   "theorems": [
    "Verif.Deduce.C129_containers_partial",
    "Verif.Deduce.C129_same_types",
    "Verif.Deduce.C129_narrowing_violated",
    "Verif.Deduce.C129_nesting_violated",
    "Verif.Deduce.C129_derived",
    "Verif.Deduce.C129_tuple_partial",
    "Verif.Deduce.C129_no_arguments",
    "Verif.Deduce.C129_set_repeats_violated",
    "Verif.Span.C129_span_partial",
    "Verif.Span.C129_span_temporary",
    "Verif.Span.C129_span_const_temporary"
   ],
   "note": "Holds for arguments of one type and for tuples of anything but one tuple. The elements of a container are the arguments converted to the type of the first by static_cast, so cx_vector{1, 2.5} compiles and holds 1 and 2 (proved for every conversion that changes a value); a single cx_vector, cx_set or tuple is copied instead of becoming the element (proved). Spans: holds for lvalues of contiguous sources and for spans; const temporaries, and temporaries with const elements, are accepted, with a dynamic extent (proved)."
  },
  {
   "property": "C130",
   "status": "proved",
   "theorems": [
    "Verif.Sync.C130_orders",
    "Verif.Sync.C130_same_operations",
    "Verif.Sync.C130_publication",
    "Verif.Sync.C130_relaxed_not_enough",
    "Verif.Sync.C130_store_interrupts",
    "Verif.Sync.C130_lock",
    "Verif.Sync.C130_atomic_orders",
    "Verif.Sync.C130_atomic_publication",
    "Verif.Sync.C130_last_reference"
   ],
   "note": "The rules of the language for one object (modification order, coherence, release sequences) and the external library are trusted; for ++ and -- its default order is a parameter, taken to be seq_cst or acq_rel. set() and reset() of all positions are stores, so they do not accept acquiring orders and interrupt publication through any position (proved), while flip() of all positions does not."
  },
  {
   "property": "C131",
   "status": "partial",
   "theorems": [
    "Verif.Bitset.C131_for_each_exact",
    "Verif.Bitset.C131_for_each",
    "Verif.Bitset.C131_for_each_behind",
    "Verif.Bitset.C131_for_each_one_word",
    "Verif.Bitset.C131_drain",
    "Verif.Bitset.C131_ahead_violated",
    "Verif.Bitset.C131_transform_reduce_exact",
    "Verif.Bitset.C131_transform_reduce_behind"
   ],
   "note": "False in one respect: bits that the function changes ahead of the traversal are seen if they are in a later storage word and not seen in the same one, so the positions called for depend on the storage type (proved). The rest is proved for every function. transform_reduce also looks at stored bits above the size, see C12."
  },
  {
   "property": "C132",
   "status": "partial",
   "theorems": [
    "Verif.Loops.C132_range_append",
    "Verif.Loops.C132_iter_append",
    "Verif.Loops.C132_index_defined",
    "Verif.Loops.C132_set_erase_visited",
    "Verif.Loops.C132_map_erase_visited",
    "Verif.Loops.C132_set_purge",
    "Verif.Loops.C132_map_purge",
    "Verif.Loops.C132_drain",
    "Verif.Loops.C132_set_insert",
    "Verif.Loops.C132_set_closure",
    "Verif.Loops.C132_range_stale_violated",
    "Verif.Loops.C132_erase_other_violated",
    "Verif.Loops.C132_replace_violated",
    "Verif.Loops.C132_iter_erase_undefined"
   ],
   "note": "Holds for bodies that only append or insert; for the range-based for that erases only what it visits (the moved last element is still visited, at its old place); for the loop that advances only if it does not erase; and for loops that take elements out. False for the range-based for otherwise: it visits elements that have been erased, and one twice or never if the body erases another element or erases and inserts. A loop that advances the iterator also after erasing skips elements, and is undefined if it erases the last one (all proved, for every set). cx_multimap: as a map of sets."
  },
  {
   "property": "C133",
   "status": "partial",
   "theorems": [
    "Verif.Opt.C133_moves_partial",
    "Verif.Opt.C133_moved_from_empty_violated",
    "Verif.Opt.C133_value_or"
   ],
   "note": "Holds for types whose moves leave a tombstone a tombstone (scalars, owning pointers with the null pointer as tombstone). For the others, such as strings with a tombstone that is not empty, an empty optional has a value after it has been moved from (proved for all of them)."
  },
  {
   "property": "C134",
   "status": "partial",
   "theorems": [
    "Verif.Message.C134_encode",
    "Verif.Message.C134_encode_hosts",
    "Verif.Message.C134_decode",
    "Verif.Message.C134_between_hosts_partial",
    "Verif.Message.C134_alignment_violated",
    "Verif.Message.C134_native_violated"
   ],
   "note": "Writing is proved to give the same bytes on every host. Reading elsewhere gives the same numbers if no field is aligned or the addresses of the two messages agree modulo 8; otherwise advance_to_alignment skips another number of bytes, since it looks at the address (proved)."
  },
  {
   "property": "C135",
   "status": "partial",
   "theorems": [
    "Verif.AtomicBitset.C135_single_thread_partial",
    "Verif.AtomicBitset.C135_look_is_load",
    "Verif.AtomicBitset.C135_returned_clean",
    "Verif.AtomicBitset.C135_size_violated",
    "Verif.AtomicBitset.C135_to_violated"
   ],
   "note": "Proved for every constructor and call that both have, except: size() is the number of elements of a bitset and the capacity of an atomic_bitset, so the answers differ for every set that is not full; to<T>() with T narrower than a storage word compiles only for the atomic_bitset (both proved). Stored values are given by their positions."
  },
  {
   "property": "C136",
   "status": "partial",
   "theorems": [
    "Verif.Equal.C136_equal_bitsets_partial",
    "Verif.Equal.C136_equal_bitsets_whole_words",
    "Verif.Equal.C136_equal_bitsets_shift_violated",
    "Verif.Equal.C136_equal_bitsets_above_violated",
    "Verif.CxVector.C136_equal_vectors_partial",
    "Verif.CxVector.C136_equal_vectors_violated"
   ],
   "note": "Holds for programs that do not shift bitsets to the right and call neither lowest_unset nor transform_reduce, and for vectors without resize_and_overwrite. These show what is stored above the size: bitset<N>{}.set() and bitset<N>{all_bits} are equal, and differ after >>= 1, for every N that does not fill whole words; a cleared vector and a fresh one are equal, and differ after resize_and_overwrite has raised their sizes (all proved)."
  },
  {
   "property": "C137",
   "status": "partial",
   "theorems": [
    "Verif.Views.C137_views_partial",
    "Verif.Views.C137_removed_violated",
    "Verif.Views.C137_extent_violated"
   ],
   "note": "Proved for all accesses at places the vector has by then; nothing is ever undefined within the capacity. The last sentence is false: a span keeps showing elements that were popped or cleared, and a span of fixed extent can be made of a vector with fewer elements (both proved)."
  },
  {
   "property": "C138",
   "status": "proved",
   "theorems": [
    "Verif.Sync.C138_hand_over",
    "Verif.Sync.C138_lock_data",
    "Verif.Sync.C138_last_reference",
    "Verif.Sync.C138_relaxed_race"
   ],
   "note": "For the default order of the external library see C130. That a hand-over has to be by the only call that sets the position (or changes the atomic) is part of the statement: other stores interrupt it, C130_store_interrupts."
  },
  {
   "property": "C139",
   "status": "partial",
   "theorems": [
    "Verif.Unwind.C139_transform",
    "Verif.Unwind.C139_transform_n",
    "Verif.Unwind.C139_for_each",
    "Verif.Unwind.C139_for_each_n",
    "Verif.Unwind.C139_for_each_butlastn",
    "Verif.Unwind.C139_initial_medial_final",
    "Verif.Unwind.C139_transform_reduce",
    "Verif.Unwind.C139_transform_reduce_n",
    "Verif.Unwind.C139_tuple_transform",
    "Verif.Unwind.C139_tuple_transform_indexed",
    "Verif.Unwind.C139_tuple_for_each",
    "Verif.Unwind.C139_tuple_enumerate",
    "Verif.Unwind.C139_tuple_all_of",
    "Verif.Unwind.C139_tuple_any_of",
    "Verif.Unwind.C139_tuple_fold_left",
    "Verif.Unwind.C139_tuple_fold_right",
    "Verif.Unwind.C139_for_each_n_args",
    "Verif.Unwind.C139_bitset_for_each_partial",
    "Verif.Unwind.C139_bitset_transform_reduce_stored",
    "Verif.Unwind.C139_bitset_transform_reduce_partial",
    "Verif.Unwind.C139_resize_and_overwrite",
    "Verif.Bitset.C11_bitset_for_each_empty_undefined"
   ],
   "note": "Proved for every function that keeps the number of elements in memory. For bitset<0> the traversal is undefined whatever the function does (C11), and transform_reduce also visits stored bits at or above the size (C12); otherwise as stated."
  },
  {
   "property": "C140",
   "status": "partial",
   "theorems": [
    "Verif.Judge.C140_set_step",
    "Verif.Judge.C140_set_history",
    "Verif.Judge.C140_set_undefined",
    "Verif.Judge.C140_map_step",
    "Verif.Judge.C140_map_history",
    "Verif.Judge.C140_map_undefined",
    "Verif.Judge.C140_multimap_step",
    "Verif.Judge.C140_multimap_history",
    "Verif.Judge.C140_multimap_undefined",
    "Verif.Judge.C140_multimap_erase_violated",
    "Verif.Judge.C140_vector_equal",
    "Verif.Judge.C140_tuple_equal",
    "Verif.Judge.C140_one_of_equal",
    "Verif.Judge.C140_tuple_compare",
    "Verif.Judge.C140_optional_terminates_violated",
    "Verif.Judge.C140_optional_equal",
    "Verif.Judge.C140_optional_calls_partial",
    "Verif.Judge.C140_optional_less_partial"
   ],
   "note": "Sets and maps: as stated. Multimaps: as stated except erase(k, v), which can throw after it has erased the value, leaving the key with an empty set (proved for all keys and values). Optionals: has_value and operator bool are noexcept, so an exception of == in them, and in everything that asks them, ends the program (proved for every exception); exceptions of the functions handed over, of < and of the operator == of optionals are passed on. operator<=> of tuples compares the first elements twice."
  },
  {
   "property": "C141",
   "status": "proved",
   "theorems": [
    "Verif.Caught.C141_queue_unchanged",
    "Verif.Caught.C141_queue_history",
    "Verif.Caught.C141_list_unchanged",
    "Verif.Caught.C141_list_history",
    "Verif.Caught.C141_forward_list_unchanged",
    "Verif.Caught.C141_forward_list_history"
   ],
   "note": "The handler throws at least as often as it is called in the histories; that a call in which it throws changes nothing is proved for all handlers and states. Which members the lists refuse to add is C21 and C78 (not all of them); the histories here add nodes that are in no list or that are refused."
  },
  {
   "property": "C142",
   "status": "proved",
   "theorems": [
    "Verif.Caught.C142_queue_continues",
    "Verif.Caught.C142_queue_history",
    "Verif.Caught.C142_ring_buffer",
    "Verif.Caught.C142_list_continues",
    "Verif.Caught.C142_list_history",
    "Verif.Caught.C142_insert_emptied_fails",
    "Verif.Caught.C142_forward_list_continues",
    "Verif.Caught.C142_forward_list_history"
   ],
   "note": "The calls of the handler are allowed where it makes them (it does not panic itself). C142_insert_emptied_fails is about a handler outside of the property: one that removes the node at the iterator, by which it empties the list."
  },
  {
   "property": "C143",
   "status": "proved",
   "theorems": [
    "Verif.Timers.C143_timers",
    "Verif.Timers.C143_too_far_fails",
    "Verif.Timers.C143_too_late_fails"
   ],
   "note": "For all widths but 31, which no unsigned type has (C32). The client's loops are part of the model. The two _fails theorems prove the last sentence."
  },
  {
   "property": "C144",
   "status": "proved",
   "theorems": [
    "Verif.Ready.C144_ready_queues"
   ],
   "note": "The client's program is part of the model. Nodes that are made ready are not ready yet; a task is blocked with the priority it has."
  },
  {
   "property": "C145",
   "status": "proved",
   "theorems": [
    "Verif.Ids.C145_identifiers"
   ],
   "note": "The client's program is part of the model; it compares what lowest_unset() returns by < with the size. A client that compares by == with the size is wrong after set(), see C13."
  },
  {
   "property": "C146",
   "status": "proved",
   "theorems": [
    "Verif.Lru.C146_cache",
    "Verif.Lru.C146_kept",
    "Verif.Lru.C146_dropped"
   ],
   "note": "The client's program is part of the model. For keys whose == is equality of values; for others see C28."
  },
  {
   "property": "C147",
   "status": "proved",
   "theorems": [
    "Verif.Search.C147_search"
   ],
   "note": "The client's program is part of the model. N is below 2^64."
  },
  {
   "property": "C148",
   "status": "proved",
   "theorems": [
    "Verif.Shared.C148_shared_identifiers",
    "Verif.Shared.C148_any_memory_order",
    "Verif.Shared.C148_exclusive"
   ],
   "note": "The client's program is part of the model. What threads write elsewhere while they hold an identifier is ordered only with the memory orders of C130 and C138."
  },
  {
   "property": "C149",
   "status": "proved",
   "theorems": [
    "Verif.Sync.C149_in_order",
    "Verif.Sync.C149_ticket_lock",
    "Verif.Sync.C149_relaxed_race",
    "Verif.Sync.C149_too_many_tickets_fails"
   ],
   "note": "The use of the two atomics is a hypothesis on the execution, not a program; threads that never get their turn are allowed. The last two theorems show that the conditions on orders and on the number of tickets cannot be left out. For tickets that wrap around see C155."
  },
  {
   "property": "C150",
   "status": "partial",
   "theorems": [
    "Verif.Byterator.C150_byte_iff_partial",
    "Verif.Byterator.C150_walk_partial",
    "Verif.Byterator.C150_byte_elsewhere_fails",
    "Verif.Byterator.C150_walk_fails",
    "Verif.Byterator.C150_requirements_fails"
   ],
   "note": "True of bytes within one array, so of all contiguous sequences. The iterators of a std::deque are accepted too, and a byterator made from one is undefined beyond the array its element is in. There is no default constructor; i[n] of a const byterator, and *i and i[n] for const elements, are not of the declared reference type, so that a std::reverse_iterator over const elements cannot be dereferenced (all proved). Iterators past the end are not modelled."
  },
  {
   "property": "C151",
   "status": "proved",
   "theorems": [
    "Verif.Policy.C151_asked_first",
    "Verif.Policy.C151_not_asked",
    "Verif.Policy.C151_history",
    "Verif.Policy.C151_sound",
    "Verif.Policy.C151_mark",
    "Verif.Policy.C151_reserve",
    "Verif.Policy.C151_safe",
    "Verif.Policy.C151_unsound_fails"
   ],
   "note": "Policies take the sizes by value, as documented, and do not touch the queue; panic handlers that do are C142. Capacities are below 2^64 - 1."
  },
  {
   "property": "C152",
   "status": "partial",
   "theorems": [
    "Verif.OverloadSet.C152_call_partial",
    "Verif.OverloadSet.C152_no_match",
    "Verif.OverloadSet.C152_order",
    "Verif.OverloadSet.C152_mutable_violated",
    "Verif.OverloadSet.C152_state",
    "Verif.OverloadSet.C152_visit",
    "Verif.OverloadSet.C152_declared"
   ],
   "note": "True if the functions that take the arguments are all const or all not (lambda expressions that are mutable). A mutable function that takes the arguments of a call, however badly, keeps the const one that fits best from being called on an object that is not const; if it fits some argument worse, the call is ambiguous (proved). Call operators that are static or have a ref-qualifier are not modelled; conversion sequences are compared by rank."
  },
  {
   "property": "C153",
   "status": "proved",
   "theorems": [
    "Verif.Channel.C153_any_object",
    "Verif.Channel.C153_sequential",
    "Verif.Channel.C153_channel",
    "Verif.Channel.C153_bit_lock",
    "Verif.Channel.C153_ticket_lock",
    "Verif.Channel.C153_program"
   ],
   "note": "The use of the lock and the queue is a hypothesis on the execution, but for C153_program, which is about programs that use the lock of C155. That happens-before has no cycles, and what an access to data that is not atomic reads, are rules of the language ([intro.races]); they are assumed of the execution (Plain). An operation on the queue is one event. Capacities are below 2^64."
  },
  {
   "property": "C154",
   "status": "proved",
   "theorems": [
    "Verif.Ring.C154_no_race",
    "Verif.Ring.C154_full",
    "Verif.Ring.C154_empty",
    "Verif.Ring.C154_fifo",
    "Verif.Ring.C154_relaxed_race",
    "Verif.Ring.C154_program",
    "Verif.Ring.C154_ring"
   ],
   "note": "The program is given by the events of its calls (Calls), in which nothing else is done within a call. The rules of the language for data that is not atomic, and that happens-before has no cycles, are assumed of the execution ([intro.races]). Counters start at 0; one thread sends, one receives."
  },
  {
   "property": "C155",
   "status": "proved",
   "theorems": [
    "Verif.Sync.C155_in_order",
    "Verif.Sync.C155_ticket_lock",
    "Verif.Sync.C155_relaxed_race",
    "Verif.Sync.C155_too_many_threads_fails",
    "Verif.Sync.C155_program",
    "Verif.Sync.C155_program_race"
   ],
   "note": "The two atomics start at 0. Coherence between threads is a rule of the language ([intro.races]) and is assumed of the execution (Consistent). Threads that never get their turn are allowed."
  },
  {
   "property": "C156",
   "status": "partial",
   "theorems": [
    "Verif.Concepts.C156_comparisons_partial",
    "Verif.Concepts.C156_not_bool_violated",
    "Verif.Concepts.C156_reference_violated",
    "Verif.Concepts.C156_unsigned",
    "Verif.Concepts.C156_same",
    "Verif.Concepts.C156_range",
    "Verif.Concepts.C156_range_differs"
   ],
   "note": "Where the standard library has no concepts, equality_comparable and totally_ordered ask for operators that return bool itself, where the standard asks for something that can be tested; and of a reference to an object that is not const they look at the operators for such objects, where the standard looks at those for const ones (both proved). range differs from the standard as documented. Concepts whose text is that of the standard are not modelled."
  },
  {
   "property": "C157",
   "status": "proved",
   "theorems": [
    "Verif.Signals.C157_signals",
    "Verif.Signals.C157_any_memory_order",
    "Verif.Signals.C157_load_and_reset_fails"
   ],
   "note": "The client's program is part of the model. Loads and resets on one word; what is written elsewhere before a raise is ordered only with the memory orders of C130 and C138. The last theorem shows that load followed by reset() would not do."
  },
  {
   "property": "C158",
   "status": "proved",
   "theorems": [
    "Verif.Depend.C158_order",
    "Verif.Depend.C158_fits",
    "Verif.Depend.C158_erase_fails"
   ],
   "note": "The client's program is part of the model. Capacities are below 2^64, and at least one value per key. The last theorem is about the variant with erase(k, v), which drops keys without values (C31): it is wrong for every input of two tasks or more."
  },
  {
   "property": "C159",
   "status": "proved",
   "theorems": [
    "Verif.Seqlock.C159_snapshot",
    "Verif.Seqlock.C159_monotone",
    "Verif.Seqlock.C159_few",
    "Verif.Seqlock.C159_relaxed_fails"
   ],
   "note": "The client's program is part of the model. Coherence between threads is a rule of the language ([intro.races]) and is assumed of the execution (Consistent). That the number does not go all the way round while a reader reads is a hypothesis (part of Reads), which C159_few discharges if there are fewer stores to the number than it has values. The number starts at 0."
  },
  {
   "property": "C160",
   "status": "proved",
   "theorems": [
    "Verif.InitOnce.C160_once",
    "Verif.InitOnce.C160_somebody",
    "Verif.InitOnce.C160_initialised",
    "Verif.InitOnce.C160_no_race",
    "Verif.InitOnce.C160_relaxed_race"
   ],
   "note": "The client's program is part of the model, loops as any number of loads. Both atomics start at 0."
  },
  {
   "property": "C161",
   "status": "proved",
   "theorems": [
    "Verif.Latch.C161_latch",
    "Verif.Latch.C161_opens",
    "Verif.Latch.C161_no_race",
    "Verif.Latch.C161_relaxed_race"
   ],
   "note": "How the atomic is used is part of the model (Run, Part). N is less than 2^w. For -- the order is the default of the external library (C130), which must release."
  },
  {
   "property": "C162",
   "status": "proved",
   "theorems": [
    "Verif.SeqCst.C162_interleaving",
    "Verif.SeqCst.C162_no_order",
    "Verif.SeqCst.C162_flags",
    "Verif.SeqCst.C162_acquire_release_fails"
   ],
   "note": "The total order of sequentially consistent calls is a rule of the language ([atomics.order]) and is assumed of the execution (SingleOrder). C162_flags asks for seq_cst only of the four calls. For operators that name no order in atomic.hpp the order is the default of the external library (C130), which must be seq_cst."
  },
  {
   "property": "C163",
   "status": "proved",
   "theorems": [
    "Verif.FlagLock.C163_exclusive",
    "Verif.FlagLock.C163_no_race",
    "Verif.FlagLock.C163_acquire_release_race"
   ],
   "note": "How the flags are used is part of the model (Run, Inside, Guarded). The total order of sequentially consistent calls is a rule of the language ([atomics.order]) and is assumed of the execution. Two threads may both fail to get in; that some thread gets in is not claimed."
  },
  {
   "property": "C164",
   "status": "partial",
   "theorems": [
    "Verif.Meta.C164_value_partial",
    "Verif.Meta.C164_compiles",
    "Verif.Meta.C164_array_violated",
    "Verif.Meta.C164_not_shrunk"
   ],
   "note": "True of all objects but arrays: for these expand(shrink(x)) compiles and is not an array but the result of shrink (proved). That the argument of shrink, which is consteval, can be named in a constant expression is assumed. Moving is taken to keep the content."
  },
  {
   "property": "C165",
   "status": "proved",
   "theorems": [
    "Verif.Peterson.C165_exclusive",
    "Verif.Peterson.C165_no_race",
    "Verif.Peterson.C165_not_both_wait",
    "Verif.Peterson.C165_acquire_release_race"
   ],
   "note": "How the flags and turn are used is part of the model (Run, Inside, Guarded); a thread that waits makes any number of loads. The total order of sequentially consistent calls is a rule of the language ([atomics.order]) and is assumed of the execution. That a thread gets in is claimed only in so far as both waiting threads see the same store."
  },
  {
   "property": "C166",
   "status": "partial",
   "theorems": [
    "Verif.CxVector.C166_read_partial",
    "Verif.CxVector.C166_write_partial",
    "Verif.CxVector.C166_histories",
    "Verif.CxVector.C166_beyond",
    "Verif.CxVector.C166_size_violated",
    "Verif.CxVector.C166_constant_violated",
    "Verif.CxVector.C166_temporary"
   ],
   "note": "get<I>(v), unlike v.get<I>(), is not constexpr and is rejected in every constant expression (proved). Constant indices from the capacity on are rejected, but those from the size up to the capacity are accepted and refer to something that is not an element (proved). True otherwise."
  },
  {
   "property": "C167",
   "status": "partial",
   "theorems": [
    "Verif.Util.C167_literal_partial",
    "Verif.Util.C167_same",
    "Verif.Util.C167_bytes",
    "Verif.Util.C167_back",
    "Verif.Util.C167_rejected",
    "Verif.Util.C167_wraps_violated",
    "Verif.Util.C167_total_violated",
    "Verif.Util.C167_const_violated"
   ],
   "note": "True unless the number or the total does not fit std::size_t: such literals compile and give too few units (proved for all of them). A const sized object cannot be asked for its size in other units, since in() is not a const member function (proved)."
  },
  {
   "property": "C168",
   "status": "partial",
   "theorems": [
    "Verif.Byterator.C168_const_elements",
    "Verif.Byterator.C168_const_byterator",
    "Verif.Byterator.C168_accepted_partial",
    "Verif.Byterator.C168_nothing_const",
    "Verif.Byterator.C168_effects",
    "Verif.Byterator.C168_read",
    "Verif.Byterator.C168_index",
    "Verif.Byterator.C168_assign_violated",
    "Verif.Byterator.C168_peek_violated"
   ],
   "note": "Two exceptions, both proved: a const byterator cannot peek, and i[n] of a const byterator cannot be assigned to where *(i + n) can. The other members (advance, ++, the functions for each size) are like those modelled."
  }
 ]
}