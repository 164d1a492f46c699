{
 "claims": [
  {
   "property": "C01",
   "status": "proved",
   "theorems": [
    "Cest.Vec.C01_vector_history"
   ],
   "note": "All histories over any number of vectors; element copies do not throw here."
  },
  {
   "property": "C02",
   "status": "proved",
   "theorems": [
    "Cest.Vec.C02_vector_no_leak",
    "Cest.Vec.C02_vector_storage"
   ],
   "note": "Lifetime violations are UB outcomes of the machine, excluded by C01."
  },
  {
   "property": "C03",
   "status": "proved",
   "theorems": [
    "Cest.Vec.C03_vector_capacity",
    "Cest.Vec.C03_vector_reserve",
    "Cest.Vec.C03_vector_push_growth",
    "Cest.Vec.C03_vector_resize_assign_stable",
    "Cest.Vec.C03_vector_doubling"
   ],
   "note": ""
  },
  {
   "property": "C04",
   "status": "proved",
   "theorems": [
    "Cest.Vec.C04_vector_at"
   ],
   "note": ""
  },
  {
   "property": "C05",
   "status": "proved",
   "theorems": [
    "Cest.Vec.C05_vector_copy_independent",
    "Cest.Vec.C05_vector_assign_independent",
    "Cest.Vec.C05_vector_move"
   ],
   "note": ""
  },
  {
   "property": "C06",
   "status": "proved",
   "theorems": [
    "Cest.Vec.C06_vector_erase"
   ],
   "note": ""
  },
  {
   "property": "C07",
   "status": "partial",
   "theorems": [
    "Cest.Vec.C07_vector_push_own_partial",
    "Cest.Vec.C07_vector_push_own_full_ub",
    "Cest.Vec.C07_vector_push_own_refuted"
   ],
   "note": "The code violates the property when size()==capacity(): use after free. Proved for size()<capacity(); the negation is proved for every full vector."
  },
  {
   "property": "C08",
   "status": "partial",
   "theorems": [
    "Cest.Vec.C08_vector_push_throw_partial",
    "Cest.Vec.C08_vector_push_throw_ub",
    "Cest.Vec.C08_vector_push_throw_refuted"
   ],
   "note": "Violated when the new element's copy throws (m_size already incremented). Proved for exceptions from allocation or from copying old elements."
  },
  {
   "property": "C09",
   "status": "partial",
   "theorems": [
    "Cest.Vec.C09_vector_copy_throw_partial",
    "Cest.Vec.C09_vector_copy_throw_ub",
    "Cest.Vec.C09_vector_copy_throw_refuted"
   ],
   "note": "Violated for every throwing element copy (m_size set before construction). Proved for a throwing allocation."
  },
  {
   "property": "C10",
   "status": "proved",
   "theorems": [
    "Cest.Vec.C10_vector_eq"
   ],
   "note": "For element types with a lawful ==."
  },
  {
   "property": "C21",
   "status": "proved",
   "theorems": [
    "Cest.Lst.C21_list_history"
   ],
   "note": "Programs with any number of lists and stored iterators; fuel only bounds loop iterations and the result is the same for every sufficient fuel."
  },
  {
   "property": "C22",
   "status": "proved",
   "theorems": [
    "Cest.Lst.C22_list_traversal"
   ],
   "note": ""
  },
  {
   "property": "C23",
   "status": "proved",
   "theorems": [
    "Cest.Lst.C23_list_no_leak",
    "Cest.Lst.C23_list_storage"
   ],
   "note": ""
  },
  {
   "property": "C24",
   "status": "proved",
   "theorems": [
    "Cest.Lst.C24_list_insert_stable",
    "Cest.Lst.C24_list_erase_stable",
    "Cest.Lst.C24_list_ends_stable"
   ],
   "note": ""
  },
  {
   "property": "C25",
   "status": "partial",
   "theorems": [
    "Cest.Lst.C25_list_copy_independent",
    "Cest.Lst.C25_list_assign_partial",
    "Cest.Lst.C25_list_self_assign",
    "Cest.Lst.C25_list_assign_refuted"
   ],
   "note": "Copy construction and assignment between different lists proved; self-assignment empties the list (refuted)."
  },
  {
   "property": "C26",
   "status": "proved",
   "theorems": [
    "Cest.FL.C26_flist_history",
    "Cest.FL.C26_flist_positions"
   ],
   "note": "Programs with any number of lists and stored iterators incl. before_begin."
  },
  {
   "property": "C27",
   "status": "proved",
   "theorems": [
    "Cest.FL.C27_flist_no_leak",
    "Cest.FL.C27_flist_storage"
   ],
   "note": ""
  },
  {
   "property": "C28",
   "status": "proved",
   "theorems": [
    "Cest.FL.C28_flist_assign",
    "Cest.FL.C28_flist_copy_independent"
   ],
   "note": "Self-assignment included."
  },
  {
   "property": "C77",
   "status": "partial",
   "theorems": [
    "Cest.FL.C77_flist_copy_throw_partial",
    "Cest.FL.C77_flist_copy_throw_leak",
    "Cest.FL.C77_flist_copy_throw_refuted"
   ],
   "note": "No UB and nothing else changes, but the nodes built so far are leaked (refuted)."
  },
  {
   "property": "C78",
   "status": "partial",
   "theorems": [
    "Cest.FL.C78_flist_insert_throw_partial",
    "Cest.FL.C78_flist_insert_throw_refuted",
    "Cest.Lst.C78_list_insert_throw_partial",
    "Cest.Lst.C78_list_insert_throw_refuted"
   ],
   "note": "Lists unchanged, but a throwing element copy leaks the allocated node (refuted)."
  },
  {
   "property": "C29",
   "status": "proved",
   "theorems": [
    "Cest.Tree.C29_set_history",
    "Cest.Tree.C29_set_inserts",
    "Cest.Tree.C29_set_insert",
    "Cest.Tree.C29_set_find"
   ],
   "note": "Every strict weak ordering; programs with any number of sets and stored iterators."
  },
  {
   "property": "C30",
   "status": "proved",
   "theorems": [
    "Cest.Tree.C30_set_iteration"
   ],
   "note": ""
  },
  {
   "property": "C31",
   "status": "proved",
   "theorems": [
    "Cest.Tree.C31_set_balanced"
   ],
   "note": "Stated about the nodes in memory; the comparison count is expressed by the number of loop iterations (fuel)."
  },
  {
   "property": "C32",
   "status": "proved",
   "theorems": [
    "Cest.Tree.C32_set_insert_stable"
   ],
   "note": ""
  },
  {
   "property": "C33",
   "status": "proved",
   "theorems": [
    "Cest.Tree.C33_set_no_leak",
    "Cest.Tree.C33_set_storage"
   ],
   "note": ""
  },
  {
   "property": "C34",
   "status": "partial",
   "theorems": [
    "Cest.Tree.C34_set_copy_independent",
    "Cest.Tree.C34_set_assign_partial",
    "Cest.Tree.C34_set_self_assign",
    "Cest.Tree.C34_set_assign_refuted"
   ],
   "note": "Self-assignment empties the set (refuted); everything else proved."
  },
  {
   "property": "C35",
   "status": "proved",
   "theorems": [
    "Cest.Tree.C35_map_inserts",
    "Cest.Tree.C35_map_history",
    "Cest.Tree.C35_map_insert",
    "Cest.Tree.C35_map_find"
   ],
   "note": "C35_map_inserts needs only a strict weak ordering; the theorems about programs with iterators assume that == on keys is reflexive and implies equivalence (see C36)."
  },
  {
   "property": "C36",
   "status": "partial",
   "theorems": [
    "Cest.Tree.C36_map_iteration_partial",
    "Cest.Tree.C36_map_iteration_refuted"
   ],
   "note": "operator++ compares keys with == instead of node pointers; for an == coarser than the comparator iteration stops early (refuted). Proved for == reflexive and finer than or equal to equivalence."
  },
  {
   "property": "C37",
   "status": "proved",
   "theorems": [
    "Cest.Tree.C37_map_balanced",
    "Cest.Tree.C37_map_insert_stable"
   ],
   "note": ""
  },
  {
   "property": "C38",
   "status": "proved",
   "theorems": [
    "Cest.Tree.C38_map_no_leak",
    "Cest.Tree.C38_map_storage",
    "Cest.Tree.C38_map_copy_independent"
   ],
   "note": ""
  },
  {
   "property": "C79",
   "status": "partial",
   "theorems": [
    "Cest.Tree.C79_set_insert_throw_partial",
    "Cest.Tree.C79_set_insert_throw_ub",
    "Cest.Tree.C79_set_copy_throw_ub",
    "Cest.Tree.C79_set_insert_throw_refuted"
   ],
   "note": "Holds for a failed allocation; a throwing element copy leaves a pointer to unconstructed storage in the tree (refuted)."
  },
  {
   "property": "C80",
   "status": "partial",
   "theorems": [
    "Cest.Tree.C80_map_assign_partial",
    "Cest.Tree.C80_map_self_assign",
    "Cest.Tree.C80_map_assign_refuted",
    "Cest.Tree.C80_map_throw_ub"
   ],
   "note": "Self-assignment empties the map and a throwing copy of the pair makes destruction undefined (refuted)."
  },
  {
   "property": "C50",
   "status": "proved",
   "theorems": [
    "Cest.Nary.C50_swap_rotates",
    "Cest.Nary.C50_swap_two",
    "Cest.Nary.C50_swap_trivial"
   ],
   "note": "Any number of distinct variables."
  },
  {
   "property": "C51",
   "status": "proved",
   "theorems": [
    "Cest.Nary.C51_swapr_rotates",
    "Cest.Nary.C51_swapr_inverse"
   ],
   "note": ""
  },
  {
   "property": "C39",
   "status": "proved",
   "theorems": [
    "Cest.Str.C39_string_terminated"
   ],
   "note": ""
  },
  {
   "property": "C40",
   "status": "proved",
   "theorems": [
    "Cest.Str.C40_string_history"
   ],
   "note": "Programs with any number of strings; pointer arguments may point into other strings or (append, find, compare) the string itself. Excluded uses are the subject of C42, C43, C48, C49."
  },
  {
   "property": "C41",
   "status": "proved",
   "theorems": [
    "Cest.Str.C41_string_self_append"
   ],
   "note": ""
  },
  {
   "property": "C42",
   "status": "partial",
   "theorems": [
    "Cest.Str.C42_string_copy_partial",
    "Cest.Str.C42_string_copy_truncates",
    "Cest.Str.C42_string_copy_independent",
    "Cest.Str.C42_string_copy_refuted"
   ],
   "note": "Copies go through the C string, so they are cut at an embedded terminator (refuted); exact otherwise."
  },
  {
   "property": "C43",
   "status": "partial",
   "theorems": [
    "Cest.Str.C43_string_self_assign_partial",
    "Cest.Str.C43_string_self_assign_full_ub",
    "Cest.Str.C43_string_self_assign_overlap_ub",
    "Cest.Str.C43_string_self_assign_refuted"
   ],
   "note": "Use after free when full, overlapping Traits::copy otherwise (refuted)."
  },
  {
   "property": "C44",
   "status": "partial",
   "theorems": [
    "Cest.Str.C44_string_find",
    "Cest.Str.C44_string_find_cstr",
    "Cest.Str.C44_string_find_empty",
    "Cest.Str.C44_string_find_str_truncates",
    "Cest.Str.C44_string_find_str_partial",
    "Cest.Str.C44_string_find_str_refuted"
   ],
   "note": "The pointer overloads named in the statement are proved in full; find(str,pos) is wrong for needles with an embedded terminator (refuted)."
  },
  {
   "property": "C45",
   "status": "partial",
   "theorems": [
    "Cest.Str.C45_string_find_char_partial",
    "Cest.Str.C45_string_find_char_ignores_pos",
    "Cest.Str.C45_string_find_char_refuted"
   ],
   "note": "pos is ignored (refuted)."
  },
  {
   "property": "C46",
   "status": "proved",
   "theorems": [
    "Cest.Str.C46_string_compare",
    "Cest.Str.C46_string_eq",
    "Cest.Str.C46_string_order_total"
   ],
   "note": "Lengths below 2^63 (no object is larger)."
  },
  {
   "property": "C47",
   "status": "proved",
   "theorems": [
    "Cest.Str.C47_string_no_leak",
    "Cest.Str.C47_string_storage"
   ],
   "note": ""
  },
  {
   "property": "C48",
   "status": "partial",
   "theorems": [
    "Cest.Str.C48_string_input_range_partial",
    "Cest.Str.C48_string_input_empty_ub",
    "Cest.Str.C48_string_input_range_refuted"
   ],
   "note": "Proved for non-empty ranges; the empty range writes through a null pointer (refuted)."
  },
  {
   "property": "C49",
   "status": "partial",
   "theorems": [
    "Cest.Str.C49_string_push_own_partial",
    "Cest.Str.C49_string_push_own_full_ub",
    "Cest.Str.C49_string_push_own_refuted"
   ],
   "note": "Right with spare capacity, use after free when full (refuted)."
  },
  {
   "property": "C81",
   "status": "partial",
   "theorems": [
    "Cest.Str.C81_string_bad_alloc_partial",
    "Cest.Str.C81_string_assign_bad_alloc_ub",
    "Cest.Str.C81_string_input_leak",
    "Cest.Str.C81_string_bad_alloc_refuted"
   ],
   "note": "Strong guarantee for reserve, push_back, append and the (pointer,count) constructor; assignment leaves a dangling pointer and the input-iterator constructor leaks (refuted)."
  },
  {
   "property": "C11",
   "status": "partial",
   "theorems": [
    "Cest.Deq.C11_deque_history_partial",
    "Cest.Deq.C11_deque_history_refuted",
    "Cest.Deq.C11_deque_fault_exact",
    "Cest.Deq.C11_deque_size_t"
   ],
   "note": "push_back into a deque whose back chunk is full but not the last chunk continues in the wrong chunk (refuted for every chunk size); proved for all programs that do not meet this state, and the state is characterised exactly."
  },
  {
   "property": "C12",
   "status": "proved",
   "theorems": [
    "Cest.Deq.C12_deque_no_pop_back",
    "Cest.Deq.C12_deque_no_push_back"
   ],
   "note": "Every chunk size >= 2; the integer representing m_back_chunk is shown to be a faithful representation of the wrapping size_t (residue lemmas in Deque/Model.lean)."
  },
  {
   "property": "C13",
   "status": "proved",
   "theorems": [
    "Cest.Deq.C13_deque_index"
   ],
   "note": ""
  },
  {
   "property": "C14",
   "status": "partial",
   "theorems": [
    "Cest.Deq.C14_deque_iteration_partial",
    "Cest.Deq.C14_deque_iteration_refuted"
   ],
   "note": "end() is never reached when the last element occupies the last slot of its chunk: undefined behaviour exactly in those states."
  },
  {
   "property": "C15",
   "status": "partial",
   "theorems": [
    "Cest.Deq.C15_deque_dec_inc_partial",
    "Cest.Deq.C15_deque_dec_inc_refuted"
   ],
   "note": "operator-- at the start of a chunk goes to the start (not the end) of the previous chunk."
  },
  {
   "property": "C16",
   "status": "partial",
   "theorems": [
    "Cest.Deq.C16_deque_iter_diff_partial",
    "Cest.Deq.C16_deque_iter_diff_refuted"
   ],
   "note": "operator- ignores the chunks; right only within one chunk."
  },
  {
   "property": "C17",
   "status": "proved",
   "theorems": [
    "Cest.Deq.C17_deque_no_leak",
    "Cest.Deq.C17_deque_storage"
   ],
   "note": ""
  },
  {
   "property": "C18",
   "status": "proved",
   "theorems": [
    "Cest.Deq.C18_deque_pop_empty",
    "Cest.Deq.C18_deque_clear"
   ],
   "note": ""
  },
  {
   "property": "C19",
   "status": "partial",
   "theorems": [
    "Cest.Deq.C19_deque_copy",
    "Cest.Deq.C19_deque_assign_partial",
    "Cest.Deq.C19_deque_self_assign_refuted",
    "Cest.Deq.C19_deque_assign_refuted"
   ],
   "note": "Copy construction proved; self-assignment empties, assignment to a deque of three or more chunks can be wrong (refuted)."
  },
  {
   "property": "C20",
   "status": "proved",
   "theorems": [
    "Cest.Deq.C20_queue_fifo"
   ],
   "note": "Every program over any number of queues, including push of an element of the same queue; nothing leaks."
  },
  {
   "property": "C82",
   "status": "partial",
   "theorems": [
    "Cest.Deq.C82_deque_push_throw_partial",
    "Cest.Deq.C82_deque_push_throw_refuted"
   ],
   "note": "Violated in every state that needs no new chunk: size is incremented before the element is constructed, so the destructor is undefined afterwards. What remains true: the old elements can still be read and nothing else changes."
  },
  {
   "property": "C83",
   "status": "proved",
   "theorems": [
    "Cest.Deq.C83_deque_push_bad_alloc"
   ],
   "note": ""
  },
  {
   "property": "C84",
   "status": "partial",
   "theorems": [
    "Cest.Deq.C84_deque_push_leak_partial",
    "Cest.Deq.C84_deque_push_leak_refuted"
   ],
   "note": "Violated whenever m_chunks has to grow and its allocation fails; every deque and every other block is unchanged."
  },
  {
   "property": "C52",
   "status": "proved",
   "theorems": [
    "Cest.Uptr.C52_uptr_history",
    "Cest.Uptr.C52_uptr_no_leak",
    "Cest.Uptr.C52_uptr_null_deref_ub",
    "Cest.Uptr.C52_uptr_dtor"
   ],
   "note": "Histories include reset to new and raw pointers, release and adoption of raw pointers, swap by move assignment and self-move. Deleting twice is undefined behaviour in the machine, so a history that runs deletes each object at most once; no_leak gives at least once."
  },
  {
   "property": "C53",
   "status": "proved",
   "theorems": [
    "Cest.Uptr.C53_uptr_move_ctor",
    "Cest.Uptr.C53_uptr_move_assign",
    "Cest.Uptr.C53_uptr_self_move",
    "Cest.Uptr.C53_uptr_release",
    "Cest.Uptr.C53_uptr_reset",
    "Cest.Uptr.C53_uptr_bool"
   ],
   "note": "Exact state change in every machine state."
  },
  {
   "property": "C57",
   "status": "proved",
   "theorems": [
    "Cest.Uptr.C57_function_history",
    "Cest.Uptr.C57_function_no_leak",
    "Cest.Uptr.C57_function_calls",
    "Cest.Uptr.C57_function_moved_from_ub"
   ],
   "note": "Any callable with state. Calling a moved-from function is undefined behaviour."
  },
  {
   "property": "C54",
   "status": "proved",
   "theorems": [
    "Cest.Sptr.C54_sptr_history",
    "Cest.Sptr.C54_sptr_history_supported",
    "Cest.Sptr.C54_sptr_use_count",
    "Cest.Sptr.C54_sptr_alive_iff_owned",
    "Cest.Sptr.C54_sptr_no_leak"
   ],
   "note": "Exactly the operations listed in the statement (plus reads, writes and same-group assignment); the deleter is delete."
  },
  {
   "property": "C55",
   "status": "partial",
   "theorems": [
    "Cest.Sptr.C55_sptr_empty_partial",
    "Cest.Sptr.C55_sptr_copy_empty_ub",
    "Cest.Sptr.C55_sptr_copy_empty_refuted"
   ],
   "note": "Violated: copying an empty shared_ptr dereferences null in every state. The part about the empty pointer itself holds."
  },
  {
   "property": "C56",
   "status": "partial",
   "theorems": [
    "Cest.Sptr.C56_sptr_assign_same_group_partial",
    "Cest.Sptr.C56_sptr_assign_count_wrong",
    "Cest.Sptr.C56_sptr_assign_leaks",
    "Cest.Sptr.C56_sptr_assign_refuted"
   ],
   "note": "Violated for different groups (double delete, leak); holds within a group."
  },
  {
   "property": "C85",
   "status": "partial",
   "theorems": [
    "Cest.Sptr.C85_sptr_ctor_partial",
    "Cest.Sptr.C85_sptr_ctor_bad_alloc_leaks",
    "Cest.Sptr.C85_sptr_ctor_bad_alloc_refuted"
   ],
   "note": "Violated: the object leaks."
  },
  {
   "property": "C58",
   "status": "proved",
   "theorems": [
    "Cest.Stream.Props.C58_istringstream_get",
    "Cest.Stream.Props.C58_get_delivers",
    "Cest.Stream.Props.stream_program",
    "Cest.Stream.Props.stream_no_leak"
   ],
   "note": "Assumes that no character converts to eof(), which holds for char."
  },
  {
   "property": "C59",
   "status": "proved",
   "theorems": [
    "Cest.Stream.Props.C59_read_delivers"
   ],
   "note": ""
  },
  {
   "property": "C60",
   "status": "proved",
   "theorems": [
    "Cest.Stream.Props.C60_unget_undoes_get",
    "Cest.Stream.Props.C60_unget_at_beginning",
    "Cest.Stream.Props.C60_unget_state"
   ],
   "note": "unget_state covers every state under the default mask."
  },
  {
   "property": "C61",
   "status": "proved",
   "theorems": [
    "Cest.Stream.Props.C61_state_observers",
    "Cest.Stream.Props.C61_setstate_adds",
    "Cest.Stream.Props.C61_clear_sets",
    "Cest.Stream.Props.C61_not_good_transfers_nothing"
   ],
   "note": ""
  },
  {
   "property": "C62",
   "status": "proved",
   "theorems": [
    "Cest.Stream.Props.C62_throws_iff",
    "Cest.Stream.Props.C62_default_mask_never_throws"
   ],
   "note": ""
  },
  {
   "property": "C63",
   "status": "partial",
   "theorems": [
    "Cest.Stream.Props.C63_str_restarts_partial",
    "Cest.Stream.Props.C63_str_truncates",
    "Cest.Stream.Props.C63_str_restarts_refuted"
   ],
   "note": "Violated for strings with an embedded terminator: everything from there on is lost."
  },
  {
   "property": "C64",
   "status": "proved",
   "theorems": [
    "Cest.Stream.Props.C64_fmemopen_fread_fclose"
   ],
   "note": ""
  },
  {
   "property": "C65",
   "status": "proved",
   "theorems": [
    "Cest.Cctype.C65_isalnum_correct",
    "Cest.Cctype.C65_isupper_correct",
    "Cest.Cctype.C65_isalnum_isupper_program"
   ],
   "note": "char signed 8 bits, int 32 bits, ASCII."
  },
  {
   "property": "C86",
   "status": "partial",
   "theorems": [
    "Cest.Stream.Props.C86_skipws_sentry_never_ok",
    "Cest.Stream.Props.C86_noskipws_sentry_partial"
   ],
   "note": "The sentry that does not skip white space is right. The other one: violated on every good stream (libstdc++): the ctype pointer is null, so the facet check throws."
  },
  {
   "property": "C74",
   "status": "proved",
   "theorems": [
    "Cest.Complex.Props.C74_compound",
    "Cest.Complex.Props.C74_compound_self",
    "Cest.Complex.Props.C74_compound_scalar",
    "Cest.Complex.Props.C74_binary",
    "Cest.Complex.Props.C74_binary_scalar",
    "Cest.Complex.Props.C74_compound_eq_binary",
    "Cest.Complex.Props.C74_laws",
    "Cest.Complex.Props.C74_norm_conj",
    "Cest.Complex.Props.C74_div",
    "Cest.Complex.Props.C74_div_scalar",
    "Cest.Complex.Props.C74_real"
   ],
   "note": "Every commutative ring, every field for division, where the divisor needs a non-zero norm. The operations are those of Mathlib's T[i]."
  },
  {
   "property": "C75",
   "status": "proved",
   "theorems": [
    "Cest.Complex.Props.C75_pow_unsigned",
    "Cest.Complex.Props.C75_pow"
   ],
   "note": "32-bit int. A negative power of a number of norm zero divides by zero."
  },
  {
   "property": "C76",
   "status": "proved",
   "theorems": [
    "Cest.Complex.Props.C76_eq",
    "Cest.Complex.Props.C76_scalar"
   ],
   "note": ""
  },
  {
   "property": "C66",
   "status": "partial",
   "theorems": [
    "Cest.Cmath.Props.C66_floor_partial",
    "Cest.Cmath.Props.C66_ceil_partial",
    "Cest.Cmath.Props.C66_floor_iff",
    "Cest.Cmath.Props.C66_ceil_iff",
    "Cest.Cmath.Props.C66_floor_refuted",
    "Cest.Cmath.Props.C66_ceil_refuted",
    "Cest.Cmath.Props.C66_exact_arithmetic"
   ],
   "note": "Violated where v-1 (v+1) rounds to an integer, e.g. floor(-(1-2^-53)) = -2; the iff theorems say exactly where. binary64 without infinities and NaN."
  },
  {
   "property": "C67",
   "status": "partial",
   "theorems": [
    "Cest.Cmath.Props.C67_pow_partial",
    "Cest.Cmath.Props.C67_pow_rounded_partial",
    "Cest.Cmath.Props.C67_pow_neg_rounded_partial",
    "Cest.Cmath.Props.C67_pow_refuted"
   ],
   "note": "Violated for n = INT_MIN (negation overflows); proved for every other n, exactly and with the relative error of the roundings."
  },
  {
   "property": "C68",
   "status": "proved",
   "theorems": [
    "Cest.Cmath.Props.C68_sqrt"
   ],
   "note": "Exact arithmetic, as stated."
  },
  {
   "property": "C69",
   "status": "partial",
   "theorems": [
    "Cest.Cmath.Props.C69_sqrt_refuted",
    "Cest.Cmath.Props.C69_sqrt_zero"
   ],
   "note": "Violated: sqrt of zero or a negative number never returns (exact and binary64 arithmetic)."
  },
  {
   "property": "C70",
   "status": "proved",
   "theorems": [
    "Cest.Cmath.Props.C70_abs"
   ],
   "note": "Any ordered group; abs(-0.0) keeps its sign bit, which the model has not."
  },
  {
   "property": "C71",
   "status": "partial",
   "theorems": [
    "Cest.Cmath.Props.C71_reduction_partial",
    "Cest.Cmath.Props.C71_reduction_high_refuted",
    "Cest.Cmath.Props.C71_reduction_low_refuted"
   ],
   "note": "Violated for x above INT_MAX + 1/2 and for x in (INT_MIN-1, INT_MIN]: undefined behaviour."
  },
  {
   "property": "C72",
   "status": "proved",
   "theorems": [
    "Cest.Cmath.Props.C72_atan_odd",
    "Cest.Cmath.Props.C72_atan_zero",
    "Cest.Cmath.Props.C72_sinh_odd",
    "Cest.Cmath.Props.C72_cosh_even",
    "Cest.Cmath.Props.C72_atan2_quadrant"
   ],
   "note": "The symmetries with any rounding, the quadrants in exact arithmetic."
  },
  {
   "property": "C73",
   "status": "proved",
   "theorems": [
    "Cest.Cmath.Props.C73_decimal",
    "Cest.Cmath.Props.C73_log_guard"
   ],
   "note": "Exact arithmetic, as stated."
  },
  {
   "property": "C87",
   "status": "proved",
   "theorems": [
    "Cest.Cmath.Props.C87_sin",
    "Cest.Cmath.Props.C87_cos"
   ],
   "note": "Exact arithmetic, as stated."
  },
  {
   "property": "C88",
   "status": "proved",
   "theorems": [
    "Cest.Cmath.Props.C88_sinh",
    "Cest.Cmath.Props.C88_cosh"
   ],
   "note": "Exact arithmetic, as stated."
  },
  {
   "property": "C89",
   "status": "proved",
   "theorems": [
    "Cest.Cmath.Props.C89_exp"
   ],
   "note": "Exact arithmetic, as stated."
  },
  {
   "property": "C90",
   "status": "proved",
   "theorems": [
    "Cest.Cmath.Props.C90_log"
   ],
   "note": "Exact arithmetic, as stated."
  },
  {
   "property": "C91",
   "status": "proved",
   "theorems": [
    "Cest.Cmath.Props.C91_atan",
    "Cest.Cmath.Props.C91_atan2"
   ],
   "note": "Exact arithmetic, as stated."
  },
  {
   "property": "C92",
   "status": "proved",
   "theorems": [
    "Cest.Cmath.Props.C92_complex_abs",
    "Cest.Cmath.Props.C92_complex_arg"
   ],
   "note": "Exact arithmetic; calls resolved to cmath.hpp."
  },
  {
   "property": "C93",
   "status": "proved",
   "theorems": [
    "Cest.Cmath.Props.C93_complex_exp"
   ],
   "note": "Exact arithmetic; calls resolved to cmath.hpp."
  },
  {
   "property": "C94",
   "status": "proved",
   "theorems": [
    "Cest.Ostream.Props.C94_sequence",
    "Cest.Ostream.Props.C94_other_stream",
    "Cest.Ostream.Props.C94_constant_evaluation"
   ],
   "note": "Trusted: Ostream/Std.lean's std::ostream. Texts covered by the exceptions of C97, C99 and C100 are excluded here."
  },
  {
   "property": "C95",
   "status": "partial",
   "theorems": [
    "Cest.Ostream.Props.C95_hex_refuted",
    "Cest.Ostream.Props.C95_manip_partial"
   ],
   "note": "Violated: dec, hex and oct do nothing."
  },
  {
   "property": "C96",
   "status": "partial",
   "theorems": [
    "Cest.Ostream.Props.C96_failed_refuted",
    "Cest.Ostream.Props.C96_good_partial",
    "Cest.Ostream.Props.C96_setstate_clear",
    "Cest.Ostream.Props.C96_exceptions"
   ],
   "note": "Violated: the cest stream's state is never consulted."
  },
  {
   "property": "C97",
   "status": "partial",
   "theorems": [
    "Cest.Ostream.Props.C97_string_output",
    "Cest.Ostream.Props.C97_string_partial",
    "Cest.Ostream.Props.C97_embedded_terminator_refuted"
   ],
   "note": "Violated for strings containing a terminator; C97_string_output says what is printed for every string."
  },
  {
   "property": "C98",
   "status": "partial",
   "theorems": [
    "Cest.Ostream.Props.C98_flush_refuted",
    "Cest.Ostream.Props.C98_flush_partial"
   ],
   "note": "Violated: flush() never reaches the standard stream."
  },
  {
   "property": "C99",
   "status": "partial",
   "theorems": [
    "Cest.Ostream.Props.C99_printf",
    "Cest.Ostream.Props.C99_noargs_partial",
    "Cest.Ostream.Props.C99_percent_refuted"
   ],
   "note": "Holds with arguments; without arguments it is violated for formats containing %%."
  },
  {
   "property": "C100",
   "status": "partial",
   "theorems": [
    "Cest.Ostream.Props.C100_fprintf_partial",
    "Cest.Ostream.Props.C100_stdout_stderr_partial",
    "Cest.Ostream.Props.C100_alloc_failure",
    "Cest.Ostream.Props.C100_terminator_refuted",
    "Cest.Ostream.Props.C100_error_refuted",
    "Cest.Ostream.Props.C100_noargs_refuted"
   ],
   "note": "Violated for texts containing a terminator, for failing conversions (undefined behaviour) and, without arguments, in the returned count."
  },
  {
   "property": "C101",
   "status": "proved",
   "theorems": [
    "Cest.ComplexFn.Props.C101_cos",
    "Cest.ComplexFn.Props.C101_sin",
    "Cest.ComplexFn.Props.C101_cosh",
    "Cest.ComplexFn.Props.C101_sinh"
   ],
   "note": "Exact arithmetic; calls resolved to cmath.hpp."
  },
  {
   "property": "C102",
   "status": "proved",
   "theorems": [
    "Cest.ComplexFn.Props.C102_log",
    "Cest.ComplexFn.Props.C102_log_zero"
   ],
   "note": "Exact arithmetic; calls resolved to cmath.hpp."
  },
  {
   "property": "C103",
   "status": "partial",
   "theorems": [
    "Cest.ComplexFn.Props.C103_sqrt_partial",
    "Cest.ComplexFn.Props.C103_sqrt_zero_refuted"
   ],
   "note": "Violated at 0, where it never returns; proved for every other z. std::abs(z) in the source is read as cest::abs(z), without which the template cannot be instantiated."
  },
  {
   "property": "C104",
   "status": "proved",
   "theorems": [
    "Cest.Fp.Props.C104_decimal"
   ],
   "note": "Arguments are finite; every rounding to a nearest binary64 number, whichever way ties go."
  },
  {
   "property": "C105",
   "status": "proved",
   "theorems": [
    "Cest.Fp.Props.C105_sqrt"
   ],
   "note": "Arguments are finite; every rounding to a nearest binary64 number, whichever way ties go."
  },
  {
   "property": "C106",
   "status": "proved",
   "theorems": [
    "Cest.Fp.Props.C106_sin",
    "Cest.Fp.Props.C106_cos"
   ],
   "note": "Arguments are finite; every rounding to a nearest binary64 number, whichever way ties go."
  },
  {
   "property": "C107",
   "status": "proved",
   "theorems": [
    "Cest.Fp.Props.C107_log"
   ],
   "note": "Arguments are finite; every rounding to a nearest binary64 number, whichever way ties go."
  },
  {
   "property": "C108",
   "status": "proved",
   "theorems": [
    "Cest.Fp.Props.C108_exp"
   ],
   "note": "Arguments are finite; every rounding to a nearest binary64 number, whichever way ties go."
  },
  {
   "property": "C109",
   "status": "proved",
   "theorems": [
    "Cest.Sdel.C109_sdel_history",
    "Cest.Sdel.C109_each_deleter_once",
    "Cest.Sdel.C109_never_twice",
    "Cest.Sdel.C109_no_leak"
   ],
   "note": "Deleters log their calls and may or may not delete; they do not throw. Construction from derived classes without deleter needs a virtual destructor (C111)."
  },
  {
   "property": "C110",
   "status": "partial",
   "theorems": [
    "Cest.Sdel.C110_get_deleter_partial",
    "Cest.Sdel.C110_get_deleter_derived_refuted"
   ],
   "note": "Refuted for a deleter given together with a pointer to a derived class; proved for pointers to T."
  },
  {
   "property": "C111",
   "status": "partial",
   "theorems": [
    "Cest.Sdel.C111_derived_partial",
    "Cest.Sdel.C111_derived_refuted"
   ],
   "note": "Refuted without a virtual destructor (delete through T*); proved with one."
  },
  {
   "property": "C112",
   "status": "partial",
   "theorems": [
    "Cest.Sdel.C112_deleter_kept_partial",
    "Cest.Sdel.C112_alloc_failure_refuted"
   ],
   "note": "Refuted when the control block cannot be allocated; proved when allocations succeed."
  },
  {
   "property": "C113",
   "status": "proved",
   "theorems": [
    "Cest.Sdel.C113_array",
    "Cest.Sdel.C113_array_oob",
    "Cest.Sdel.C113_mismatched_delete"
   ],
   "note": ""
  },
  {
   "property": "C114",
   "status": "partial",
   "theorems": [
    "Cest.Str.C114_string_default_ctor_partial",
    "Cest.Str.C114_string_default_ctor_terminates",
    "Cest.Str.C114_string_default_ctor_refuted"
   ],
   "note": "Violated whenever the allocation fails: the noexcept constructor allocates. Proved when it succeeds."
  },
  {
   "property": "C115",
   "status": "partial",
   "theorems": [
    "Cest.Uptr.C115_function_copy_diverges",
    "Cest.Uptr.C115_function_copy_refuted",
    "Cest.Uptr.C115_function_move_partial"
   ],
   "note": "Violated for every non-const function variable (unbounded recursion of constructors). Proved for moving."
  },
  {
   "property": "C116",
   "status": "partial",
   "theorems": [
    "Cest.Stream.Props.C116_cin_reads_its_name_partial",
    "Cest.Stream.Props.C116_cin_refuted"
   ],
   "note": "Violated: cin is a string stream over the text \"cin\". The theorem says what is read instead."
  },
  {
   "property": "C117",
   "status": "proved",
   "theorems": [
    "Cest.Stream.Flags.C117_bitmask_ops",
    "Cest.Stream.Flags.C117_bitmask_clear_test",
    "Cest.Stream.Flags.C117_bitmask_constants",
    "Cest.Stream.Flags.C117_state_is_a_set",
    "Cest.Stream.Flags.C117_flags_after_init",
    "Cest.Stream.Flags.C117_decode"
   ],
   "note": "Arguments of the state functions are unions of the three named bits."
  },
  {
   "property": "C118",
   "status": "proved",
   "theorems": [
    "Cest.Vec.C118_vector_reverse",
    "Cest.Vec.C118_vector_push_move",
    "Cest.Vec.C118_vector_push_rvalue",
    "Cest.Vec.C118_vector_push_own_move_full_ub"
   ],
   "note": "Moving an own element into a full vector is undefined (as in C07); the last theorem says so."
  },
  {
   "property": "C119",
   "status": "partial",
   "theorems": [
    "Cest.CxFp.Props.C119_add_sub",
    "Cest.CxFp.Props.C119_mul",
    "Cest.CxFp.Props.C119_norm",
    "Cest.CxFp.Props.C119_div_partial",
    "Cest.CxFp.Props.C119_div_underflow",
    "Cest.CxFp.Props.C119_div_refuted",
    "Cest.CxFp.Props.C119_laws"
   ],
   "note": "Sums, differences, products, norm and the exact laws are proved in full (magnitudes away from overflow, which the model has no infinities for). Division is proved when the squared modulus of the divisor is at least 2^-1012; it is refuted in general: a divisor with both parts at most 2^-538 is divided by as if it were zero, although 2^-600 / 2^-600 is 1."
  },
  {
   "property": "C120",
   "status": "proved",
   "theorems": [
    "Cest.CxFp.Props.C120_pow_unsigned",
    "Cest.CxFp.Props.C120_pow"
   ],
   "note": "Neither underflow nor overflow: |z^n| between 2^-990 and 2^990 for n >= 0, between 2^-490 and 2^490 for n < 0 (the modulus is squared by the division)."
  },
  {
   "property": "C121",
   "status": "proved",
   "theorems": [
    "Cest.Fp.Props.C121_sinh",
    "Cest.Fp.Props.C121_cosh",
    "Cest.Fp.Props.C121_atan",
    "Cest.Fp.Props.C121_atan2"
   ],
   "note": "Arguments are finite; every rounding to a nearest binary64 number, whichever way ties go. cosh is bounded up to 331 because it squares sinh and takes a square root."
  },
  {
   "property": "C122",
   "status": "proved",
   "theorems": [
    "Cest.ComplexFn.FpProps.C122_abs",
    "Cest.ComplexFn.FpProps.C122_arg",
    "Cest.ComplexFn.FpProps.C122_polar",
    "Cest.ComplexFn.FpProps.C122_exp"
   ],
   "note": "Arguments are finite; every rounding to a nearest binary64 number, whichever way ties go."
  },
  {
   "property": "C123",
   "status": "proved",
   "theorems": [
    "Cest.ComplexFn.FpProps.C123_cos",
    "Cest.ComplexFn.FpProps.C123_sin",
    "Cest.ComplexFn.FpProps.C123_cosh",
    "Cest.ComplexFn.FpProps.C123_sinh"
   ],
   "note": "Arguments are finite; every rounding to a nearest binary64 number, whichever way ties go."
  },
  {
   "property": "C124",
   "status": "partial",
   "theorems": [
    "Cest.ComplexFn.FpProps.C124_log",
    "Cest.ComplexFn.FpProps.C124_sqrt_partial",
    "Cest.ComplexFn.FpProps.C124_sqrt_zero_refuted"
   ],
   "note": "sqrt(0) never returns; proved for max(|x|,|y|) between 2^-1000 and 2^950. Arguments are finite; every rounding to a nearest binary64 number, whichever way ties go."
  },
  {
   "property": "C125",
   "status": "partial",
   "theorems": [
    "Cest.Fp.Props.C125_sqrt_partial",
    "Cest.Fp.Props.C125_sqrt_refuted",
    "Cest.Fp.Props.C125_sqrt_big_refuted",
    "Cest.Fp.Props.C125_log",
    "Cest.Fp.Props.C125_sinh",
    "Cest.Fp.Props.C125_cosh",
    "Cest.Fp.Props.C125_atan"
   ],
   "note": "sqrt is proved between 2^-980 and 2^960 and refuted for all positive numbers up to 2^-1023 (the subnormal ones) and for all doubles from 2^1020 on. The bound of 512 nested calls is the default of GCC and Clang."
  },
  {
   "property": "C126",
   "status": "partial",
   "theorems": [
    "Cest.Fp.Props.C126_counts",
    "Cest.Fp.Props.C126_sin_upper",
    "Cest.Fp.Props.C126_sinh_upper",
    "Cest.Fp.Props.C126_sin_lower",
    "Cest.Fp.Props.C126_sinh_lower",
    "Cest.Fp.Props.C126_sin_partial",
    "Cest.Fp.Props.C126_sin_refuted"
   ],
   "note": "Both recursive calls compute the same value, so the number of calls doubles with each level: fewer than 2^21 up to 10^6, more than 2^27 - 1 from 10^9 on. Counted by an instrumented copy of the model, shown to compute the same results."
  },
  {
   "property": "C127",
   "status": "proved",
   "theorems": [
    "Cest.Vec.C127_vector_cost",
    "Cest.Vec.C127_vector_push_amortised",
    "Cest.Vec.C127_vector_push_reserved"
   ],
   "note": "Counts allocations, copy constructions and copy assignments (the operations that may throw); destructions and pointer arithmetic are not counted."
  },
  {
   "property": "C128",
   "status": "proved",
   "theorems": [
    "Cest.Lst.C128_list_cost",
    "Cest.Lst.C128_list_step",
    "Cest.FL.C128_flist_cost",
    "Cest.FL.C128_flist_step",
    "Cest.Tree.C128_set_cost",
    "Cest.Tree.C128_set_step",
    "Cest.Tree.C128_map_cost",
    "Cest.Tree.C128_map_step"
   ],
   "note": "Counts allocations, copy constructions and copy assignments."
  },
  {
   "property": "C129",
   "status": "proved",
   "theorems": [
    "Cest.Deq.C129_deque_cost",
    "Cest.Deq.C129_deque_step",
    "Cest.Deq.C129_queue_cost"
   ],
   "note": "Counts allocations, copy constructions and copy assignments of elements; growing m_chunks counts as one allocation, the pointers it moves and the rotation in push_front are not counted."
  },
  {
   "property": "C130",
   "status": "partial",
   "theorems": [
    "Cest.Deq.C130_queue_storage",
    "Cest.Deq.C130_queue_storage_bounded_refuted",
    "Cest.Deq.C130_queue_storage_partial"
   ],
   "note": "Violated: chunks in front of the first element are neither reused nor released, so a queue that never holds more than one element grows by one chunk for every CHUNK_SIZE pushes. Proved: the exact number, and that at the back less than one chunk is unused."
  },
  {
   "property": "C131",
   "status": "partial",
   "theorems": [
    "Cest.Vec.C131_set_throw_partial",
    "Cest.Vec.C131_reserve_bad_alloc_partial",
    "Cest.Vec.C131_reserve_leak",
    "Cest.Vec.C131_erase_throw_partial",
    "Cest.Vec.C131_assign_throw_partial",
    "Cest.Vec.C131_resize_stray",
    "Cest.Vec.C131_assign_stray",
    "Cest.Vec.C131_ctorN_leak",
    "Cest.Vec.C131_vector_throw_refuted"
   ],
   "note": "Violated: reserve leaks the new block, resize and copy assignment leave elements behind the end which the destructor never destroys, and the constructor from a size leaks its storage. Proved for operator[], a failing allocation in reserve, erase, and copy assignment while it overwrites. push_back and the copy constructor are in C08 and C09."
  },
  {
   "property": "C132",
   "status": "proved",
   "theorems": [
    "Cest.Deq.C132_deque_reference"
   ],
   "note": "For sequences that avoid the push_back fault of C11."
  },
  {
   "property": "C133",
   "status": "partial",
   "theorems": [
    "Cest.Str.C133_push_back_amortised_partial",
    "Cest.Str.C133_append_reallocates",
    "Cest.Str.C133_string_growth_refuted"
   ],
   "note": "Proved for push_back and operator+=(CharT). Violated by append and operator+=(string): a full string is reallocated to exactly the needed size every time."
  },
  {
   "property": "C134",
   "status": "partial",
   "theorems": [
    "Cest.Tree.C134_find_comparisons",
    "Cest.Tree.C134_insert_comparisons",
    "Cest.Tree.C134_insert_throw_partial",
    "Cest.Tree.C134_insert_last_comparison",
    "Cest.Tree.C134_insert_throw_refuted"
   ],
   "note": "The numbers of comparisons and the claim for find are proved. Violated by insert: the comparison with the first element comes after the new node was linked, so an exception there leaves an element that find() finds and size() does not count; this is shown to be the only such case."
  },
  {
   "property": "C135",
   "status": "partial",
   "theorems": [
    "Cest.Ieee.Props.C135_sqrt",
    "Cest.Ieee.Props.C135_sin",
    "Cest.Ieee.Props.C135_cos",
    "Cest.Ieee.Props.C135_sinh",
    "Cest.Ieee.Props.C135_cosh",
    "Cest.Ieee.Props.C135_log",
    "Cest.Ieee.Props.C135_atan",
    "Cest.Ieee.Props.C135_atan2",
    "Cest.Ieee.Props.C135_complex_abs",
    "Cest.Ieee.Props.C135_exp",
    "Cest.Ieee.Props.C135_floor_ceil",
    "Cest.Ieee.Props.C135_refuted"
   ],
   "note": "Violated by every function: the exact set of arguments for which it returns is proved. For cosh it is everything up to a number between 355 and 356 that depends on how ties are rounded."
  },
  {
   "property": "C136",
   "status": "partial",
   "theorems": [
    "Cest.Ieee.Props.C136_sqrt",
    "Cest.Ieee.Props.C136_sin_partial",
    "Cest.Ieee.Props.C136_cos_partial",
    "Cest.Ieee.Props.C136_sin_refuted",
    "Cest.Ieee.Props.C136_cos_refuted",
    "Cest.Ieee.Props.C136_sinh",
    "Cest.Ieee.Props.C136_cosh_partial",
    "Cest.Ieee.Props.C136_cosh_refuted",
    "Cest.Ieee.Props.C136_log",
    "Cest.Ieee.Props.C136_log_special",
    "Cest.Ieee.Props.C136_atan",
    "Cest.Ieee.Props.C136_atan_inf",
    "Cest.Ieee.Props.C136_atan2",
    "Cest.Ieee.Props.C136_atan2_refuted",
    "Cest.Ieee.Props.C136_exp_partial",
    "Cest.Ieee.Props.C136_exp_refuted",
    "Cest.Ieee.Props.C136_pow",
    "Cest.Ieee.Props.C136_pow_refuted",
    "Cest.Ieee.Props.C136_complex_abs",
    "Cest.Ieee.Props.C136_floor_ceil"
   ],
   "note": "Violated by cosh from 356, exp beyond 709.5 and from -710 down, pow(2, n) for subnormal results, sin and cos of large arguments (wrong by a tenth for some double in every interval of length ten between 3*2^52 and 2^54) and atan2 of a NaN. Proved for sqrt, sinh, log, atan, atan2 and abs on all finite arguments, for cosh wherever it returns, for exp on all arguments it is defined for, and for sin and cos up to 420 and 400; for larger arguments C154 bounds their error by 5.2e-7*(|x|+6) (ties to even)."
  },
  {
   "property": "C137",
   "status": "proved",
   "theorems": [
    "Cest.Lst.C137_list_insert_ref",
    "Cest.Lst.C137_list_push_ref",
    "Cest.Lst.C137_list_insert_move",
    "Cest.FL.C137_flist_insert_ref",
    "Cest.FL.C137_flist_push_ref",
    "Cest.Deq.C137_deque_push_ref",
    "Cest.Deq.C137_deque_push_contents",
    "Cest.Deq.C137_deque_push_move",
    "Cest.Tree.C137_set_insert_ref",
    "Cest.Tree.C137_map_insert_ref"
   ],
   "note": "deque::push_back outside the fault of C11. set and map have no rvalue overload; forward_list's rvalue overload copies. vector and string are in C07 and C49."
  },
  {
   "property": "C138",
   "status": "proved",
   "theorems": [
    "Cest.Lst.C138_list",
    "Cest.Lst.C138_list_leaks",
    "Cest.FL.C138_forward_list",
    "Cest.FL.C138_forward_list_leaks"
   ],
   "note": "The specification says exactly what each operation leaves for each number of throwing operations that succeed first. vector, deque, set and map are excluded: C131, C79 and C82 show that they are broken after some exceptions."
  },
  {
   "property": "C139",
   "status": "proved",
   "theorems": [
    "Cest.Tree.C139_set",
    "Cest.Tree.C139_map"
   ],
   "note": "Copies of elements into new nodes must not throw (C79 shows what happens then); assignments to mapped values may."
  },
  {
   "property": "C140",
   "status": "proved",
   "theorems": [
    "Cest.Str.C140_string"
   ],
   "note": "The three constructs excluded are violations shown in C81 and C114."
  },
  {
   "property": "C141",
   "status": "proved",
   "theorems": [
    "Cest.Vec.C141_vector",
    "Cest.Vec.C141_vector_leaks"
   ],
   "note": "The exceptions excluded (Upset.broken) are those of C08, C09 and C131, after which the vector must not be used."
  },
  {
   "property": "C142",
   "status": "proved",
   "theorems": [
    "Cest.Deq.C142_deque",
    "Cest.Deq.C142_deque_leaks"
   ],
   "note": "The exceptions excluded (Upset.broken) are those of C82, after which the deque must not be used; the faulty push_back excluded by layAfter is the violation of C11; toList is excluded when the last chunk is exactly full (C14)."
  },
  {
   "property": "C143",
   "status": "proved",
   "theorems": [
    "Cest.Sptr.C143_sptr_programs_catch",
    "Cest.Sptr.C143_sptr_leak_exact",
    "Cest.Uptr.C143_uptr_programs_catch",
    "Cest.Uptr.C143_uptr_no_leak",
    "Cest.Uptr.C143_function_programs_catch",
    "Cest.Uptr.C143_function_no_leak"
   ],
   "note": "The shared_ptr operations excluded (Supported) are the violations of C55 and C56. The constructor of the pointee does not throw on its own account: an allocation and the construction in it are one step, which succeeds or fails."
  },
  {
   "property": "C144",
   "status": "partial",
   "theorems": [
    "Cest.Fp.Props.C144_pow",
    "Cest.Fp.Props.C144_pow_neg",
    "Cest.Fp.Props.C144_sinh",
    "Cest.Fp.Props.C144_sqrt_refuted",
    "Cest.Fp.Props.C144_log_refuted",
    "Cest.Fp.Props.C144_exp_refuted",
    "Cest.Fp.Props.C144_sin_refuted",
    "Cest.Fp.Props.C144_atan_refuted",
    "Cest.Fp.Props.C144_cosh_refuted",
    "Cest.Fp.Props.C144_floor_refuted",
    "Cest.Fp.Props.C144_ceil_refuted",
    "Cest.Fp.Props.C144_sqrt_partial",
    "Cest.Fp.Props.C144_exp_partial",
    "Cest.Fp.Props.C144_log_partial",
    "Cest.Fp.Props.C144_sin_partial",
    "Cest.Fp.Props.C144_atan_partial",
    "Cest.Fp.Props.C144_cosh_partial"
   ],
   "note": "Holds for pow and sinh. The code violates it for the other functions: a refutation for each, and a partial theorem for arguments whose exact results are apart by more than the accuracy."
  },
  {
   "property": "C145",
   "status": "proved",
   "theorems": [
    "Cest.Fp.Props.C145_sin",
    "Cest.Fp.Props.C145_cos",
    "Cest.Fp.Props.C145_sqrt_ge_one",
    "Cest.Fp.Props.C145_cosh_ge_one",
    "Cest.Fp.Props.C145_exp_pos",
    "Cest.Fp.Props.C145_sqrt_above",
    "Cest.Fp.Props.C145_sqrt_exact_iff",
    "Cest.Fp.Props.C145_sqrt_square_refuted"
   ],
   "note": "Results beyond the largest double are outside the model of binary64, as for C106 and C121, so C145_cosh_ge_one says nothing about arguments for which sinh squared overflows (about 355); sin and cos never overflow."
  },
  {
   "property": "C146",
   "status": "proved",
   "theorems": [
    "Cest.Stream.Props.C146_programs",
    "Cest.Stream.Props.C146_narrow",
    "Cest.Stream.Props.C146_get_delivers_prefix",
    "Cest.Stream.Props.C146_read_delivers_all",
    "Cest.Stream.Props.C146_get_delivers_refuted"
   ],
   "note": "The specification for such characters is Verif/Stream/WideSpec.lean; C146_narrow shows that it agrees with the one of C58-C64 where there are none. C146_get_delivers_refuted shows that the assumption on the characters in C58 is needed."
  },
  {
   "property": "C147",
   "status": "proved",
   "theorems": [
    "Cest.Stream.Props.C147_programs",
    "Cest.Stream.Props.C147_no_leak",
    "Cest.Stream.Props.C147_default_terminates",
    "Cest.Stream.Props.C147_str_breaks"
   ],
   "note": "The specification is Verif/Stream/OomSpec.lean. The two constructs outside it follow from C114 and C81; C147_default_terminates and C147_str_breaks show what they do after every program."
  },
  {
   "property": "C148",
   "status": "proved",
   "theorems": [
    "Cest.Tree.C148_counts",
    "Cest.Tree.C148_set_traversal",
    "Cest.Tree.C148_set_clear_depth",
    "Cest.Tree.C148_set_postfix",
    "Cest.Tree.C148_map_traversal",
    "Cest.Tree.C148_map_clear_depth",
    "Cest.Tree.C148_map_postfix"
   ],
   "note": "Moves are counted by an instrumented copy of operator++, shown to compute the same results in every state. For maps under the condition of C36 on the key's ==."
  },
  {
   "property": "C149",
   "status": "proved",
   "theorems": [
    "Cest.Sdel.C149_programs_catch",
    "Cest.Sdel.C149_deleters_called",
    "Cest.Sdel.C149_never_twice",
    "Cest.Sdel.C149_leak_exact"
   ],
   "note": "The losses are the violation C112 (the standard requires the deleter to be called when the control block cannot be allocated); this says exactly what they amount to. The operations excluded (Supported) are the violations of C110 and C111. The constructor of the pointee does not throw on its own account."
  },
  {
   "property": "C150",
   "status": "proved",
   "theorems": [
    "Cest.Fp.Props.C150_exp_log",
    "Cest.Fp.Props.C150_log_exp",
    "Cest.Fp.Props.C150_sqrt_squared",
    "Cest.Fp.Props.C150_sqrt_of_square",
    "Cest.Fp.Props.C150_exp_add",
    "Cest.Fp.Props.C150_exp_neg",
    "Cest.Fp.Props.C150_sin_cos",
    "Cest.Fp.Props.C150_cosh_sinh",
    "Cest.Fp.Props.C150_atan_inv"
   ],
   "note": "The expressions are evaluated with a rounding after every operation, except in C150_cosh_sinh, which compares the computed values as real numbers (the difference of the squares would cancel)."
  },
  {
   "property": "C151",
   "status": "proved",
   "theorems": [
    "Cest.Str.C151_counts",
    "Cest.Str.C151_find",
    "Cest.Str.C151_find_bound",
    "Cest.Str.C151_find_worst",
    "Cest.Str.C151_compare"
   ],
   "note": "traits_type::find and compare are outside the repository and taken to stop at the first deciding character."
  },
  {
   "property": "C152",
   "status": "proved",
   "theorems": [
    "Cest.Fp.Props.C152_pow",
    "Cest.Fp.Props.C152_pow_neg",
    "Cest.Fp.Props.C152_exact",
    "Cest.Fp.Props.C152_integers",
    "Cest.Fp.Props.C152_two",
    "Cest.Fp.Props.C152_add"
   ],
   "note": "The power must stay in the normal range (outside it see C136). C67 has the same claim for an idealised rounding without underflow."
  },
  {
   "property": "C153",
   "status": "proved",
   "theorems": [
    "Cest.ComplexFn.FpProps.C153_polar_abs_arg",
    "Cest.ComplexFn.FpProps.C153_abs_polar",
    "Cest.ComplexFn.FpProps.C153_exp_log",
    "Cest.ComplexFn.FpProps.C153_sqrt_square",
    "Cest.ComplexFn.FpProps.C153_sqrt_product"
   ],
   "note": "Distances in the complex plane, relative to the modulus. The square in C153_sqrt_square is exact; in C153_sqrt_product it is the product computed by operator*."
  },
  {
   "property": "C154",
   "status": "proved",
   "theorems": [
    "Cest.Fp.Props.C154_sin",
    "Cest.Fp.Props.C154_cos",
    "Cest.Fp.Props.C154_sin_error",
    "Cest.Fp.Props.C154_cos_error",
    "Cest.Ieee.Props.C154_sin_finite",
    "Cest.Ieee.Props.C154_cos_finite"
   ],
   "note": "The bound of the value is informative up to about four million; from 3*2^52 on the functions are wrong by a tenth (C136_sin_refuted)."
  },
  {
   "property": "C155",
   "status": "partial",
   "theorems": [
    "Cest.CxIeee.Props.C155_mul",
    "Cest.CxIeee.Props.C155_mul_nan",
    "Cest.CxIeee.Props.C155_div_partial",
    "Cest.CxIeee.Props.C155_div_overflow",
    "Cest.CxIeee.Props.C155_div_underflow",
    "Cest.CxIeee.Props.C155_div_refuted"
   ],
   "note": "Products are proved. Quotients are proved when |w|^2 is between 2^-1012 and 2^1019, and violated for every divisor with a part of at least 2^512 or both parts up to 2^-538: operator/= divides by norm(w)."
  },
  {
   "property": "C156",
   "status": "partial",
   "theorems": [
    "Cest.CxIeee.Props.C156_comm_nan",
    "Cest.CxIeee.Props.C156_mul_inf_partial",
    "Cest.CxIeee.Props.C156_mul_inf_refuted",
    "Cest.CxIeee.Props.C156_div_inf_refuted",
    "Cest.CxIeee.Props.C156_div_zero_refuted",
    "Cest.CxIeee.Props.C156_div_real"
   ],
   "note": "Commutativity and NaN are proved. The rules of annex G hold for division by a real number and for products of numbers with one infinite part; the others are violated."
  },
  {
   "property": "C157",
   "status": "partial",
   "theorems": [
    "Cest.ComplexFn.Ieee.Props.C157_arg",
    "Cest.ComplexFn.Ieee.Props.C157_polar",
    "Cest.ComplexFn.Ieee.Props.C157_exp",
    "Cest.ComplexFn.Ieee.Props.C157_trig",
    "Cest.ComplexFn.Ieee.Props.C157_log",
    "Cest.ComplexFn.Ieee.Props.C157_log_finite",
    "Cest.ComplexFn.Ieee.Props.C157_sqrt_partial",
    "Cest.ComplexFn.Ieee.Props.C157_refuted"
   ],
   "note": "The statement is violated by every one of these functions (C157_refuted). For all but sqrt the arguments they return for are characterised exactly; for sqrt a gap remains around |z| = 2^1022."
  },
  {
   "property": "C158",
   "status": "partial",
   "theorems": [
    "Cest.ComplexFn.Ieee.Props.C158_polar",
    "Cest.ComplexFn.Ieee.Props.C158_exp_partial",
    "Cest.ComplexFn.Ieee.Props.C158_exp_underflow",
    "Cest.ComplexFn.Ieee.Props.C158_exp_refuted",
    "Cest.ComplexFn.Ieee.Props.C158_cos",
    "Cest.ComplexFn.Ieee.Props.C158_sin",
    "Cest.ComplexFn.Ieee.Props.C158_cosh",
    "Cest.ComplexFn.Ieee.Props.C158_sinh",
    "Cest.ComplexFn.Ieee.Props.C158_log",
    "Cest.ComplexFn.Ieee.Props.C158_log_zero",
    "Cest.ComplexFn.Ieee.Props.C158_sqrt_partial"
   ],
   "note": "exp is violated for real parts above 709.5 (infinite, and NaN for the imaginary part of a real argument) and is zero from -710 down; sqrt is proved for absolute values from 2^-1050 to 0.999*2^1022; the rest is proved for every argument it returns for."
  },
  {
   "property": "C159",
   "status": "partial",
   "theorems": [
    "Cest.Alloc.C159_partial",
    "Cest.Alloc.C159_owner",
    "Cest.Alloc.C159_exact",
    "Cest.Alloc.C159_forward_list_refuted",
    "Cest.Alloc.C159_swap_refuted",
    "Cest.Alloc.C159_string_refuted",
    "Cest.Alloc.C159_string_empty_refuted"
   ],
   "note": "Proved for all programs without assignment and swap of forward_lists and without the string constructor from input iterators; these violate it as soon as two default-constructed allocators differ, or deallocating a null pointer is not tolerated. C159_exact: otherwise no program violates it. Elements do not throw; storage does not run out (C161 is about that)."
  },
  {
   "property": "C160",
   "status": "partial",
   "theorems": [
    "Cest.Alloc.C160_vector_count",
    "Cest.Alloc.C160_vector_init",
    "Cest.Alloc.C160_string",
    "Cest.Alloc.C160_assign",
    "Cest.Alloc.C160_string_assign",
    "Cest.Alloc.C160_deque_refuted",
    "Cest.Alloc.C160_copy_refuted",
    "Cest.Alloc.C160_copy_string_refuted",
    "Cest.Alloc.C160_copy_deque_refuted",
    "Cest.Alloc.C160_copy_nodes_refuted"
   ],
   "note": "Proved for the constructors of vector and string and for assignment of these; violated by deque(init, alloc) and by every copy constructor."
  },
  {
   "property": "C161",
   "status": "partial",
   "theorems": [
    "Cest.Alloc.C161_partial",
    "Cest.Alloc.C159_owner",
    "Cest.Alloc.C161_vector_refuted",
    "Cest.Alloc.C161_forward_list_refuted",
    "Cest.Alloc.C161_forward_list_assign_refuted",
    "Cest.Alloc.C161_string_assign_refuted",
    "Cest.Alloc.C161_string_refuted",
    "Cest.Alloc.C161_string_range_refuted"
   ],
   "note": "Proved for all programs without vector(init, alloc), basic_string(), basic_string(alloc), assignment of strings, the string constructor from input iterators and copies of forward_lists; each of these violates it, with a refutation. Elements do not throw in this model."
  },
  {
   "property": "C162",
   "status": "proved",
   "theorems": [
    "Cest.Nary.Move.C162_swap",
    "Cest.Nary.Move.C162_swapr",
    "Cest.Nary.Move.C162_inverse",
    "Cest.Nary.Move.C162_others",
    "Cest.Nary.Move.C162_rotates",
    "Cest.Nary.Move.C162_copies"
   ],
   "note": "The permutation is the product of the exchanges of neighbouring arguments, List.formPerm of Mathlib."
  },
  {
   "property": "C163",
   "status": "proved",
   "theorems": [
    "Cest.Lst.Queue.C163_queue_list",
    "Cest.Lst.Queue.C163_queue_empty"
   ],
   "note": "Self-assignment is excluded (it empties the queue, C25)."
  },
  {
   "property": "C164",
   "status": "proved",
   "theorems": [
    "Cest.Lst.Queue.C164_queue_list_cost",
    "Cest.Lst.Queue.C164_queue_list_throw"
   ],
   "note": "The node whose element could not be copied is lost (C78, C138); the statement counts these nodes."
  },
  {
   "property": "C165",
   "status": "proved",
   "theorems": [
    "Cest.Deq.C165_queue_throw",
    "Cest.Deq.C165_queue_lost"
   ],
   "note": "As stated, for exceptions of allocations; an element copy that throws in a push breaks the deque (C82)."
  }
 ]
}