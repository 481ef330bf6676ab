{
 "claims": [
  {
   "property": "C01",
   "status": "proved",
   "theorems": [
    "Verif.C01_disjoint",
    "Verif.C01_fresh"
   ],
   "note": ""
  },
  {
   "property": "C02",
   "status": "proved",
   "theorems": [
    "Verif.C02_received",
    "Verif.C02_stays",
    "Verif.C02_read"
   ],
   "note": ""
  },
  {
   "property": "C03",
   "status": "proved",
   "theorems": [
    "Verif.C03_real_time"
   ],
   "note": ""
  },
  {
   "property": "C04",
   "status": "proved",
   "theorems": [
    "Verif.C04_linearizable"
   ],
   "note": ""
  },
  {
   "property": "C05",
   "status": "proved",
   "theorems": [
    "Verif.C05_push_for_idx",
    "Verif.C05_extend_for_idx"
   ],
   "note": ""
  },
  {
   "property": "C06",
   "status": "proved",
   "theorems": [
    "Verif.C06_one_initialiser",
    "Verif.C06_by_its_owner",
    "Verif.C06_overwrites_nothing",
    "Verif.C06_not_again"
   ],
   "note": ""
  },
  {
   "property": "C07",
   "status": "proved",
   "theorems": [
    "Verif.C07_cap_le_max",
    "Verif.C07_cap_mono",
    "Verif.C07_exclusive",
    "Verif.C07_alloc",
    "Verif.C07_allocated",
    "Verif.C07_capacity_calls",
    "Verif.C07_weak_exclusive",
    "Verif.C07_weak_alloc",
    "Verif.C07_weak_capacity",
    "Verif.C07_weak_touches",
    "Verif.C07_weak_capacity_calls"
   ],
   "note": "The theorems C07_weak_* state the same under weak memory; results of capacity() are compared along happens-before."
  },
  {
   "property": "C08",
   "status": "partial",
   "theorems": [
    "Verif.C08_not_stuck",
    "Verif.C08_growth_returns",
    "Verif.C22_strongly_fair",
    "Verif.C22_all_end_partial",
    "Verif.C22_starvation",
    "Verif.C22_weak_starvation"
   ],
   "note": "Growth calls and all calls that do not lock elements: proved for every fair infinite execution, with panics allowed as long as GrowthIntact holds. Calls that lock elements (get_cloned, iter_cloned, ...): proved for strongly fair scheduling, and for fair scheduling if finitely many calls are made; for weakly fair scheduling with infinitely many calls it is false, C22_starvation. The failure under weak memory: C22_weak_starvation."
  },
  {
   "property": "C09",
   "status": "proved",
   "theorems": [
    "Verif.C09_panics_iff",
    "Verif.C09_writes_nothing",
    "Verif.C09_existing_unchanged"
   ],
   "note": ""
  },
  {
   "property": "C10",
   "status": "proved",
   "theorems": [
    "Verif.C10_len_initialised",
    "Verif.C10_is_empty"
   ],
   "note": "len, iter, get, slices etc.: everything below an observed length is initialised, in every execution."
  },
  {
   "property": "C11",
   "status": "proved",
   "theorems": [
    "Verif.C11_monotone"
   ],
   "note": "Lengths observed by non-overlapping calls never decrease."
  },
  {
   "property": "C12",
   "status": "proved",
   "theorems": [
    "Verif.C12_lower_bound",
    "Verif.C12_exact",
    "Verif.C12_leading_exists"
   ],
   "note": "Lower bound unless an element is locked by an overlapping call; exact when alone. The deviation (a locked element hides completed pushes) is shown by an example in Props/Len.lean."
  },
  {
   "property": "C13",
   "status": "proved",
   "theorems": [
    "Verif.C13_has_value",
    "Verif.C13_no_missing_value"
   ],
   "note": ""
  },
  {
   "property": "C14",
   "status": "proved",
   "theorems": [
    "Verif.C14_some",
    "Verif.C14_none"
   ],
   "note": "get_cloned/get_copied return a value the position held during the call; None only for a position not initialised at some moment of the call."
  },
  {
   "property": "C15",
   "status": "proved",
   "theorems": [
    "Verif.C15_linearizable"
   ],
   "note": "Every single-element call takes effect at one moment during the call, in every execution."
  },
  {
   "property": "C16",
   "status": "proved",
   "theorems": [
    "Verif.C16_no_lost_update"
   ],
   "note": "Concurrent updates of one element all take effect."
  },
  {
   "property": "C17",
   "status": "proved",
   "theorems": [
    "Verif.C17_replace_conserves"
   ],
   "note": "Values returned by replace plus the final value are the initial value plus the values stored."
  },
  {
   "property": "C18",
   "status": "proved",
   "theorems": [
    "Verif.C18_mutual_exclusion",
    "Verif.C18_no_access_while_allocating"
   ],
   "note": ""
  },
  {
   "property": "C19",
   "status": "proved",
   "theorems": [
    "Verif.C19_no_ub",
    "Verif.C19_reads_initialised",
    "Verif.C19_in_bounds"
   ],
   "note": ""
  },
  {
   "property": "C20",
   "status": "partial",
   "theorems": [
    "Verif.C20_atomic",
    "Verif.C20_false_changes_nothing",
    "Verif.C20_in_bounds_alone",
    "Verif.C20_false_only_partial",
    "Verif.C20_conserves",
    "Verif.C20_false_in_bounds",
    "Verif.C20_counted_partial",
    "Verif.C20_slice",
    "Verif.C20_weak_false_in_bounds",
    "Verif.C20_weak_counted_partial",
    "Verif.C20_weak_slice"
   ],
   "note": "Atomic exchange, conservation and false-changes-nothing are proved for all executions. 'false only if out of bounds' is false of the code when another call holds an element that no len() has counted yet (witness C20_false_in_bounds); what holds instead is C20_false_only_partial. C20_counted_partial: swap of positions below a length that was reported before never returns false. C20_slice: slice.swap answers exactly whether both indices are in bounds, whatever other calls do. The failure under weak memory: C20_weak_false_in_bounds. C20_weak_counted_partial and C20_weak_slice: under weak memory too, a swap of two different counted positions (or of positions of a slice) with blocking handles can only answer true."
  },
  {
   "property": "C21",
   "status": "partial",
   "theorems": [
    "Verif.C21_self_swap_hangs",
    "Verif.C21_self_swap_never_true",
    "Verif.C21_swap_returns_true_partial",
    "Verif.C21_concurrent_partial",
    "Verif.C21_counted_self_hangs",
    "Verif.C21_slice_self_hangs",
    "Verif.C21_slice_partial",
    "Verif.C21_weak_self_never_true",
    "Verif.C21_weak_self_hangs",
    "Verif.C21_weak_partial"
   ],
   "note": "False as stated: swap(i,i) never returns (mut_handle blocking) or never returns true (non-blocking). Also with concurrent calls, and for slices, it never returns (C21_counted_self_hangs, C21_slice_self_hangs). Proved for i != j when no other call overlaps (fair scheduling), and for i < j with arbitrary concurrent calls under strongly fair scheduling if a length above i and j was reported before and all swaps name the smaller index first; for slices without the condition on the length (C21_slice_partial). The C21_weak theorems say the same of weak memory: a self swap never answers true, one with blocking handles of a counted position never returns, and different counted positions are swapped."
  },
  {
   "property": "C22",
   "status": "partial",
   "theorems": [
    "Verif.C22_not_stuck",
    "Verif.C22_strongly_fair",
    "Verif.C22_all_end_partial",
    "Verif.C22_opposite_swaps_deadlock",
    "Verif.C22_starvation",
    "Verif.C22_weak_starvation",
    "Verif.C22_weak_opposite_swaps_deadlock"
   ],
   "note": "No deadlock: proved. All calls end: proved for strongly fair scheduling (any number of calls), and for fair scheduling with finitely many calls; false for weakly fair scheduling with infinitely many calls (C22_starvation). Deadlock of opposite swaps: proved. The failure under weak memory: C22_weak_starvation. C22_weak_opposite_swaps_deadlock: under weak memory too, opposite swaps can wait for each other forever."
  },
  {
   "property": "C23",
   "status": "proved",
   "theorems": [
    "Verif.C23_permanent",
    "Verif.C23_len",
    "Verif.C23_not_reached",
    "Verif.C23_values",
    "Verif.C23_get_cloned_hole",
    "Verif.C23_get_cloned_behind",
    "Verif.C23_others",
    "Verif.C23_weak_permanent",
    "Verif.C23_weak_len",
    "Verif.C23_weak_not_reached"
   ],
   "note": "The theorems C23_weak_* state under weak memory that a hole never gets a value, that no reported length goes beyond it, and that no call hands out an element at or behind it."
  },
  {
   "property": "C24",
   "status": "partial",
   "theorems": [
    "Verif.C24_lost_position",
    "Verif.C24_negation",
    "Verif.C24_survives_partial",
    "Verif.C24_weak_negation",
    "Verif.C43_weak_final"
   ],
   "note": "False as stated: a push_for_idx closure that panics at the first unallocated position disables growth for good (C24_negation). Proved for all other panics. Under weak memory: the same execution (C24_weak_negation), and in general no growth call returns any more once no call is running and a position behind the storage has been handed out (C43_weak_final)."
  },
  {
   "property": "C25",
   "status": "proved",
   "theorems": [
    "Verif.C25_released",
    "Verif.C25_keeps_value",
    "Verif.C25_map_unchanged",
    "Verif.C25_update",
    "Verif.C25_later_ops_end",
    "Verif.C25_weak_holder_runs",
    "Verif.C25_weak_released",
    "Verif.C25_weak_not_blocked"
   ],
   "note": "Under weak memory: locked elements are in use by running calls (C25_weak_holder_runs), the element of a call that panicked keeps a value and is released (C25_weak_released), and methods of it do not wait unless another running call uses it (C25_weak_not_blocked)."
  },
  {
   "property": "C26",
   "status": "partial",
   "theorems": [
    "Verif.C26_always_fails",
    "Verif.C26_negation",
    "Verif.C26_works_iff",
    "Verif.C26_weak_negation"
   ],
   "note": "The property is false of the code: after a growth call failed because of the maximum capacity, into_inner/to_vec/into_iter/clear always violate the contract of the storage (they ask for len_reserved elements, more than exist). C26_works_iff characterises exactly when they respect it. Drop of the storage is not modelled. The failure under weak memory: C26_weak_negation."
  },
  {
   "property": "C27",
   "status": "proved",
   "theorems": [
    "Verif.C27_slice",
    "Verif.C27_bounds",
    "Verif.C27_as_slice",
    "Verif.C27_full",
    "Verif.C27_no_panic",
    "Verif.C27_values"
   ],
   "note": "slice, as_slice and range clamping on the vector, for all executions"
  },
  {
   "property": "C28",
   "status": "proved",
   "theorems": [
    "Verif.C28_slice",
    "Verif.C28_nested",
    "Verif.C28_within"
   ],
   "note": "slices of slices, any nesting depth"
  },
  {
   "property": "C29",
   "status": "proved",
   "theorems": [
    "Verif.C29_valid",
    "Verif.C29_values",
    "Verif.C29_stable",
    "Verif.C29_get_cloned",
    "Verif.C29_within",
    "Verif.C29_writes_within"
   ],
   "note": "slices stay valid and confined to their positions while the vector grows"
  },
  {
   "property": "C30",
   "status": "proved",
   "theorems": [
    "Verif.C30_split_at",
    "Verif.C30_split_at_panic",
    "Verif.C30_split_first",
    "Verif.C30_split_last",
    "Verif.C30_slice_split_at",
    "Verif.C30_slice_split_at_panic",
    "Verif.C30_slice_first_last"
   ],
   "note": "split methods of vector and slice, including when they panic"
  },
  {
   "property": "C31",
   "status": "proved",
   "theorems": [
    "Verif.C31_chunks",
    "Verif.C31_slice_chunks",
    "Verif.C31_panic"
   ],
   "note": "chunks of vector and slice, including the panic for chunk size zero"
  },
  {
   "property": "C32",
   "status": "partial",
   "theorems": [
    "Verif.C32_map_partial",
    "Verif.C32_filter_partial",
    "Verif.C32_fold_partial",
    "Verif.C32_reduce_partial",
    "Verif.C32_slice_map",
    "Verif.C32_slice_filter",
    "Verif.C32_slice_fold",
    "Verif.C32_slice_reduce",
    "Verif.C32_reader_negation",
    "Verif.C32_weak_negation"
   ],
   "note": "map, filter, fold, reduce = sequence counterparts. The property is false of the code for the vector: a concurrent reader hides an element (…_reader_negation). Proved for slices, and for the vector when no overlapping call accesses elements or the length had been reported before. The failure under weak memory: C32_weak_negation."
  },
  {
   "property": "C33",
   "status": "partial",
   "theorems": [
    "Verif.C33_index_of_partial",
    "Verif.C33_contains_partial",
    "Verif.C33_slice_index_of",
    "Verif.C33_slice_contains",
    "Verif.C33_least",
    "Verif.C33_reader_negation",
    "Verif.C33_weak_negation"
   ],
   "note": "index_of and contains. The property is false of the code for the vector: a concurrent reader hides an element (…_reader_negation). Proved for slices, and for the vector when no overlapping call accesses elements or the length had been reported before. The failure under weak memory: C33_weak_negation."
  },
  {
   "property": "C34",
   "status": "partial",
   "theorems": [
    "Verif.C34_fill_partial",
    "Verif.C34_only",
    "Verif.C34_slice_fill",
    "Verif.C34_slice_only",
    "Verif.C34_reader_negation",
    "Verif.C34_weak_negation"
   ],
   "note": "fill, fill_with. The part about concurrency (C34_only, C34_slice_only) is proved completely. The property is false of the code for the vector: a concurrent reader hides an element (…_reader_negation). Proved for slices, and for the vector when no overlapping call accesses elements or the length had been reported before. The failure under weak memory: C34_weak_negation."
  },
  {
   "property": "C35",
   "status": "partial",
   "theorems": [
    "Verif.C35_eq_partial",
    "Verif.C35_slice_eq",
    "Verif.C35_reader_negation",
    "Verif.C35_weak_negation"
   ],
   "note": "Comparison of vector or slice with a list (array, Vec, slice); two concurrent vectors or slices: C55. The property is false of the code for the vector: a concurrent reader hides an element (…_reader_negation). Proved for slices, and for the vector when no overlapping call accesses elements or the length had been reported before. The failure under weak memory: C35_weak_negation."
  },
  {
   "property": "C36",
   "status": "partial",
   "theorems": [
    "Verif.C36_exact_partial",
    "Verif.C36_slice_exact",
    "Verif.C36_genuine",
    "Verif.C36_slice_genuine",
    "Verif.C36_no_snapshot",
    "Verif.C36_reader_negation",
    "Verif.C36_weak_negation"
   ],
   "note": "clone_to_vec and the values collected by clone. The property is false of the code for the vector: a concurrent reader hides an element (…_reader_negation). Proved for slices, and for the vector when no overlapping call accesses elements or the length had been reported before. The failure under weak memory: C36_weak_negation."
  },
  {
   "property": "C37",
   "status": "proved",
   "theorems": [
    "Verif.C37_from_iter",
    "Verif.C37_to_vec",
    "Verif.C37_from_pinned",
    "Verif.C37_initial"
   ],
   "note": "from_iter: every truthful size hint, up to the maximum capacity of new(). into_inner/to_vec/into_iter: after every concurrent history in which all growth calls returned (with holes: C44; after an overrun: C26). Model of the consuming functions: Model/Owned.lean."
  },
  {
   "property": "C38",
   "status": "partial",
   "theorems": [
    "Verif.C38_clear_partial",
    "Verif.C38_restart_partial",
    "Verif.C38_reserve"
   ],
   "note": "clear and restart hold for every history, with or without holes, that did not overrun the storage; after an overrun clear violates the contract of the storage (C26_always_fails). The part on reserve_maximum_capacity is proved in full."
  },
  {
   "property": "C39",
   "status": "proved",
   "theorems": [
    "Verif.C39_sequential",
    "Verif.C39_alone"
   ],
   "note": "Every one of the 66 modelled operations, any finite sequence, any vector and slice operations. C39_alone extends it to a call that overlaps with no other call in an arbitrary concurrent history, and adds that the call can always finish. `Op.Fits` excludes exactly what the statement excludes. capacity() and maximum_capacity() have no list counterpart: their result is only bounded below by the length."
  },
  {
   "property": "C40",
   "status": "proved",
   "theorems": [
    "Verif.C40_initialised",
    "Verif.C40_positions",
    "Verif.C40_found",
    "Verif.C40_race_free",
    "Verif.C40_value",
    "Verif.C40_reader_hides",
    "Verif.C40_writer_races"
   ],
   "note": "Sequentially consistent interleavings; for orderings see C41. get_raw/get_ref/get_raw_mut/get_mut are getRaw with the order used, iter_ref/iter_mut are iterRef, deref is user code reading through the pointer. C40_race_free needs only that no call so far may write to that position. C40_reader_hides: get_ref may answer None for an initialised element that a concurrent safe read holds; C40_writer_races: the restriction to growth and reads is needed."
  },
  {
   "property": "C41",
   "status": "proved",
   "theorems": [
    "Verif.C41_nothing_bad",
    "Verif.C41_relaxed_pointer_races",
    "Verif.C41_growth_disjoint",
    "Verif.C41_growth_ordered",
    "Verif.C41_handed_out",
    "Verif.C41_pointers",
    "Verif.C41_added",
    "Verif.C41_documented_panics",
    "Verif.C41_len_monotone",
    "Verif.C41_len_valued",
    "Verif.C41_after_len",
    "Verif.C41_cloned_after_growth",
    "Verif.C41_len_sees_all",
    "Verif.C41_counted"
   ],
   "note": "All executions of the programs of all 66 operations under an RC11-style release/acquire model with relaxed accesses (view-based, stale loads, per-call views, happens-before between calls supplied by the user). SeqCst is treated as acquire+release, load buffering is excluded as in RC11. Reads through raw pointers are allowed under the discipline of the safety sections (nobody writes that element); C41_relaxed_pointer_races shows that pointers must be taken with an acquiring load. reserve_maximum_capacity is a step of the weak executions; the owned operations need the vector itself and are not part of them. C41_counted: a position that was counted before is found by get, and index and split_at at it do not panic."
  },
  {
   "property": "C42",
   "status": "proved",
   "theorems": [
    "Verif.C42_documented_panics"
   ],
   "note": ""
  },
  {
   "property": "C43",
   "status": "partial",
   "theorems": [
    "Verif.C43_negation",
    "Verif.C43_always",
    "Verif.C43_overrun_is_final",
    "Verif.C43_weak_never",
    "Verif.C43_weak_final"
   ],
   "note": "The property is false of the code. C43_always: whenever a growth call failed because of the maximum capacity and no call is running, no later growth call returns, however much the maximum capacity was or is raised. C43_weak_never: the same under weak memory, for growth calls that happen after the failed one. C43_weak_final: under weak memory, for all calls made later, whatever they know."
  },
  {
   "property": "C44",
   "status": "proved",
   "theorems": [
    "Verif.C44_into_inner",
    "Verif.C44_to_vec",
    "Verif.C44_into_iter"
   ],
   "note": "Hypothesis `intoInner = some p`: the contract of the storage is respected; C26_works_iff characterises when."
  },
  {
   "property": "C45",
   "status": "partial",
   "theorems": [
    "Verif.C45_no_value",
    "Verif.C45_valued_partial"
   ],
   "note": "The property is false of the code: C45_no_value, for every pinned vector with a valueless element. It holds for pinned vectors whose elements all have a value (C45_valued_partial)."
  },
  {
   "property": "C46",
   "status": "proved",
   "theorems": [
    "Verif.C46_explained"
   ],
   "note": "for all executions of the weak memory model in which elements reached through plain references are not written meanwhile (Cfg.Disciplined)"
  },
  {
   "property": "C47",
   "status": "proved",
   "theorems": [
    "Verif.C47_linearizable",
    "Verif.C47_unwritten",
    "Verif.C47_push_then_get"
   ],
   "note": "weak memory model"
  },
  {
   "property": "C48",
   "status": "proved",
   "theorems": [
    "Verif.C48_no_lost_update",
    "Verif.C48_replace_conserves",
    "Verif.C48_swap_conserves"
   ],
   "note": "weak memory model"
  },
  {
   "property": "C49",
   "status": "partial",
   "theorems": [
    "Verif.C49_bounded_partial",
    "Verif.C49_negation",
    "Verif.C49_weak_bounded_partial",
    "Verif.C49_weak_negation"
   ],
   "note": "Proved, in the interleaving and in the weak memory model, as long as the initial length and all requests together stay below W: then the machine execution is an execution with an unbounded counter, so all other properties apply. Without the bound it is false: extend(0..usize::MAX) wraps the counter and a concurrent push overwrites element 0 (C49_negation, C49_weak_negation)."
  },
  {
   "property": "C50",
   "status": "proved",
   "theorems": [
    "Verif.C50_balanced",
    "Verif.C50_unique",
    "Verif.C50_to_vec",
    "Verif.C50_weak_balanced",
    "Verif.C50_weak_unique"
   ],
   "note": "Permutation of values between what was given and what is in the vector, returned or overwritten; for sequentially consistent and weak-memory executions."
  },
  {
   "property": "C51",
   "status": "partial",
   "theorems": [
    "Verif.C51_positions_allocated",
    "Verif.C51_others_end_partial",
    "Verif.C51_extend_partial",
    "Verif.C51_hangs",
    "Verif.C51_negation",
    "Verif.C51_weak_hangs",
    "Verif.C51_weak_negation",
    "Verif.C51_weak_others_end_partial",
    "Verif.C51_weak_positions_allocated",
    "Verif.C51_weak_extend_partial"
   ],
   "note": "False for push_for_idx, whose closure runs before its position is allocated (C51_hangs, C51_negation). Proved for the other growth calls, and for push_for_idx at positions that are allocated. C51_weak_hangs, C51_weak_negation: the same failure under weak memory. C51_weak_positions_allocated, C51_weak_others_end_partial, C51_weak_extend_partial: the part that holds, under weak memory."
  },
  {
   "property": "C52",
   "status": "proved",
   "theorems": [
    "Verif.C52_locks_used",
    "Verif.C52_waits",
    "Verif.C52_others_end",
    "Verif.C52_element",
    "Verif.C52_own_element_hangs",
    "Verif.C52_weak_locks_used",
    "Verif.C52_weak_waits",
    "Verif.C52_weak_element",
    "Verif.C52_weak_own_element_hangs"
   ],
   "note": "The elements given up are the ones locked by the stalled calls, and the first element of a blocking swap whose second element is given up. C52_own_element_hangs shows the limit: a closure that uses its own element hangs. Under weak memory: C52_weak_locks_used, C52_weak_waits, and C52_weak_element for calls that do not grow the vector and are scheduled in any way. C52_weak_own_element_hangs: the limit holds under weak memory, too."
  },
  {
   "property": "C53",
   "status": "proved",
   "theorems": [
    "Verif.C53_visit",
    "Verif.C53_visit_panic",
    "Verif.C53_slice_visit",
    "Verif.C53_slice_visit_panic",
    "Verif.C53_exact",
    "Verif.C53_slice_exact",
    "Verif.C53_computes",
    "Verif.C53_map",
    "Verif.C53_filter",
    "Verif.C53_fold",
    "Verif.C53_reduce",
    "Verif.C53_index_of",
    "Verif.C53_cloned",
    "Verif.C53_debug",
    "Verif.C53_fill"
   ],
   "note": "C53_visit*: any loop over vec.iter() / slice.iter() that hands elements to user code with state, early exit and panics (Op.visit, Op.slVisit). C53_map … C53_fill: the functions of the crate are such loops (equality of programs), and what these loops compute from the values they are given. vec == [T] is not such a loop (it stops before an element if the list is used up); its T::eq may panic as well, see C35."
  },
  {
   "property": "C54",
   "status": "proved",
   "theorems": [
    "Verif.C54_not_stuck",
    "Verif.C54_completes",
    "Verif.C54_ends",
    "Verif.C54_needs_visibility"
   ],
   "note": "C54_ends assumes strong fairness of scheduler and memory (Weak.StronglyFair); the maximum capacity may be raised during the execution, but not after somebody has exceeded it (C43); C54_needs_visibility: fair scheduling alone is not enough in the memory model."
  },
  {
   "property": "C55",
   "status": "proved",
   "theorems": [
    "Verif.C55_each_vector",
    "Verif.C55_result",
    "Verif.C55_panics",
    "Verif.C55_equal",
    "Verif.C55_equal_panics",
    "Verif.C55_snapshot_negation"
   ],
   "note": "The comparison of two elements is code of a dependency; what is assumed of it is in DESIGN.md, 3.3. C55_snapshot_negation shows that more is not true: the result need not be that of any one moment."
  },
  {
   "property": "C56",
   "status": "partial",
   "theorems": [
    "Verif.C56_gets_ahead",
    "Verif.C56_not_stuck_partial",
    "Verif.C56_completes_partial",
    "Verif.C56_all_end_partial",
    "Verif.C56_strongly_fair_partial",
    "Verif.C56_self_hangs",
    "Verif.C56_opposite_hangs",
    "Verif.C56_negation"
   ],
   "note": "False of the code, given what is assumed of the comparison of two elements (DESIGN.md, 3.3): a comparison of an operand with itself never ends, opposite comparisons can deadlock (C56_negation). Proved if operands are given in increasing order (Cmp.Upwards): never stuck, can be carried through to the end, all end under fair scheduling once nothing new is begun, and under strongly fair scheduling every comparison and every call ends also if new ones are begun all the time."
  },
  {
   "property": "C57",
   "status": "proved",
   "theorems": [
    "Verif.C57_work",
    "Verif.C57_wait_free",
    "Verif.C57_finite",
    "Verif.C57_weak_work",
    "Verif.C57_weak_wait_free",
    "Verif.C57_weak_finite"
   ],
   "note": "for every function of the API and every execution; allocating storage (PinnedVec::grow) counts as one access, user code is not counted; the weak-memory versions hold for disciplined executions (raw pointers are only read through where nobody writes)"
  },
  {
   "property": "C58",
   "status": "proved",
   "theorems": [
    "Verif.C58_sees_everything",
    "Verif.C58_to_vec",
    "Verif.C58_into_inner",
    "Verif.C58_works",
    "Verif.C58_fails",
    "Verif.C58_reuse",
    "Verif.C58_no_lost_update"
   ],
   "note": "Weak memory model; user code keeps its promises for raw pointers (Disciplined). Exclusive: all calls have ended and happen before the owner. C58_fails is the limit stated in the property, as C26."
  },
  {
   "property": "C59",
   "status": "proved",
   "theorems": [
    "Verif.C59_sequential",
    "Verif.C59_one_thread"
   ],
   "note": "Weak memory model; all histories with all growth calls returned, then any sequence of operations ordered by happens-before. Example beside each theorem."
  },
  {
   "property": "C60",
   "status": "proved",
   "theorems": [
    "Verif.C60_each_vector",
    "Verif.C60_result",
    "Verif.C60_panics",
    "Verif.C60_in_order",
    "Verif.C60_sees",
    "Verif.C60_equal",
    "Verif.C60_equal_panics",
    "Verif.C60_unwritten",
    "Verif.C60_self_hangs",
    "Verif.C60_stale"
   ],
   "note": "Weak memory model; all systems of vectors, all interleavings and stale loads. Example beside each theorem; C60_stale exhibits a comparison that misses a push which does not happen before it."
  },
  {
   "property": "C61",
   "status": "partial",
   "theorems": [
    "Verif.C61_gets_ahead",
    "Verif.C61_not_stuck_partial",
    "Verif.C61_completes_partial",
    "Verif.C61_all_end_partial",
    "Verif.C61_opposite_hangs",
    "Verif.C61_negation"
   ],
   "note": "Weak memory model. False of the code like C56, under the same assumption on the comparison of two elements: C61_negation exhibits a == b and b == a blocking each other forever (C60_self_hangs: a == a). Proved if operands are given in increasing order: never stuck, can be carried through to the end, and in every fair execution every comparison and every call ends, also if new ones are begun all the time. Not proved (and false): the claim without the order of the operands."
  },
  {
   "property": "C62",
   "status": "partial",
   "theorems": [
    "Verif.C62_get_cloned",
    "Verif.C62_why",
    "Verif.C62_found_partial",
    "Verif.C62_reported",
    "Verif.C62_negation",
    "Verif.C62_weak_negation"
   ],
   "note": "get_cloned: proved. get, index, len, iter, as_slice: false of the code (C62_negation: push returned 2, then vec[2] panics, since an earlier push is not over). C62_why says exactly when they miss an element; C62_found_partial and C62_reported are the positive cases. Weak memory: C41_cloned_after_growth, C41_after_len, C41_len_sees_all. The failure under weak memory: C62_weak_negation."
  },
  {
   "property": "C63",
   "status": "proved",
   "theorems": [
    "Verif.C63_same",
    "Verif.C63_panics",
    "Verif.C63_results",
    "Verif.C63_bound_needed",
    "Verif.C63_weak_same",
    "Verif.C63_weak_panics",
    "Verif.C63_weak_results",
    "Verif.C63_weak_bound_needed"
   ],
   "note": "Interleavings and, with the same statements (C63_weak_…), executions of the weak memory model, for all calls (Op.progM); the sums the dependencies compute (idx + 1 of the growth, limits of a range) stay unbounded. C63_bound_needed: with as many positions requested as there are numbers extend panics with an overflow in a debug build."
  },
  {
   "property": "C64",
   "status": "proved",
   "theorems": [
    "Verif.C64_included",
    "Verif.C64_infinite"
   ],
   "note": "Every interleaving is an execution of the weak memory model with the same calls, results, panics and with real-time order as happens-before; also step by step for infinite executions. Assumed: user code keeps its promise when reading through raw pointers (Disciplined), as in the weak-memory theorems. Used to carry the negations over (Cxx_weak_negation)."
  }
 ]
}
