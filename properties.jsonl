{"id": "C01", "title": "Growth calls never share a position", "statement": "If two different push / push_for_idx / extend / extend_for_idx / extend_n_items calls on the same vector return, the index ranges they return (index, or begin index plus number of items) are disjoint.", "quantifier": "All pairs of growth calls in every concurrent history; any number of concurrent calls, every interleaving of their atomic steps, any stalled call", "why_tests_cant": "A duplicate index would need a specific interleaving; tests sample a few schedules.", "anchors": ["src/grow.rs: ConcurrentVec::push, push_for_idx, extend, extend_for_idx, extend_n_items"]}
{"id": "C02", "title": "extend writes its values consecutively, in iterator order, starting at the returned index", "statement": "When extend / extend_n_items returns b having written n items v0..v(n-1), then position b+k received v_k for every k<n, and as long as nobody updates it every later read of position b+k yields v_k.", "quantifier": "All iterators, sizes, initial contents, fragment boundaries and interleavings with other calls", "why_tests_cant": "Tests use a few batch sizes and sorted comparison, which hides misplacement; interleavings are unbounded.", "anchors": ["src/grow.rs: extend, extend_n_items", "README.md: Grow"]}
{"id": "C03", "title": "Growth preserves real-time order", "statement": "If growth call A returned before growth call B was invoked, every position of A is smaller than every position of B.", "quantifier": "All pairs of growth calls in every history; any number of concurrent calls, every interleaving of their atomic steps, any stalled call", "why_tests_cant": "Order must hold for every schedule.", "anchors": ["src/grow.rs: push docs (preserves the order of elements with respect to the order push is called)"]}
{"id": "C04", "title": "Concurrent growth is linearizable: nothing lost, duplicated or invented", "statement": "When all growth calls of a history without updates have returned without panicking, there is one order of the calls, consistent with real time, such that each call returned the total number of items of the calls before it (plus the initial length), and the content of the vector (into_inner / to_vec) is the initial content followed by the calls' items in that order.", "quantifier": "All finite sets of growth calls (with concurrent reads) and all interleavings", "why_tests_cant": "Tests compare sorted results for a handful of runs.", "anchors": ["src/grow.rs", "src/vec.rs: into_inner", "src/to_vec.rs: to_vec"]}
{"id": "C05", "title": "push_for_idx / extend_for_idx receive exactly the index that is used", "statement": "The value stored by push_for_idx(f) is f(i) at position i and i is the returned index; the values stored by extend_for_idx(f, n) at b..b+n are the items of f(b) and b is the returned index.", "quantifier": "All closures f, counts n and interleavings", "why_tests_cant": "A stale index would only show up in some interleavings.", "anchors": ["src/grow.rs: push_for_idx, extend_for_idx"]}
{"id": "C06", "title": "Each position is initialised at most once and only by the call that reserved it", "statement": "No position is ever initialised by two growth calls, nor initialised again after its value became visible (so no value is silently overwritten or leaked by growth).", "quantifier": "Every position in every history; any number of concurrent calls, every interleaving of their atomic steps, any stalled call", "why_tests_cant": "Double initialisation is a schedule-dependent event.", "anchors": ["src/grow.rs: SAFETY comments 'each idx will be written only and exactly once'"]}
{"id": "C07", "title": "Growing storage is exclusive, capacity is monotone and never exceeds the maximum capacity", "statement": "At most one call is allocating storage at any time, capacity() never decreases and never exceeds maximum_capacity(), and no call touches a position that is not allocated.", "quantifier": "Every reachable moment; every growth policy (fixed, linear, doubling); any number of concurrent calls, every interleaving of their atomic steps, any stalled call", "why_tests_cant": "Two simultaneous growers need a rare schedule; the claim is about all of them.", "anchors": ["src/state.rs: write_permit, write_permit_n_items", "src/vec.rs: capacity, maximum_capacity"]}
{"id": "C08", "title": "Growth cannot get stuck", "statement": "If no call has panicked, then whenever some growth call is unfinished, some call can make progress, and under any fair scheduling all pending growth and read calls return.", "quantifier": "Every reachable moment and every fair continuation", "why_tests_cant": "Deadlock/livelock freedom quantifies over all schedules and is not observable by finite runs.", "anchors": ["src/state.rs: write_permit, write_permit_n_items", "src/grow.rs"]}
{"id": "C09", "title": "Growth beyond the maximum capacity panics and damages nothing", "statement": "push / extend panics with the capacity panic exactly when its last reserved position is at or beyond maximum_capacity(); such a call does not change any existing element and writes no element.", "quantifier": "All capacities, all histories, all interleavings around the limit", "why_tests_cant": "Boundary behaviour under concurrency depends on the order of reservations.", "anchors": ["src/grow.rs: push (# Panics), extend (# Panics)", "src/state.rs"]}
{"id": "C10", "title": "len never over-reports", "statement": "When len() returns n, every position below n is completely initialised at that moment and from then on; is_empty() and iter() agree with it.", "quantifier": "All histories; any number of concurrent calls, every interleaving of their atomic steps, any stalled call", "why_tests_cant": "An over-report exposes uninitialised memory only in particular interleavings.", "anchors": ["src/vec.rs: len, is_empty, iter", "tests/len_exact.rs"]}
{"id": "C11", "title": "len is monotone over non-overlapping calls", "statement": "If one len() returned before another len() was invoked, the second result is at least the first.", "quantifier": "All pairs of len calls (from any threads) in every history", "why_tests_cant": "Requires all schedules of cooperating writers and readers.", "anchors": ["src/vec.rs: len (len_written, fetch_max)"]}
{"id": "C12", "title": "len does not miss completed elements unless an element is being accessed", "statement": "If all positions below m were completely pushed before len() was invoked, then len() returns at least m, unless during the call it met an element at the returned position that another call was reading or writing at that moment. With no other call running it returns exactly the number of leading initialised positions.", "quantifier": "All histories; any number of concurrent calls, every interleaving of their atomic steps, any stalled call", "why_tests_cant": "Tests check len only when no element below it is being accessed.", "anchors": ["src/vec.rs: len (is_some_with_order)", "tests/len_exact.rs"]}
{"id": "C13", "title": "Handed-out elements always have a value", "statement": "An element obtained by get(i), vec[i], iter(), split_first/last, filter, or through a slice always has a value: cloned, copied, map, replace, set and update on it never panic because of a missing value.", "quantifier": "All histories in which the vector was built from initialised elements; all elements, all later times", "why_tests_cant": "The panic would need a reader to run between reservation and initialisation in a specific way.", "anchors": ["src/elem.rs: cloned, copied, map, replace, set, update (HAS_VALUE, assert!)", "src/vec.rs: get, iter", "src/common_traits/index.rs"]}
{"id": "C14", "title": "get_cloned returns genuine values, and None only for positions that were not yet written", "statement": "get_cloned(i) = Some(v) implies v was the value of position i at some moment during the call; get_cloned(i) = None implies position i was not yet initialised at some moment during the call.", "quantifier": "All positions, all histories, all interleavings including concurrent updates", "why_tests_cant": "Torn or uninitialised reads are schedule dependent.", "anchors": ["src/vec.rs: get_cloned, get_copied, reserved_len"]}
{"id": "C15", "title": "Every position is an atomic (linearizable) register", "statement": "Calls of cloned, copied, map, replace, set, update (and the pushes that create the element) on a position take effect one at a time, each at some moment between its invocation and its return: each observes the value left by the previous one, replace returns that value, set/replace store their argument, update stores f(old).", "quantifier": "All positions, all mixes of element operations, all interleavings", "why_tests_cant": "Linearizability quantifies over all schedules.", "anchors": ["src/elem.rs", "README.md: Read, Update"]}
{"id": "C16", "title": "Updates are never lost", "statement": "If the only writes to position i are k completed update(f) calls with the same f, its final value is f applied k times to the original value.", "quantifier": "All f, k and interleavings", "why_tests_cant": "Lost updates are a race; tests sample.", "anchors": ["src/elem.rs: update"]}
{"id": "C17", "title": "replace hands out every value exactly once", "statement": "If position i is written only by replace calls and all of them returned, then the original value together with the arguments equals, as a multiset, the returned values together with the final value.", "quantifier": "All numbers of replace calls, values and interleavings", "why_tests_cant": "Double hand-out (double drop) is schedule dependent.", "anchors": ["src/elem.rs: replace"]}
{"id": "C18", "title": "Values are accessed under mutual exclusion: no data races between safe calls", "statement": "At no reachable moment are two different calls both about to access the value storage of the same position (one of them writing), nor is one about to access storage another is allocating.", "quantifier": "Every reachable moment of every interleaving of safe calls", "why_tests_cant": "Data races are undefined behaviour that tests cannot reliably exhibit.", "anchors": ["src/elem.rs", "src/grow.rs", "src/mut_elem.rs: swap"]}
{"id": "C19", "title": "No uninitialised or unallocated memory is ever accessed", "statement": "No call ever reads the value of a position that has not been initialised or touches a position beyond the allocated storage.", "quantifier": "Every step of every call in every interleaving", "why_tests_cant": "Undefined behaviour on rare schedules.", "anchors": ["src/vec.rs: reserved_len, len, get, iter", "src/unsafe_api.rs", "src/helpers.rs: mut_handle"]}
{"id": "C20", "title": "swap exchanges two elements atomically and loses nothing", "statement": "swap(i,j) with i and j distinct and in bounds exchanges the two values in one atomic step and returns true; it returns false and changes nothing only if an index was out of bounds at some moment of the call; swaps never create, lose or duplicate values.", "quantifier": "All i, j, contents and interleavings of swaps with all other calls", "why_tests_cant": "Atomicity of a two-element exchange depends on schedules.", "anchors": ["src/mut_elem.rs: swap", "src/concurrent_slice/mut_elem.rs: swap"]}
{"id": "C21", "title": "swap terminates for all in-bounds indices", "statement": "swap(i,j) returns true for all i, j that are in bounds, in particular for i = j (documented: 'true if both i and j are in bounds').", "quantifier": "All i, j in bounds, single-threaded use included", "why_tests_cant": "A hang for one argument pattern is invisible if that pattern is not tested, and non-termination cannot be concluded from a finite run.", "anchors": ["src/mut_elem.rs: swap"]}
{"id": "C22", "title": "Element access cannot deadlock", "statement": "Pending element operations, reads and iterations can always progress, and under fair scheduling all return, as long as no call panicked and no swap was called with i >= j; two concurrent swaps with opposite index order, however, can block each other forever.", "quantifier": "Every reachable moment and fair continuation", "why_tests_cant": "Deadlock freedom quantifies over all schedules.", "anchors": ["src/elem.rs", "src/mut_elem.rs: swap", "README.md: lock-free"]}
{"id": "C23", "title": "A growth call that dies leaves a permanent, contained hole", "statement": "If a push_for_idx/extend closure or iterator panics before position h is written, then position h is never initialised: len() never exceeds h, get(i)/iter/slices never reach any position >= h, while get_cloned(i) for a position i > h written by others still returns its value; elements below h are unaffected.", "quantifier": "All crash points of growth calls, all histories before and after", "why_tests_cant": "Requires all crash points combined with all schedules.", "anchors": ["src/grow.rs: push_for_idx, extend_for_idx, extend_n_items", "src/vec.rs: len, get_cloned"]}
{"id": "C24", "title": "Growth survives a panicking growth call", "statement": "After a growth call panicked in user code, other growth calls still complete (as long as capacity remains).", "quantifier": "All crash points, in particular at the boundary of the allocated capacity", "why_tests_cant": "The failure needs a panic exactly at a fragment boundary.", "anchors": ["src/state.rs: write_permit", "src/grow.rs: push_for_idx"]}
{"id": "C25", "title": "A panicking element closure neither blocks nor corrupts the element", "statement": "If the closure of map or update panics, the element is released, keeps a value, and later operations on it work.", "quantifier": "All closures, all panic points, all interleavings", "why_tests_cant": "Requires all schedules around the unwinding.", "anchors": ["src/elem.rs: map, update"]}
{"id": "C26", "title": "Consuming the vector is safe after a failed push", "statement": "After a push beyond the maximum capacity panicked (and was caught), into_inner / to_vec / clear / drop still work on the elements that were pushed.", "quantifier": "All capacities and numbers of failed pushes", "why_tests_cant": "Needs a combination of caught panic and consumption; memory unsafety may stay silent.", "anchors": ["src/vec.rs: into_inner", "src/to_vec.rs", "src/exclusive.rs: clear", "src/state.rs: len"]}
{"id": "C27", "title": "slice(range) is the clamped sub-range", "statement": "vec.slice(r) views exactly the positions of r that are below the observed length: for bounds start..end it has min(end,len)-min(start,..) elements starting at start; out-of-range bounds are clamped and never panic; as_slice() and slice(..) view everything.", "quantifier": "All ranges (all bound kinds) and lengths", "why_tests_cant": "Finite samples of ranges cannot cover the arithmetic.", "anchors": ["src/vec.rs: slice, as_slice", "src/concurrent_slice/slice.rs"]}
{"id": "C28", "title": "Slicing a slice composes", "statement": "slice.slice(r) of a slice views the same elements as slicing the list of the slice's elements; a sub-slice never leaves its parent.", "quantifier": "All slices and nested ranges, any depth", "why_tests_cant": "Offsets compose for all values.", "anchors": ["src/concurrent_slice/slice.rs: slice, get, idx"]}
{"id": "C29", "title": "Slices and element references are stable under concurrent growth", "statement": "A slice's length and the positions it views never change, and all of them stay valid and initialised, no matter how much the vector grows afterwards; slice.get/iter never see elements outside it.", "quantifier": "All slices and all later histories", "why_tests_cant": "Needs all later histories.", "anchors": ["src/concurrent_slice/slice.rs", "README.md: Concurrent Slices"]}
{"id": "C30", "title": "split_at, split_first and split_last partition the elements", "statement": "split_at(mid) yields the first mid and the remaining elements, and panics exactly if mid > len; split_first/split_last yield the first/last element and the rest, and None exactly on empty.", "quantifier": "All lengths and split points, vec and slice", "why_tests_cant": "Arithmetic over all sizes.", "anchors": ["src/split.rs", "src/concurrent_slice/split.rs"]}
{"id": "C31", "title": "chunks partitions without overlap or omission", "statement": "chunks(k) panics iff k = 0; otherwise the concatenation of the chunks is the whole sequence, every chunk but the last has exactly k elements, the last has between 1 and k, and their number is ceil(len/k).", "quantifier": "All lengths and chunk sizes", "why_tests_cant": "Arithmetic over all sizes.", "anchors": ["src/split.rs: chunks", "src/concurrent_slice/split.rs: chunks"]}
{"id": "C32", "title": "map, filter, fold and reduce equal their sequence counterparts", "statement": "Without concurrent writers, map/filter/fold/reduce on vec and slice equal List.map / filter / foldl / reduce over the elements in order (reduce is None iff empty).", "quantifier": "All contents, closures and slices", "why_tests_cant": "All closures and sizes.", "anchors": ["src/iter_shorthands.rs", "src/concurrent_slice/iter_shorthands.rs"]}
{"id": "C33", "title": "index_of and contains find the first equal element", "statement": "Without concurrent writers, index_of(v) is the least index whose element equals v, None iff no element equals v; contains(v) iff index_of(v) is Some.", "quantifier": "All contents and values, vec and slice", "why_tests_cant": "All inputs.", "anchors": ["src/partial_eq.rs", "src/concurrent_slice/partial_eq.rs"]}
{"id": "C34", "title": "fill and fill_with touch exactly the intended positions", "statement": "Without concurrent writers fill(v) sets all elements to v and fill_with(f) sets element i to f(i), and slice.fill only the slice's positions; under concurrency they write only positions that existed below the length observed at their start.", "quantifier": "All contents, slices, closures and interleavings", "why_tests_cant": "All inputs and schedules.", "anchors": ["src/mut_elem.rs: fill, fill_with", "src/concurrent_slice/mut_elem.rs"]}
{"id": "C35", "title": "Equality compares element-wise including length", "statement": "Without concurrent writers, vec == other (vec, slice, array) and slice == other hold iff lengths are equal and all elements are equal.", "quantifier": "All pairs of contents", "why_tests_cant": "All inputs.", "anchors": ["src/common_traits/eq.rs"]}
{"id": "C36", "title": "clone / clone_to_vec copy the content", "statement": "Without concurrent writers, clone() and clone_to_vec() yield exactly the content; under concurrency each copied value was genuine at some moment of the call, but the copy as a whole need not be a snapshot of any single moment.", "quantifier": "All contents, slices and interleavings", "why_tests_cant": "Snapshot violations need specific interleavings.", "anchors": ["src/common_traits/clone.rs", "src/to_vec.rs: clone_to_vec", "src/concurrent_slice/to_vec.rs"]}
{"id": "C37", "title": "Conversions round-trip", "statement": "from_iter(xs).to_vec() = xs (for exact and inexact size hints), into_iter and into_inner yield the elements in position order, From<pinned vec> followed by into_inner is the identity.", "quantifier": "All sequences and truthful size hints", "why_tests_cant": "All sizes cross fragment boundaries differently.", "anchors": ["src/common_traits/from_iter.rs", "src/common_traits/into_iter.rs", "src/to_vec.rs", "src/new.rs: From", "src/vec.rs: into_inner"]}
{"id": "C38", "title": "clear and reserve_maximum_capacity", "statement": "After clear() the vector is empty and the next growth call starts at index 0; reserve_maximum_capacity never changes the content and never lowers the maximum capacity.", "quantifier": "All prior contents/histories (including ones with holes for clear)", "why_tests_cant": "All histories.", "anchors": ["src/exclusive.rs"]}
{"id": "C39", "title": "Used from one thread, the vector behaves like a Vec", "statement": "For any sequence of API calls from one thread, all results and the final content equal those of the same operations on a plain list (within maximum capacity, excluding swap(i,i) and growth calls whose closure or iterator panics or misstates its length: these lose positions, see C23; panicking closures of all other calls are included).", "quantifier": "All finite operation sequences and inputs, vec and slice operations", "why_tests_cant": "Unbounded operation sequences.", "anchors": ["src/*.rs", "src/concurrent_slice/*.rs"]}
{"id": "C40", "title": "Raw pointers and references are only given out for initialised elements", "statement": "get_raw/get_ref/get_raw_mut/get_mut/iter_ref/iter_mut give access to position i only if it is completely initialised, and if the program performs only growth and reads (no update, set, replace, swap, fill) then reading through these references at any later time never races with any call.", "quantifier": "All histories; for the race-freedom part all histories without mutation", "why_tests_cant": "Races are schedule dependent undefined behaviour.", "anchors": ["src/unsafe_api.rs", "src/concurrent_slice/unsafe_api.rs", "docs/GrowRead.md"]}
{"id": "C41", "title": "The chosen memory orderings suffice", "statement": "Under a release/acquire weak memory model (loads may be stale), with the orderings used in the code, value accesses never race, no call reads an uninitialised value, growth calls still receive disjoint positions, and an element handed out by get/iter has a value for the thread that received it.", "quantifier": "All weak-memory executions (stale relaxed/acquire loads) of all calls", "why_tests_cant": "Weak-memory reorderings rarely or never occur on test hardware.", "anchors": ["src/vec.rs: len (Acquire / Relaxed / Release)", "src/grow.rs (Relaxed fetch_add)", "src/state.rs: len"]}
{"id": "C42", "title": "Only documented panics occur", "statement": "A call panics only for its documented reason: capacity exceeded (growth), iterator shorter/unequal to the promised count or user code (growth), index out of bounds (vec[i]), mid > len (split_at), chunk size 0 (chunks), or user closure; never because an internal expectation is violated.", "quantifier": "All calls in all histories", "why_tests_cant": "Requires all schedules.", "anchors": ["src/elem.rs", "src/grow.rs", "src/split.rs", "src/common_traits/index.rs"]}
{"id": "C43", "title": "Raising the maximum capacity re-enables growth", "statement": "After a growth call failed because the maximum capacity was exceeded and its panic was caught, reserve_maximum_capacity(n) with a larger n makes later growth calls within the new maximum succeed again.", "quantifier": "All histories with a failed growth call followed by reserve_maximum_capacity", "why_tests_cant": "The failing sequence ends in a hang, not in a wrong value, and needs a caught panic; a finite run cannot conclude non-termination.", "anchors": ["src/exclusive.rs: reserve_maximum_capacity", "src/state.rs: write_permit", "src/grow.rs: push"]}
{"id": "C44", "title": "Consuming a vector with holes", "statement": "If growth calls that panicked left positions without a value (holes), into_inner still returns a pinned vector with one element per position ever handed out, whose elements have no value exactly at the holes; to_vec panics if and only if there is a hole and otherwise returns exactly the content; the k-th next of into_iter yields the value of position k, panics exactly at a hole, and yields None only behind the last position handed out.", "quantifier": "All histories (any number of threads, calls and panics) that did not overrun the storage (C26), at any moment without running calls", "why_tests_cant": "Needs all interleavings of growth calls with panicking ones and all positions of the holes.", "anchors": ["src/vec.rs: into_inner", "src/to_vec.rs: to_vec", "src/common_traits/into_iter.rs: ElementValuesIter::next"]}
{"id": "C45", "title": "Elements handed out after From<pinned vec> have a value", "statement": "For every pinned vector given to From, each element that get hands out has a value, i.e. its methods (cloned, map, ...) do not panic with the internal 'must always have a value' message.", "quantifier": "All pinned vectors of elements, including those built from ConcurrentOption values by the public From<ConcurrentOption<T>> for ConcurrentElement<T>", "why_tests_cant": "The claim ranges over all pinned vectors; tests only use elements made from values.", "anchors": ["src/vec.rs: From<P>", "src/elem.rs: From<ConcurrentOption<T>>, cloned", "src/vec.rs: get"]}
{"id": "C46", "title": "Values under weak memory are explained by one sequential order", "statement": "Under the memory orderings the code uses, for every execution (loads of counters, capacity and state bytes may return stale values) there is one sequential order of all reservations, initialisations, reads and writes of elements that is compatible with happens-before, in which every access finds the value left by the latest one before it, in which each call only does accesses that its API function is meant to do, and which explains the results of all calls (returned and panicked).", "quantifier": "All executions of the weak memory model, any number of threads and calls; no element is read through a plain reference while being written (the documented precondition of the unsafe functions)", "why_tests_cant": "Weak memory effects depend on hardware and compiler; tests on x86 do not show most of them, and the claim ranges over all executions.", "anchors": ["src/elem.rs", "src/state.rs: write_permit", "src/grow.rs", "src/vec.rs: len, get", "src/mut_elem.rs: swap, fill, fill_with"]}
{"id": "C47", "title": "Element operations, swaps and push are linearizable under weak memory", "statement": "In every weak-memory execution each finished element operation (cloned, map, replace, set, update, get_cloned, ...), each successful swap and each push takes its whole effect at one moment between contents of the vector, with exactly its documented result; the moments respect happens-before, and nothing else than growth, fill and fill_with changes the contents in between. A get_cloned that happens after push(v) returned i returns v if nobody writes to i.", "quantifier": "All executions of the weak memory model", "why_tests_cant": "Linearizability under weak memory concerns all interleavings and all stale loads.", "anchors": ["src/elem.rs: replace, set, update, cloned, map", "src/mut_elem.rs: swap", "src/concurrent_slice/mut_elem.rs: swap", "src/grow.rs: push", "src/vec.rs: get_cloned"]}
{"id": "C48", "title": "No lost updates, no duplicated values under weak memory", "statement": "In every weak-memory execution: n finished update(f) calls on an element with no other writers leave f applied n times to its first value; concurrent replace calls hand out every value exactly once; swaps leave a permutation of the first values. A reader that happens after these calls sees exactly the final values.", "quantifier": "All executions of the weak memory model, any number of concurrent calls", "why_tests_cant": "A lost update needs a particular interleaving or a stale read that strong hardware never shows.", "anchors": ["src/elem.rs: update, replace", "src/mut_elem.rs: swap", "src/concurrent_slice/mut_elem.rs: swap"]}
{"id": "C49", "title": "Growth calls never hand out an occupied position, on machine integers", "statement": "The counter of handed out positions is a usize and its fetch_add wraps around silently. Whatever number of positions the growth calls ask for, no growth call receives a position that is occupied or was handed out before, and no sum of a received position and a length overflows.", "quantifier": "All executions with a counter modulo W (W = 2^64 on usual machines), any calls, any reported iterator lengths", "why_tests_cant": "Needs requests for about usize::MAX positions in flight at once; a test would have to construct exactly this absurd request and a second thread between fetch_add and the panic.", "anchors": ["src/state.rs: ConcurrentVecState.len_reserved", "src/grow.rs: push, push_for_idx, extend_n_items", "src/state.rs: write_permit_n_items"]}
{"id": "C50", "title": "Every value is exactly once in the vector, handed out or overwritten", "statement": "Whenever all calls that move values are over: the initial values together with the values put into the vector by push, push_for_idx, extend, replace, set, update, fill and fill_with are, as a multiset, exactly the values now in the vector, those returned by replace and those overwritten; this holds also after panics (values of a failed push never entered). At the end to_vec returns exactly the remaining ones. In particular, if all values are different, no two positions hold the same value, no two replace calls return the same value, and a value returned by replace is no longer in the vector.", "quantifier": "All sequentially consistent and all weak-memory executions, any number of concurrent calls of all API functions", "why_tests_cant": "A duplicated or leaked value of a type with ownership (Box) shows as a double free or leak only in the interleaving in which it happens; the balance over all calls has to hold for all of them.", "anchors": ["src/elem.rs: replace, set, update", "src/mut_elem.rs: swap, fill, fill_with", "src/grow.rs: push, extend_n_items", "src/to_vec.rs: to_vec"]}
{"id": "C51", "title": "Code of the caller inside a growth call does not hinder other growth calls", "statement": "While a growth call runs code of the caller (the iterator of extend and extend_n_items, the closure of extend_for_idx and push_for_idx), however long this takes and whatever it waits for, including calls on the same vector, all other growth calls, len, get, iter and slices still end.", "quantifier": "All infinite executions with any set of growth calls that never get any further, fair scheduling of the others", "why_tests_cant": "A test can only use closures that return; a hang needs the closure to run exactly when its position is the first one that is not allocated.", "anchors": ["src/grow.rs: push_for_idx", "src/grow.rs: extend", "src/grow.rs: extend_n_items", "src/grow.rs: extend_for_idx", "src/state.rs: write_permit", "src/state.rs: write_permit_n_items"]}
{"id": "C52", "title": "Elements are locked independently", "statement": "A call locks only the elements it uses (given by its arguments, its slice, or all elements), and waits only for elements that it uses and that a running call has locked. If some calls never get any further (for instance because code of the caller inside map or update does not return), every other call that uses none of the elements they have locked ends, even if new calls are made forever.", "quantifier": "All infinite executions with any set of calls that never get any further; strongly fair scheduling of the others; blocking swaps name the smaller index first", "why_tests_cant": "Needs calls that are stopped forever at every possible point and unboundedly many calls on the other elements, under every scheduling.", "anchors": ["src/elem.rs: map", "src/mut_elem.rs: update", "src/elem.rs: cloned", "src/mut_elem.rs: swap", "src/helpers.rs: mut_handle", "src/vec.rs: get_cloned"]}
{"id": "C53", "title": "User code with state, early exit and panics", "statement": "The functions that hand elements to user code (map, filter, fold, reduce, index_of, contains, iter_cloned, clone, clone_to_vec, Debug, and every for loop over iter() that looks at the elements with map) call it with the elements 0, 1, 2, … in this order, each exactly once, each with the value that it has at one moment during the call, these moments being in the same order; they stop at the first element at which the user code panics (or, where the function can end early, is satisfied), touch no element behind it, and cover otherwise all elements of a length observed during the call. The result is what the user code computes from these values, also if the closure has state (FnMut), if T::clone, T::eq or T::fmt panic, or if T::fmt fails. A panic of the user code is the only panic. fill and fill_with write the results of the successive calls of T::clone or of the closure.", "quantifier": "All user code (any state, any point of panicking, failing or leaving), all executions with any number of concurrent calls, vectors and slices of any length", "why_tests_cant": "Quantifies over all user code including every point at which it panics, and over all schedules.", "anchors": ["src/iter_shorthands.rs: map", "src/iter_shorthands.rs: filter", "src/iter_shorthands.rs: fold", "src/concurrent_slice/iter_shorthands.rs: reduce", "src/partial_eq.rs: index_of", "src/to_vec.rs: clone_to_vec", "src/vec.rs: iter_cloned", "src/common_traits/debug.rs: fmt_elems_iter", "src/mut_elem.rs: fill_with", "src/mut_elem.rs: fill"]}
{"id": "C54", "title": "Progress with the memory orderings of the code", "statement": "Also under weak memory, where loads may return outdated values: in every reachable situation in which a call is running, some running call is able to get ahead; all running calls can be finished without any further calls; and if the scheduler and the memory are fair (who is able to get ahead again and again does so, which includes that writes become visible eventually), every call returns or panics. Conditions: blocking swaps name the smaller index first, closures given to push_for_idx do not panic, the maximum capacity is not raised after somebody has exceeded it, pointers are used as the safety sections demand. Without eventual visibility of writes a push may wait forever for a capacity that another call has published long ago.", "quantifier": "All finite and infinite executions of the weak memory model with any number of calls; all choices of the messages that loads read", "why_tests_cant": "The absence of hangs for all schedules and all stale reads is a liveness property; tests run finitely long, on hardware that shows few of the allowed behaviours.", "anchors": ["src/state.rs: write_permit", "src/state.rs: write_permit_n_items", "src/helpers.rs: mut_handle", "src/grow.rs: push", "src/grow.rs: extend", "src/mut_elem.rs: swap"]}
{"id": "C55", "title": "Comparing concurrent vectors, slices and elements with each other", "statement": "vec == vec, vec == slice, slice == vec, slice == slice and elem == elem, also of parts of one vector, while any number of threads use and compare any number of vectors: there is no undefined behaviour; the comparison goes through the elements of both operands pairwise from the front, each pair of values being compared as it is at one moment, later pairs at later moments; it returns true iff all pairs are equal and none of the operands has further elements, and stops with false at the first pair that differs. It panics only if T::eq panics, on the first pair that is not equal. If nobody changes the operands the result is that of comparing the two lists of values.", "quantifier": "All systems of vectors, all contents, all T::eq (also panicking), all interleavings with any number of other calls and comparisons", "why_tests_cant": "Quantifies over all interleavings of two vectors with concurrent writers; a test sees few of the moments at which a pair can be read.", "anchors": ["src/common_traits/eq.rs: eq_elem_iters", "src/common_traits/eq.rs: impl PartialEq for ConcurrentElement", "src/common_traits/eq.rs: impl PartialEq<ConcurrentSlice> for ConcurrentVec", "src/common_traits/eq.rs: impl PartialEq for ConcurrentSlice"]}
{"id": "C56", "title": "Comparisons of concurrent vectors come to an end", "statement": "Any number of threads use and compare any number of vectors, slices and elements: every comparison comes to an end if the scheduler is fair and no further calls are made; in particular comparisons do not block each other or other calls forever. (False of the code: a == a of a nonempty vector never ends, and a == b in one thread and b == a in another can block each other forever. It holds if the left operand always comes before the right one, in some fixed order of the vectors, and by position within a vector.)", "quantifier": "All systems of vectors, all contents, all T::eq, all interleavings with any number of other calls and comparisons, all fair schedulers", "why_tests_cant": "A deadlock needs a particular interleaving of several comparisons; its absence under an ordering discipline quantifies over all fair infinite executions.", "anchors": ["src/common_traits/eq.rs: eq_elem_iters", "src/common_traits/eq.rs: impl PartialEq for ConcurrentElement", "src/common_traits/eq.rs: impl PartialEq for ConcurrentSlice"]}
{"id": "C57", "title": "Bounded work; queries never wait", "statement": "Waiting aside, a call accesses shared memory a bounded number of times, whatever other threads do: a push at most 9 times, an extend of n elements at most 7+2n times, an operation on one element at most 4 times, get_cloned at most 6 times, len at most 4 times plus once for every element beyond the initial length or a length that was reported before, and every other function at most as often as the table Op.work says (len, plus three accesses per element for loops; functions that call len repeatedly, as chunks, do not count elements again: 5 accesses for each further call). A call of a function that neither accesses values through elements nor grows the vector (len, is_empty, capacity, get, index, iter, slices, splits, chunks, raw access, swap if taking a handle does not block) never waits: it gets ahead with every step it is given, even if all other threads have stopped in the middle of their calls. In an infinite execution no call gets ahead infinitely often: only waiting can take forever. All this also holds under weak memory, where a call may be shown stale values.", "quantifier": "All API functions, all initial contents, all interleavings with any number of other calls (also stopped ones), all finite and infinite executions, sequentially consistent or with stale loads (C++ memory model)", "why_tests_cant": "A bound on the accesses of a call under every interleaving, and independence of stalled threads, cannot be observed by running some schedules.", "anchors": ["src/vec.rs: len", "src/grow.rs: push, extend", "src/elem.rs", "src/concurrent_slice/slice.rs", "src/split.rs"]}
{"id": "C58", "title": "Taking the vector back after concurrent use sees everything (weak memory)", "statement": "Somebody who has exclusive access to the vector (all calls have ended and happen before, for example by joining the threads) finds no stale counter, capacity or state byte, cannot race with any earlier access, and can use the whole storage. If all growth calls returned, to_vec, into_inner and into_iter give exactly one value for every initial position and every position that a call added: the values that all accesses of all calls leave behind, so no update is lost and elements nobody wrote to are as they were created. If growth calls panicked, only positions given to them can be without a value, and to_vec panics exactly if there is one. These functions and clear respect the contract of the storage if no growth call failed because of the maximum capacity and no closure of push_for_idx panicked; after a failure because of the maximum capacity they never do. The vector can be shared again after into_inner or clear.", "quantifier": "All executions with stale loads (C++ memory model, release/acquire/relaxed), all initial contents, any number of calls, all ways in which the owner may read the memory", "why_tests_cant": "On the usual hardware joining threads makes everything visible anyway, and stale values or races at hand-over cannot be provoked; a claim about all executions of the memory model cannot be tested.", "anchors": ["src/vec.rs: into_inner", "src/to_vec.rs: to_vec", "src/common_traits/into_iter.rs: into_iter", "src/exclusive.rs: clear", "src/new.rs: From"]}
{"id": "C59", "title": "One call after the other behaves like a list (weak memory)", "statement": "After any concurrent use in which all growth calls returned, somebody who has exclusive access and finds the values vs can use the vector like a list, and so can several threads that hand it on with synchronisation: if from then on all calls happen before the next one, and every operation is one a list can follow (growth within the maximum capacity with closures and iterators that keep their promises, no swap of a position with itself), then every call returns or panics as the operation on the list does, no call does anything undefined (also reading through pointers obtained with relaxed loads, also of elements that were written before), no call ever waits, and whoever has exclusive access in the end finds the list that the operations leave behind. In particular this holds for a vector that is used by one thread only.", "quantifier": "All executions with stale loads (C++ memory model, release/acquire/relaxed), all histories before the first of the ordered calls, all sequences of operations of the whole API, all closures", "why_tests_cant": "There are infinitely many sequences of operations, closures and earlier histories; that an ordered call cannot read any stale value is a statement about all executions of the memory model.", "anchors": ["src/vec.rs", "src/grow.rs", "src/concurrent_slice", "src/elem.rs", "src/exclusive.rs: reserve_maximum_capacity"]}
{"id": "C60", "title": "Comparing concurrent vectors, slices and elements with each other (weak memory)", "statement": "The claims of C55 hold in the weak memory model: vec == vec, vec == slice, slice == vec, slice == slice and elem == elem, while any number of threads use and compare any number of vectors, never cause a data race or an access to memory that is not there; the two values of every pair that is compared were in the vectors at the same moment, later pairs at later moments; the result is true iff all pairs are equal and both operands have the same number of elements; it panics only if T::eq panics. If nobody changes the operands meanwhile, or nobody ever writes to their elements, the result is that of comparing the lists of values. A comparison with a vector takes all elements into account that were there at the beginning or that a call which happens before has seen; it may miss a push that has returned but does not happen before. A nonempty operand compared with itself never yields a result.", "quantifier": "All systems of vectors, all contents, all T::eq (also panicking), all executions with stale loads (C++ memory model, release/acquire/relaxed) with any number of other calls and comparisons", "why_tests_cant": "Stale loads and races do not show on the machines tests run on; the claim is about all executions of the memory model, with all concurrent writers.", "anchors": ["src/common_traits/eq.rs: eq_elem_iters", "src/common_traits/eq.rs: impl PartialEq for ConcurrentElement", "src/common_traits/eq.rs: impl PartialEq<ConcurrentSlice> for ConcurrentVec", "src/common_traits/eq.rs: impl PartialEq for ConcurrentSlice"]}
{"id": "C61", "title": "Comparisons of concurrent vectors come to an end (weak memory)", "statement": "The claims of C56 in the weak memory model: any number of threads use and compare any number of vectors, slices and elements; every comparison comes to an end if the scheduler is fair and writes become visible eventually; in particular comparisons do not block each other or other calls forever. (False of the code: a == a of a nonempty vector never ends, and a == b in one thread and b == a in another can block each other forever. It holds if the left operand always comes before the right one, in some fixed order of the vectors, and by position within a vector, also while further calls and comparisons are begun all the time.)", "quantifier": "All systems of vectors, all contents, all T::eq, all executions with stale loads (C++ memory model) with any number of other calls and comparisons, all fair schedulers", "why_tests_cant": "A deadlock needs a particular interleaving of several comparisons; its absence under an ordering discipline quantifies over all fair infinite executions of the memory model.", "anchors": ["src/common_traits/eq.rs: eq_elem_iters", "src/common_traits/eq.rs: impl PartialEq for ConcurrentElement", "src/common_traits/eq.rs: impl PartialEq for ConcurrentSlice"]}
{"id": "C62", "title": "Elements that were added are found by their index", "statement": "After push returned i (or an extend whose positions include i), every later get(i) returns the element, vec[i] does not panic, and every later len(), iter() and as_slice() covers position i; every later get_cloned(i) returns a value the element had during the call. (The first part is false of the code: while a growth call that began earlier is not over, or while another call accesses an element up to i that was not counted yet, get(i) returns None, vec[i] panics and len() is at most i. It holds if all elements up to i were added before and none of them is being accessed, and always after a length above i was reported.)", "quantifier": "All vectors, all growth calls and indices, all later calls, any number of other concurrent calls, every interleaving", "why_tests_cant": "The element is hidden only while another push is between reserving its position and writing it, a window of a few instructions in another thread.", "anchors": ["src/vec.rs: ConcurrentVec::get, get_cloned, len", "src/common_traits/index.rs: impl Index for ConcurrentVec", "src/grow.rs: push, extend"]}
{"id": "C63", "title": "Index arithmetic never overflows", "statement": "As long as the vector and all growth calls together asked for fewer than 2^64 positions (usize::MAX + 1), no addition, subtraction or multiplication of indices and lengths in the crate overflows, whatever arguments the calls are given (indices, ranges, chunk sizes up to usize::MAX): debug builds do not panic with an overflow and release builds do not compute with wrapped numbers. Every execution with machine arithmetic looks like one with unbounded numbers: same memory, results and panics at all times.", "quantifier": "All word sizes, all behaviours on overflow (any panic, any number), all vectors, all calls with all arguments, any number of concurrent calls, every interleaving in which fewer positions were requested than there are numbers", "why_tests_cant": "Overflow depends on extreme arguments and on sizes that cannot be allocated in a test; the absence of overflow quantifies over all arguments and all lengths other threads produce.", "anchors": ["src/state.rs: write_permit_n_items", "src/vec.rs: len, slice", "src/split.rs: split_last, chunks", "src/concurrent_slice/slice.rs: idx, slice, get, get_cloned, iter, iter_cloned", "src/concurrent_slice/split.rs: split_last, chunks", "src/concurrent_slice/unsafe_api.rs: iter_ref, iter_mut"]}
{"id": "C64", "title": "What an interleaving shows can happen under the C++ memory model", "statement": "For every interleaving of calls on the vector there is an execution under the C++ memory model with the orderings written in the code that has the same calls with the same results and panics, in which one call happens before another one if and only if it was over before the other one began, without a data race or another violation; if all calls are over, whoever owns the vector afterwards finds the same content and counters. The same holds for infinite executions, with the same calls making steps. So every failure exhibited by an interleaving is a failure of the code under the memory model, and what is proved for the memory model holds for interleavings.", "quantifier": "All vectors, all calls with all arguments, any number of concurrent calls, every finite or infinite interleaving in which user code does not read through a raw pointer what other calls write", "why_tests_cant": "Relates two sets of executions; tests run on one machine, which shows some executions of either set only.", "anchors": ["src/state.rs: orderings of the counters", "src/vec.rs: orderings of len and of the accesses to elements", "src/elem.rs: orderings of element accesses"]}
