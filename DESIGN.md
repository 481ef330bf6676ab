# Formal model of orx-concurrent-vec: design

## 1. Architecture of the model

One set of *programs* models the Rust functions; several semantics run the same programs.

| file (under `lean/Verif`) | content |
|---|---|
| `Model/Basic.lean` | shared memory `Mem` and the primitive actions `Act`, each with its memory ordering; `Act.exec` gives the effect of one action, `none` = undefined behaviour |
| `Model/Prog.lean` | `Prog α ρ`: a program is a tree of actions (`ret`, `panic`, `step a again k`); `again` is a spin loop whose body is the single action `a` |
| `Model/Deps.lean` | `write_permit`, `write_permit_n_items` (code of the crate) and the functions of the dependencies that the crate calls |
| `Model/Policy.lean` | growth policies of the three kinds of storage, proved to satisfy the contract `Policy` |
| `Model/Vec.lean` | the functions of /repo/src on a shared vector, slice or element, one definition per function |
| `Model/UserCode.lean` | the loops of `Vec.lean` once more, for user code that has state, fails or panics (C53) |
| `Model/Api.lean` | `Op`: one constructor per public function, and two for user loops over the elements (68), `Op.prog` its program, `Ret` the results |
| `Model/Conc.lean` | interleaving semantics: any number of overlapping calls, every scheduler choice runs one action of one call; calls may panic, stall or never end; ghost data (event trace, abstract state, holder, grower) is written but never read by programs; `reserve_maximum_capacity` as a step of its own |
| `Model/Compare.lean` | several vectors and threads that compare them, or parts of them, with each other; each vector is a configuration of `Model/Conc.lean` (C55, C56) |
| `Model/Run.lean` | computable version of the same, for the examples |
| `Model/Solo.lean` | running one call to its end without interference (deterministic) |
| `Model/Owned.lean` | construction, consumption, clearing: `new`, `with_*`, `From`, `from_iter`, `into_inner`, `to_vec`, `into_iter`, `clear` |
| `Model/Wrap.lean` | the concurrent executions on a machine whose counter of positions wraps around (C49) |
| `Model/Machine.lean` | the functions of the crate that compute with indices, and their callers, with machine arithmetic (exact if representable, otherwise a panic or any number); executions with it (C63) |
| `Spec/*.lean` | what the theorems talk about: events and abstract positions (`Events`), calls and their order in time (`Calls`), fairness and blocking (`Progress`), amount of work (`Work`), requested positions (`Requested`), views (`Views`), plain lists (`ListSpec`), consumption (`Owned`) |
| `Proof/*.lean` | helper lemmas: invariant, rely/guarantee logic, progress, traces, sequential evaluation |
| `Weak/Model.lean` | weak-memory semantics of the same programs (C41): messages, views, stale loads, races |
| `Weak/Spec.lean`, `Weak/Run.lean` | vocabulary of its theorems; computable version for the examples |
| `Weak/{Know,Inv,Step,Ops,Typed,Sound}.lean` | helper lemmas: ownership and knowledge of a call, invariant, one step, the programs, all executions |
| `Weak/SpecValues.lean` | vocabulary of C46–C48: a sequential order of the element accesses that explains all results; moments of calls |
| `Weak/{Data,DataOps,DataTyped,Trace,Values}.lean` | helper lemmas: values that a call owns, the accesses each program makes, the order of accesses of all executions, consequences |
| `Weak/SpecProgress.lean`, `Weak/Progress.lean` | vocabulary and helper lemmas of C54: who can get ahead in the weak memory model, fairness of scheduler and memory |
| `Weak/Work.lean` | helper lemmas for C57 under weak memory |
| `Weak/Owner.lean` | vocabulary of C58: exclusive access, what the owner may find in the memory |
| `Weak/{Taken,Published}.lean` | helper lemmas for C58: what the calls know together, the memory when nobody is running |
| `Weak/SpecAlone.lean` | vocabulary of C59: one call after the other |
| `Weak/Alone.lean` | helper lemmas for C59: a call that knows everything acts as in the interleaving model |
| `Weak/Compare.lean` | the comparing threads of `Model/Compare.lean` on vectors that are used as in `Weak/Model.lean` (C60, C61) |
| `Weak/SpecCompare.lean` | vocabulary of C60 |
| `Weak/CompareElem.lean`, `Weak/CompareInv.lean` | helper lemmas for C60: the stages of an element call; how far a comparison is |
| `Weak/SpecCompareProgress.lean` | vocabulary of C61 |
| `Weak/Compare{Progress,Ahead,Ends,Fair,Hangs}.lean` | helper lemmas for C61: somebody can get ahead, one comparison gets ahead, what is left to do, fair executions, comparisons that wait for each other |
| `Weak/Wrap.lean` | the weak-memory executions on a machine whose counter of positions wraps around (C49) |
| `Weak/SpecWrap.lean`, `Weak/WrapProof.lean` | vocabulary and helper lemmas of C49 under weak memory |
| `Weak/Machine.lean` | executions under weak memory in which the crate computes with machine arithmetic (C63) |
| `Weak/SpecMachine.lean`, `Weak/MachineProof.lean` | vocabulary and helper lemmas of C63 under weak memory |
| `Weak/SpecSwap.lean`, `Weak/SwapHangs.lean` | vocabulary and helper lemmas of swaps under weak memory (C20, C21, C22): counted positions, calls that wait for a handle which is never given back |
| `Weak/Lost.lean` | helper lemmas for positions that nobody will ever allocate, under weak memory (C24, C43, C51) |
| `Weak/Stalled.lean` | helper lemmas for calls that are not scheduled fairly, under weak memory (C51, C52) |
| `Weak/SpecStall.lean` | calls that do not get any further, under weak memory (C51) |
| `Weak/SpecNext.lean`, `Weak/Storage.lean` | what a call does next, and who grows the storage, under weak memory: specification and helper lemmas (C07) |
| `Weak/SpecHole.lean`, `Weak/Hole.lean` | positions left behind by growth calls that panicked, under weak memory: specification and helper lemmas (C23) |
| `Weak/SpecLock.lean` | who has locked an element, under weak memory (C52) |
| `Weak/OwnElement.lean` | helper lemmas for calls that wait for an element that is never unlocked, under weak memory (C52) |
| `Weak/SpecInterleave.lean`, `Weak/Interleave.lean` | vocabulary of C64 (an execution under weak memory shows the same as an interleaving); the simulation behind it |
| `Props/*.lean` | the property theorems and, beside them, examples which meet their hypotheses; `Demo*.lean` are the executions used by the examples |

Representation choices:

* A reference `&ConcurrentElement<T>` is the position of the element (pinned storage never moves elements).
  `Op.needs` lists the positions a call needs a reference to; a call can only be made when earlier calls
  have handed out these references. The same for raw pointers (`Op.needsPtr`).
* Undefined behaviour is an explicit outcome (`ub`), a panic is an explicit result, a call that never returns
  is a call that is running forever. None of them is turned into a default value.
* A closure is a total function whose result says whether it panics (`none`). An iterator is a reported
  length and a list of results of `next` (each of which may be a panic); the two need not agree.

## 2. How the properties are proved

| id | how |
|----|-----|
| C01–C07, C09–C20, C23, C25, C42 | rely/guarantee proof (`Proof/Inv`, `Logic`, `Ops`, `Loops`, `OpSafe`, `Sound`): every reachable configuration satisfies `CfgInv`; the trace of abstract events is legal and every call's own events follow its protocol (`Post`). The statements follow by induction on traces (`Trace`, `Timeline`, `EventTime`, `GrowthLemmas`, `Writes`) |
| C08, C22, C25 | blocking discipline in `CfgInv` ⇒ some call is not blocked; fair infinite executions: well-founded measure (`Progress`, `Fair`); strongly fair ones: a call waiting forever waits for a fixed holder that itself waits forever for a higher position, positions are bounded (`StrongFair`) |
| C20, C21 (slices, counted elements) | invariant `NeedsCounted`: the positions that a call needs (its element, its slice) were counted by `len` before, since elements and slices are only given out below a counted length (`Proof/Counted`); so a `swap` of a slice never finds its positions out of bounds |
| C20, C21, C22 under weak memory (`Props/WeakSwap.lean`) | the weak protocol of a call (`Done`) says what a swap answers: `false` after blocking handles only if a position was not counted, `true` only for two different positions; the calls that hang are shown stuck by an invariant on the programs of the calls that hold and want the handles (`SecondHandle`) |
| C24, C43, C51 under weak memory (`Props/WeakLost.lean`) | invariant `Stuck`: nobody is allocating and the next position to be allocated belongs to a call that has ended or does not move; it is kept by every step, and a growth call made later only owns positions behind it |
| C07 under weak memory (`Props/WeakStorage.lean`) | a call that allocates or publishes owns the position behind the newest capacity (`WInv.grows_owns`), and positions have one owner; capacities are monotone in modification order (`GInv.cap_mono`) |
| C23 under weak memory (`Props/WeakHoles.lean`) | only the call that received a position stores its first state (`WInv.first_value`), and that call has ended; every count of `written` that is ever stored covers positions with a value only (`WInv.counted_below`) |
| C25 under weak memory (`Props/WeakElement.lean`) | the ghost owner of a lock is a running call (`PInv.held`, `holder_running`) that uses the element (`UInv.l`); a call that ended owns no lock (`Failed.l`) |
| C51 under weak memory (`Props/WeakStalled.lean`) | the same liveness proof as C52 under weak memory; a call that is about to store a value knows that all its positions are allocated (`Pre` of `valWrite`), and knows the same as long as it is stalled; the positions it owns are those it has received (`InfExec.owns_received`, `received_owns`); so a stalled call with storage for all of them does not own the next position to be allocated |
| C52 under weak memory (`Props/WeakIsolation.lean`) | the liveness proof of C54 with a set of calls that are not scheduled fairly; where handles and positions of a call come from (`UInv`), and which handles may be held while waiting for another one (`Mode.nest`) |
| C21, C22, C24, C26, C43, C45 | negations with concrete executions, or for all executions, and the part that holds |
| C27–C36 | invariants over all interleavings (`Views`, `Bulk`) |
| C37, C38, C44, C26 | `Owned`: from the invariant of the shared phase to the owned vector; `Solo*` for the functions that run alone |
| C39 | refinement: every call run alone gives the result and the content of the list operation (`SoloApi`), then induction on the sequence of calls (`SoloRun`) |
| C40 | invariant, plus race freedom of executions without writers |
| C41 | separation-style logic for the weak semantics: every call owns positions (reserved, locked) and has knowledge that others cannot invalidate (`Know`); one invariant over messages and views (`Inv`, `Step`), a proof per program (`Typed`), induction over executions (`Sound`) |
| C46–C48 | the logic of C41 extended by values: a ghost trace of accesses kept legal by every step (`Data*`, `Trace`); the explanation of every result and the order with respect to happens-before follow from it (`Values`) |
| C49 | bound on the counter from the trace (`CfgInv`; under weak memory `TInv`); induction over executions |
| C50 | every event moves values as its call records: permutation invariant over the replayed trace, sorted by calls (`Proof/Ledger.lean`); from C46 for weak memory |
| C51 | the fairness proof of C08 with a set of stalled calls that own no position at or behind the capacity; what a call owns does not change while it is stalled (`Proof/Stalled.lean`) |
| C52 | which positions a program can lock, by recursion over the program (`Proof/Uses.lean`); only a blocking `swap` waits while it holds an element (`BlockOK`); the fairness proof of C22 with a set of stalled calls and the set of elements they hold |
| C53 | one more operation for any loop that hands elements to user code, proved as the others; the functions of the crate are equal to it as programs (`Proof/UserCode.lean`) |
| C54 | the logic of C41 also records why a call repeats an action (`Keeps`); every reserved position has an owner and every locked element a holder (`PInv`); who waits while reading the newest message waits for a running call, with positions that increase and are bounded (`Weak/Progress.lean`) |
| C55 | every vector of the system on its own makes steps of `Model/Conc.lean`; invariant that says how far each comparison is and what it has found out (`Phase`, `Hist` in `Proof/Compare.lean`) |
| C56 | the call that waits holds nothing a smaller one waits for: the unfinished calls and comparisons are followed along increasing pairs (vector, position) until one can move (`Sys.Moving`); what is left to do decreases with every step that is not spinning (`Sys.left`, well-founded); under strong fairness, with new work all the time, a call or comparison that never ends is blocked from some moment on (`InfSysExec.forever`), and then so is the holder of what it waits for, at a later pair (vector, position) (`InfSysExec.ends`); for the negations, the comparison that waits for its own handle is an invariant |
| C57 | a bound on the accesses of a program, by recursion on the program (`Within`; `Costs` for functions that call `len` repeatedly, where the elements counted so far are what is known to the next `len`), for every function; along an execution the bound decreases whenever the record of the call changes (`Owes`); in an infinite execution, induction on the program; under weak memory the same bound of programs, with the invariant of C41 for what a call may be shown |
| C58 | every message and every access is known to the call that made it (`AInv`), so the join of all views is complete and leaves one memory to be found (`Complete.observes`); with the invariants of C41, C46, C54 and two more (`HInv`: a value without a state is about to get one; `OInv`: who failed because of the maximum capacity has a position that will never exist) this memory is a list with holes (`Settled`), to which the lemmas of C37 apply |
| C59 | a call that happens after all others knows everything (`AInv` of C58, `Joined`) and keeps knowing everything (`exec_tells`), so every action finds the newest messages and does what it does in the interleaving model (`Rel.same`), is possible (`Rel.possible`) and not undefined (`Rel.not_bad`); the program logic of the interleaving model (`opSafe`) and the runs of C39 (`op_ends`) then give the result and the content; by induction over the calls (`SInv`) |
| C60 | the invariant of C55 (`Phase`, `Hist`) over the weak configurations: from the invariant of C41 (`WInv`) follows that the call holding an element is the only one that changes its value (`WInv.owner`, `WInv.val_step`), so both values are there at the moment when the second one has been read; every call of a comparison happens after the earlier ones on its side (`SysInv.after`), which gives what it cannot miss |
| C61 | as C56, over the weak configurations: blocked means that no message the call may read gets it ahead; somebody can always move by induction along (vector, position) (`Sys.Moving`); each step that gets ahead decreases what is left (`Sys.left`), other steps keep it; under strong fairness, suppose something goes on forever and take the latest such pair (vector, position): its handle is released again and again, so it gets ahead again and again, which is impossible (`InfSysExec.ends`); for the negations, two comparisons that each hold what the other waits for stay where they are (`SysExec.opposite`) |
| C62 | from the outcome of the calls that count (`LenOK`): a length below what was initialised at the start has a `busy` event in the trace, whose cause is a call that overlaps (`Exec.busy_overlap`) |
| C63 | simulation: the programs with machine arithmetic do the same actions as those with unbounded numbers as long as the counters are small (`prog_same`), and the invariant of C49 keeps them small (`ExecM.sim`; under weak memory `ReachM.sim`) |
| C64 | simulation: each step of an interleaving is done under weak memory by reading the newest message, each call beginning with the knowledge of all calls that are over (`Mirrors.step`, `Mirrors.moves`) |

Status per property, theorem names and what is missing in the partial ones: `MANIFEST.json`.

## 3. Trusted base

### 3.1 Lean

The kernel of Lean 4.33.0. Every theorem named in `MANIFEST.json` depends on no axioms other than `propext`,
`Classical.choice` and `Quot.sound` (checked with `#print axioms`). No axiom is added, there is no
`sorry`, no `native_decide`, no `bv_decide`; no compiled code is trusted. A few helper modules import single Mathlib modules; the model and the
specifications import none.

### 3.2 The correspondence between the model and /repo

That the definitions in `Model/` say what the cited lines of Rust do was checked by reading only.

Modelled from the source of the crate, function by function, with all their loads, stores, orderings and
branches: `src/vec.rs`, `src/state.rs`, `src/grow.rs`, `src/helpers.rs`, `src/elem.rs`, `src/mut_elem.rs`,
`src/split.rs`, `src/partial_eq.rs`, `src/iter_shorthands.rs`, `src/to_vec.rs`, `src/unsafe_api.rs`,
`src/exclusive.rs`, `src/new.rs`, `src/common_traits/{clone,debug,eq,from_iter,index,into_iter}.rs`,
`src/concurrent_slice/*.rs`. Exceptions are listed in 3.5.

### 3.3 Assumptions on the dependencies (their sources are not in /repo)

`orx-concurrent-option`:

* `initialize_unchecked` writes the value and then stores `SOME` with release ordering.
* the operations on an element take a handle by `compare_exchange(SOME, RESERVED, Acquire, Relaxed)`, retried
  while the byte is `RESERVED`, and answer "no value" when it is `NONE`; dropping the handle stores `SOME`
  with release ordering, also while unwinding.
* `is_some_with_order`, `get_raw_with_order`, `as_ref_with_order`, `get_raw_mut_with_order` are one load of the
  byte with that ordering, compared with `SOME`. `get_raw_mut()` is taken to be relaxed.
* `ConcurrentOption == ConcurrentOption` takes the handle of the left element, then the handle of the right one (waiting for each),
  compares the values with `T::eq`, and drops both handles, also while unwinding. (C55, C56, C60 and C61 only; it is not known that the dependency does
  not, for example, look whether both are the same element.)
* `mut_handle` either spins or tries once; which of the two is not known, so `MutMode` covers both and every
  theorem holds for both unless it names one.

`orx-pinned-concurrent-col`, `orx-split-vec`, `orx-fixed-vec`:

* storage is pinned: growing never moves elements, and the new positions hold elements without a value.
* `get` checks the position against the capacity, which is loaded with acquire and stored with release.
* `single_item_as_ref`, `n_items_buffer_as_slices`: check the maximum capacity (panic if the last position is
  not below it), then loop on the write permit given by `src/state.rs`; `num_items = 0` does nothing.
* growing is "allocate, then publish the new capacity"; capacities develop as in `Model/Policy.lean`.
* `into_inner(len)` and `clear(len)` require that `len` elements exist. A violation is the result `none` in the
  model: nothing is claimed about what happens then.
* after `clear` the positions below the capacity hold elements without a value again.
* `reserve_maximum_capacity(current_len, n)` never lowers the maximum capacity; `FixedVec` refuses.

`vec_range_limits` clamps both ends to the length (doc tests `src/vec.rs:194-210`).

### 3.4 The weak memory model (C41)

`Weak/Model.lean` is an operational, view-based version of the release/acquire/relaxed fragment of C++20 with
`po ∪ rf` acyclic (RC11):

* one modification order per atomic location; a load reads any message not older than the reader's view; release
  messages carry the writer's view; read-modify-writes read the message directly before their own and continue release
  sequences; a failed `compare_exchange` is a load with the failure ordering.
* `SeqCst` is treated as acquire/release, fences do not occur in the code. Load buffering (reading a message
  before it is written) is excluded.
* a store that could be placed elsewhere than at the end of the modification order is reported as an error
  (`Bad.middle`) and proved impossible.
* non-atomic accesses: the value of a position, and the storage while it grows. Conflicting accesses must be ordered by
  happens-before, a position must be allocated before it is touched; everything else is `Bad`.
* calls do not belong to threads: each call starts with the knowledge of an arbitrary set of finished calls. This covers
  every assignment of calls to threads and every synchronisation outside of the vector, also less than
  program order guarantees.
* the values read are those of the last access in the execution; by race freedom this is the only value
  the memory model allows.
* nothing is assumed about when a write becomes visible. Only `C54_ends` needs it, as a part of `StronglyFair`: who is able to
  get ahead again and again, by reading some message they may read, does so again and again. `C54_needs_visibility` shows that
  fair scheduling without it is not enough (the language standards only recommend visibility in finite time).
* `reserve_maximum_capacity` is a step of the weak executions (`Step.reserveMax`). It needs `&mut self`, so no call is running. The borrow
  checker also makes all later calls happen after it; the model only lets them read the new maximum capacity.
* the functions of `Model/Owned.lean` need `&mut self` or the vector itself. They are not steps of the weak executions; C58 is about calling one
  of them after an execution. `Cfg.Exclusive`: all calls have ended and happen before (by the borrow checker, the vector is given back by
  synchronisation). `Cfg.Observes`: what is found in the memory, from each atomic location any message that is not older than what is known.
  Their accesses are to atomics through `&mut` or by `load` with any ordering; no ordering is assumed for them.
* comparisons (C60): a comparison happens after some ended calls on its two vectors (`Cmp.hb`); every call it makes happens after these and
  after its earlier calls on the same vector side. What a thread learns about one vector by using another one meanwhile is left out, so
  that there are only more executions. A moment of C60 is a point in the order of execution, which extends happens-before.
* all interleavings of `Model/Conc.lean` are among the executions of this model (C64). So it does not leave out executions by mistake that an
  interleaving has, and the deviations of section 4 occur under weak memory as well (theorems `…_weak_negation`,
  `C20_weak_false_in_bounds`, `C22_weak_starvation`, `C21_weak_self_hangs`, `C22_weak_opposite_swaps_deadlock`, `C43_weak_final`,
  `C51_weak_hangs`).
* "one after the other" in C59 means: the end of every earlier call happens before the start of the next (`InTurn`). The maximum capacity may be raised
  in between; the operations have to fit into the one at the beginning (the theorem can be applied again from the point after raising it).

### 3.5 Not modelled

* out-of-memory. The executions of C01–C48 have an unbounded counter of positions; `C49_bounded_partial` and
  `C49_weak_bounded_partial` say when a machine execution is one of these. The arithmetic of the crate itself is unbounded in
  all theorems but those of C63, which say that it makes no difference (interleavings and weak memory, calls on one vector). Sums that the
  dependencies compute stay unbounded: `idx + 1` of the growth of the storage, the limits of a range (`..=usize::MAX`, an
  excluded start), and the counters of `position` and `enumerate` of iterators.
* the `Drop` code itself (of the vector, of overwritten values, of consumed iterators). C50 says which values are in the vector,
  handed out or overwritten, each exactly once; that the overwritten ones are then dropped once is Rust's assignment semantics.
* in `Model/Vec.lean`, `T::clone` is the identity on values, `T::fmt` is a total function, `T::eq` is a total function except in
  `vec == [T]` and `slice == [T]`, where it may panic, and closures have no state of their own. C53 removes these restrictions for
  all functions that hand elements to user code; `elem == T` with a `T::eq` that panics is `elem.map`. The closures of calls on
  one element are called once, so state does not matter.
* A closure or iterator that calls back into the
  same vector is covered as follows: the inner calls are calls of their own, made while the outer call makes no step, and the
  function given to the outer call is the one that returns what the closure returned. The safety properties hold for all such
  executions; whether the inner call can end is C51 for growth calls and C52 for calls on elements (a closure that accesses the
  element it is called on blocks forever, `C52_own_element_hangs`).
* lazy iterators are consumed completely by the call that creates them. A lazy iterator over a vector fixes its
  positions when it is created, so one that is consumed step by step, or only in part, behaves like `iter` followed
  by one element call (`cloned`, `map`) per step; these are covered as separate calls. The lazy `chunks` of the
  vector evaluates `slice` per step, likewise a separate call.
* comparison of two concurrent vectors, slices or elements with each other is not part of `Op`: a comparison is a sequence of calls on
  two vectors (`Model/Compare.lean`, `Weak/Compare.lean`).
* `Send`/`Sync` bounds, lifetimes: that safe Rust code obeys them is represented by `Op.needs`.
* user code that writes through raw pointers.
* `Default` and the other trait implementations without behaviour of their own.

## 4. Where the code deviates from the expected property

Each is a theorem about the model, with a concrete execution or for all executions.

| theorem | what happens |
|---|---|
| `C21_self_swap_hangs`, `C21_self_swap_never_true` | `swap(i, i)` never returns (blocking handle), or returns `false` (single attempt) |
| `C22_opposite_swaps_deadlock` | `swap(i, j)` and `swap(j, i)` can block each other forever |
| `C22_starvation` | a call waiting for an element may wait forever if others keep using it, even with fair scheduling (with strongly fair scheduling it does not, `C22_strongly_fair`) |
| `C20_false_in_bounds`, `C32…C36_reader_negation` | an element that another call is reading does not count for `len()` if no earlier `len()` counted it: completed pushes are missed by `len`, `get`, `iter`, `fill`, `==`, `clone`, … |
| `C24_negation` | a panic in the closure of `push_for_idx` at the first unallocated position disables growth forever (all later growth calls spin) |
| `C51_hangs`, `C51_negation` | the closure of `push_for_idx` runs before storage for its position exists: if this is the first unallocated position, every other growth call waits until the closure returns; `vec.push_for_idx(\|_\| { vec.push(8); 7 })` on a full vector never returns |
| `C52_own_element_hangs` | a closure of `map` or `update` that calls a method of the element it is called on never returns: `vec[0].map(\|_\| vec[0].cloned())` |
| `C26_always_fails` | after a push that failed for lack of capacity, `into_inner`, `to_vec`, `into_iter` and `clear` always ask the storage for more elements than exist |
| `C43_always` | after such a push, raising the maximum capacity does not make growth work again |
| `C36_no_snapshot` | a copy made while others write need not be the content at any moment |
| `C55_snapshot_negation` | `a == b` can return `true` although `a` and `b` differ at every moment, if others write meanwhile |
| `C56_self_hangs` | `a == a` never ends if `a` has an element; likewise `a[0] == a[0]`, `a == a.slice(0..1)`, … (under the assumption of 3.3 on the comparison of two elements) |
| `C56_opposite_hangs`, `C56_negation` | `a == b` in one thread and `b == a` in another can block each other forever (same assumption) |
| `C60_self_hangs`, `C61_opposite_hangs`, `C61_negation` | the same in the weak memory model |
| `C40_reader_hides` | `get_ref`/`get_raw` may answer `None` for an element that is being read |
| `C40_writer_races` | a reference obtained by `get_ref` races with a safe `set` of another thread (the functions are `unsafe` and say so) |
| `C41_relaxed_pointer_races` | a pointer obtained with a relaxed load (as assumed for `get_raw_mut()`, used by `get_mut`, `iter_mut`) is not ordered after the initialisation of the element: reading through it races with the `push`, unless the user synchronises by other means |
| `C45_no_value` | `From<pinned vector>` with an element without a value: `get` hands it out and its methods panic with the internal message |
| `C62_negation` | `let i = vec.push(x)` returned, and `vec.get(i)` is `None`, `vec[i]` panics, `vec.len() <= i`, as long as a `push` of another thread that began earlier has not finished; `vec.get_cloned(i)` returns `x` |
| `C49_negation`, `C49_weak_negation` | `extend(0..usize::MAX)`, a safe call that cannot succeed, makes the counter of positions wrap around; a concurrent `push` then overwrites element 0 |

## 5. Checking the theorems against wrong programs

`seeded/LOG.jsonl`: edits of the model as a realistic bug would make them, each built in a scratch copy, with the
theorems that failed. Because all theorems about concurrent executions rest on one invariant proof, a wrong program usually
breaks a lemma of that proof first; the log names this lemma and the property theorems that depend on it and whose
claim the edit makes false.
