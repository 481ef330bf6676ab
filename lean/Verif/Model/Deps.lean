import Verif.Model.Prog

/-!
# The dependencies, as far as the crate uses them

`orx-concurrent-option` (one element) and `orx-pinned-concurrent-col` (storage and growth).  Their sources are
not part of the repository; these definitions state the behaviour that the rest of the model assumes of them
(see DESIGN.md, trusted base).
-/

namespace Verif

variable {α β : Type}

/-! ## `WritePermit` decisions: these two functions are code of the crate -/

/-- `orx_pinned_concurrent_col::WritePermit` (imported at `src/state.rs:7`). -/
inductive WritePermit where
  | JustWrite
  | GrowThenWrite
  | Spin
deriving DecidableEq, Repr

/-- `ConcurrentVecState::write_permit` (`src/state.rs:38-53`), after the load of the capacity. -/
def writePermit (capacity idx : Nat) : WritePermit :=
  match compare idx capacity with
  | .lt => .JustWrite
  | .eq => .GrowThenWrite
  | .gt => .Spin

/-- `ConcurrentVecState::write_permit_n_items` (`src/state.rs:55-72`), after the load of the capacity. -/
def writePermitN (capacity beginIdx numItems : Nat) : WritePermit :=
  let lastIdx := beginIdx + numItems - 1
  match compare beginIdx capacity, compare lastIdx capacity with
  | _, .lt => .JustWrite
  | .gt, _ => .Spin
  | _, _ => .GrowThenWrite

/-! ## `ConcurrentOption` -/

namespace COpt

/-- Blocking acquisition of the handle `SOME -> SOME` of the element at `i`: spin on
`compare_exchange(SOME, RESERVED, Acquire, Relaxed)` while the byte is `RESERVED`; `false` if it is `NONE`.
(dependency; used by every element operation, `src/elem.rs:42,67,99,126,149,174`, `src/vec.rs:311`). -/
def lock (i : Nat) : Prog α Bool := do
  let r ← spin (.stCas i .SOME .RESERVED .acquire .relaxed)
    (fun (r : Option CState) => r == some .RESERVED)
  pure ((show Option CState from r).isNone)

/-- Non-blocking variant: a single `compare_exchange`. Only used for the `tryOnce` reading of
`ConcurrentOption::mut_handle`, see `MutMode`. -/
def tryLock (i : Nat) : Prog α Bool := do
  let r ← act (.stCas i .SOME .RESERVED .acquire .relaxed)
  pure ((show Option CState from r).isNone)

/-- `Drop` of a handle with success state `SOME` (dependency): `store(SOME, Release)`. -/
def unlock (i : Nat) : Prog α Unit := act (.stStore i .SOME .release)

/-- `ConcurrentOption::clone_into_option` (dependency; `src/vec.rs:311`, `src/elem.rs:42,67`).
`T::clone` is the identity on the modelled values. -/
def cloneIntoOption (i : Nat) : Prog α (Option α) := do
  if ← lock i then
    let v ← act (.valRead i)
    unlock i
    pure (some v)
  else pure none

/-- `ConcurrentOption::map` (dependency; `src/elem.rs:99`). The closure runs under the handle; if it panics
(`f v = none`) the handle is dropped while unwinding. -/
def map (f : α → Option β) (i : Nat) : Prog α (Option β) := do
  if ← lock i then
    let v ← act (.valRead i)
    unlock i
    match f v with
    | some b => pure (some b)
    | none => .panic .userCode
  else pure none

/-- `ConcurrentOption::is_some_and` (dependency; `src/common_traits/eq.rs:94`). As in `map`, the closure may panic. -/
def isSomeAnd (f : α → Option Bool) (i : Nat) : Prog α Bool := do
  if ← lock i then
    let v ← act (.valRead i)
    unlock i
    match f v with
    | some b => pure b
    | none => .panic .userCode
  else pure false

/-- `ConcurrentOption::replace` (dependency; `src/elem.rs:126`). -/
def replace (i : Nat) (v : α) : Prog α (Option α) := do
  if ← lock i then
    let old ← act (.valRead i)
    act (.valWrite i v)
    unlock i
    pure (some old)
  else pure none

/-- `ConcurrentOption::set_some` (dependency; `src/elem.rs:149`). -/
def setSome (i : Nat) (v : α) : Prog α Bool := do
  if ← lock i then
    act (.valWrite i v)
    unlock i
    pure true
  else pure false

/-- `ConcurrentOption::update_if_some` (dependency; `src/elem.rs:171-175`). The closure mutates the value in
place: `f v = (v', ok)`; with `ok = false` the closure panics after having left `v'` in place, and the handle
is dropped while unwinding. -/
def updateIfSome (f : α → α × Bool) (i : Nat) : Prog α Bool := do
  if ← lock i then
    let v ← act (.valRead i)
    act (.valWrite i (f v).1)
    unlock i
    if (f v).2 then pure true else .panic .userCode
  else pure false

/-- `ConcurrentOption::initialize_unchecked` (dependency; `src/grow.rs:129,162,325,444`): write the value, then
`store(SOME, Release)`. -/
def init (i : Nat) (v : α) : Prog α Unit := do
  act (.valWrite i v)
  act (.stStore i .SOME .release)

/-- `get_raw_with_order(SeqCst)`, `as_ref_with_order(SeqCst)`, `get_raw_mut_with_order(SeqCst)`, `get_raw_mut()`
(dependency; `src/unsafe_api.rs:46,162,273,311,367,423`): a pointer to the value iff the byte is `SOME`.
The pointer is represented by the position. -/
def getRaw (o : MOrd) (i : Nat) : Prog α (Option Nat) := do
  let s ← act (.stLoad i o)
  pure (if (show CState from s) = .SOME then some i else none)

end COpt

/-! ## `PinnedConcurrentCol` -/

namespace Col

/-- `PinnedConcurrentCol::get` (dependency; `src/vec.rs:285,310`): bounds check against the capacity. -/
def get (i : Nat) : Prog α (Option Nat) := do
  let c ← act (.capLoad .acquire)
  pure (if i < (show Nat from c) then some i else none)

/-- `assert_has_capacity_for` (dependency): panics unless `idx < maximum_capacity`. -/
def assertHasCapacityFor (idx : Nat) : Prog α Unit := do
  let m ← act .maxCapLoad
  if idx < (show Nat from m) then pure () else .panic .maxCapacity

/-- `PinnedConcurrentCol::grow_to` / `grow_to_and_fill_with` (dependency). -/
def growTo (n : Nat) : Prog α Unit := do
  let c ← act (.capLoad .acquire)
  if n ≤ (show Nat from c) then pure ()
  else
    let m ← act .maxCapLoad
    if n ≤ (show Nat from m) then
      act (.growAlloc n)
      act (.growPublish .release)
    else .panic .growFailed

/-- `PinnedConcurrentCol::single_item_as_ref` (dependency; `src/grow.rs:128,161`): loop on the write permit
of `src/state.rs:38-53`. -/
def singleItem (idx : Nat) : Prog α Unit := do
  assertHasCapacityFor idx
  let c ← spin (.capLoad .acquire) (fun (c : Nat) => writePermit c idx == .Spin)
  match writePermit (show Nat from c) idx with
  | .JustWrite => pure ()
  | .GrowThenWrite => growTo (idx + 1)
  | .Spin => pure ()

/-- `PinnedConcurrentCol::n_items_buffer_as_slices` (dependency; `src/grow.rs:314,436`): loop on the write
permit of `src/state.rs:55-72`; with `num_items = 0` it yields no slices and does nothing. -/
def nItems (beginIdx numItems : Nat) : Prog α Unit := do
  if numItems = 0 then pure ()
  else
    assertHasCapacityFor (beginIdx + numItems - 1)
    let c ← spin (.capLoad .acquire) (fun (c : Nat) => writePermitN c beginIdx numItems == .Spin)
    match writePermitN (show Nat from c) beginIdx numItems with
    | .JustWrite => pure ()
    | .GrowThenWrite => growTo (beginIdx + numItems)
    | .Spin => pure ()

end Col

/-- `core::ops::Bound<usize>`. -/
inductive Bnd where
  | incl (n : Nat)
  | excl (n : Nat)
  | unb
deriving DecidableEq, Repr

/-- A range argument `R: RangeBounds<usize>` (`src/vec.rs:217`, `src/concurrent_slice/slice.rs:114`). -/
structure Rng where
  lo : Bnd
  hi : Bnd
deriving DecidableEq, Repr

/-- `lo..hi` -/
def Rng.co (lo hi : Nat) : Rng := ⟨.incl lo, .excl hi⟩
/-- `lo..` -/
def Rng.from (lo : Nat) : Rng := ⟨.incl lo, .unb⟩

/-- `orx_pinned_vec::utils::slice::vec_range_limits(&range, Some(len))` (dependency; `src/vec.rs:218`,
`src/concurrent_slice/slice.rs:115`). The doc tests `src/vec.rs:194-210` and
`src/concurrent_slice/slice.rs:91-107` fix the clamping of both ends. -/
def rangeLimits (r : Rng) (len : Nat) : Nat × Nat :=
  let start := match r.lo with
    | .incl n => n
    | .excl n => n + 1
    | .unb => 0
  let stop := match r.hi with
    | .incl n => n + 1
    | .excl n => n
    | .unb => len
  let b := min stop len
  (min start b, b)

end Verif
