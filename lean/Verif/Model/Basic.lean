/-!
# Memory, primitive actions

The shared state of one `ConcurrentVec` and the primitive steps its functions are made of.
Every primitive step is atomic; everything the Rust code does between two primitive steps is local.
-/

namespace Verif

/-- State byte of a `ConcurrentOption` (dependency `orx-concurrent-option`; the constant `SOME` is used in
`src/mut_elem.rs:2,31,32` and the type `StateU8` in `src/helpers.rs:3,27,28`).
`RESERVED` is the value written while a handle (lock) on the value exists. -/
inductive CState where
  | NONE
  | RESERVED
  | SOME
deriving DecidableEq, Repr

/-- `core::sync::atomic::Ordering`. Ignored by the interleaving semantics, used by the weak-memory one. -/
inductive MOrd where
  | relaxed
  | acquire
  | release
  | acqRel
  | seqCst
deriving DecidableEq, Repr

/-- Reasons for a panic. -/
inductive PanicKind where
  /-- `assert_has_capacity_for` of PinnedConcurrentCol: maximum capacity reached (`src/grow.rs:13-18,188-193`). -/
  | maxCapacity
  /-- the pinned vector refused to grow although the maximum capacity is not reached (dependency). -/
  | growFailed
  /-- `"provided iterator is shorter than expected num_items"` (`src/grow.rs:324,443`). -/
  | iterTooShort
  /-- `assert_eq!(values.len(), num_items)` (`src/grow.rs:318`). -/
  | iterLenMismatch
  /-- a panic raised by user code (closure, iterator). -/
  | userCode
  /-- `HAS_VALUE`: "ConcurrentElement must always have a value" (`src/elem.rs:42,67,99,126,180`). -/
  | noValue
  /-- `"Failed to set the element"` (`src/elem.rs:149`). -/
  | setFailed
  /-- `"Failed to update the element"` (`src/elem.rs:174`). -/
  | updateFailed
  /-- `"out-of-bounds"` (`src/common_traits/index.rs:21,41`). -/
  | outOfBounds
  /-- `assert!(mid <= len)` (`src/split.rs:28`, `src/concurrent_slice/split.rs:35`). -/
  | splitMid
  /-- `assert!(chunk_size > 0)` (`src/split.rs:126`, `src/concurrent_slice/split.rs:136`). -/
  | chunkZero
  /-- `"unwrapped none"` / `unwrap` on a `None` element while consuming (`src/to_vec.rs:14`,
  `src/common_traits/into_iter.rs:56`). -/
  | unwrapNone
deriving DecidableEq, Repr

/-- Growth policy of the pinned vector (dependencies `orx-split-vec`, `orx-fixed-vec`; chosen in
`src/new.rs:20-22,34-42,55-57`). Abstract over the policy; the laws are the contract the rest of the
model relies on.  Instances: `Policy.fixed`, `Policy.linear`, `Policy.doubling` in `Model/Policy.lean`. -/
structure Policy where
  /-- `grow c n`: capacity after growing a vector of capacity `c` to hold `n` elements. -/
  grow : Nat → Nat → Nat
  /-- `reserve m n`: maximum capacity after requesting a maximum of `n` when it is `m`. -/
  reserve : Nat → Nat → Nat
  /-- `good c m`: `c` and `m` are a possible capacity and maximum capacity. -/
  good : Nat → Nat → Prop
  good_le : ∀ {c m}, good c m → c ≤ m
  grow_ok : ∀ {c m n}, good c m → c < n → n ≤ m → n ≤ grow c n ∧ grow c n ≤ m ∧ good (grow c n) m
  reserve_ok : ∀ {c m} (n), good c m → m ≤ reserve m n ∧ good c (reserve m n)

/-- Shared memory of a `ConcurrentVec` (`src/vec.rs:71-76`, `src/state.rs:11-14`).
Positions are natural numbers; `usize` overflow of the counters is not modelled. -/
structure Mem (α : Type) where
  /-- `ConcurrentVecState::len_reserved` (`src/state.rs:12`). -/
  reserved : Nat
  /-- `ConcurrentVecState::len_written` (`src/state.rs:13`). -/
  written : Nat
  /-- published capacity of the concurrent pinned vector (`core.capacity()`). -/
  cap : Nat
  /-- storage that has been allocated; differs from `cap` only while some call is growing. -/
  alloc : Nat
  /-- `core.maximum_capacity()`. -/
  maxCap : Nat
  /-- a call is between allocation and publication of the new capacity. -/
  growing : Bool
  /-- growth policy. -/
  pol : Policy
  /-- state byte of the `ConcurrentOption` at a position. -/
  st : Nat → CState
  /-- value storage (`MaybeUninit`) of the `ConcurrentOption` at a position; `none` = uninitialised. -/
  val : Nat → Option α

/-- Pointwise update of a function. -/
def upd {β : Type} (f : Nat → β) (i : Nat) (b : β) : Nat → β := fun j => if j = i then b else f j

@[simp] theorem upd_same {β : Type} (f : Nat → β) (i : Nat) (b : β) : upd f i b i = b := by simp [upd]
@[simp] theorem upd_other {β : Type} (f : Nat → β) {i j : Nat} (b : β) (h : j ≠ i) :
    upd f i b j = f j := by simp [upd, h]
theorem upd_apply {β : Type} (f : Nat → β) (i j : Nat) (b : β) :
    upd f i b j = if j = i then b else f j := rfl

/-- Primitive actions: one atomic step each. -/
inductive Act (α : Type) where
  /-- `len_reserved.fetch_add(n, o)` -/
  | resFetchAdd (n : Nat) (o : MOrd)
  /-- `len_reserved.load(o)` -/
  | resLoad (o : MOrd)
  /-- `len_written.load(o)` -/
  | writtenLoad (o : MOrd)
  /-- `len_written.fetch_max(n, o)` -/
  | writtenFetchMax (n : Nat) (o : MOrd)
  /-- load of the capacity of the concurrent pinned vector -/
  | capLoad (o : MOrd)
  /-- read of the (constant while shared) maximum capacity -/
  | maxCapLoad
  /-- allocate (and fill with `NONE` elements, `src/state.rs:17-19`) storage for at least `n` elements -/
  | growAlloc (n : Nat)
  /-- publish the capacity of the allocated storage -/
  | growPublish (o : MOrd)
  /-- load of the state byte of position `i` -/
  | stLoad (i : Nat) (o : MOrd)
  /-- `compare_exchange(exp, new, ok, fail)` on the state byte of position `i` -/
  | stCas (i : Nat) (exp new : CState) (ok fail : MOrd)
  /-- store to the state byte of position `i` -/
  | stStore (i : Nat) (s : CState) (o : MOrd)
  /-- non-atomic read of the value of position `i` -/
  | valRead (i : Nat)
  /-- non-atomic write of the value of position `i` -/
  | valWrite (i : Nat) (v : α)
  /-- `core::mem::swap` of the values of positions `i` and `j` -/
  | valSwap (i j : Nat)

/-- Type of the response of an action. For `stCas`: `none` = success, `some s` = failure, the byte was `s`. -/
@[reducible] def Act.Resp {α : Type} : Act α → Type
  | .resFetchAdd _ _ => Nat
  | .resLoad _ => Nat
  | .writtenLoad _ => Nat
  | .writtenFetchMax _ _ => Unit
  | .capLoad _ => Nat
  | .maxCapLoad => Nat
  | .growAlloc _ => Unit
  | .growPublish _ => Unit
  | .stLoad _ _ => CState
  | .stCas _ _ _ _ _ => Option CState
  | .stStore _ _ _ => Unit
  | .valRead _ => α
  | .valWrite _ _ => Unit
  | .valSwap _ _ => Unit

/-- Sequentially consistent effect of an action. `none` = undefined behaviour: touching a position
beyond the published capacity, reading an uninitialised value, growing while another call is growing,
publishing a capacity without having allocated. -/
def Act.exec {α : Type} : (a : Act α) → Mem α → Option (Mem α × a.Resp)
  | .resFetchAdd n _, m => some ({ m with reserved := m.reserved + n }, m.reserved)
  | .resLoad _, m => some (m, m.reserved)
  | .writtenLoad _, m => some (m, m.written)
  | .writtenFetchMax n _, m => some ({ m with written := max m.written n }, ())
  | .capLoad _, m => some (m, m.cap)
  | .maxCapLoad, m => some (m, m.maxCap)
  | .growAlloc n, m =>
      if m.growing then none
      else
        let a := m.pol.grow m.cap n
        some ({ m with
          growing := true
          alloc := a
          st := fun i => if m.alloc ≤ i ∧ i < a then .NONE else m.st i
          val := fun i => if m.alloc ≤ i ∧ i < a then none else m.val i }, ())
  | .growPublish _, m =>
      if m.growing then some ({ m with growing := false, cap := m.alloc }, ()) else none
  | .stLoad i _, m => if i < m.cap then some (m, m.st i) else none
  | .stCas i e n _ _, m =>
      if i < m.cap then
        if m.st i = e then some ({ m with st := upd m.st i n }, none)
        else some (m, some (m.st i))
      else none
  | .stStore i s _, m => if i < m.cap then some ({ m with st := upd m.st i s }, ()) else none
  | .valRead i, m =>
      if i < m.cap then
        match m.val i with
        | some v => some (m, v)
        | none => none
      else none
  | .valWrite i v, m => if i < m.cap then some ({ m with val := upd m.val i (some v) }, ()) else none
  | .valSwap i j, m =>
      if i < m.cap ∧ j < m.cap then
        match m.val i, m.val j with
        | some v, some u => some ({ m with val := upd (upd m.val i (some u)) j (some v) }, ())
        | _, _ => none
      else none

end Verif
