import Verif.Model.Solo
import Verif.Model.Conc
import Verif.Model.Policy

/-!
# Functions that own the vector

Construction, consumption and clearing: `src/new.rs`, `src/vec.rs:80-91,415-419`, `src/to_vec.rs`, `src/exclusive.rs`,
`src/common_traits/{from_iter,into_iter,clone}.rs`.  They run while nobody else has access to the vector.
-/

namespace Verif

variable {α : Type}

/-- A pinned vector of elements that is not shared, e.g. `SplitVec<ConcurrentElement<T>>`.  An element is a
`ConcurrentOption`: it may have no value (`src/elem.rs:11`; users can make such elements, `src/elem.rs:13-17`). -/
structure Pinned (α : Type) where
  elems : List (Option α)
  cap : Nat
  maxCap : Nat
  pol : Policy

/-- The elements fit into the storage. -/
structure Pinned.Ok (p : Pinned α) : Prop where
  fits : p.elems.length ≤ p.cap
  good : p.pol.good p.cap p.maxCap

/-- `From<P>` / `new_from_pinned` (`src/new.rs:61-73`, `src/vec.rs:415-419`): both lengths are the length of the pinned vector
(`src/state.rs:21-26`); the spare positions are filled with elements without a value (`src/state.rs:17-19`). -/
def Pinned.toShared (p : Pinned α) : Mem α where
  reserved := p.elems.length
  written := p.elems.length
  cap := p.cap
  alloc := p.cap
  maxCap := p.maxCap
  growing := false
  pol := p.pol
  st i := match p.elems[i]? with
    | some (some _) => .SOME
    | _ => .NONE
  val i := (p.elems[i]?).join

/-- `ConcurrentVec::new` (`src/new.rs:8-23`): doubling growth, 32 fragments, the first of which is allocated. -/
def Pinned.new : Pinned α where
  elems := []
  cap := doublingCap 1
  maxCap := doublingCap 32
  pol := .doubling

/-- `ConcurrentVec::with_linear_growth(e, f)` (`src/new.rs:25-43`). -/
def Pinned.withLinearGrowth (e f : Nat) : Pinned α where
  elems := []
  cap := 2 ^ e
  maxCap := f * 2 ^ e
  pol := .linear e

/-- `ConcurrentVec::with_fixed_capacity(c)` (`src/new.rs:45-58`). -/
def Pinned.withFixedCapacity (c : Nat) : Pinned α where
  elems := []
  cap := c
  maxCap := c
  pol := .fixed

/-- `ConcurrentVec::into_inner` (`src/vec.rs:86-91`): passes `state().len()`, i.e. `len_reserved`, to
`PinnedConcurrentCol::into_inner(len)`, whose contract requires that so many elements exist; `none`: the contract is
violated (the storage has fewer elements). -/
def Mem.intoInner (m : Mem α) : Option (Pinned α) :=
  if m.reserved ≤ m.cap then
    some {
      elems := (List.range m.reserved).map fun i => if m.st i = .SOME then m.val i else none
      cap := m.cap
      maxCap := m.maxCap
      pol := m.pol }
  else none

/-- `x.0.expect("unwrapped none")` for every element (`src/to_vec.rs:13-15`). -/
def unwrapAll : List (Option α) → Except PanicKind (List α)
  | [] => .ok []
  | some v :: es => (unwrapAll es).map (v :: ·)
  | none :: _ => .error .unwrapNone

/-- `ConcurrentVec::to_vec` (`src/to_vec.rs:10-17`). -/
def Mem.toVec (m : Mem α) : Option (Except PanicKind (List α)) := m.intoInner.map fun p => unwrapAll p.elems

/-- `ConcurrentVec::into_iter` (`src/common_traits/into_iter.rs:13-20`): the elements still to come. -/
def Mem.intoIter (m : Mem α) : Option (List (Option α)) := m.intoInner.map Pinned.elems

/-- `ElementValuesIter::next` (`src/common_traits/into_iter.rs:55-57`): result and the elements still to come. -/
def valuesNext : List (Option α) → Except PanicKind (Option α) × List (Option α)
  | [] => (.ok none, [])
  | some v :: es => (.ok (some v), es)
  | none :: es => (.error .unwrapNone, es)

/-- `ConcurrentVec::clear` (`src/exclusive.rs:9-11`): `PinnedConcurrentCol::clear(len)` with `len = state().len()`, i.e.
`len_reserved`, drops the elements at the positions below `len` and leaves elements without a value there, and the lengths
become 0 (`src/state.rs:28-36`). The storage may keep or release capacity (`cap`, `maxCap`: the capacities afterwards).
`none`: the contract (so many elements exist) is violated. -/
def Mem.clear (m : Mem α) (cap maxCap : Nat) : Option (Mem α) :=
  if m.reserved ≤ m.cap then
    some { m with
      reserved := 0
      written := 0
      cap := cap
      alloc := cap
      maxCap := maxCap
      st := fun i => if i < m.reserved then .NONE else m.st i
      val := fun i => if i < m.reserved then none else m.val i }
  else none

/-- `for x in iter { vec.push(x) }` (`src/common_traits/from_iter.rs:13-15`); an item `none`: `next` panics. -/
def CVec.pushAll : List (Option α) → Prog α Unit
  | [] => pure ()
  | some v :: items => do
    let _ ← CVec.push v
    pushAll items
  | none :: _ => .panic .userCode

/-- `from_iter` (`src/common_traits/from_iter.rs:3-20`) on the new vector; `lo`, `hi`: the size hint. -/
def CVec.fromIter (items : List (Option α)) (lo : Nat) (hi : Option Nat) : Prog α Unit :=
  if hi = some lo then do
    let _ ← CVec.extendN items lo
    pure ()
  else pushAll items

/-- `collect()` into a new vector: nobody else has access to it before `from_iter` returns. -/
def collect (items : List (Option α)) (lo : Nat) (hi : Option Nat) : Out Unit × Mem α :=
  (CVec.fromIter items lo hi).solo Pinned.new.toShared

end Verif
