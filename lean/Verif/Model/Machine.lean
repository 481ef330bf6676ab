import Verif.Model.Wrap

/-!
# Machine arithmetic

`Model/Vec.lean` computes with unbounded numbers. Here are the functions of the crate that add, subtract or multiply `usize` values, and those
that call them, once more with machine arithmetic: exact when the result is representable, otherwise a panic (debug builds) or any number
(release builds wrap around). The numbers that the dependencies compute with (`idx + 1` of the growth, the limits of a range, the positions an
iterator of the storage visits, `position` and `enumerate` of iterators) stay unbounded.
-/

namespace Verif

variable {α β : Type} {W : Nat}

/-- `+`, `-`, `*` of a `usize` with `W` values, as used at `src/state.rs:65`, `src/vec.rs:132,136,219`, `src/split.rs:93-94,130-140`,
`src/concurrent_slice/slice.rs:33,116-117,165,194,265,296`, `src/concurrent_slice/split.rs:102-103,140-150`,
`src/concurrent_slice/unsafe_api.rs:256,402`. Nothing is said about results that are not representable: they are a panic (`error`) or any number. -/
structure Arith (W : Nat) where
  add : Nat → Nat → Except PanicKind Nat
  sub : Nat → Nat → Except PanicKind Nat
  mul : Nat → Nat → Except PanicKind Nat
  add_eq : ∀ a b, a + b < W → add a b = .ok (a + b)
  sub_eq : ∀ a b, b ≤ a → sub a b = .ok (a - b)
  mul_eq : ∀ a b, a * b < W → mul a b = .ok (a * b)

/-- A result of machine arithmetic as a program (`src/vec.rs:136` and the other places listed at `Arith`). -/
def num : Except PanicKind Nat → Prog α Nat
  | .ok n => pure n
  | .error k => .panic k

namespace Machine

/-- The loop of `len` (`src/vec.rs:129-135`) over `k` positions from `i`, `n` of which were counted so far. -/
def counted (A : Arith W) : Nat → Nat → Nat → Prog α Nat
  | _, 0, n => pure n
  | i, k + 1, n => do
    let s ← act (.stLoad i .relaxed)
    if (show CState from s) = .SOME then do
      let n' ← num (A.add n 1)
      counted A (i + 1) k n'
    else pure n

/-- `ConcurrentVec::len` (`src/vec.rs:119-141`). -/
def len (A : Arith W) : Prog α Nat := do
  let len ← act (.writtenLoad .acquire)
  let cap ← act (.capLoad .acquire)
  let lenReserved ← act (.resLoad .relaxed)
  let len : Nat := len
  let untilIdx : Nat := if (show Nat from lenReserved) ≤ (show Nat from cap) then lenReserved else cap
  let numPushed ← counted A len (untilIdx - len) 0
  let newLen ← num (A.add len numPushed)
  act (.writtenFetchMax newLen .release)
  pure newLen

/-- `ConcurrentVec::slice` (`src/vec.rs:217-221`). -/
def slice (A : Arith W) (r : Rng) : Prog α Slc := do
  let n ← len A
  let ab := rangeLimits r n
  let k ← num (A.sub ab.2 ab.1)
  pure ⟨ab.1, k⟩

/-- `ConcurrentVec::as_slice` (`src/vec.rs:241-243`). -/
def asSlice (A : Arith W) : Prog α Slc := do
  let n ← len A
  slice A (.co 0 n)

/-- `ConcurrentVec::get` (`src/vec.rs:283-288`). -/
def get (A : Arith W) (i : Nat) : Prog α (Option Nat) := do
  let n ← len A
  if i < n then Col.get i else pure none

/-- `ConcurrentVec::iter` (`src/vec.rs:376-378`). -/
def iter (A : Arith W) : Prog α (List Nat) := do
  let n ← len A
  pure (positions 0 n)

/-- `Index for ConcurrentVec` (`src/common_traits/index.rs:20-22`). -/
def index (A : Arith W) (i : Nat) : Prog α Nat := do
  match ← get A i with
  | some e => pure e
  | none => .panic .outOfBounds

/-- `ConcurrentVecState::write_permit_n_items` (`src/state.rs:55-72`), after the computation of `last_idx`. -/
def permitN (capacity beginIdx lastIdx : Nat) : WritePermit :=
  match compare beginIdx capacity, compare lastIdx capacity with
  | _, .lt => .JustWrite
  | .gt, _ => .Spin
  | _, _ => .GrowThenWrite

/-- `PinnedConcurrentCol::n_items_buffer_as_slices` (dependency; `src/grow.rs:314,436`). `last_idx` (`src/state.rs:65`) does not depend on the
capacity that was loaded and is computed once, before the loop. -/
def nItems (A : Arith W) (beginIdx numItems : Nat) : Prog α Unit := do
  if numItems = 0 then pure ()
  else
    let endIdx ← num (A.add beginIdx numItems)
    let lastIdx ← num (A.sub endIdx 1)
    Col.assertHasCapacityFor lastIdx
    let c ← spin (.capLoad .acquire) (fun (c : Nat) => permitN c beginIdx lastIdx == .Spin)
    match permitN (show Nat from c) beginIdx lastIdx with
    | .JustWrite => pure ()
    | .GrowThenWrite => Col.growTo endIdx
    | .Spin => pure ()

/-- `ConcurrentVec::extend_n_items` (`src/grow.rs:431-449`). -/
def extendN (A : Arith W) (items : List (Option α)) (n : Nat) : Prog α Nat := do
  let b ← act (.resFetchAdd n .relaxed)
  nItems A b n
  CVec.writeItems b n items
  pure b

/-- `ConcurrentVec::extend_for_idx` (`src/grow.rs:308-330`). -/
def extendForIdx (A : Arith W) (f : Nat → Option (Iter α)) (n : Nat) : Prog α Nat := do
  let b ← act (.resFetchAdd n .relaxed)
  nItems A b n
  match f b with
  | some it =>
    if it.hint = n then do
      CVec.writeItems b n it.items
      pure b
    else .panic .iterLenMismatch
  | none => .panic .userCode

/-- `ConcurrentVec::mut_handle` (`src/helpers.rs:24-38`). -/
def mutHandle (A : Arith W) (m : MutMode) (i : Nat) : Prog α (Option Nat) := do
  let n ← len A
  if i < n then
    match ← Col.get i with
    | some e => do
      let ok ← (match m with
        | .spinning => COpt.lock e
        | .tryOnce => COpt.tryLock e)
      pure (if (ok : Bool) then some e else none)
    | none => pure none
  else pure none

/-- `ConcurrentVec::swap` (`src/mut_elem.rs:30-43`). -/
def swap (A : Arith W) (m : MutMode) (i j : Nat) : Prog α Bool := do
  let hi ← mutHandle A m i
  let hj ← mutHandle A m j
  match hi, hj with
  | some i, some j => do
    act (.valSwap i j)
    COpt.unlock j
    COpt.unlock i
    pure true
  | some i, none => do
    COpt.unlock i
    pure false
  | none, some j => do
    COpt.unlock j
    pure false
  | none, none => pure false

/-- `ConcurrentVec::reduce` (`src/iter_shorthands.rs:92-98`), with `ConcurrentSlice::iter` (`src/concurrent_slice/slice.rs:264-267`)
and `reduce` (`src/concurrent_slice/iter_shorthands.rs:92-108`). -/
def reduce (A : Arith W) (f : α → α → Option α) : Prog α (Option α) := do
  let s ← asSlice A
  let b ← num (A.add s.a s.len)
  Loop.reduce f (positions s.a (b - s.a))

/-- `ConcurrentVec::clone_to_vec` (`src/to_vec.rs:21-26`), with `ConcurrentSlice::iter_cloned` (`src/concurrent_slice/slice.rs:292-298`). -/
def cloneToVec (A : Arith W) : Prog α (List α) := do
  let s ← asSlice A
  let b ← num (A.add s.a s.len)
  Loop.cloned (positions s.a (b - s.a))

/-- `ConcurrentVec::split_at` (`src/split.rs:27-30`). -/
def splitAt (A : Arith W) (mid : Nat) : Prog α (Slc × Slc) := do
  let n ← len A
  if mid ≤ n then
    let s ← slice A (.co 0 mid)
    let t ← slice A (.from mid)
    pure (s, t)
  else .panic .splitMid

/-- `ConcurrentVec::split_first` (`src/split.rs:55-63`). -/
def splitFirst (A : Arith W) : Prog α (Option (Nat × Slc)) := do
  match ← get A 0 with
  | some a => do
    let n ← len A
    let b ← slice A (.co 1 n)
    pure (some (a, b))
  | none => pure none

/-- `ConcurrentVec::split_last` (`src/split.rs:88-98`). -/
def splitLast (A : Arith W) : Prog α (Option (Nat × Slc)) := do
  let n ← len A
  if n = 0 then pure none
  else
    let e ← num (A.sub n 1)
    let a ← slice A (.co 0 e)
    let e ← num (A.sub n 1)
    let b ← index A e
    pure (some (b, a))

/-- The remainder and the number of chunks (`src/split.rs:129-133`, `src/concurrent_slice/split.rs:139-143`). -/
def chunkCount (A : Arith W) (len k : Nat) : Prog α (Nat × Nat) := do
  let numSlices := len / k
  let x ← num (A.mul numSlices k)
  let remainder ← num (A.sub len x)
  if remainder > 0 then
    let numSlices ← num (A.add numSlices 1)
    pure (remainder, numSlices)
  else pure (remainder, numSlices)

/-- The ends of the `i`-th chunk (`src/split.rs:136-140`, `src/concurrent_slice/split.rs:146-150`). -/
def chunkEnds (A : Arith W) (k remainder numSlices i : Nat) : Prog α Rng := do
  let a ← num (A.mul i k)
  let last ← num (A.sub numSlices 1)
  let b ← num (A.add a (if i = last ∧ remainder > 0 then remainder else k))
  pure (.co a b)

/-- The closure of `ConcurrentVec::chunks` applied to the chunk numbers in turn (`src/split.rs:135-142`). -/
def chunkLoop (A : Arith W) (k remainder numSlices : Nat) : List Nat → Prog α (List Slc)
  | [] => pure []
  | i :: is => do
    let r ← chunkEnds A k remainder numSlices i
    let s ← slice A r
    let ss ← chunkLoop A k remainder numSlices is
    pure (s :: ss)

/-- `ConcurrentVec::chunks` (`src/split.rs:122-143`). -/
def chunks (A : Arith W) (k : Nat) : Prog α (List Slc) := do
  if 0 < k then
    let n ← len A
    let c ← chunkCount A n k
    chunkLoop A k c.1 c.2 (List.range c.2)
  else .panic .chunkZero

/-! ## `src/concurrent_slice/` -/

/-- `ConcurrentSlice::idx` (`src/concurrent_slice/slice.rs:31-36`). -/
def slIdx (A : Arith W) (s : Slc) (i : Nat) : Prog α (Option Nat) :=
  if i < s.len then do
    let p ← num (A.add s.a i)
    pure (some p)
  else pure none

/-- `ConcurrentSlice::slice` (`src/concurrent_slice/slice.rs:114-118`). -/
def slSlice (A : Arith W) (s : Slc) (r : Rng) : Prog α Slc := do
  let ab := rangeLimits r s.len
  let k ← num (A.sub ab.2 ab.1)
  let a ← num (A.add s.a ab.1)
  pure ⟨a, k⟩

/-- `ConcurrentSlice::iter` (`src/concurrent_slice/slice.rs:264-267`); the same for `iter_cloned` (`:292-298`), `iter_ref` and `iter_mut`
(`src/concurrent_slice/unsafe_api.rs:255-259,401-405`). -/
def slIter (A : Arith W) (s : Slc) : Prog α (List Nat) := do
  let b ← num (A.add s.a s.len)
  pure (positions s.a (b - s.a))

/-- `ConcurrentSlice::get` (`src/concurrent_slice/slice.rs:163-168`). -/
def slGet (A : Arith W) (s : Slc) (i : Nat) : Prog α (Option Nat) :=
  if i < s.len then do
    let p ← num (A.add s.a i)
    Col.get p
  else pure none

/-- `ConcurrentSlice::get_cloned` (`src/concurrent_slice/slice.rs:189-197`), `get_copied` (`:215-220`). -/
def slGetCloned (A : Arith W) (s : Slc) (i : Nat) : Prog α (Option α) := do
  if i < s.len then
    let p ← num (A.add s.a i)
    match ← Col.get p with
    | some e => do
      let v ← Elem.cloned e
      pure (some v)
    | none => pure none
  else pure none

/-- `Index for ConcurrentSlice` (`src/common_traits/index.rs:40-42`). -/
def slIndex (A : Arith W) (s : Slc) (i : Nat) : Prog α Nat := do
  match ← slGet A s i with
  | some e => pure e
  | none => .panic .outOfBounds

/-- `ConcurrentSlice::swap` (`src/concurrent_slice/mut_elem.rs:35-43`). -/
def slSwap (A : Arith W) (m : MutMode) (s : Slc) (i j : Nat) : Prog α Bool := do
  let i ← slIdx A s i
  let j ← slIdx A s j
  match i, j with
  | some i, some j => swap A m i j
  | _, _ => pure false

/-- `ConcurrentSlice::get_raw`, `get_ref`, `get_raw_mut`, `get_mut`
(`src/concurrent_slice/unsafe_api.rs:43-45,148-150,292-294,347-349`). -/
def slGetRaw (A : Arith W) (s : Slc) (o : MOrd) (i : Nat) : Prog α (Option Nat) := do
  match ← slIdx A s i with
  | some i => CVec.getRaw o i
  | none => pure none

/-- `ConcurrentSlice::split_at` (`src/concurrent_slice/split.rs:30-37`). -/
def slSplitAt (A : Arith W) (s : Slc) (mid : Nat) : Prog α (Slc × Slc) :=
  if mid ≤ s.len then do
    let a ← slSlice A s (.co 0 mid)
    let b ← slSlice A s (.co mid s.len)
    pure (a, b)
  else .panic .splitMid

/-- `ConcurrentSlice::split_first` (`src/concurrent_slice/split.rs:63-71`). -/
def slSplitFirst (A : Arith W) (s : Slc) : Prog α (Option (Nat × Slc)) := do
  match ← slGet A s 0 with
  | some a => do
    let b ← slSlice A s (.co 1 s.len)
    pure (some (a, b))
  | none => pure none

/-- `ConcurrentSlice::split_last` (`src/concurrent_slice/split.rs:97-107`). -/
def slSplitLast (A : Arith W) (s : Slc) : Prog α (Option (Nat × Slc)) := do
  if s.len = 0 then pure none
  else
    let e ← num (A.sub s.len 1)
    let a ← slSlice A s (.co 0 e)
    let e ← num (A.sub s.len 1)
    let b ← slIndex A s e
    pure (some (b, a))

/-- The closure of `ConcurrentSlice::chunks` applied to the chunk numbers in turn (`src/concurrent_slice/split.rs:145-152`). -/
def slChunkLoop (A : Arith W) (s : Slc) (k remainder numSlices : Nat) : List Nat → Prog α (List Slc)
  | [] => pure []
  | i :: is => do
    let r ← chunkEnds A k remainder numSlices i
    let t ← slSlice A s r
    let ts ← slChunkLoop A s k remainder numSlices is
    pure (t :: ts)

/-- `ConcurrentSlice::chunks` (`src/concurrent_slice/split.rs:132-153`). -/
def slChunks (A : Arith W) (s : Slc) (k : Nat) : Prog α (List Slc) := do
  if 0 < k then
    let c ← chunkCount A s.len k
    slChunkLoop A s k c.1 c.2 (List.range c.2)
  else .panic .chunkZero

end Machine

/-- The slice an operation is called on, if any (`src/concurrent_slice/`). -/
def Op.slc? : Op α β → Option Slc
  | .slLen s | .slIsEmpty s | .slGet s _ | .slIndex s _ | .slGetCloned s _ | .slIter s | .slIterCloned s
  | .slMap s _ | .slFilter s _ | .slFold s _ _ | .slVisit s _ _ | .slReduce s _ | .slIndexOf s _ _
  | .slContains s _ _
  | .slEqList s _ _ | .slDebug s _ | .slSlice s _ | .slSplitAt s _ | .slSplitFirst s | .slSplitLast s
  | .slChunks s _ | .slGetRaw s _ _ | .slIterRef s _ | .slSwap _ s _ _ | .slFill s _ | .slFillWith s _ => some s
  | _ => none

/-- The program of an API call with machine arithmetic. The functions which only loop over `iter()` are spelled out here: `fill`, `fill_with`
(`src/mut_elem.rs:57-90`), `iter_cloned` (`src/vec.rs:401-406`), `map`, `filter`, `fold` (`src/iter_shorthands.rs:22-71`), `index_of`, `contains`
(`src/partial_eq.rs:22-40`), `==` (`src/common_traits/eq.rs:31-41,57-67`), `Debug` (`src/common_traits/debug.rs:11-29`), `is_empty`
(`src/vec.rs:163-165`), and the same for `src/concurrent_slice/`. Operations without arithmetic are those of `Model/Vec.lean`. -/
def Op.progM (A : Arith W) : Op α β → Prog α (Ret α β)
  | .extend it => .nat <$> Machine.extendN A it.items it.hint
  | .extendN items n => .nat <$> Machine.extendN A items n
  | .extendForIdx f n => .nat <$> Machine.extendForIdx A f n
  | .len => .nat <$> Machine.len A
  | .isEmpty => (fun n => .bool (n == 0)) <$> Machine.len A
  | .get i => .elem <$> Machine.get A i
  | .index i => .elem1 <$> Machine.index A i
  | .iter => .elems <$> Machine.iter A
  | .iterCloned => .vals <$> (Machine.iter A >>= Loop.cloned)
  | .map f => .betas <$> (Machine.iter A >>= Loop.map f)
  | .filter f => .elems <$> (Machine.iter A >>= Loop.filter f)
  | .fold f init => .beta <$> (Machine.iter A >>= Loop.fold f init)
  | .visit f init => .beta <$> (Machine.iter A >>= Loop.visit f init)
  | .reduce f => .optVal <$> Machine.reduce A f
  | .indexOf veq v => .optNat <$> (Machine.iter A >>= Loop.position veq v 0)
  | .contains veq v => (fun r => .bool r.isSome) <$> (Machine.iter A >>= Loop.position veq v 0)
  | .cloneToVec => .vals <$> Machine.cloneToVec A
  | .eqList veq vs => .bool <$> (Machine.iter A >>= fun es => Loop.eqList veq es vs)
  | .debug s => .str <$> (Machine.iter A >>= Loop.debug s)
  | .slice r => .slc <$> Machine.slice A r
  | .asSlice => .slc <$> Machine.asSlice A
  | .splitAt mid => (fun p => .slc2 p.1 p.2) <$> Machine.splitAt A mid
  | .splitFirst => .elemSlc <$> Machine.splitFirst A
  | .splitLast => .elemSlc <$> Machine.splitLast A
  | .chunks k => .slcs <$> Machine.chunks A k
  | .swap m i j => .bool <$> Machine.swap A m i j
  | .fill v => (fun _ => .unit) <$> (Machine.iter A >>= Loop.fill v)
  | .fillWith f => (fun _ => .unit) <$> (Machine.iter A >>= Loop.fillWith f 0)
  | .slGet s i => .elem <$> Machine.slGet A s i
  | .slIndex s i => .elem1 <$> Machine.slIndex A s i
  | .slGetCloned s i => .optVal <$> Machine.slGetCloned A s i
  | .slIter s => .elems <$> Machine.slIter A s
  | .slIterCloned s => .vals <$> (Machine.slIter A s >>= Loop.cloned)
  | .slMap s f => .betas <$> (Machine.slIter A s >>= Loop.map f)
  | .slFilter s f => .elems <$> (Machine.slIter A s >>= Loop.filter f)
  | .slFold s f init => .beta <$> (Machine.slIter A s >>= Loop.fold f init)
  | .slVisit s f init => .beta <$> (Machine.slIter A s >>= Loop.visit f init)
  | .slReduce s f => .optVal <$> (Machine.slIter A s >>= Loop.reduce f)
  | .slIndexOf s veq v => .optNat <$> (Machine.slIter A s >>= Loop.position veq v 0)
  | .slContains s veq v => (fun r => .bool r.isSome) <$> (Machine.slIter A s >>= Loop.position veq v 0)
  | .slEqList s veq vs => .bool <$> (Machine.slIter A s >>= fun es => Loop.eqList veq es vs)
  | .slDebug s sh => .str <$> (Machine.slIter A s >>= Loop.debug sh)
  | .slSlice s r => .slc <$> Machine.slSlice A s r
  | .slSplitAt s mid => (fun p => .slc2 p.1 p.2) <$> Machine.slSplitAt A s mid
  | .slSplitFirst s => .elemSlc <$> Machine.slSplitFirst A s
  | .slSplitLast s => .elemSlc <$> Machine.slSplitLast A s
  | .slChunks s k => .slcs <$> Machine.slChunks A s k
  | .slGetRaw s o i => .ptr <$> Machine.slGetRaw A s o i
  | .slIterRef s o => .ptrs <$> (Machine.slIter A s >>= Loop.rawRefs o)
  | .slSwap m s i j => .bool <$> Machine.slSwap A m s i j
  | .slFill s v => (fun _ => .unit) <$> (Machine.slIter A s >>= Loop.fill v)
  | .slFillWith s f => (fun _ => .unit) <$> (Machine.slIter A s >>= Loop.fillWith f 0)
  | op => op.prog

/-- One step of a concurrent execution with machine arithmetic: a call runs the program with machine arithmetic, and the counter of positions
wraps around (`src/state.rs:12`). The first position of a slice is a `usize` (`src/concurrent_slice/slice.rs:18-19`). -/
inductive StepM (A : Arith W) : Cfg α β → Cfg α β → Prop where
  | invoke (κ : Cfg α β) (op : Op α β) (h : ∀ i ∈ op.needs, κ.Revealed i) (hp : ∀ i ∈ op.needsPtr, κ.RevealedPtr i)
      (hu : ∀ s, op.slc? = some s → s.a < W) :
      StepM A κ { κ with
        calls := upd κ.calls κ.next (some ⟨op, κ.clock, κ.w, .running (op.progM A)⟩)
        next := κ.next + 1
        clock := κ.clock + 1 }
  /-- everything but new calls (which count up `next`) is as before -/
  | other (κ κ' : Cfg α β) (h : Step κ κ') (hn : κ'.next = κ.next) : StepM A κ (κ'.wrap W)

/-- `κ 0, …, κ n` is an execution with machine arithmetic, starting with a vector that holds `l` (`src/state.rs:12`). -/
structure ExecM (A : Arith W) (m : Mem α) (l : List α) (n : Nat) (κ : Nat → Cfg α β) : Prop where
  init : κ 0 = Cfg.init m l
  next : ∀ t, t < n → StepM A (κ t) (κ (t + 1))

end Verif
