import Verif.Model.Deps

/-!
# The functions of the crate on a shared vector

Function by function: `src/vec.rs`, `src/helpers.rs`, `src/grow.rs`, `src/elem.rs`, `src/mut_elem.rs`,
`src/partial_eq.rs`, `src/split.rs`, `src/iter_shorthands.rs`, `src/to_vec.rs`, `src/unsafe_api.rs`,
`src/common_traits/*.rs` and the same for `src/concurrent_slice/*.rs`.

* An element reference `&ConcurrentElement<T>` is represented by the position of the element: pinned storage
  never moves elements.
* Lazy iterators are consumed completely; their elements are visited in the order of the list.
-/

namespace Verif

variable {α β : Type}

/-- An iterator supplied by the user: `hint` is what `ExactSizeIterator::len` reports, `items` are the results
of the successive calls of `next` (`none` entry = that call panics; after the end of the list: `None`). -/
structure Iter (α : Type) where
  hint : Nat
  items : List (Option α)

/-- The well-behaved iterator over a list. -/
def Iter.ofList (l : List α) : Iter α := ⟨l.length, l.map some⟩

/-- `ConcurrentSlice` (`src/concurrent_slice/slice.rs:13-20`), the vector reference being implicit. -/
structure Slc where
  a : Nat
  len : Nat
deriving DecidableEq, Repr

/-- Positions visited by `core.iter_over_range(a..a+n)` (dependency; `src/vec.rs:129`,
`src/concurrent_slice/slice.rs:266,297`) and by `core.iter(n)` (`src/vec.rs:377,405`, with `a = 0`). -/
abbrev positions (a n : Nat) : List Nat := List.range' a n

namespace CVec

/-! ## `src/vec.rs` -/

/-- The loop of `len` (`src/vec.rs:129-136`) over `k` positions from `from`: the index of the first one which
is not `SOME`, or the end. -/
def settled : Nat → Nat → Prog α Nat
  | start, 0 => pure start
  | start, k + 1 => do
    let s ← act (.stLoad start .relaxed)
    if (show CState from s) = .SOME then settled (start + 1) k else pure start

/-- `ConcurrentVec::len` (`src/vec.rs:119-141`). -/
def len : Prog α Nat := do
  let len ← act (.writtenLoad .acquire)
  let cap ← act (.capLoad .acquire)
  let lenReserved ← act (.resLoad .relaxed)
  let len : Nat := len
  let untilIdx : Nat := if (show Nat from lenReserved) ≤ (show Nat from cap) then lenReserved else cap
  let newLen ← settled len (untilIdx - len)
  act (.writtenFetchMax newLen .release)
  pure newLen

/-- `ConcurrentVec::is_empty` (`src/vec.rs:163-165`). -/
def isEmpty : Prog α Bool := do
  let n ← len
  pure (n == 0)

/-- `ConcurrentVec::reserved_len` (`src/vec.rs:96-103`). -/
def reservedLen : Prog α Nat := do
  let len ← act (.resLoad .relaxed)
  let cap ← act (.capLoad .acquire)
  pure (if (show Nat from len) ≤ (show Nat from cap) then len else cap)

/-- `ConcurrentVec::capacity` (`src/vec.rs:168-170`). -/
def capacity : Prog α Nat := act (.capLoad .acquire)

/-- `ConcurrentVec::maximum_capacity` (`src/vec.rs:175-177`). -/
def maximumCapacity : Prog α Nat := act .maxCapLoad

/-- `ConcurrentVec::slice` (`src/vec.rs:217-221`). -/
def slice (r : Rng) : Prog α Slc := do
  let n ← len
  let ab := rangeLimits r n
  pure ⟨ab.1, ab.2 - ab.1⟩

/-- `ConcurrentVec::as_slice` (`src/vec.rs:241-243`). -/
def asSlice : Prog α Slc := do
  let n ← len
  slice (.co 0 n)

/-- `ConcurrentVec::get` (`src/vec.rs:283-288`). -/
def get (i : Nat) : Prog α (Option Nat) := do
  let n ← len
  if i < n then Col.get i else pure none

/-- `ConcurrentVec::get_cloned` (`src/vec.rs:306-314`) and `get_copied` (`src/vec.rs:332-337`). -/
def getCloned (i : Nat) : Prog α (Option α) := do
  let n ← reservedLen
  if i < n then
    match ← Col.get i with
    | some e => COpt.cloneIntoOption e
    | none => pure none
  else pure none

/-- `ConcurrentVec::iter` (`src/vec.rs:376-378`): the positions it will visit. -/
def iter : Prog α (List Nat) := do
  let n ← len
  pure (positions 0 n)

end CVec

/-! ## `src/elem.rs` -/

namespace Elem

/-- `ConcurrentElement::cloned` (`src/elem.rs:38-43`) and `copied` (`src/elem.rs:63-68`). -/
def cloned (i : Nat) : Prog α α := do
  match ← COpt.cloneIntoOption i with
  | some v => pure v
  | none => .panic .noValue

/-- `ConcurrentElement::map` (`src/elem.rs:95-100`). -/
def map (f : α → Option β) (i : Nat) : Prog α β := do
  match ← COpt.map f i with
  | some b => pure b
  | none => .panic .noValue

/-- `ConcurrentElement::replace` (`src/elem.rs:125-127`). -/
def replace (i : Nat) (v : α) : Prog α α := do
  match ← COpt.replace i v with
  | some old => pure old
  | none => .panic .noValue

/-- `ConcurrentElement::set` (`src/elem.rs:148-150`). -/
def set (i : Nat) (v : α) : Prog α Unit := do
  if ← COpt.setSome i v then pure () else .panic .setFailed

/-- `ConcurrentElement::update` (`src/elem.rs:170-175`). -/
def update (f : α → α × Bool) (i : Nat) : Prog α Unit := do
  if ← COpt.updateIfSome f i then pure () else .panic .updateFailed

/-- `ConcurrentElement == T` (`src/common_traits/eq.rs:11-15`); `veq` is the user's `PartialEq::eq`. -/
def eqVal (veq : α → α → Bool) (v : α) (i : Nat) : Prog α Bool :=
  map (fun x => some (veq x v)) i

end Elem

/-! ## Loops over elements, shared by the vector and slice functions -/

namespace Loop

/-- collect `elem.cloned()` (`src/vec.rs:401-406`, `src/concurrent_slice/slice.rs:292-298`). -/
def cloned : List Nat → Prog α (List α)
  | [] => pure []
  | i :: is => do
    let v ← Elem.cloned i
    let vs ← cloned is
    pure (v :: vs)

/-- collect `elem.map(f)` (`src/iter_shorthands.rs:26`, `src/concurrent_slice/iter_shorthands.rs:26`). -/
def map (f : α → Option β) : List Nat → Prog α (List β)
  | [] => pure []
  | i :: is => do
    let b ← Elem.map f i
    let bs ← map f is
    pure (b :: bs)

/-- elements with `elem.map(f)` true (`src/iter_shorthands.rs:49`, `src/concurrent_slice/iter_shorthands.rs:49`). -/
def filter (f : α → Option Bool) : List Nat → Prog α (List Nat)
  | [] => pure []
  | i :: is => do
    let b ← Elem.map f i
    let es ← filter f is
    pure (if (b : Bool) then i :: es else es)

/-- `fold` (`src/iter_shorthands.rs:70`, `src/concurrent_slice/iter_shorthands.rs:70`). -/
def fold (f : β → α → Option β) : β → List Nat → Prog α β
  | agg, [] => pure agg
  | agg, i :: is => do
    let agg' ← Elem.map (f agg) i
    fold f agg' is

/-- The general form of the read loops `for elem in iter { .. elem.map(closure) .. }` of the crate (`src/iter_shorthands.rs:26,49,70`,
`src/concurrent_slice/iter_shorthands.rs:26,49,70,92-108`, `src/partial_eq.rs:23`, `src/common_traits/debug.rs:38-44`) and of user
code consuming `iter()` (`src/vec.rs:376-378`): the closure has the state `agg`, panics (`none`), or returns the next state and
whether the loop goes on. -/
def visit (f : β → α → Option (β × Bool)) : β → List Nat → Prog α β
  | agg, [] => pure agg
  | agg, i :: is => do
    let r ← Elem.map (f agg) i
    if r.2 then visit f r.1 is else pure r.1

/-- `reduce` (`src/concurrent_slice/iter_shorthands.rs:92-108`). -/
def reduce (f : α → α → Option α) : List Nat → Prog α (Option α)
  | [] => pure none
  | i :: is => do
    let first ← Elem.cloned i
    let r ← fold f first is
    pure (some r)

/-- `iter().position(|e| e == value)` (`src/partial_eq.rs:23`, `src/concurrent_slice/partial_eq.rs:30`);
`k` is the running position. -/
def position (veq : α → α → Bool) (v : α) : Nat → List Nat → Prog α (Option Nat)
  | _, [] => pure none
  | k, i :: is => do
    if ← Elem.eqVal veq v i then pure (some k) else position veq v (k + 1) is

/-- `for elem in iter { elem.set(value.clone()) }` (`src/mut_elem.rs:61-63`,
`src/concurrent_slice/mut_elem.rs:61-63`). -/
def fill (v : α) : List Nat → Prog α Unit
  | [] => pure ()
  | i :: is => do
    Elem.set i v
    fill v is

/-- `for (i, elem) in iter.enumerate() { elem.set(value(i)) }` (`src/mut_elem.rs:87-89`,
`src/concurrent_slice/mut_elem.rs:91-93`); `f k = none` = the closure panics. -/
def fillWith (f : Nat → Option α) : Nat → List Nat → Prog α Unit
  | _, [] => pure ()
  | k, i :: is => do
    match f k with
    | some v =>
      Elem.set i v
      fillWith f (k + 1) is
    | none => .panic .userCode

/-- `eq_elem_iter_to_iter` (`src/common_traits/eq.rs:86-99`); `veq` is `T::eq`, which may panic (`none`). -/
def eqList (veq : α → α → Option Bool) : List Nat → List α → Prog α Bool
  | [], [] => pure true
  | i :: is, v :: vs => do
    if ← COpt.isSomeAnd (fun x => veq x v) i then eqList veq is vs else pure false
  | _, _ => pure false

/-- The remaining elements of `fmt_elems_iter` (`src/common_traits/debug.rs:41-43`). -/
def debugRest (show' : α → String) : String → List Nat → Prog α String
  | s, [] => pure s
  | s, i :: is => do
    let s' ← Elem.map (fun x => some (s ++ ", " ++ show' x)) i
    debugRest show' s' is

/-- `fmt_elems_iter` (`src/common_traits/debug.rs:33-46`). -/
def debug (show' : α → String) : List Nat → Prog α String
  | [] => pure ("[" ++ "]")
  | i :: is => do
    let s ← Elem.map (fun x => some ("[" ++ show' x)) i
    let s ← debugRest show' s is
    pure (s ++ "]")

/-- `flat_map(|x| x.0.as_ref_with_order(SeqCst))` and `flat_map(|x| x.0.get_raw_mut())`
(`src/unsafe_api.rs:271-274,421-424`, `src/concurrent_slice/unsafe_api.rs:255-259,401-405`). -/
def rawRefs (o : MOrd) : List Nat → Prog α (List Nat)
  | [] => pure []
  | i :: is => do
    let p ← COpt.getRaw o i
    let ps ← rawRefs o is
    match p with
    | some e => pure (e :: ps)
    | none => pure ps

end Loop

/-- The two readings of `ConcurrentOption::mut_handle`, whose source is not available: spinning while another
handle exists, or a single attempt. -/
inductive MutMode where
  | spinning
  | tryOnce
deriving DecidableEq, Repr

namespace CVec

/-! ## `src/grow.rs` -/

/-- Writing the items of an iterator into `n` consecutive positions (`src/grow.rs:320-327,439-446`). -/
def writeItems : Nat → Nat → List (Option α) → Prog α Unit
  | _, 0, _ => pure ()
  | _, _ + 1, [] => .panic .iterTooShort
  | _, _ + 1, none :: _ => .panic .userCode
  | i, n + 1, some v :: vs => do
    COpt.init i v
    writeItems (i + 1) n vs

/-- `ConcurrentVec::push` (`src/grow.rs:125-133`). -/
def push (v : α) : Prog α Nat := do
  let idx ← act (.resFetchAdd 1 .relaxed)
  Col.singleItem idx
  COpt.init idx v
  pure idx

/-- `ConcurrentVec::push_for_idx` (`src/grow.rs:154-166`); `f idx = none` = the closure panics. -/
def pushForIdx (f : Nat → Option α) : Prog α Nat := do
  let idx ← act (.resFetchAdd 1 .relaxed)
  match f idx with
  | some v => do
    Col.singleItem idx
    COpt.init idx v
    pure idx
  | none => .panic .userCode

/-- `ConcurrentVec::extend_n_items` (`src/grow.rs:431-449`). -/
def extendN (items : List (Option α)) (n : Nat) : Prog α Nat := do
  let b ← act (.resFetchAdd n .relaxed)
  Col.nItems b n
  writeItems b n items
  pure b

/-- `ConcurrentVec::extend` (`src/grow.rs:272-280`). -/
def extend (it : Iter α) : Prog α Nat := extendN it.items it.hint

/-- `ConcurrentVec::extend_for_idx` (`src/grow.rs:308-330`); `f b = none` = the closure panics. -/
def extendForIdx (f : Nat → Option (Iter α)) (n : Nat) : Prog α Nat := do
  let b ← act (.resFetchAdd n .relaxed)
  Col.nItems b n
  match f b with
  | some it =>
    if it.hint = n then do
      writeItems b n it.items
      pure b
    else .panic .iterLenMismatch
  | none => .panic .userCode

/-! ## `src/helpers.rs`, `src/mut_elem.rs` -/

/-- `ConcurrentVec::mut_handle` (`src/helpers.rs:24-38`): the locked position, if any. -/
def mutHandle (m : MutMode) (i : Nat) : Prog α (Option Nat) := do
  let n ← len
  if i < n then
    match ← Col.get i with
    | some e => do
      let ok ← (match m with
        | .spinning => COpt.lock e
        | .tryOnce => COpt.tryLock e)
      pure (if (ok : Bool) then some e else none)
    | none => pure none
  else pure none

/-- `ConcurrentVec::swap` (`src/mut_elem.rs:30-43`). Handles are dropped at the end: those bound by the
successful arm in reverse order of binding, those left in the scrutinee tuple in order. -/
def swap (m : MutMode) (i j : Nat) : Prog α Bool := do
  let hi ← mutHandle m i
  let hj ← mutHandle m j
  match hi, hj with
  | some i, some j => do
    act (.valSwap i j)
    COpt.unlock j
    COpt.unlock i
    pure true
  | some i, none => do
    COpt.unlock i
    pure false
  | none, some j => do
    COpt.unlock j
    pure false
  | none, none => pure false

/-- `ConcurrentVec::fill` (`src/mut_elem.rs:57-64`). -/
def fill (v : α) : Prog α Unit := do
  let es ← iter
  Loop.fill v es

/-- `ConcurrentVec::fill_with` (`src/mut_elem.rs:83-90`). -/
def fillWith (f : Nat → Option α) : Prog α Unit := do
  let es ← iter
  Loop.fillWith f 0 es

/-! ## iteration: `src/vec.rs:401`, `src/iter_shorthands.rs`, `src/partial_eq.rs`, `src/to_vec.rs`,
`src/common_traits/{clone,debug,eq,index}.rs` -/

/-- `ConcurrentVec::iter_cloned` consumed to a list (`src/vec.rs:401-406`); also the values which
`Clone::clone` collects into the new vector (`src/common_traits/clone.rs:19-21`). -/
def iterCloned : Prog α (List α) := do
  let es ← iter
  Loop.cloned es

/-- `ConcurrentVec::map` consumed to a list (`src/iter_shorthands.rs:22-27`). -/
def map (f : α → Option β) : Prog α (List β) := do
  let es ← iter
  Loop.map f es

/-- `ConcurrentVec::filter` consumed to a list of elements (`src/iter_shorthands.rs:45-50`). -/
def filter (f : α → Option Bool) : Prog α (List Nat) := do
  let es ← iter
  Loop.filter f es

/-- `ConcurrentVec::fold` (`src/iter_shorthands.rs:66-71`). -/
def fold (f : β → α → Option β) (init : β) : Prog α β := do
  let es ← iter
  Loop.fold f init es

/-- Not a function of the crate: a loop over `vec.iter()` (`src/vec.rs:376-378`) whose body reads the element by `map`
(`src/elem.rs:95-100`). The functions above and `reduce`, `index_of`, `contains`, `==`, `Debug`, `clone`, `clone_to_vec` are of
this form; see `Model/UserCode.lean`. -/
def visit (f : β → α → Option (β × Bool)) (init : β) : Prog α β := do
  let es ← iter
  Loop.visit f init es

/-- `ConcurrentVec::reduce` (`src/iter_shorthands.rs:92-98`). -/
def reduce (f : α → α → Option α) : Prog α (Option α) := do
  let s ← asSlice
  Loop.reduce f (positions s.a s.len)

/-- `ConcurrentVec::index_of` (`src/partial_eq.rs:22-24`). -/
def indexOf (veq : α → α → Bool) (v : α) : Prog α (Option Nat) := do
  let es ← iter
  Loop.position veq v 0 es

/-- `ConcurrentVec::contains` (`src/partial_eq.rs:38-40`). -/
def contains (veq : α → α → Bool) (v : α) : Prog α Bool := do
  let r ← indexOf veq v
  pure r.isSome

/-- `ConcurrentVec::clone_to_vec` (`src/to_vec.rs:21-26`). -/
def cloneToVec : Prog α (List α) := do
  let s ← asSlice
  Loop.cloned (positions s.a s.len)

/-- `ConcurrentVec == [T]`, `== [T; N]` (`src/common_traits/eq.rs:31-41`). -/
def eqList (veq : α → α → Option Bool) (vs : List α) : Prog α Bool := do
  let es ← iter
  Loop.eqList veq es vs

/-- `Debug for ConcurrentVec` (`src/common_traits/debug.rs:11-19`). -/
def debug (show' : α → String) : Prog α String := do
  let es ← iter
  Loop.debug show' es

/-- `Index for ConcurrentVec` (`src/common_traits/index.rs:20-22`). -/
def index (i : Nat) : Prog α Nat := do
  match ← get i with
  | some e => pure e
  | none => .panic .outOfBounds

/-! ## `src/split.rs` -/

/-- `ConcurrentVec::split_at` (`src/split.rs:27-30`). -/
def splitAt (mid : Nat) : Prog α (Slc × Slc) := do
  let n ← len
  if mid ≤ n then
    let s ← slice (.co 0 mid)
    let t ← slice (.from mid)
    pure (s, t)
  else .panic .splitMid

/-- `ConcurrentVec::split_first` (`src/split.rs:55-63`). -/
def splitFirst : Prog α (Option (Nat × Slc)) := do
  match ← get 0 with
  | some a => do
    let n ← len
    let b ← slice (.co 1 n)
    pure (some (a, b))
  | none => pure none

/-- `ConcurrentVec::split_last` (`src/split.rs:88-98`). -/
def splitLast : Prog α (Option (Nat × Slc)) := do
  let n ← len
  if n = 0 then pure none
  else
    let a ← slice (.co 0 (n - 1))
    let b ← index (n - 1)
    pure (some (b, a))

end CVec

/-- Number of chunks (`src/split.rs:128-133`, `src/concurrent_slice/split.rs:138-143`). -/
def numChunks (len k : Nat) : Nat :=
  let numSlices := len / k
  let remainder := len - numSlices * k
  if remainder > 0 then numSlices + 1 else numSlices

/-- Range of the `i`-th chunk (`src/split.rs:135-141`, `src/concurrent_slice/split.rs:145-151`). -/
def chunkRange (len k i : Nat) : Rng :=
  let remainder := len - len / k * k
  let a := i * k
  let b := a + (if i = numChunks len k - 1 ∧ remainder > 0 then remainder else k)
  .co a b

namespace CVec

/-- The closure of `chunks` applied to the chunk numbers in turn (`src/split.rs:135-142`). -/
def chunkLoop (n k : Nat) : List Nat → Prog α (List Slc)
  | [] => pure []
  | i :: is => do
    let s ← slice (chunkRange n k i)
    let ss ← chunkLoop n k is
    pure (s :: ss)

/-- `ConcurrentVec::chunks` consumed to a list (`src/split.rs:122-143`). -/
def chunks (k : Nat) : Prog α (List Slc) := do
  if 0 < k then
    let n ← len
    chunkLoop n k (List.range (numChunks n k))
  else .panic .chunkZero

/-! ## `src/unsafe_api.rs` -/

/-- `get_raw` (`src/unsafe_api.rs:42-50`), `get_ref` (`:158-166`), `get_raw_mut` (`:307-315`); with the order
of `get_raw_mut()`, taken to be relaxed, `get_mut` (`:363-371`). -/
def getRaw (o : MOrd) (i : Nat) : Prog α (Option Nat) := do
  let n ← reservedLen
  if i < n then
    match ← Col.get i with
    | some e => COpt.getRaw o e
    | none => pure none
  else pure none

/-- `iter_ref` (`src/unsafe_api.rs:271-274`), `iter_mut` (`:421-424`). -/
def iterRef (o : MOrd) : Prog α (List Nat) := do
  let n ← reservedLen
  Loop.rawRefs o (positions 0 n)

end CVec

/-! ## `src/concurrent_slice/` -/

namespace Slc

/-- `ConcurrentSlice::idx` (`src/concurrent_slice/slice.rs:31-36`). -/
def idx (s : Slc) (i : Nat) : Option Nat := if i < s.len then some (s.a + i) else none

/-- `ConcurrentSlice::slice` (`src/concurrent_slice/slice.rs:114-118`). -/
def slice (s : Slc) (r : Rng) : Slc :=
  let ab := rangeLimits r s.len
  ⟨s.a + ab.1, ab.2 - ab.1⟩

/-- `ConcurrentSlice::is_empty` (`src/concurrent_slice/slice.rs:72-74`). -/
def isEmpty (s : Slc) : Bool := s.len == 0

/-- `ConcurrentSlice::iter` (`src/concurrent_slice/slice.rs:264-267`): the positions it will visit. -/
def iter (s : Slc) : List Nat := positions s.a s.len

/-- `ConcurrentSlice::get` (`src/concurrent_slice/slice.rs:163-168`). -/
def get (s : Slc) (i : Nat) : Prog α (Option Nat) :=
  if i < s.len then Col.get (s.a + i) else pure none

/-- `ConcurrentSlice::get_cloned` (`src/concurrent_slice/slice.rs:189-197`), `get_copied` (`:215-220`). -/
def getCloned (s : Slc) (i : Nat) : Prog α (Option α) := do
  if i < s.len then
    match ← Col.get (s.a + i) with
    | some e => do
      let v ← Elem.cloned e
      pure (some v)
    | none => pure none
  else pure none

/-- `Index for ConcurrentSlice` (`src/common_traits/index.rs:40-42`). -/
def index (s : Slc) (i : Nat) : Prog α Nat := do
  match ← s.get i with
  | some e => pure e
  | none => .panic .outOfBounds

/-- `ConcurrentSlice::iter_cloned` (`src/concurrent_slice/slice.rs:292-298`) and `clone_to_vec`
(`src/concurrent_slice/to_vec.rs:11-21`). -/
def iterCloned (s : Slc) : Prog α (List α) := Loop.cloned s.iter

/-- `ConcurrentSlice::swap` (`src/concurrent_slice/mut_elem.rs:35-43`). -/
def swap (m : MutMode) (s : Slc) (i j : Nat) : Prog α Bool :=
  match s.idx i, s.idx j with
  | some i, some j => CVec.swap m i j
  | _, _ => pure false

/-- `ConcurrentSlice::fill` (`src/concurrent_slice/mut_elem.rs:57-64`). -/
def fill (s : Slc) (v : α) : Prog α Unit := Loop.fill v s.iter

/-- `ConcurrentSlice::fill_with` (`src/concurrent_slice/mut_elem.rs:87-94`). -/
def fillWith (s : Slc) (f : Nat → Option α) : Prog α Unit := Loop.fillWith f 0 s.iter

/-- `ConcurrentSlice::map` (`src/concurrent_slice/iter_shorthands.rs:22-27`). -/
def map (s : Slc) (f : α → Option β) : Prog α (List β) := Loop.map f s.iter

/-- `ConcurrentSlice::filter` (`src/concurrent_slice/iter_shorthands.rs:45-50`). -/
def filter (s : Slc) (f : α → Option Bool) : Prog α (List Nat) := Loop.filter f s.iter

/-- `ConcurrentSlice::fold` (`src/concurrent_slice/iter_shorthands.rs:66-71`). -/
def fold (s : Slc) (f : β → α → Option β) (init : β) : Prog α β := Loop.fold f init s.iter

/-- As `CVec.visit`, over `slice.iter()` (`src/concurrent_slice/slice.rs:265-267`). -/
def visit (s : Slc) (f : β → α → Option (β × Bool)) (init : β) : Prog α β := Loop.visit f init s.iter

/-- `ConcurrentSlice::reduce` (`src/concurrent_slice/iter_shorthands.rs:92-108`). -/
def reduce (s : Slc) (f : α → α → Option α) : Prog α (Option α) := Loop.reduce f s.iter

/-- `ConcurrentSlice::index_of` (`src/concurrent_slice/partial_eq.rs:26-31`). -/
def indexOf (s : Slc) (veq : α → α → Bool) (v : α) : Prog α (Option Nat) := Loop.position veq v 0 s.iter

/-- `ConcurrentSlice::contains` (`src/concurrent_slice/partial_eq.rs:45-47`). -/
def contains (s : Slc) (veq : α → α → Bool) (v : α) : Prog α Bool := do
  let r ← s.indexOf veq v
  pure r.isSome

/-- `ConcurrentSlice == [T]`, `== [T; N]` (`src/common_traits/eq.rs:57-67`). -/
def eqList (s : Slc) (veq : α → α → Option Bool) (vs : List α) : Prog α Bool := Loop.eqList veq s.iter vs

/-- `Debug for ConcurrentSlice` (`src/common_traits/debug.rs:21-29`). -/
def debug (s : Slc) (show' : α → String) : Prog α String := Loop.debug show' s.iter

/-- `ConcurrentSlice::split_at` (`src/concurrent_slice/split.rs:30-37`). -/
def splitAt (s : Slc) (mid : Nat) : Prog α (Slc × Slc) :=
  if mid ≤ s.len then pure (s.slice (.co 0 mid), s.slice (.co mid s.len)) else .panic .splitMid

/-- `ConcurrentSlice::split_first` (`src/concurrent_slice/split.rs:63-71`). -/
def splitFirst (s : Slc) : Prog α (Option (Nat × Slc)) := do
  match ← s.get 0 with
  | some a => pure (some (a, s.slice (.co 1 s.len)))
  | none => pure none

/-- `ConcurrentSlice::split_last` (`src/concurrent_slice/split.rs:97-107`). -/
def splitLast (s : Slc) : Prog α (Option (Nat × Slc)) := do
  if s.len = 0 then pure none
  else
    let a := s.slice (.co 0 (s.len - 1))
    let b ← s.index (s.len - 1)
    pure (some (b, a))

/-- `ConcurrentSlice::chunks` (`src/concurrent_slice/split.rs:132-153`). -/
def chunks (s : Slc) (k : Nat) : Prog α (List Slc) :=
  if 0 < k then pure ((List.range (numChunks s.len k)).map (fun i => s.slice (chunkRange s.len k i)))
  else .panic .chunkZero

/-- `ConcurrentSlice::get_raw`, `get_ref`, `get_raw_mut`, `get_mut`
(`src/concurrent_slice/unsafe_api.rs:43-45,148-150,292-294,347-349`). -/
def getRaw (s : Slc) (o : MOrd) (i : Nat) : Prog α (Option Nat) :=
  match s.idx i with
  | some i => CVec.getRaw o i
  | none => pure none

/-- `ConcurrentSlice::iter_ref`, `iter_mut` (`src/concurrent_slice/unsafe_api.rs:255-259,401-405`). -/
def iterRef (s : Slc) (o : MOrd) : Prog α (List Nat) := Loop.rawRefs o s.iter

end Slc

end Verif
