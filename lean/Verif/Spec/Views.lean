import Verif.Spec.Progress

/-!
# Views: ranges, slices, observed lengths, undisturbed calls

Vocabulary for the properties of slices and of whole-vector operations (C27 to C36, C40).
-/

namespace Verif

variable {α β : Type}

/-! ## Ranges and slices -/

/-- The index `i` lies in the range (`core::ops::RangeBounds::contains`). -/
def Rng.Has (r : Rng) (i : Nat) : Bool :=
  (match r.lo with
    | .incl n => decide (n ≤ i)
    | .excl n => decide (n < i)
    | .unb => true) &&
  (match r.hi with
    | .incl n => decide (i ≤ n)
    | .excl n => decide (i < n)
    | .unb => true)

/-- The members of the list whose index lies in the range. -/
def pick {γ : Type} (r : Rng) (xs : List γ) : List γ := (xs.zipIdx.filter fun p => r.Has p.2).map Prod.fst

/-- The positions of the vector that a slice views, in order. -/
def Slc.view (s : Slc) : List Nat := (List.range s.len).map (s.a + ·)

/-- The slices `ss` are a list `xs` of positions cut into pieces of `k` (the last one may be shorter). -/
structure Chunked (k : Nat) (xs : List Nat) (ss : List Slc) : Prop where
  concat : (ss.map Slc.view).flatten = xs
  full : ∀ s ∈ ss.dropLast, s.view.length = k
  last : ∀ s ∈ ss.getLast?, 1 ≤ s.view.length ∧ s.view.length ≤ k
  number : ss.length = (xs.length + k - 1) / k

/-! ## What a call may observe -/

/-- Call `c` was invoked when the vector held exactly `vs`, and the calls overlapping with it neither grow the vector nor
write to elements. -/
structure Cfg.NoWriters (κ : Cfg α β) (c : Cid) (vs : List α) : Prop where
  start : ∃ mem, κ.AtStart c mem ∧ mem.Leading vs
  quiet : ∀ d op, d ≠ c → κ.Overlap c d → κ.Called d op → op.size = none ∧ op.NoWrite

/-- Call `c` found the vector holding exactly `vs` and was not disturbed: it was invoked when the vector held `vs`,
and the calls overlapping with it neither grow the vector nor write to elements. Moreover either none of them accesses
elements, or the length of the vector had been reported before: otherwise a concurrent *reader* of an element is
enough to hide the element from `len()` (see `C32_reader_negation`). -/
structure Cfg.Holding (κ : Cfg α β) (c : Cid) (vs : List α) : Prop extends κ.NoWriters c vs where
  settled : (∀ d op, d ≠ c → κ.Overlap c d → κ.Called d op → ¬ op.Locks) ∨
    ∃ d op x, κ.Before d c ∧ κ.Returned d op x ∧ op.ReportsLen vs.length x

/-- Call `c` was invoked when the slice `s` held the values `vs`, and no call overlapping with it writes to the elements
of the slice (other elements may be written, and the vector may grow). -/
structure Cfg.Viewing (κ : Cfg α β) (c : Cid) (s : Slc) (vs : List α) : Prop where
  len : vs.length = s.len
  start : ∃ mem, κ.AtStart c mem ∧ ∀ j, j < s.len → mem.content (s.a + j) = vs[j]?
  quiet : ∀ d op j, d ≠ c → κ.Overlap c d → κ.Called d op → j < s.len → ¬ op.MayWrite (s.a + j)

/-- `len` is a length of the vector which the finished call `c` was allowed to observe: all positions below it were
initialised when the call ended; and it is exactly the number of elements if the call was not disturbed. -/
structure Cfg.Observes (κ : Cfg α β) (c : Cid) (len : Nat) : Prop where
  valued : ∀ mem, κ.AtEnd c mem → ∀ i, i < len → (mem.content i).isSome
  exact : ∀ vs, κ.Holding c vs → len = vs.length

/-! ## Filling -/

/-- The values `fill(v)` / `fill_with(f)` gives to the positions. -/
def Op.Fills : Op α β → (Nat → Option α) → Prop
  | .fill v, g => ∀ i, g i = some v
  | .fillWith f, g => ∀ i, g i = f i
  | _, _ => False

/-- The same for a slice; the closure is given the index within the slice. -/
def Op.SliceFills (s : Slc) : Op α β → (Nat → Option α) → Prop
  | .slFill s' v, g => s' = s ∧ ∀ i, g i = some v
  | .slFillWith s' f, g => s' = s ∧ ∀ i, g i = f i
  | _, _ => False

end Verif
