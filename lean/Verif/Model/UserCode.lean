import Verif.Model.Vec

/-!
# The loops with user code that has state, fails or panics

`Model/Vec.lean` gives the closures of `map`, `filter`, … no state of their own, and takes `T::clone`, `T::eq` and `T::fmt` to be total
functions. Here the same loops are written down for

* `FnMut` closures: a function from the state `σ` of the closure (the variables it captured) and the argument to the result and
  the next state; `none` = it panics;
* `T::clone` and `T::eq` that may panic (`none`);
* a `T::fmt` that may panic (`none`) or return an error (`false`) after having written some text.

All of them run while the handle of the element is held, as the closure of `COpt.map`. `Proof/UserCode.lean` proves that each of
these loops is a `Loop.visit`.
-/

namespace Verif

variable {α β σ : Type}

/-- `ConcurrentOption::clone_into_option` (dependency; `src/vec.rs:311`, `src/elem.rs:42`) with the given `T::clone`. -/
def COpt.cloneWith (cl : α → Option α) (i : Nat) : Prog α (Option α) := do
  if ← lock i then
    let v ← act (.valRead i)
    unlock i
    match cl v with
    | some b => pure (some b)
    | none => .panic .userCode
  else pure none

/-- `ConcurrentElement::cloned` (`src/elem.rs:38-43`) with the given `T::clone`. -/
def Elem.clonedWith (cl : α → Option α) (i : Nat) : Prog α α := do
  match ← COpt.cloneWith cl i with
  | some v => pure v
  | none => .panic .noValue

/-- `ConcurrentElement == T` (`src/common_traits/eq.rs:11-15`) with a `T::eq` that may panic. -/
def Elem.eqValTry (veq : α → α → Option Bool) (v : α) (i : Nat) : Prog α Bool :=
  map (fun x => veq x v) i

namespace Loop

/-- `self.iter().map(move |elem| elem.map(|x| f(x)))` collected (`src/iter_shorthands.rs:26`,
`src/concurrent_slice/iter_shorthands.rs:26`); also the final state of the closure. -/
def mapMut (f : σ → α → Option (β × σ)) : σ → List Nat → Prog α (List β × σ)
  | s, [] => pure ([], s)
  | s, i :: is => do
    let r ← Elem.map (f s) i
    let rs ← mapMut f r.2 is
    pure (r.1 :: rs.1, rs.2)

/-- `self.iter().filter(move |elem| elem.map(|x| f(x)))` collected (`src/iter_shorthands.rs:49`,
`src/concurrent_slice/iter_shorthands.rs:49`). -/
def filterMut (f : σ → α → Option (Bool × σ)) : σ → List Nat → Prog α (List Nat × σ)
  | s, [] => pure ([], s)
  | s, i :: is => do
    let r ← Elem.map (f s) i
    let rs ← filterMut f r.2 is
    pure (if r.1 then i :: rs.1 else rs.1, rs.2)

/-- `self.iter().fold(init, |agg, elem| elem.map(|x| f(agg, x)))` (`src/iter_shorthands.rs:70`,
`src/concurrent_slice/iter_shorthands.rs:70`). -/
def foldMut (f : σ → β → α → Option (β × σ)) : σ → β → List Nat → Prog α (β × σ)
  | s, agg, [] => pure (agg, s)
  | s, agg, i :: is => do
    let r ← Elem.map (f s agg) i
    foldMut f r.2 r.1 is

/-- `reduce` (`src/concurrent_slice/iter_shorthands.rs:92-108`): the first element is cloned, the others are folded. -/
def reduceMut (cl : α → Option α) (f : σ → α → α → Option (α × σ)) : σ → List Nat → Prog α (Option α × σ)
  | s, [] => pure (none, s)
  | s, i :: is => do
    let first ← Elem.clonedWith cl i
    let r ← foldMut f s first is
    pure (some r.1, r.2)

/-- `iter().position(|e| e == value)` (`src/partial_eq.rs:23`, `src/concurrent_slice/partial_eq.rs:30`). -/
def positionTry (veq : α → α → Option Bool) (v : α) : Nat → List Nat → Prog α (Option Nat)
  | _, [] => pure none
  | k, i :: is => do
    if ← Elem.eqValTry veq v i then pure (some k) else positionTry veq v (k + 1) is

/-- collect `elem.cloned()` (`src/vec.rs:401-406`, `src/concurrent_slice/slice.rs:292-298`; `clone_to_vec` and `clone` likewise). -/
def clonedTry (cl : α → Option α) : List Nat → Prog α (List α)
  | [] => pure []
  | i :: is => do
    let v ← Elem.clonedWith cl i
    let vs ← clonedTry cl is
    pure (v :: vs)

/-- The remaining elements of `fmt_elems_iter` (`src/common_traits/debug.rs:41-43`): `elem.map(|x| write!(f, ", {:?}", x))?`. The
state is the text written so far; the result tells whether no error occurred. -/
def debugRestTry (fmt : String → α → Option (String × Bool)) : String → List Nat → Prog α (String × Bool)
  | s, [] => pure (s, true)
  | s, i :: is => do
    let r ← Elem.map (fun x => fmt (s ++ ", ") x) i
    if r.2 then debugRestTry fmt r.1 is else pure (r.1, false)

/-- `fmt_elems_iter` (`src/common_traits/debug.rs:33-46`), the formatter itself accepting everything. -/
def debugTry (fmt : String → α → Option (String × Bool)) : List Nat → Prog α (String × Bool)
  | [] => pure ("[" ++ "]", true)
  | i :: is => do
    let r ← Elem.map (fun x => fmt "[" x) i
    if r.2 then
      let r' ← debugRestTry fmt r.1 is
      if r'.2 then pure (r'.1 ++ "]", true) else pure r'
    else pure (r.1, false)

/-- `for (i, elem) in iter.enumerate() { elem.set(value(i)) }` (`src/mut_elem.rs:87-89`,
`src/concurrent_slice/mut_elem.rs:91-93`). -/
def fillWithMut (f : σ → Nat → Option (α × σ)) : σ → Nat → List Nat → Prog α Unit
  | _, _, [] => pure ()
  | s, k, i :: is => do
    match f s k with
    | some r =>
      Elem.set i r.1
      fillWithMut f r.2 (k + 1) is
    | none => .panic .userCode

/-- `for elem in iter { elem.set(value.clone()) }` (`src/mut_elem.rs:61-63`, `src/concurrent_slice/mut_elem.rs:61-63`); `cl k` is the
result of the `k`-th call of `T::clone`. -/
def fillTry (cl : Nat → Option α) : Nat → List Nat → Prog α Unit
  | _, [] => pure ()
  | k, i :: is => do
    match cl k with
    | some v =>
      Elem.set i v
      fillTry cl (k + 1) is
    | none => .panic .userCode

end Loop

/-- A function of the vector that runs a loop over all elements: `self.iter()` is evaluated first (`src/vec.rs:376-378`). -/
def CVec.over {ρ : Type} (loop : List Nat → Prog α ρ) : Prog α ρ := do
  let es ← CVec.iter
  loop es

end Verif
