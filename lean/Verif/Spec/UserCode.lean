import Verif.Spec.Accesses

/-!
# User code with state: what the loops compute

On plain lists of values: what `map`, `filter`, `fold`, … compute from the values they are given, when the closure has a state
(`FnMut`), and when `T::clone`, `T::eq`, `T::fmt` may panic (`none`). Nothing here refers to the vector.

The second half writes each of these computations as the step of a loop with a state that may be left early, the form that
`Op.visit` accepts.
-/

namespace Verif

variable {α β σ : Type}

/-! ## On lists -/

/-- `map` with a stateful closure: the results and the final state. -/
def mapped (f : σ → α → Option (β × σ)) : σ → List α → Option (List β × σ)
  | s, [] => some ([], s)
  | s, v :: vs => do
    let (b, s) ← f s v
    let (bs, s) ← mapped f s vs
    pure (b :: bs, s)

/-- `filter` with a stateful closure: the indices kept (the first value has the index `a`) and the final state. -/
def kept (f : σ → α → Option (Bool × σ)) : Nat → σ → List α → Option (List Nat × σ)
  | _, s, [] => some ([], s)
  | a, s, v :: vs => do
    let (b, s) ← f s v
    let (is, s) ← kept f (a + 1) s vs
    pure (if b then a :: is else is, s)

/-- `fold` with a stateful closure. -/
def folded (f : σ → β → α → Option (β × σ)) : σ → β → List α → Option (β × σ)
  | s, b, [] => some (b, s)
  | s, b, v :: vs => do
    let (b, s) ← f s b v
    folded f s b vs

/-- `reduce`: the first value is cloned, the others are folded. -/
def reducedFrom (cl : α → Option α) (f : σ → α → α → Option (α × σ)) (s : σ) : List α → Option (Option α × σ)
  | [] => some (none, s)
  | v :: vs => do
    let a ← cl v
    let (a, s) ← folded f s a vs
    pure (some a, s)

/-- Index of the first value equal to `t`; no value behind it is looked at. -/
def located (veq : α → α → Option Bool) (t : α) : Nat → List α → Option (Option Nat)
  | _, [] => some none
  | k, v :: vs => do
    let b ← veq v t
    if b then pure (some k) else located veq t (k + 1) vs

/-- `Debug`: the text, and whether it was written completely; nothing is written after an error. -/
def written (fmt : String → α → Option (String × Bool)) : String → List α → Option (String × Bool)
  | s, [] => some (s ++ "]", true)
  | s, v :: vs => do
    let (s, ok) ← fmt s v
    if ok then (if vs.isEmpty then pure (s ++ "]", true) else written fmt (s ++ ", ") vs) else pure (s, false)

/-- Results of successive calls of a stateful closure with `0, 1, 2, …`; `none` for the call that panics. -/
def supplied (f : σ → Nat → Option (α × σ)) : σ → Nat → Nat → Option α
  | s, k, 0 => (f s k).map Prod.fst
  | s, k, j + 1 => (f s k).bind fun r => supplied f r.2 (k + 1) j

/-! ## On the vector -/

/-- In the execution `κ` (up to moment `n`), call `c` looked at the elements of the positions `a, a + 1, a + 2, …`, one after the
other, and `vs` are the contents that they had at these moments. -/
def Saw (κ : Nat → Cfg α β) (n : Nat) (c : Cid) (a : Nat) (vs : List α) : Prop :=
  ∃ τ : Nat → Nat, (∀ j v, vs[j]? = some v → (κ n).During c (τ j) ∧ (κ (τ j)).content (a + j) = some v) ∧
    ∀ i j, i < j → j < vs.length → τ i < τ j

/-! ## As steps of a loop -/

/-- One step of `map`. -/
def stepMap (f : σ → α → Option (β × σ)) (st : List β × σ) (x : α) : Option ((List β × σ) × Bool) :=
  (f st.2 x).map fun r => ((st.1 ++ [r.1], r.2), true)

/-- One step of `filter`; the state has the next index. -/
def stepFilter (f : σ → α → Option (Bool × σ)) (st : List Nat × Nat × σ) (x : α) : Option ((List Nat × Nat × σ) × Bool) :=
  (f st.2.2 x).map fun r => ((if r.1 then st.1 ++ [st.2.1] else st.1, st.2.1 + 1, r.2), true)

/-- One step of `fold`. -/
def stepFold (f : σ → β → α → Option (β × σ)) (st : β × σ) (x : α) : Option ((β × σ) × Bool) :=
  (f st.2 st.1 x).map fun r => (r, true)

/-- One step of `reduce`. -/
def stepReduce (cl : α → Option α) (f : σ → α → α → Option (α × σ)) (st : Option α × σ) (x : α) :
    Option ((Option α × σ) × Bool) :=
  match st.1 with
  | none => (cl x).map fun v => ((some v, st.2), true)
  | some a => (f st.2 a x).map fun r => ((some r.1, r.2), true)

/-- One step of `position`: the next index, and the result. -/
def stepPosition (veq : α → α → Option Bool) (t : α) (st : Nat × Option Nat) (x : α) : Option ((Nat × Option Nat) × Bool) :=
  (veq x t).map fun b => if b then ((st.1, some st.1), false) else ((st.1 + 1, none), true)

/-- One step of `collect` of clones. -/
def stepClone (cl : α → Option α) (st : List α) (x : α) : Option (List α × Bool) :=
  (cl x).map fun v => (st ++ [v], true)

/-- One step of `Debug`: is this the first element, the text so far, no error so far. -/
def stepDebug (fmt : String → α → Option (String × Bool)) (st : Bool × String × Bool) (x : α) :
    Option ((Bool × String × Bool) × Bool) :=
  (fmt (if st.1 then st.2.1 else st.2.1 ++ ", ") x).map fun r => ((false, r.1, r.2), r.2)

/-- The end of `Debug`. -/
def endDebug (st : Bool × String × Bool) : String × Bool := if st.2.2 then (st.2.1 ++ "]", true) else (st.2.1, false)

end Verif
