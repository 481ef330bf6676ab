import Verif.Weak.Compare
import Verif.Weak.SpecValues
import Verif.Spec.Compare
import Verif.Spec.Calls

/-!
# Vocabulary for comparisons of vectors, slices and elements with each other under weak memory

Nothing here refers to the programs of the API functions.
-/

namespace Verif.Weak

variable {α β : Type}

/-- `S 0, S 1, …, S n` is an execution of a system of vectors with memories `m u`. -/
structure SysExec (m : Nat → Mem α) (n : Nat) (S : Nat → Sys α β) : Prop where
  init : S 0 = Sys.init m
  next : ∀ t, t < n → SysStep (S t) (S (t + 1))

namespace Sys

/-- Thread `k` has begun its comparison; there is neither a result nor a panic yet. -/
def Comparing (S : Sys α β) (k : Nat) : Prop :=
  ∃ T, S.cmp k = some T ∧ (∀ b, T.prog ≠ .ret b) ∧ ∀ e, T.prog ≠ .panic e

/-- The elements which the operand on side `s` consists of: for a vector these are the elements which the comparison's own call of
`iter` returned. -/
def Elements (S : Sys α β) (T : Cmp α β) (s : Side) (es : List Nat) : Prop :=
  match T.arg s with
  | .vec => ∃ c ∈ T.own s, (S.vec (T.vecOf s)).Returned c .iter (.elems es)
  | .slc t => es = t.view
  | .el e => es = [e]

/-- A call which the comparison made on side `s` found the value `x` in element `e`. -/
def Found (S : Sys α β) (T : Cmp α β) (s : Side) (e : Nat) (x : α) : Prop :=
  ∃ c ∈ T.own s, (S.vec (T.vecOf s)).Returned c (.elCloned e) (.val x)

/-- It is known that the operand on side `s` of the comparison `T` has elements (`l`: the values of its vector at the beginning): they
were there at the beginning, or a call that happens before the comparison saw elements. -/
def HasElements (S : Sys α β) (l : List α) (T : Cmp α β) (s : Side) : Prop :=
  match T.arg s with
  | .vec => l ≠ [] ∨ ∃ c ∈ T.hb s, ∃ op x len, (S.vec (T.vecOf s)).Returned c op x ∧ op.ReportsLen len x ∧ 0 < len
  | .slc t => 0 < t.len
  | .el _ => True

/-- User code keeps its promise when it reads through pointers, in all vectors. -/
def Disciplined (S : Sys α β) : Prop := ∀ u, (S.vec u).Disciplined

end Sys

/-- At moment `t`, which lies within the comparison `T` of thread `k`, the elements `e` (left) and `f` (right) held the values `x` and
`y`. (A moment is a point of the execution, that is, of an order of all actions in which whatever happens before an action comes before it.) -/
def PairAt (S : Nat → Sys α β) (k : Nat) (T : Cmp α β) (e f : Nat) (x y : α) (t : Nat) : Prop :=
  (S t).Comparing k ∧ ((S t).vec T.u).mem.val e = some x ∧ ((S t).vec T.v).mem.val f = some y

/-- Up to moment `n` the comparison read the first elements of `es` and `fs`, pair by pair, one after the other: the values of pair
`i`, both of which the elements held at moment `τ i`, are the `i`th entry of `ps`. -/
structure Compared (S : Nat → Sys α β) (n k : Nat) (T : Cmp α β) (es fs : List Nat) (ps : List (α × α)) (τ : Nat → Nat) :
    Prop where
  pair : ∀ i x y, ps[i]? = some (x, y) → τ i ≤ n ∧ ∃ e f, es[i]? = some e ∧ fs[i]? = some f ∧ PairAt S k T e f x y (τ i) ∧
    (S n).Found T .left e x ∧ (S n).Found T .right f y
  order : ∀ i i', i < i' → i' < ps.length → τ i < τ i'

/-- What `T::eq` says about the pairs of values. -/
def Cmp.results (T : Cmp α β) (ps : List (α × α)) : List (Option Bool) := ps.map fun p => T.veq p.1 p.2

/-- The elements of the operand on side `s` of the comparison `T` of thread `k` keep the values `vs` while it compares, up to moment `n`. -/
def Steady (S : Nat → Sys α β) (n k : Nat) (T : Cmp α β) (s : Side) (vs : List α) : Prop :=
  ∀ es, (S n).Elements T s es → es.length = vs.length ∧
    ∀ t, t ≤ n → (S t).Comparing k → ∀ (j : Nat) e, es[j]? = some e → ((S t).vec (T.vecOf s)).mem.val e = vs[j]?

/-- The elements of the operand on side `s` were created with the values `vs` (`l`: the values of the vector at the beginning), and
nobody writes to them. -/
def Unwritten (S : Sys α β) (l : List α) (T : Cmp α β) (s : Side) (vs : List α) : Prop :=
  ∀ es, S.Elements T s es → es.length = vs.length ∧ ∀ (j : Nat) e v, es[j]? = some e → vs[j]? = some v →
    (S.vec (T.vecOf s)).Born l e v ∧ (S.vec (T.vecOf s)).Only fun op => ¬ op.MayWrite e

end Verif.Weak
