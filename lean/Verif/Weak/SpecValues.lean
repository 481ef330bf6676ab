import Verif.Weak.Spec
import Verif.Spec.Accesses

/-!
# Vocabulary of the properties of values in weak-memory executions

Nothing here refers to the programs of the API functions.
-/

namespace Verif

variable {α β : Type}

/-- A call of `op` that returned `x` accesses the elements at one moment: operations on a single element, successful swaps,
`push`. -/
def Op.AtOnce (x : Ret α β) (op : Op α β) : Prop :=
  (∃ i, op.OnElement i ∧ x ≠ .optVal none) ∨ (∃ i j, op.SwapOf i j ∧ x = .bool true) ∨ ∃ v, op = .push v

namespace Weak.Cfg

/-- Call `c` is over and acted at one moment. -/
def Acted (κ : Cfg α β) (c : Cid) : Prop :=
  (∃ op x, κ.Returned c op x ∧ op.AtOnce x) ∨ ∃ f e k, κ.Panicked c (.elUpdate f e) k

/-- Call `d` cannot see fewer than `n` elements: the vector had them at the beginning, or a call that happens before `d` reported
them. -/
def KnowsLen (κ : Cfg α β) (l : List α) (d : Cid) (n : Nat) : Prop :=
  n = l.length ∨ ∃ c op x, κ.HB c d ∧ κ.Returned c op x ∧ op.ReportsLen n x

/-- `v` is the first value of position `i`: it was there at the beginning or a growth call stored it there. -/
def Born (κ : Cfg α β) (l : List α) (i : Nat) (v : α) : Prop :=
  l[i]? = some v ∨ ∃ c op b vs, κ.Returned c op (.nat b) ∧ op.Stores b vs ∧ b ≤ i ∧ vs[i - b]? = some v

/-- The sequence `t` of accesses to a vector that holds `l` at the beginning explains everything about values that happened in
the execution `κ`. -/
structure ExplainedBy (κ : Cfg α β) (l : List α) (t : List (Ev α)) : Prop where
  /-- each access makes sense after the accesses before it: positions are handed out once, in order, initialised once, by the call
  that received them, and every read finds the value left by the latest access; at the end the values are those in the memory -/
  replay : ∃ σ, Replay (.ofList l) t σ ∧ σ.val = κ.mem.val
  /-- all are accesses to values or reservations, by calls -/
  data : ∀ e ∈ t, e.isData = true
  /-- values are changed only by calls that may do so -/
  changed : ∀ e ∈ t, ∃ op, κ.Called e.cid op ∧ ∀ i, e.Modifies i → op.MayWrite i
  /-- swaps, also those that are not over, do nothing else than exchanging their two values -/
  swapped : ∀ c op i j, κ.Called c op → op.SwapOf i j → dataOf c t = [] ∨ dataOf c t = [.swap c i j]
  /-- positions are handed out to growth calls -/
  reserved : ∀ c b n, Ev.reserve c b n ∈ t → ∃ op, κ.Called c op ∧ op.size = some n
  /-- elements are initialised by growth calls, with the values these have for them -/
  published : ∀ c i v, Ev.publish c i v ∈ t → ∃ op b n, κ.Called c op ∧ Ev.reserve c b n ∈ t ∧ b ≤ i ∧ op.Offers b (i - b) v
  /-- the results of all calls are those of their accesses -/
  returned : ∀ c op x n, κ.Returned c op x → κ.KnowsLen l c n → op.Explains c n (dataOf c t) x
  panicked : ∀ c op k, κ.Panicked c op k → op.ExplainsPanic c (dataOf c t)
  /-- before the first access of a call come all accesses of all calls that happen before it -/
  order : ∀ d op, κ.Called d op → ∃ t1 t2, t = t1 ++ t2 ∧ dataOf d t1 = [] ∧ ∀ c, κ.HB c d → dataOf c t2 = []

/-- The contents `s 0, s 1, …, s N` of a vector that holds `l` at the beginning, and a moment `lin c` for every call that acts at
one moment, explain the execution `κ`. -/
structure Linearized (κ : Cfg α β) (l : List α) (N : Nat) (s : Nat → Nat → Option α) (lin : Cid → Nat) : Prop where
  first : ∀ i, s 0 i = l[i]?
  last : s N = κ.mem.val
  /-- an operation on one element finds a value, leaves a value and returns its result at its moment -/
  element : ∀ c op x i, κ.Returned c op x → op.OnElement i → x ≠ .optVal none →
    lin c < N ∧ ∃ old new, s (lin c) i = some old ∧ s (lin c + 1) i = some new ∧ op.Atomic i old new x
  /-- so does `update` with a closure that panics -/
  panicked : ∀ c f i k, κ.Panicked c (.elUpdate f i) k →
    lin c < N ∧ ∃ old, s (lin c) i = some old ∧ s (lin c + 1) i = some (f old).1 ∧ (f old).2 = false
  /-- a successful swap exchanges two values at its moment -/
  swap : ∀ c op i j, κ.Returned c op (.bool true) → op.SwapOf i j →
    lin c < N ∧ i ≠ j ∧ ∃ a b, s (lin c) i = some a ∧ s (lin c) j = some b ∧ s (lin c + 1) i = some b ∧ s (lin c + 1) j = some a
  /-- `push` adds its value at its moment -/
  push : ∀ c v i, κ.Returned c (.push v) (.nat i) → lin c < N ∧ s (lin c) i = none ∧ s (lin c + 1) i = some v
  /-- nothing else changes at the moment of a call -/
  only : ∀ c op x k, κ.Returned c op x → op.AtOnce x → s (lin c) k ≠ s (lin c + 1) k → op.MayWrite k ∨ x = .nat k
  /-- at other moments, the contents change only by growth, `fill` and `fill_with` -/
  other : ∀ t i, t < N → s t i ≠ s (t + 1) i → ∃ c op, κ.Called c op ∧ ((op.size ≠ none ∧ s t i = none) ∨
    (op.MayWrite i ∧ (s t i).isSome ∧ ((∃ j, op.OnElement j) ∨ (∃ j k, op.SwapOf j k) → lin c = t)))
  /-- different calls act at different moments -/
  inj : ∀ c d, κ.Acted c → κ.Acted d → lin c = lin d → c = d
  /-- the order of the moments respects happens-before -/
  order : ∀ c d, κ.HB c d → κ.Acted c → κ.Acted d → lin c < lin d

end Weak.Cfg

end Verif
