import Verif.Spec.Calls
import Verif.Weak.Spec

/-!
# Who has which values: vocabulary of C50

Nothing here refers to the programs of the API functions.
-/

namespace Verif

variable {α β : Type}

/-- What a call did with values. -/
structure Entry (α : Type) where
  /-- the values that the call put into the vector -/
  given : List α
  /-- the values that the call took out of the vector and returned to the caller -/
  taken : List α
  /-- the values that the call removed from the vector without returning them: overwritten by `set`, `fill` and `fill_with`,
  turned into another value by `update` -/
  gone : List α

/-- The call did not move any values. -/
def Entry.none : Entry α := ⟨[], [], []⟩

/-- What a call that returned `x` did with values. -/
def Op.Moved (x : Ret α β) (e : Entry α) : Op α β → Prop
  | .push v => e = ⟨[v], [], []⟩
  | .pushForIdx f => ∃ i v, x = .nat i ∧ f i = some v ∧ e = ⟨[v], [], []⟩
  | .extend it => ∃ vs, vs.length = it.hint ∧ vs.map some <+: it.items ∧ e = ⟨vs, [], []⟩
  | .extendN items n => ∃ vs, vs.length = n ∧ vs.map some <+: items ∧ e = ⟨vs, [], []⟩
  | .extendForIdx f n => ∃ b it vs, x = .nat b ∧ f b = some it ∧ vs.length = n ∧ vs.map some <+: it.items ∧ e = ⟨vs, [], []⟩
  | .elReplace _ v => ∃ u, x = .val u ∧ e = ⟨[v], [u], []⟩
  | .elSet _ v => ∃ u, e = ⟨[v], [], [u]⟩
  | .elUpdate f _ => ∃ u, (f u).2 = true ∧ e = ⟨[(f u).1], [], [u]⟩
  | .fill v => ∃ us, e = ⟨us.map fun _ => v, [], us⟩
  | .fillWith f => ∃ us vs, us.length = vs.length ∧ (∀ j, j < vs.length → f j = vs[j]?) ∧ e = ⟨vs, [], us⟩
  | .slFill s v => ∃ us, us.length = s.len ∧ e = ⟨us.map fun _ => v, [], us⟩
  | .slFillWith s f => ∃ us vs, us.length = s.len ∧ vs.length = s.len ∧ (∀ j, j < vs.length → f j = vs[j]?) ∧ e = ⟨vs, [], us⟩
  | _ => e = .none

/-- What a call that panicked did with values before. -/
def Op.MovedPanic (e : Entry α) : Op α β → Prop
  | .extend it => ∃ vs, vs.length < it.hint ∧ vs.map some <+: it.items ∧ e = ⟨vs, [], []⟩
  | .extendN items n => ∃ vs, vs.length < n ∧ vs.map some <+: items ∧ e = ⟨vs, [], []⟩
  | .extendForIdx f n => e = .none ∨ ∃ b it vs, f b = some it ∧ vs.length < n ∧ vs.map some <+: it.items ∧ e = ⟨vs, [], []⟩
  | .elUpdate f _ => ∃ u, (f u).2 = false ∧ e = ⟨[(f u).1], [], [u]⟩
  | .fillWith f => ∃ us vs, us.length = vs.length ∧ (∀ j, j < vs.length → f j = vs[j]?) ∧ f vs.length = Option.none ∧ e = ⟨vs, [], us⟩
  | .slFillWith s f => ∃ us vs, us.length = vs.length ∧ vs.length < s.len ∧ (∀ j, j < vs.length → f j = vs[j]?) ∧
      f vs.length = Option.none ∧ e = ⟨vs, [], us⟩
  | _ => e = .none

/-- The call puts no values into the vector and takes none out (it may exchange values within the vector). -/
def Op.MovesNothing : Op α β → Prop
  | .push _ | .pushForIdx _ | .extend _ | .extendN _ _ | .extendForIdx _ _ | .elReplace _ _ | .elSet _ _ | .elUpdate _ _
  | .fill _ | .fillWith _ | .slFill _ _ | .slFillWith _ _ => False
  | _ => True

/-- `book` records what each call did with values; calls that have not begun or are not over did nothing. -/
structure Recorded (ret : Cid → Op α β → Ret α β → Prop) (pan : Cid → Op α β → PanicKind → Prop) (book : Cid → Entry α) : Prop where
  returned : ∀ c op x, ret c op x → op.Moved x (book c)
  panicked : ∀ c op k, pan c op k → op.MovedPanic (book c)
  other : ∀ c, (∀ op x, ¬ ret c op x) → (∀ op k, ¬ pan c op k) → book c = .none

/-- The call passes the one value `v` to the vector, by `push`, `replace` or `set`. -/
def Op.Brings (v : α) : Op α β → Prop
  | .push u | .elReplace _ u | .elSet _ u => v = u
  | _ => False

/-- The values `val 0, …, val (N-1)`, where there is one. -/
def valuesBelow (N : Nat) (val : Nat → Option α) : List α := (List.range N).filterMap val

/-- The accounts of the calls `0, …, n-1` add up: what was in the vector at the beginning and what was put into it is, value by
value, what is in it, what was taken out of it and what is gone. -/
def Balanced (l : List α) (n : Nat) (book : Cid → Entry α) (now : List α) : Prop :=
  (l ++ (List.range n).flatMap fun c => (book c).given).Perm
    (now ++ ((List.range n).flatMap fun c => (book c).taken) ++ (List.range n).flatMap fun c => (book c).gone)

namespace Cfg

/-- Calls that may move values are over. -/
def Settled (κ : Cfg α β) : Prop :=
  ∀ c op, κ.Called c op → op.MovesNothing ∨ (∃ x, κ.Returned c op x) ∨ ∃ k, κ.Panicked c op k

end Cfg

namespace Weak.Cfg

/-- Calls that may move values are over. -/
def Settled (κ : Cfg α β) : Prop :=
  ∀ c op, κ.Called c op → op.MovesNothing ∨ (∃ x, κ.Returned c op x) ∨ ∃ k, κ.Panicked c op k

end Weak.Cfg

end Verif
