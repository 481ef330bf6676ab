import Verif.Spec.Progress

/-!
# Vocabulary for finding the elements that were added (C62)
-/

namespace Verif

variable {α β : Type}

namespace Cfg

/-- Growth call `c` returned, and position `i` is one of those it added. -/
def Added (κ : Cfg α β) (c : Cid) (i : Nat) : Prop :=
  ∃ op n b, κ.Returned c op (.nat b) ∧ op.size = some n ∧ b ≤ i ∧ i < b + n

/-- Position `i` was added before call `d` was made: it is one of the elements at the beginning, or added by a call that was over. -/
def AddedBefore (κ : Cfg α β) (l : List α) (d : Cid) (i : Nat) : Prop :=
  i < l.length ∨ ∃ c, κ.Added c i ∧ κ.Before c d

/-- Call `d` does not find position `i`: it is `get(i)` and returned `None`, or `vec[i]` and panicked, or `len()`, `iter()` or
`as_slice()` and does not reach as far as `i`. -/
def Misses (κ : Cfg α β) (d : Cid) (i : Nat) : Prop :=
  κ.Returned d (.get i) (.elem none) ∨ κ.Panicked d (.index i) .outOfBounds ∨
    ∃ op x len, κ.Returned d op x ∧ op.ReportsLen len x ∧ len ≤ i

end Cfg

/-- At some moment of call `d`, another call was accessing the element at position `j`: it had its handle. -/
def AccessedDuring (κ : Nat → Cfg α β) (n : Nat) (d : Cid) (j : Nat) : Prop :=
  ∃ t e op, (κ n).During d t ∧ e ≠ d ∧ (κ n).Overlap d e ∧ (κ t).Running e op ∧ (κ t).w.mem.st j = .RESERVED

end Verif
