import Verif.Weak.SpecProgress

/-!
# Who has locked an element, under weak memory, for C52

Specification only.
-/

namespace Verif.Weak

variable {α β : Type}

/-- The newest message of the state byte of element `i` (in the `ConcurrentOption` of `src/elem.rs:11`) is `s`. -/
def Cfg.Newest (κ : Cfg α β) (i : Nat) (s : CState) : Prop := ∃ r, (κ.mem.st i).getLast? = some r ∧ r.val = s

/-- In the execution `κ`, call `c` has locked element `i` before moment `n` (a step of it replaced `SOME` by `RESERVED`), and the element has
been locked ever since. -/
def HasLocked (κ : Nat → Cfg α β) (n : Nat) (c : Cid) (i : Nat) : Prop :=
  ∃ t, t < n ∧ (κ t).Moves c (κ (t + 1)) ∧ (κ t).Newest i .SOME ∧ ∀ u, t < u → u ≤ n → (κ u).Newest i .RESERVED

end Verif.Weak
