import Verif.Weak.Spec

/-!
# Which positions have been counted, for C20, C21, C22 under weak memory

Specification only.
-/

namespace Verif.Weak

variable {α β : Type}

/-- Call `c` may rely on position `i` being in bounds: `i` is one of the first elements (`n` of them), or a call that happens before `c`
returned a reference to it (directly, in a slice, …), or reported a length greater than `i`. -/
def Cfg.Counted (κ : Cfg α β) (n : Nat) (c : Cid) (i : Nat) : Prop :=
  i < n ∨ ∃ d op x, κ.HB d c ∧ κ.Returned d op x ∧ (i ∈ x.elements ∨ ∃ len, op.ReportsLen len x ∧ i < len)

end Verif.Weak
