import Verif.Weak.SpecStall
import Verif.Weak.SpecLock

/-!
# Positions left behind by a growth call that panicked, under weak memory, for C23

Specification only.
-/

namespace Verif.Weak

variable {α β : Type}

/-- At moment `s`, some growth call that panicked has left position `p`, which was reserved for it, without a value. -/
def Hole (κ : Nat → Cfg α β) (s p : Nat) : Prop :=
  ∃ c op k b sz, (κ s).Panicked c op k ∧ Received κ s c b sz ∧ b ≤ p ∧ p < b + sz ∧ (κ s).Newest p .NONE

end Verif.Weak
