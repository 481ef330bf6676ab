import Verif.Weak.Model
import Verif.Spec.Calls

/-!
# What a call does next, under weak memory, for C07

Specification only.
-/

namespace Verif.Weak

variable {α β : Type}

/-- The next access of call `c` (of a function of `Model/Api.lean`) to shared memory is `a`. -/
def Cfg.AboutTo (κ : Cfg α β) (c : Cid) (a : Act α) : Prop :=
  ∃ r again k, κ.calls c = some r ∧ r.status = .running (.step a again k)

/-- The newest capacity that has been published (`col.capacity()` in `src/state.rs:38-72` reads a capacity) is `k`. -/
def Cfg.NewestCap (κ : Cfg α β) (k : Nat) : Prop := ∃ r, κ.mem.cap.getLast? = some r ∧ r.val = k

end Verif.Weak
