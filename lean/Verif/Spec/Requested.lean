import Verif.Spec.Calls

/-!
# How many positions were asked for
-/

namespace Verif

variable {α β : Type}

/-- The sum of the lengths of all growth calls made so far (1 for each `push`), whether they are running, returned or
panicked. -/
def Cfg.requested (κ : Cfg α β) : Nat :=
  ((List.range κ.next).map fun c => ((κ.calls c).bind fun r => r.op.size).getD 0).sum

end Verif
