import Verif.Spec.Calls

/-!
# Executions that look the same from outside
-/

namespace Verif

variable {α β : Type}

/-- What is known of a call from outside: operation, invocation, and result or panic if it has ended. -/
def Rec.outline (r : Rec α β) : Op α β × Nat × World α × Option (Except PanicKind (Ret α β) × Nat × World α) :=
  (r.op, r.callT, r.start, match r.status with
    | .running _ => none
    | .done x t w => some (.ok x, t, w)
    | .panicked k t w => some (.error k, t, w))

/-- The same memory, the same events, and the same calls with the same results at the same times; only the programs that are still to be run
may differ. -/
def Cfg.LooksLike (κ κ' : Cfg α β) : Prop :=
  κ.w = κ'.w ∧ κ.ub = κ'.ub ∧ κ.clock = κ'.clock ∧ κ.next = κ'.next ∧ ∀ c, (κ.calls c).map Rec.outline = (κ'.calls c).map Rec.outline

end Verif
