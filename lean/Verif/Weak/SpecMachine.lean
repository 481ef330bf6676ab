import Verif.Weak.Spec

/-!
# Executions that look the same from outside, under weak memory, for C63

Specification only.
-/

namespace Verif.Weak

variable {α β : Type}

/-- What is known of a call from outside: operation, which calls happen before it, what it knew and knows of the memory, and result or panic if
it has ended. -/
def Rec.outline (r : Rec α β) : Op α β × List Cid × View × View × Option (Except PanicKind (Ret α β)) :=
  (r.op, r.hb, r.start, r.view, match r.status with
    | .running _ => none
    | .done x => some (.ok x)
    | .panicked k => some (.error k))

/-- The same memory (all messages of all locations), and the same calls with the same results; only the programs that are still to be run may
differ. -/
def Cfg.LooksLike (κ κ' : Cfg α β) : Prop :=
  κ.mem = κ'.mem ∧ κ.bad = κ'.bad ∧ κ.next = κ'.next ∧ ∀ c, (κ.calls c).map Rec.outline = (κ'.calls c).map Rec.outline

end Verif.Weak
