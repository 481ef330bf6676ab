import Verif.Model.Owned
import Verif.Spec.Calls

/-!
# Vocabulary of the properties of functions that own the vector
-/

namespace Verif

variable {α β : Type}

/-- Results of the first `n` calls of `next` of the consuming iterator (panics caught). -/
def nexts : Nat → List (Option α) → List (Except PanicKind (Option α))
  | 0, _ => []
  | n + 1, es => (valuesNext es).1 :: nexts n (valuesNext es).2

/-- No growth call failed because of the maximum capacity, and no closure of `push_for_idx` panicked while being given a
position that is still not allocated. (All other panics are allowed, also those that leave positions without a value.) -/
def Cfg.NoOverrun (κ : Cfg α β) : Prop :=
  ∀ c op k m, κ.Panicked c op k → κ.AtEnd c m →
    k ≠ .maxCapacity ∧ ∀ f, op = .pushForIdx f → m.reserved ≤ κ.w.mem.cap

end Verif
