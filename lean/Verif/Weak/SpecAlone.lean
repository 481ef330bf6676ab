import Verif.Weak.Spec

/-!
# Vocabulary of the properties of calls that are made one after the other, under weak memory

Nothing here refers to the programs of the API functions.
-/

namespace Verif.Weak

variable {α β : Type}

namespace Cfg

/-- `κ'` can be reached from `κ`. -/
inductive Leads (κ : Cfg α β) : Cfg α β → Prop where
  | refl : Leads κ κ
  | step {κ' κ'' : Cfg α β} : Leads κ κ' → Step κ' κ'' → Leads κ κ''

/-- From call number `n` on, one call is made after the other, by one thread or by several threads that synchronise with each other:
all calls made before happen before the next one. -/
def InTurn (κ : Cfg α β) (n : Cid) : Prop :=
  ∀ c d op op', κ.Called c op → κ.Called d op' → n ≤ d → c < d → κ.HB c d

end Cfg

end Verif.Weak
