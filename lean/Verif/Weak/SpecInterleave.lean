import Verif.Weak.Owner
import Verif.Spec.Progress

/-!
# Vocabulary for comparing interleavings with executions under weak memory (C64)

Nothing here refers to the programs of the API functions.
-/

namespace Verif

variable {α β : Type}

/-- User code keeps its promise when it reads through raw pointers and references (the same as `Weak.Cfg.Disciplined`): an element that is
read in this way is not written by anybody, and pointers to it come from functions with acquiring loads. -/
def Cfg.Disciplined (κ : Cfg α β) : Prop :=
  ∀ c e, κ.Called c (.deref e) → ∀ d op, κ.Called d op → ¬ op.MayWrite e ∧ op.PtrAcquire e

namespace Weak

/-- Under weak memory the same can be seen as in the interleaving: the same calls with the same results and panics, and one call happens
before another one if and only if it was over before the other one began. -/
structure Cfg.Shows (κ' : Cfg α β) (κ : Verif.Cfg α β) : Prop where
  called : ∀ c op, κ'.Called c op ↔ κ.Called c op
  running : ∀ c op, κ'.Running c op ↔ κ.Running c op
  returned : ∀ c op x, κ'.Returned c op x ↔ κ.Returned c op x
  panicked : ∀ c op k, κ'.Panicked c op k ↔ κ.Panicked c op k
  order : ∀ c d, κ'.HB c d ↔ κ.Before c d
  nothingBad : κ'.bad = none

end Weak

end Verif
