import Verif.Weak.Spec
import Verif.Model.Owned

/-!
# Taking the vector back after concurrent use, under weak memory

The functions of `Model/Owned.lean` (`into_inner`, `to_vec`, `into_iter`, `clear`) read the lengths, the capacity and the states of
the elements as every other function does.  Here is which memory they may find.
-/

namespace Verif.Weak

variable {α β : Type}

/-- Somebody has exclusive access to the vector (`self` at `src/vec.rs:86`, `src/to_vec.rs:10`,
`src/common_traits/into_iter.rs:16`, `&mut self` at `src/exclusive.rs:9,30`): all calls have ended and happen before, because the
borrows of the vector are given back by joining threads or other means of synchronisation. `V` is the knowledge of the owner. -/
def Cfg.Exclusive (κ : Cfg α β) (V : View) : Prop := ∃ H, Ended κ H V ∧ ∀ c r, κ.calls c = some r → c ∈ H

/-- What somebody who knows `V` may find in the memory when reading all of it (loads at `src/vec.rs:86-91` by `state().len()`,
`src/exclusive.rs:9-11`): from every atomic location the value of any message that is not older than what they know, not necessarily
the newest one. -/
structure Cfg.Observes (κ : Cfg α β) (V : View) (M : Mem α) : Prop where
  reserved : ∃ t msg, V.res ≤ t ∧ κ.mem.res[t]? = some msg ∧ msg.val = M.reserved
  written : ∃ t msg, V.written ≤ t ∧ κ.mem.written[t]? = some msg ∧ msg.val = M.written
  cap : ∃ t msg, V.cap ≤ t ∧ κ.mem.cap[t]? = some msg ∧ msg.val = M.cap
  st : ∀ i, ∃ t msg, V.st i ≤ t ∧ (κ.mem.st i)[t]? = some msg ∧ msg.val = M.st i
  val : M.val = κ.mem.val
  alloc : M.alloc = κ.mem.alloc
  growing : M.growing = false
  maxCap : M.maxCap = κ.mem.maxCap
  pol : M.pol = κ.mem.pol

end Verif.Weak
