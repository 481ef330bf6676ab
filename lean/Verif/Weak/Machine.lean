import Verif.Weak.Wrap
import Verif.Model.Machine

/-!
# Machine arithmetic, under weak memory

As `StepM` of `Model/Machine.lean`: the functions of the crate compute with machine arithmetic, and the counter of positions wraps around.
-/

namespace Verif.Weak

variable {α β : Type} {W : Nat}

/-- One step of an execution with machine arithmetic: a call runs the program with machine arithmetic (`Op.progM`), and the counter of positions
wraps around (`src/state.rs:12`). The first position of a slice is a `usize` (`src/concurrent_slice/slice.rs:18-19`). -/
inductive StepM (A : Arith W) : Cfg α β → Cfg α β → Prop where
  | call (κ : Cfg α β) (op : Op α β) (H : List Cid) (V : View) (hH : Ended κ H V)
      (h : ∀ i ∈ op.needs, κ.Revealed H i) (hp : ∀ i ∈ op.needsPtr, κ.RevealedPtr H i) (hu : ∀ s, op.slc? = some s → s.a < W) :
      StepM A κ { κ with
        calls := upd κ.calls κ.next (some ⟨op, H, V, V, .running (op.progM A)⟩)
        next := κ.next + 1 }
  /-- everything but new calls (which count up `next`) is as before -/
  | other (κ κ' : Cfg α β) (h : Step κ κ') (hn : κ'.next = κ.next) : StepM A κ (κ'.wrap W)

/-- Configurations reachable with machine arithmetic from a vector with memory `m` (`src/state.rs:12`). -/
inductive ReachM (A : Arith W) (m : Mem α) : Cfg α β → Prop where
  | init : ReachM A m (Cfg.init m)
  | step {κ κ' : Cfg α β} : ReachM A m κ → StepM A κ κ' → ReachM A m κ'

end Verif.Weak
