import Verif.Weak.Model

/-!
# Machine integers, under weak memory

`len_reserved` is an `AtomicUsize` (`src/state.rs:12`): its `fetch_add` (`src/grow.rs:126,158,314,435`) wraps around silently.
The model of `Weak/Model.lean` has an unbounded counter; here it is a counter modulo `W`.
-/

namespace Verif.Weak

variable {α β : Type}

/-- All messages of the counter of handed out positions (`src/state.rs:12`), reduced modulo `W`. -/
def Cfg.wrap (W : Nat) (κ : Cfg α β) : Cfg α β :=
  { κ with mem := { κ.mem with res := κ.mem.res.map fun r => { r with val := r.val % W } } }

/-- Executions under weak memory on a machine whose `usize` has `W` values (`src/state.rs:12`). -/
inductive ReachW (W : Nat) (m : Mem α) : Cfg α β → Prop where
  | init : ReachW W m (Cfg.init m)
  | step {κ κ' : Cfg α β} (h : ReachW W m κ) (hs : Step κ κ') : ReachW W m (κ'.wrap W)

end Verif.Weak
