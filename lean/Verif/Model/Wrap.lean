import Verif.Model.Conc

/-!
# Machine integers

`len_reserved` is an `AtomicUsize` (`src/state.rs:12`): its `fetch_add`
(`src/grow.rs:126,158,314,435`) wraps around silently, in debug and in release builds. The model of `Model/Conc.lean`
has an unbounded counter; here it is a counter modulo `W` (`W = 2^64` on usual machines).
-/

namespace Verif

variable {α β : Type}

/-- The counter of handed out positions (`src/state.rs:12`), reduced modulo `W`. -/
def Cfg.wrap (W : Nat) (κ : Cfg α β) : Cfg α β :=
  { κ with w := { κ.w with mem := { κ.w.mem with reserved := κ.w.mem.reserved % W } } }

/-- One step of a concurrent execution on a machine whose `usize` has `W` values (`src/state.rs:12`). -/
def StepW (W : Nat) (κ κ' : Cfg α β) : Prop := ∃ κ₁, Step κ κ₁ ∧ κ' = κ₁.wrap W

/-- `κ 0, …, κ n` is an execution on such a machine, starting with a vector that holds `l` (`src/state.rs:12`). -/
structure ExecW (W : Nat) (m : Mem α) (l : List α) (n : Nat) (κ : Nat → Cfg α β) : Prop where
  init : κ 0 = Cfg.init m l
  next : ∀ t, t < n → StepW W (κ t) (κ (t + 1))

end Verif
