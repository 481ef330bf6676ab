import Verif.Model.Api

/-!
# Running a program alone

What a call does if nothing else runs at the same time: the primitive actions are performed one after the other.
This is the interleaving semantics of `Model/Conc.lean` restricted to one call (`Proof/SoloRun.lean` proves the
connection).
-/

namespace Verif

variable {α ρ : Type}

/-- Outcome of a program that runs alone. -/
inductive Out (ρ : Type) where
  /-- it returns or panics -/
  | done (r : Except PanicKind ρ)
  /-- it spins forever: a spin loop whose body has failed once can only be left if some other thread acts -/
  | hang
  /-- undefined behaviour -/
  | ub

/-- Run a program alone (no counterpart in the source: single-threaded execution). -/
def Prog.solo : Prog α ρ → Mem α → Out ρ × Mem α
  | .ret x, m => (.done (.ok x), m)
  | .panic k, m => (.done (.error k), m)
  | .step a again k, m =>
    match a.exec m with
    | none => (.ub, m)
    | some (m', b) => if again b then (.hang, m') else (k b).solo m'

end Verif
