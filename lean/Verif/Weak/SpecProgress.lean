import Verif.Weak.Spec
import Verif.Spec.Progress

/-!
# Vocabulary of the progress properties of weak-memory executions

Who can get ahead, infinite executions, fairness.  Nothing here refers to the programs of the API functions.
-/

namespace Verif.Weak

variable {α β : Type}

namespace Cfg

/-- Call `c` of `op` is over: it returned or panicked. -/
def Over (κ : Cfg α β) (c : Cid) (op : Op α β) : Prop := (∃ x, κ.Returned c op x) ∨ ∃ k, κ.Panicked c op k

/-- Call `c` makes the step from `κ` to `κ'`: it performs its next primitive action, in one of the ways that are possible in the
memory model (in particular: it reads one of the messages it may read), or it returns, or it panics. -/
def Moves (κ : Cfg α β) (c : Cid) (κ' : Cfg α β) : Prop :=
  ∃ r, κ.calls c = some r ∧
    ((∃ a again k t V m b, r.status = .running (.step a again k) ∧ exec a t r.view κ.mem = .ok V m b ∧
        κ' = { κ with
          mem := m
          calls := upd κ.calls c (some { r with
            view := V
            status := .running (if again b then .step a again k else k b) }) }) ∨
     (∃ x, r.status = .running (.ret x) ∧ κ' = { κ with calls := upd κ.calls c (some { r with status := .done x }) }) ∨
     (∃ k, r.status = .running (.panic k) ∧ κ' = { κ with calls := upd κ.calls c (some { r with status := .panicked k }) }))

/-- How far call `c` has got: the rest of its program, or its result (`none`: it has not been made). -/
def at' (κ : Cfg α β) (c : Cid) : Option (Status α β) := (κ.calls c).map Rec.status

/-- Call `c` gets ahead by the step from `κ` to `κ'`: afterwards a smaller rest of its program remains to be done. -/
def Advances (κ : Cfg α β) (c : Cid) (κ' : Cfg α β) : Prop := κ.Moves c κ' ∧ κ'.at' c ≠ κ.at' c

/-- Call `c` is running, but whatever messages it reads, it can only wait: no step of it gets it ahead. -/
def Blocked (κ : Cfg α β) (c : Cid) : Prop := (∃ op, κ.Running c op) ∧ ∀ κ', ¬ κ.Advances c κ'

/-- Blocking swaps are called with the smaller index first (see `Op.SwapsUp`). -/
def SwapsUp (κ : Cfg α β) : Prop := κ.Only Op.SwapsUp

/-- Nothing has happened that could have lost the position at which the storage has to grow next: no closure given to `push_for_idx` has
panicked, and if a growth call ran into the maximum capacity, then the maximum capacity is (still) `mx`. (Other panics, also those of
growth calls, are allowed.) -/
def GrowthIntact (κ : Cfg α β) (mx : Nat) : Prop :=
  (∀ c f, ¬ κ.Panicked c (.pushForIdx f) .userCode) ∧ ∀ c op, κ.Panicked c op .maxCapacity → κ.mem.maxCap = mx

/-- No closure given to `push_for_idx` can panic. -/
def SafeClosures (κ : Cfg α β) : Prop := κ.Only fun op => ∀ f, op = .pushForIdx f → ∀ i, (f i).isSome

/-- `κ'` can be reached from `κ` by steps of the calls that are already running in `κ`. -/
inductive Runs (κ : Cfg α β) : Cfg α β → Prop where
  | refl : Runs κ κ
  | step {κ' κ'' : Cfg α β} {c : Cid} : Runs κ κ' → κ'.Moves c κ'' → Runs κ κ''

end Cfg

/-- `κ 0, κ 1, …` is an infinite execution of a vector with memory `m` (with pauses, so that finite executions are included). -/
structure InfExec (m : Mem α) (κ : Nat → Cfg α β) : Prop where
  init : κ 0 = Cfg.init m
  next : ∀ t, κ (t + 1) = κ t ∨ Step (κ t) (κ (t + 1))

/-- Strong fairness of the scheduler and of the memory: a call that is able to get ahead again and again gets ahead again and again.
This contains that running calls are scheduled again and again, that a write becomes visible to others eventually, so that nobody
reads outdated messages forever while there is a newer one that would get them ahead, and that a `compare_exchange` does not come at
the wrong moment forever. -/
def StronglyFair (κ : Nat → Cfg α β) : Prop :=
  ∀ c, (∀ t, ∃ t', t ≤ t' ∧ (∃ op, (κ t').Running c op) ∧ ¬ (κ t').Blocked c) →
    ∀ t, ∃ t', t ≤ t' ∧ (κ t').Advances c (κ (t' + 1))

/-- Strong fairness for all calls outside `S`; nothing is said about the calls in `S`. -/
def StronglyFairExcept (S : Cid → Prop) (κ : Nat → Cfg α β) : Prop :=
  ∀ c, ¬ S c → (∀ t, ∃ t', t ≤ t' ∧ (∃ op, (κ t').Running c op) ∧ ¬ (κ t').Blocked c) →
    ∀ t, ∃ t', t ≤ t' ∧ (κ t').Advances c (κ (t' + 1))

/-- Fair scheduling alone: a running call makes steps again and again. Nothing is said about which messages it reads. -/
def FairScheduling (κ : Nat → Cfg α β) : Prop :=
  ∀ t c op, (κ t).Running c op → ∃ t', t ≤ t' ∧ (κ t').Moves c (κ (t' + 1))

end Verif.Weak
