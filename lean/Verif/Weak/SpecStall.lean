import Verif.Weak.SpecProgress

/-!
# Calls that do not get any further, under weak memory, for C51

Specification only.
-/

namespace Verif.Weak

variable {α β : Type}

/-- Call `c` is about to store `v` at position `i`. `extend`, `extend_n_items` and `extend_for_idx` run code of the caller only then
(`src/grow.rs:316-327,437-446`): between two values, and (the closure of `extend_for_idx`) between the allocation and the first value. -/
def Cfg.Stores (κ : Cfg α β) (c : Cid) (i : Nat) (v : α) : Prop :=
  ∃ r again k, κ.calls c = some r ∧ r.status = .running (.step (.valWrite i v) again k)

/-- In the execution `κ`, call `c` has received the `k` positions from `b` on before moment `n`: at some moment its next action was the
`fetch_add` of `k` on the counter of positions (`src/grow.rs:126,158,314,435`), the newest message of the counter was `b`, and it performed
the action. -/
def Received (κ : Nat → Cfg α β) (n : Nat) (c : Cid) (b k : Nat) : Prop :=
  ∃ t, t < n ∧ (∃ r o again f, (κ t).calls c = some r ∧ r.status = .running (.step (.resFetchAdd k o) again f)) ∧
    (∃ q, (κ t).mem.res.getLast? = some q ∧ q.val = b) ∧ (κ t).Moves c (κ (t + 1))

/-- The newest message of the capacity (`src/state.rs:55-72` compares positions with it) is at least `k`. -/
def Cfg.Allocated (κ : Cfg α β) (k : Nat) : Prop := ∃ q, κ.mem.cap.getLast? = some q ∧ k ≤ q.val

/-- From moment `T` on call `c` does not get any further. -/
def StalledFrom (κ : Nat → Cfg α β) (T : Nat) (c : Cid) : Prop := ∀ t, T ≤ t → (κ t).calls c = (κ T).calls c

end Verif.Weak
