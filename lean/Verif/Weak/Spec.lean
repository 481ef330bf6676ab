import Verif.Weak.Model
import Verif.Spec.Calls

/-!
# Vocabulary of the properties of weak-memory executions

Calls with their results, happens-before between calls, what a call can still observe.
Nothing here refers to the programs of the API functions.
-/

namespace Verif

variable {α β : Type}

/-- A pointer to position `i` is obtained only with an acquiring load of the state byte. (`get_raw`, `get_ref`, `iter_ref`,
`get_raw_mut`: `SeqCst`, `src/unsafe_api.rs:46,162,273,311`.) -/
def Op.PtrAcquire (i : Nat) : Op α β → Prop
  | .getRaw o j => j = i → o.acq = true
  | .iterRef o => o.acq = true
  | .slGetRaw s o j => s.a + j = i → o.acq = true
  | .slIterRef _ o => o.acq = true
  | _ => True

namespace Weak

namespace Cfg

/-- Call `c` is a call of `op`; it may be running, or have returned or panicked. -/
def Called (κ : Cfg α β) (c : Cid) (op : Op α β) : Prop := ∃ r, κ.calls c = some r ∧ r.op = op

/-- Call `c` of `op` is over and returned `x`. -/
def Returned (κ : Cfg α β) (c : Cid) (op : Op α β) (x : Ret α β) : Prop :=
  ∃ r, κ.calls c = some r ∧ r.op = op ∧ r.status = .done x

/-- Call `c` of `op` is over and panicked with `k`. -/
def Panicked (κ : Cfg α β) (c : Cid) (op : Op α β) (k : PanicKind) : Prop :=
  ∃ r, κ.calls c = some r ∧ r.op = op ∧ r.status = .panicked k

/-- The end of call `c` happens before the beginning of call `d`. -/
inductive HB (κ : Cfg α β) : Cid → Cid → Prop where
  | one {c d r} (h : κ.calls d = some r) (hc : c ∈ r.hb) : HB κ c d
  | trans {c d e} : HB κ c d → HB κ d e → HB κ c e

/-- All calls satisfy `p`. -/
def Only (κ : Cfg α β) (p : Op α β → Prop) : Prop := ∀ c op, κ.Called c op → p op

/-- User code keeps its promise when it reads through raw pointers and references (safety sections of
`src/unsafe_api.rs`): an element that is read in this way is not written by anybody, and pointers to it come from functions with
acquiring loads. An execution in which user code reads through no pointer is disciplined. -/
def Disciplined (κ : Cfg α β) : Prop :=
  ∀ c e, κ.Called c (.deref e) → κ.Only fun op => ¬ op.MayWrite e ∧ op.PtrAcquire e

/-- For call `c` the element at `i` has a value: its storage is allocated before, it holds a value, and no load of the
state byte, however stale, can tell the call that the element has no value. -/
def HasValue (κ : Cfg α β) (c : Cid) (i : Nat) : Prop :=
  ∃ r, κ.calls c = some r ∧ κ.mem.usable r.view i = true ∧ (κ.mem.val i).isSome = true ∧
    ∀ t msg, r.view.st i ≤ t → (κ.mem.st i)[t]? = some msg → msg.val ≠ .NONE

/-- Call `c` has added position `i` to the vector. -/
def Added (κ : Cfg α β) (c : Cid) (i : Nat) : Prop :=
  ∃ op n b, κ.Returned c op (.nat b) ∧ op.size = some n ∧ b ≤ i ∧ i < b + n

/-- The vector, with `n` elements at the beginning, got its elements at positions below `k` before call `d`. -/
def FilledBefore (κ : Cfg α β) (n : Nat) (d : Cid) (k : Nat) : Prop :=
  ∀ i, i < k → i < n ∨ ∃ c, κ.Added c i ∧ κ.HB c d

end Cfg

end Weak

end Verif
