import Verif.Model.Api
import Verif.Spec.Events

/-!
# Concurrent executions

Interleaving (sequentially consistent) semantics: any number of calls run concurrently, each step performs
one primitive action of one call.  The `World` extends the memory by ghost state which does not influence
the execution: the trace of events, the abstract vector, who holds which element and who is growing.
-/

namespace Verif

variable {α β : Type}

/-- Memory plus ghost state. -/
structure World (α : Type) where
  mem : Mem α
  /-- events performed so far, in order -/
  trace : List (Ev α)
  /-- abstract state reached by the trace -/
  spec : SpecSt α
  /-- the call holding the handle of the element at a position -/
  holder : Nat → Option Cid
  /-- the call which has allocated but not yet published new capacity -/
  grower : Option Cid

/-- Events of an action performed by `c` in `w` with response `b`. -/
def Act.events (c : Cid) (w : World α) : (a : Act α) → a.Resp → List (Ev α)
  | .resFetchAdd n _, _ => [.reserve c w.mem.reserved n]
  | .stStore i s _, _ =>
      if s = .SOME ∧ w.mem.st i = .NONE then
        match w.mem.val i with
        | some v => [.publish c i v]
        | none => []
      else []
  | .valRead i, v => [.read c i v]
  | .valWrite i v, _ =>
      if w.mem.st i = .RESERVED then
        match w.mem.val i with
        | some old => [.write c i old v]
        | none => []
      else []
  | .valSwap i j, _ => [.swap c i j]
  | .stLoad i _, s =>
      match (show CState from s) with
      | .SOME => [.seen c i]
      | .NONE => [.hole c i]
      | .RESERVED =>
        match w.holder i with
        | some d => [.busy c i d]
        | none => []
  | _, _ => []

/-- Ghost: who holds which element after the action. -/
def Act.holderNext (c : Cid) (w : World α) : (a : Act α) → a.Resp → (Nat → Option Cid)
  | .stCas i _ _ _ _, r =>
      if (show Option CState from r) = none then upd w.holder i (some c) else w.holder
  | .stStore i _ _, _ => upd w.holder i none
  | _, _ => w.holder

/-- Ghost: who is growing after the action. -/
def Act.growerNext (c : Cid) (w : World α) : Act α → Option Cid
  | .growAlloc _ => some c
  | .growPublish _ => none
  | _ => w.grower

/-- One primitive action of call `c`; `none` = undefined behaviour. -/
def World.exec (c : Cid) (a : Act α) (w : World α) : Option (World α × a.Resp) :=
  match a.exec w.mem with
  | none => none
  | some (m', b) =>
    let evs := a.events c w b
    some ({ mem := m'
            trace := w.trace ++ evs
            spec := evs.foldl specNext w.spec
            holder := a.holderNext c w b
            grower := a.growerNext c w }, b)

/-- Status of a call. `fin` is the world at the moment the call ended. -/
inductive Status (α β : Type) where
  | running (p : Prog α (Ret α β))
  | done (r : Ret α β) (endT : Nat) (fin : World α)
  | panicked (k : PanicKind) (endT : Nat) (fin : World α)

/-- Record of a call: operation, invocation time, world at the invocation, status. -/
structure Rec (α β : Type) where
  op : Op α β
  callT : Nat
  start : World α
  status : Status α β

/-- Configuration of a concurrent execution. -/
structure Cfg (α β : Type) where
  w : World α
  calls : Cid → Option (Rec α β)
  /-- next unused call identifier -/
  next : Cid
  clock : Nat
  /-- undefined behaviour has happened -/
  ub : Bool

namespace Cfg

/-- The caller may know position `i`: some finished call returned a reference to its element. -/
def Revealed (κ : Cfg α β) (i : Nat) : Prop :=
  ∃ c r op ct st et fin, κ.calls c = some ⟨op, ct, st, .done r et fin⟩ ∧ i ∈ r.elements

/-- Some finished call returned a pointer to the value at position `i`. -/
def RevealedPtr (κ : Cfg α β) (i : Nat) : Prop :=
  ∃ c r op ct st et fin, κ.calls c = some ⟨op, ct, st, .done r et fin⟩ ∧ i ∈ r.pointers

/-- No call is running. -/
def Idle (κ : Cfg α β) : Prop :=
  ∀ c op ct st p, κ.calls c ≠ some ⟨op, ct, st, .running p⟩

/-- Replace the status of a call. -/
def setStatus (κ : Cfg α β) (c : Cid) (r : Rec α β) (s : Status α β) : Cid → Option (Rec α β) :=
  upd κ.calls c (some { r with status := s })

end Cfg

/-- `reserve_maximum_capacity(&mut self, n)` (`src/exclusive.rs:30-35`): the storage may raise its maximum capacity;
nothing else changes. -/
abbrev Mem.reserveMax (m : Mem α) (n : Nat) : Mem α := { m with maxCap := m.pol.reserve m.maxCap n }

/-- One step of a concurrent execution. -/
inductive Step : Cfg α β → Cfg α β → Prop where
  /-- a thread calls an API function; element and slice methods need a reference obtained before -/
  | invoke (κ : Cfg α β) (op : Op α β) (h : ∀ i ∈ op.needs, κ.Revealed i)
      (hp : ∀ i ∈ op.needsPtr, κ.RevealedPtr i) :
      Step κ { κ with
        calls := upd κ.calls κ.next (some ⟨op, κ.clock, κ.w, .running op.prog⟩)
        next := κ.next + 1
        clock := κ.clock + 1 }
  /-- a running call performs its next primitive action -/
  | act (κ : Cfg α β) (c : Cid) (r : Rec α β) (a : Act α) (again : a.Resp → Bool)
      (k : a.Resp → Prog α (Ret α β)) (w' : World α) (b : a.Resp)
      (hc : κ.calls c = some r) (hr : r.status = .running (.step a again k))
      (he : κ.w.exec c a = some (w', b)) :
      Step κ { κ with
        w := w'
        calls := κ.setStatus c r (.running (if again b then .step a again k else k b))
        clock := κ.clock + 1 }
  /-- the next primitive action of a running call is undefined behaviour -/
  | ub (κ : Cfg α β) (c : Cid) (r : Rec α β) (a : Act α) (again : a.Resp → Bool)
      (k : a.Resp → Prog α (Ret α β))
      (hc : κ.calls c = some r) (hr : r.status = .running (.step a again k))
      (he : κ.w.exec c a = none) :
      Step κ { κ with ub := true }
  /-- a call returns -/
  | ret (κ : Cfg α β) (c : Cid) (r : Rec α β) (x : Ret α β)
      (hc : κ.calls c = some r) (hr : r.status = .running (.ret x)) :
      Step κ { κ with
        calls := κ.setStatus c r (.done x κ.clock κ.w)
        clock := κ.clock + 1 }
  /-- a call panics -/
  | panic (κ : Cfg α β) (c : Cid) (r : Rec α β) (k : PanicKind)
      (hc : κ.calls c = some r) (hr : r.status = .running (.panic k)) :
      Step κ { κ with
        calls := κ.setStatus c r (.panicked k κ.clock κ.w)
        clock := κ.clock + 1 }
  /-- `reserve_maximum_capacity(&mut self, n)` (`src/exclusive.rs:30-35`): needs exclusive access -/
  | reserveMax (κ : Cfg α β) (n : Nat) (h : κ.Idle) :
      Step κ { κ with
        w := { κ.w with mem := κ.w.mem.reserveMax n }
        clock := κ.clock + 1 }

/-- The memory of a vector which holds exactly the elements of `l` and is not in use:
what `new`, `with_…`, `From` and `clear` produce (`src/state.rs:21-36`, `src/new.rs`, `src/vec.rs:415-419`;
`C37_initial` and `C38_clear_partial` prove this for `Pinned.toShared` and `Mem.clear`). -/
structure InitMem (m : Mem α) (l : List α) : Prop where
  reserved : m.reserved = l.length
  written : m.written = l.length
  st : ∀ i, m.st i = if i < l.length then .SOME else .NONE
  val : ∀ i, m.val i = l[i]?
  cap : l.length ≤ m.cap
  alloc : m.alloc = m.cap
  growing : m.growing = false
  good : m.pol.good m.cap m.maxCap

/-- The world in which nothing has happened yet. -/
def World.init (m : Mem α) (l : List α) : World α where
  mem := m
  trace := []
  spec := .ofList l
  holder := fun _ => none
  grower := none

/-- The configuration in which nothing has happened yet. -/
def Cfg.init (m : Mem α) (l : List α) : Cfg α β where
  w := .init m l
  calls := fun _ => none
  next := 1
  clock := 0
  ub := false

/-- Configurations reachable by concurrent use of a vector that initially holds `l`. -/
inductive Reach (m : Mem α) (l : List α) : Cfg α β → Prop where
  | init : Reach m l (Cfg.init m l)
  | step {κ κ' : Cfg α β} : Reach m l κ → Step κ κ' → Reach m l κ'

end Verif
