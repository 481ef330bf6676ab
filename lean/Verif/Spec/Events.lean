import Verif.Model.Basic

/-!
# What an execution does, seen from outside

An execution is described by the sequence of *events* its calls perform.  The abstract vector has, for each
position, an owner (the call which reserved it) and possibly a value.  `specOk`/`specNext` say which events
make sense on which abstract state and what they do; nothing here refers to the memory or the programs.
-/

namespace Verif

/-- Identifier of a call. Identifier 0 stands for the initial content. -/
abbrev Cid := Nat

inductive Ev (α : Type) where
  /-- call `c` received the positions `b, b+1, …, b+n-1` -/
  | reserve (c : Cid) (b n : Nat)
  /-- call `c` made value `v` available at position `i` -/
  | publish (c : Cid) (i : Nat) (v : α)
  /-- call `c` read value `v` at position `i` -/
  | read (c : Cid) (i : Nat) (v : α)
  /-- call `c` replaced the value `old` at position `i` by `new` -/
  | write (c : Cid) (i : Nat) (old new : α)
  /-- call `c` exchanged the values at positions `i` and `j` -/
  | swap (c : Cid) (i j : Nat)
  /-- call `c` looked at position `i` without reading it and found a value it could have read -/
  | seen (c : Cid) (i : Nat)
  /-- call `c` looked at position `i` while call `d` was accessing the element there -/
  | busy (c : Cid) (i : Nat) (d : Cid)
  /-- call `c` looked at position `i` and found no value -/
  | hole (c : Cid) (i : Nat)

variable {α : Type}

/-- The call that performed the event. -/
def Ev.cid : Ev α → Cid
  | .reserve c _ _ => c
  | .publish c _ _ => c
  | .read c _ _ => c
  | .write c _ _ _ => c
  | .swap c _ _ => c
  | .seen c _ => c
  | .busy c _ _ => c
  | .hole c _ => c

/-- Events that reserve positions or access values. -/
def Ev.isData : Ev α → Bool
  | .reserve .. | .publish .. | .read .. | .write .. | .swap .. => true
  | .seen .. | .busy .. | .hole .. => false

/-- The event changes the value of position `i`, which was initialised before. -/
def Ev.Modifies (i : Nat) : Ev α → Prop
  | .write _ j _ _ => i = j
  | .swap _ j k => i = j ∨ i = k
  | _ => False

/-- Abstract vector. -/
structure SpecSt (α : Type) where
  /-- number of positions handed out so far -/
  len : Nat
  /-- which call received a position (meaningful below `len`) -/
  owner : Nat → Cid
  /-- value of a position; `none`: nothing published yet -/
  val : Nat → Option α

/-- The abstract vector holding the elements of a list. -/
def SpecSt.ofList (l : List α) : SpecSt α where
  len := l.length
  owner := fun _ => 0
  val := fun i => l[i]?

/-- The event is legal in the abstract state. -/
def specOk (σ : SpecSt α) : Ev α → Prop
  | .reserve _ b _ => b = σ.len
  | .publish c i _ => i < σ.len ∧ σ.owner i = c ∧ σ.val i = none
  | .read _ i v => σ.val i = some v
  | .write _ i old _ => σ.val i = some old
  | .swap _ i j => i ≠ j ∧ (σ.val i).isSome ∧ (σ.val j).isSome
  | .seen _ i => (σ.val i).isSome
  | .busy c i d => (σ.val i).isSome ∧ c ≠ d
  | .hole _ i => σ.val i = none

/-- Effect of an event on the abstract state. -/
def specNext (σ : SpecSt α) : Ev α → SpecSt α
  | .reserve c b n =>
      { σ with len := σ.len + n, owner := fun i => if b ≤ i ∧ i < b + n then c else σ.owner i }
  | .publish _ i v => { σ with val := upd σ.val i (some v) }
  | .read _ _ _ => σ
  | .write _ i _ new => { σ with val := upd σ.val i (some new) }
  | .swap _ i j => { σ with val := upd (upd σ.val i (σ.val j)) j (σ.val i) }
  | .seen _ _ => σ
  | .busy _ _ _ => σ
  | .hole _ _ => σ

/-- `Replay σ₀ t σ`: the events `t`, in this order, are legal from `σ₀` and lead to `σ`. -/
inductive Replay (σ₀ : SpecSt α) : List (Ev α) → SpecSt α → Prop where
  | nil : Replay σ₀ [] σ₀
  | snoc {t : List (Ev α)} {σ : SpecSt α} {e : Ev α} :
      Replay σ₀ t σ → specOk σ e → Replay σ₀ (t ++ [e]) (specNext σ e)

/-- Data events of call `c`, in order. -/
def dataOf (c : Cid) (t : List (Ev α)) : List (Ev α) := t.filter (fun e => e.isData && e.cid == c)

end Verif
