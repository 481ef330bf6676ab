import Verif.Model.Conc

/-!
# Executions under weak memory

The programs of `Model/Vec.lean` under a release/acquire memory model with relaxed accesses: every atomic location has a
modification order of messages, a load may read any message that is not older than what the reading thread already knows
(stale values), and only release/acquire pairs transfer knowledge.  Non-atomic accesses that are not ordered by
happens-before are data races.

* A *view* is what a call knows: a lower bound of the message it may still read, for every atomic location, and the set of
  non-atomic accesses that happened before.
* Every call has a view of its own; it starts with the views of the finished calls that happen before it (calls made
  earlier by the same thread, or synchronised by means outside of the vector: joining a thread, a channel, …).  Any set
  of finished calls is allowed, also one that omits earlier calls of the same thread.
* `SeqCst` is treated as acquire and release: this allows more executions.
* As in the C++20 model with `po ∪ rf` acyclic (RC11), a load reads a message that already exists.
* A store may be placed anywhere in the modification order behind the message the call knows, except between a
  read-modify-write and the message it has read.  Only placing it at the end is executed; any other possibility is the bad outcome
  `Bad.middle`, so that a proof that no bad outcome occurs shows that there is no other possibility.
-/

namespace Verif

variable {α β : Type}

/-- Does the ordering include acquire? (orderings of the loads at `src/vec.rs:97,120,124,132`, `src/state.rs:43,62`) -/
def MOrd.acq : MOrd → Bool
  | .acquire | .acqRel | .seqCst => true
  | .relaxed | .release => false

/-- Does the ordering include release? (ordering of the `fetch_max` at `src/vec.rs:139`) -/
def MOrd.rel : MOrd → Bool
  | .release | .acqRel | .seqCst => true
  | .relaxed | .acquire => false

namespace Weak

/-- Knowledge of a call about the locations of a vector (`src/vec.rs:71-76`, `src/state.rs:11-14`). Messages are numbered by their place
in the modification order; non-atomic accesses by their place in the execution. -/
structure View where
  res : Nat
  written : Nat
  cap : Nat
  st : Nat → Nat
  seen : Nat → Bool

/-- Nothing is known (not in the source: initial knowledge). -/
def View.bot : View := ⟨0, 0, 0, fun _ => 0, fun _ => false⟩

/-- Both know it (not in the source: effect of an acquire on the knowledge). -/
def View.join (a b : View) : View where
  res := max a.res b.res
  written := max a.written b.written
  cap := max a.cap b.cap
  st i := max (a.st i) (b.st i)
  seen n := a.seen n || b.seen n

/-- A message of an atomic location: value, the knowledge it transfers to those who acquire it, and whether it was written by a
read-modify-write that read the message before it (not in the source: memory model). -/
structure Msg (γ : Type) where
  val : γ
  view : View
  rmw : Bool

/-- Non-atomic accesses: growing the storage, reading and writing the value of a position
(`src/elem.rs:11`, storage: `src/vec.rs:75`). -/
inductive Access where
  | grow
  | read (i : Nat)
  | write (i : Nat)
deriving DecidableEq, Repr

/-- Memory of a vector (`src/vec.rs:71-76`, `src/state.rs:11-14`): the messages of `len_reserved`, `len_written`, of the capacity and of the
state byte of every position, the value storage, the allocated storage, and the non-atomic accesses performed so far. -/
structure WMem (α : Type) where
  res : List (Msg Nat)
  written : List (Msg Nat)
  cap : List (Msg Nat)
  st : Nat → List (Msg CState)
  val : Nat → Option α
  /-- positions below are allocated -/
  alloc : Nat
  /-- the access (number) that allocated a position; `none`: before the vector was shared -/
  allocAt : Nat → Option Nat
  maxCap : Nat
  pol : Policy
  acc : List Access

/-- What must not happen. -/
inductive Bad where
  /-- two conflicting non-atomic accesses, neither of which happens before the other -/
  | race
  /-- reading a value that was never written -/
  | uninit
  /-- touching a position whose allocation does not happen before -/
  | unalloc
  /-- exchanging a value with itself through two mutable references -/
  | alias
  /-- a write that need not be the newest in its modification order -/
  | middle
deriving DecidableEq, Repr

/-- Outcome of an action: not possible, bad, or new knowledge, memory and response (not in the source). -/
inductive Out (α : Type) (γ : Type) where
  | no
  | bad (b : Bad)
  | ok (V : View) (m : WMem α) (r : γ)

/-- All accesses satisfying `p` happened before (not in the source: happens-before). -/
def View.sees (V : View) (acc : List Access) (p : Access → Bool) : Bool :=
  (List.range acc.length).all fun k => V.seen k || !(acc[k]?.any p)

/-- The call knows message `t` of a location (not in the source: coherence). -/
def View.atRes (V : View) (t : Nat) : View := { V with res := max V.res t }
/-- See `View.atRes`. -/
def View.atWritten (V : View) (t : Nat) : View := { V with written := max V.written t }
/-- See `View.atRes`. -/
def View.atCap (V : View) (t : Nat) : View := { V with cap := max V.cap t }
/-- See `View.atRes`. -/
def View.atSt (V : View) (i t : Nat) : View := { V with st := upd V.st i (max (V.st i) t) }

/-- Add an access of the call to its own knowledge (not in the source). -/
def View.note (V : View) (k : Nat) : View := { V with seen := fun n => V.seen n || n == k }

/-- Position `i` is allocated and its allocation happened before (storage: `src/vec.rs:75`). -/
def WMem.usable (m : WMem α) (V : View) (i : Nat) : Bool :=
  decide (i < m.alloc) && match m.allocAt i with
    | some k => V.seen k
    | none => true

/-- Knowledge after reading message `msg` with ordering `o` (not in the source). -/
def View.read {γ : Type} (V : View) (o : MOrd) (msg : Msg γ) : View := if o.acq then V.join msg.view else V

/-- Knowledge transferred by a store with ordering `o` of a call that knows `V` (not in the source). -/
def View.sent (V : View) (o : MOrd) : View := if o.rel then V else .bot

/-- May a message be placed behind message `t` of the modification order `h`? (not in the source) -/
inductive Place where
  | no
  | last
  | middle
deriving DecidableEq

/-- See `Place`; `known` is the newest message the call knows. -/
def place {γ : Type} (h : List (Msg γ)) (known t : Nat) : Place :=
  if known ≤ t ∧ t < h.length then
    match h[t + 1]? with
    | none => .last
    | some n => if n.rmw then .no else .middle
  else .no

/-- Effect of an action of a call that knows `V`. `t` is the message of the modification order that is read, or behind which a new
message is placed.  (The actions and their orderings are those of `Model/Vec.lean` and `Model/Deps.lean`, which cite the source.) -/
def exec : (a : Act α) → (t : Nat) → View → WMem α → Out α a.Resp
  | .resFetchAdd n o, t, V, m =>
      match place m.res V.res t, m.res[t]? with
      | .last, some r =>
        let V' := (V.read o r).atRes (t + 1)
        .ok V' { m with res := m.res ++ [⟨r.val + n, (V'.sent o).join r.view, true⟩] } r.val
      | .middle, _ => .bad .middle
      | _, _ => .no
  | .resLoad o, t, V, m =>
      match m.res[t]? with
      | some r => if V.res ≤ t then .ok ((V.read o r).atRes t) m r.val else .no
      | none => .no
  | .writtenLoad o, t, V, m =>
      match m.written[t]? with
      | some r => if V.written ≤ t then .ok ((V.read o r).atWritten t) m r.val else .no
      | none => .no
  | .writtenFetchMax n o, t, V, m =>
      match place m.written V.written t, m.written[t]? with
      | .last, some r =>
        let V' := (V.read o r).atWritten (t + 1)
        .ok V' { m with written := m.written ++ [⟨max r.val n, (V'.sent o).join r.view, true⟩] } ()
      | .middle, _ => .bad .middle
      | _, _ => .no
  | .capLoad o, t, V, m =>
      match m.cap[t]? with
      | some r => if V.cap ≤ t then .ok ((V.read o r).atCap t) m r.val else .no
      | none => .no
  | .maxCapLoad, _, V, m => .ok V m m.maxCap
  | .growAlloc n, _, V, m =>
      if V.sees m.acc (· == .grow) then
        let k := m.acc.length
        let a := m.pol.grow m.alloc n
        .ok (V.note k) { m with
          alloc := a
          allocAt := fun i => if m.alloc ≤ i ∧ i < a then some k else m.allocAt i
          acc := m.acc ++ [.grow] } ()
      else .bad .race
  | .growPublish o, t, V, m =>
      if V.sees m.acc (· == .grow) then
        match place m.cap V.cap t with
        | .last =>
          let V' := V.atCap (t + 1)
          .ok V' { m with cap := m.cap ++ [⟨m.alloc, V'.sent o, false⟩] } ()
        | .middle => .bad .middle
        | .no => .no
      else .bad .race
  | .stLoad i o, t, V, m =>
      if m.usable V i then
        match (m.st i)[t]? with
        | some r => if V.st i ≤ t then .ok ((V.read o r).atSt i t) m r.val else .no
        | none => .no
      else .bad .unalloc
  | .stCas i e n ok fail, t, V, m =>
      if m.usable V i then
        match (m.st i)[t]? with
        | some r =>
          if r.val = e then
            match place (m.st i) (V.st i) t with
            | .last =>
              let V' := (V.read ok r).atSt i (t + 1)
              .ok V' { m with st := upd m.st i (m.st i ++ [⟨n, (V'.sent ok).join r.view, true⟩]) } none
            | .middle => .bad .middle
            | .no => .no
          else if V.st i ≤ t then .ok ((V.read fail r).atSt i t) m (some r.val)
          else .no
        | none => .no
      else .bad .unalloc
  | .stStore i s o, t, V, m =>
      if m.usable V i then
        match place (m.st i) (V.st i) t with
        | .last =>
          let V' := V.atSt i (t + 1)
          .ok V' { m with st := upd m.st i (m.st i ++ [⟨s, V'.sent o, false⟩]) } ()
        | .middle => .bad .middle
        | .no => .no
      else .bad .unalloc
  | .valRead i, _, V, m =>
      if m.usable V i then
        if V.sees m.acc (· == .write i) then
          match m.val i with
          | some v => .ok (V.note m.acc.length) { m with acc := m.acc ++ [.read i] } v
          | none => .bad .uninit
        else .bad .race
      else .bad .unalloc
  | .valWrite i v, _, V, m =>
      if m.usable V i then
        if V.sees m.acc (fun a => a == .write i || a == .read i) then
          .ok (V.note m.acc.length) { m with val := upd m.val i (some v), acc := m.acc ++ [.write i] } ()
        else .bad .race
      else .bad .unalloc
  | .valSwap i j, _, V, m =>
      if m.usable V i && m.usable V j then
        if i = j then .bad .alias
        else if V.sees m.acc (fun a => a == .write i || a == .read i || a == .write j || a == .read j) then
          match m.val i, m.val j with
          | some v, some u =>
            .ok ((V.note m.acc.length).note (m.acc.length + 1)) { m with
              val := upd (upd m.val i (some u)) j (some v)
              acc := m.acc ++ [.write i, .write j] } ()
          | _, _ => .bad .uninit
        else .bad .race
      else .bad .unalloc

/-- Status of a call (API calls: `Model/Api.lean`). -/
inductive Status (α β : Type) where
  | running (p : Prog α (Ret α β))
  | done (x : Ret α β)
  | panicked (k : PanicKind)

/-- A call: operation, the finished calls that happen before it, its knowledge at the start and now (API calls: `Model/Api.lean`). -/
structure Rec (α β : Type) where
  op : Op α β
  hb : List Cid
  start : View
  view : View
  status : Status α β

/-- Configuration of an execution (not in the source). -/
structure Cfg (α β : Type) where
  mem : WMem α
  calls : Cid → Option (Rec α β)
  next : Cid
  bad : Option Bad

/-- The calls in `H` have ended, with views whose join is `V` (not in the source). -/
inductive Ended (κ : Cfg α β) : List Cid → View → Prop where
  | nil : Ended κ [] .bot
  | done {c H V r x} (h : κ.calls c = some r) (hs : r.status = .done x) (hH : Ended κ H V) :
      Ended κ (c :: H) (r.view.join V)
  | panicked {c H V r k} (h : κ.calls c = some r) (hs : r.status = .panicked k) (hH : Ended κ H V) :
      Ended κ (c :: H) (r.view.join V)

/-- One of the calls in `H` handed out a reference to the element at `i` (`src/vec.rs:283-288` and the other functions with
`Ret.elements`). -/
def Cfg.Revealed (κ : Cfg α β) (H : List Cid) (i : Nat) : Prop :=
  ∃ c ∈ H, ∃ r x, κ.calls c = some r ∧ r.status = .done x ∧ i ∈ x.elements

/-- One of the calls in `H` handed out a pointer to the value at `i` (`src/unsafe_api.rs:42-50` and the other functions with
`Ret.pointers`). -/
def Cfg.RevealedPtr (κ : Cfg α β) (H : List Cid) (i : Nat) : Prop :=
  ∃ c ∈ H, ∃ r x, κ.calls c = some r ∧ r.status = .done x ∧ i ∈ x.pointers

/-- Call `c` of `op` is running (not in the source: status of a call). -/
def Cfg.Running (κ : Cfg α β) (c : Cid) (op : Op α β) : Prop := ∃ r p, κ.calls c = some r ∧ r.op = op ∧ r.status = .running p

/-- No call is running (not in the source: what `&mut self` in `src/exclusive.rs:9,30` means). -/
def Cfg.Idle (κ : Cfg α β) : Prop := ∀ c op, ¬ κ.Running c op

/-- `reserve_maximum_capacity(&mut self, n)` (`src/exclusive.rs:30-35`): see `Mem.reserveMax`. -/
def WMem.reserveMax (m : WMem α) (n : Nat) : WMem α := { m with maxCap := m.pol.reserve m.maxCap n }

/-- One step of an execution (not in the source: scheduling of calls). -/
inductive Step : Cfg α β → Cfg α β → Prop where
  | call (κ : Cfg α β) (op : Op α β) (H : List Cid) (V : View) (hH : Ended κ H V)
      (h : ∀ i ∈ op.needs, κ.Revealed H i) (hp : ∀ i ∈ op.needsPtr, κ.RevealedPtr H i) :
      Step κ { κ with
        calls := upd κ.calls κ.next (some ⟨op, H, V, V, .running op.prog⟩)
        next := κ.next + 1 }
  | act (κ : Cfg α β) (c : Cid) (r : Rec α β) (a : Act α) (again : a.Resp → Bool) (k : a.Resp → Prog α (Ret α β))
      (t : Nat) (V : View) (m : WMem α) (b : a.Resp)
      (hc : κ.calls c = some r) (hr : r.status = .running (.step a again k))
      (he : exec a t r.view κ.mem = .ok V m b) :
      Step κ { κ with
        mem := m
        calls := upd κ.calls c (some { r with
          view := V
          status := .running (if again b then .step a again k else k b) }) }
  | bad (κ : Cfg α β) (c : Cid) (r : Rec α β) (a : Act α) (again : a.Resp → Bool) (k : a.Resp → Prog α (Ret α β))
      (t : Nat) (x : Bad)
      (hc : κ.calls c = some r) (hr : r.status = .running (.step a again k))
      (he : exec a t r.view κ.mem = .bad x) :
      Step κ { κ with bad := some x }
  | ret (κ : Cfg α β) (c : Cid) (r : Rec α β) (x : Ret α β)
      (hc : κ.calls c = some r) (hr : r.status = .running (.ret x)) :
      Step κ { κ with calls := upd κ.calls c (some { r with status := .done x }) }
  | panic (κ : Cfg α β) (c : Cid) (r : Rec α β) (k : PanicKind)
      (hc : κ.calls c = some r) (hr : r.status = .running (.panic k)) :
      Step κ { κ with calls := upd κ.calls c (some { r with status := .panicked k }) }
  /-- `reserve_maximum_capacity(&mut self, n)` (`src/exclusive.rs:30-35`) needs exclusive access: all calls have ended. The borrow checker
  also makes sure that all calls made afterwards happen after it, so that they read the new maximum capacity; the model lets
  them read it in any case, whatever else they know. -/
  | reserveMax (κ : Cfg α β) (n : Nat) (h : κ.Idle) : Step κ { κ with mem := κ.mem.reserveMax n }

/-- The first message of a location: everybody knows it (`src/state.rs:21-36`, `src/new.rs`). -/
def Msg.init {γ : Type} (v : γ) : Msg γ := ⟨v, .bot, false⟩

/-- A vector that has just been shared: whatever was done before happens before every call (`src/state.rs:21-36`, `src/new.rs`,
`src/vec.rs:415-419`). -/
def WMem.init (m : Mem α) : WMem α where
  res := [.init m.reserved]
  written := [.init m.written]
  cap := [.init m.cap]
  st i := [.init (m.st i)]
  val := m.val
  alloc := m.cap
  allocAt _ := none
  maxCap := m.maxCap
  pol := m.pol
  acc := []

/-- Nothing has happened yet (not in the source). -/
def Cfg.init (m : Mem α) : Cfg α β where
  mem := .init m
  calls _ := none
  next := 1
  bad := none

/-- Configurations reachable from a vector with memory `m` (not in the source). -/
inductive Reach (m : Mem α) : Cfg α β → Prop where
  | init : Reach m (Cfg.init m)
  | step {κ κ' : Cfg α β} : Reach m κ → Step κ κ' → Reach m κ'

end Weak

end Verif
