import Verif.Model.Conc

/-!
# Comparing vectors, slices and elements with each other

`eq_elem_iters` (`src/common_traits/eq.rs:71-84`) works on two vectors at a time (or on two parts of the same vector): it calls
`iter` on both, then compares the elements pairwise with `ConcurrentElement == ConcurrentElement` (`:4-9`), which is
`ConcurrentOption == ConcurrentOption` of the dependency.

The dependency's comparison is assumed to take the handle of the left element, then the handle of the right element (waiting for
both), to compare the values, and to release both handles.

The model: a system of several vectors, each of them a configuration as in `Model/Conc.lean`, and threads that compare. A comparison
makes ordinary calls on its two vectors; the call that takes the handle of an element, reads the value and releases the handle is
`Op.elCloned` (`elCloned_prog` in `Proof/CompareElem.lean` shows its actions). What is new is the order in which a comparison performs the actions of its calls:
the calls on the two elements of a pair overlap, so that both handles are held while the values are read.
-/

namespace Verif

variable {α β : Type}

/-- The two operands of a comparison. -/
inductive Side where
  | left
  | right
deriving DecidableEq, Repr

/-- What a comparing thread does next. On each side it has at most one open call. -/
inductive Client (α β : Type) where
  /-- the comparison has its result -/
  | ret (b : Bool)
  /-- the comparison has panicked -/
  | panic (k : PanicKind)
  /-- make a call on the vector of that side -/
  | call (s : Side) (op : Op α β) (k : Client α β)
  /-- let the open call of that side perform its next primitive action (again and again if it spins) -/
  | step (s : Side) (k : Client α β)
  /-- let the open call of that side run until it returns -/
  | fin (s : Side) (k : Ret α β → Client α β)

/-- An operand: the whole vector, a slice of it, or one element (the implementations of `PartialEq`,
`src/common_traits/eq.rs:4-9,19-29,45-55`). -/
inductive Arg where
  | vec
  | slc (s : Slc)
  | el (e : Nat)

/-- Positions of the elements which the caller must have a reference to. -/
def Arg.needs : Arg → List Nat
  | .vec => []
  | .slc s => positions s.a s.len
  | .el e => [e]

namespace Client

/-- `iter` returns the references to the elements. (`C55_panics` implies that the second line is never reached.) -/
def onElems (k : List Nat → Client α β) : Ret α β → Client α β
  | .elems es => k es
  | _ => .panic .noValue

/-- The elements which the operand yields: `self.iter()` (`src/vec.rs:376-378`, `src/concurrent_slice/slice.rs:264-267`). -/
def iter (s : Side) : Arg → (List Nat → Client α β) → Client α β
  | .vec, k => .call s .iter <| .fin s (onElems k)
  | .slc t, k => k t.iter
  | .el e, k => k [e]

/-- How the comparison goes on when it has read two values: `if a == b => continue`, `_ => return false`
(`src/common_traits/eq.rs:79,81`); `T::eq` may panic. (`elCloned` returns `.val`; `C55_panics` implies that the last line is never
reached.) -/
def verdict (veq : α → α → Option Bool) (k : Client α β) : Ret α β → Ret α β → Client α β
  | .val x, .val y =>
      match veq x y with
      | some true => k
      | some false => .ret false
      | none => .panic .userCode
  | _, _ => .panic .noValue

/-- `a == b` for two elements (`src/common_traits/eq.rs:6-8`; dependency): take the handle of `e`, take the handle of `f`, read both
values and compare them, release both handles. If `T::eq` panics the handles are dropped while unwinding. -/
def eqElem (veq : α → α → Option Bool) (e f : Nat) (k : Client α β) : Client α β :=
  .call .left (.elCloned e) <| .step .left <|
  .call .right (.elCloned f) <| .step .right <|
  .step .left <| .step .right <|
  .fin .right fun y => .fin .left fun x => verdict veq k x y

/-- The loop of `eq_elem_iters` (`src/common_traits/eq.rs:77-83`). -/
def loop (veq : α → α → Option Bool) : List Nat → List Nat → Client α β
  | [], [] => .ret true
  | e :: es, f :: fs => eqElem veq e f (loop veq es fs)
  | _, _ => .ret false

/-- `eq_elem_iters(self.iter(), other.iter())` (`src/common_traits/eq.rs:20-28,46-54,71-84`). For two elements
(`src/common_traits/eq.rs:4-9`) it is the comparison of one pair. -/
def compare (veq : α → α → Option Bool) (p q : Arg) : Client α β :=
  iter .left p fun es => iter .right q fun fs => loop veq es fs

end Client

/-- A comparison of operand `p` of vector `u` with operand `q` of vector `v`; `veq` is `T::eq` (`none`: it panics). Not in the code:
the identifiers of the calls it has made on either side, the latest first. -/
structure Cmp (α β : Type) where
  u : Nat
  v : Nat
  p : Arg
  q : Arg
  veq : α → α → Option Bool
  prog : Client α β
  own : Side → List Cid

namespace Cmp

/-- The vector of an operand. -/
def vecOf (T : Cmp α β) : Side → Nat
  | .left => T.u
  | .right => T.v

/-- The latest call on a side (0, which is no call, if there was none). -/
def cid (T : Cmp α β) (s : Side) : Cid := (T.own s).headD 0

/-- The comparison makes a call with identifier `c` on side `s` and goes on with `k`. -/
def opened (T : Cmp α β) (s : Side) (c : Cid) (k : Client α β) : Cmp α β :=
  { T with own := fun s' => if s' = s then c :: T.own s' else T.own s', prog := k }

end Cmp

/-- Several vectors, used by any number of threads, some of which compare. -/
structure Sys (α β : Type) where
  vec : Nat → Cfg α β
  cmp : Nat → Option (Cmp α β)

/-- One step of a system. -/
inductive SysStep : Sys α β → Sys α β → Prop where
  /-- a step of one vector, in which no comparison takes part: the latest calls of the comparisons are left alone -/
  | vec (S : Sys α β) (u : Nat) (κ' : Cfg α β) (h : Step (S.vec u) κ')
      (ho : ∀ k T s, S.cmp k = some T → T.vecOf s = u → κ'.calls (T.cid s) = (S.vec u).calls (T.cid s)) :
      SysStep S { S with vec := upd S.vec u κ' }
  /-- a thread compares; it needs references to the elements -/
  | start (S : Sys α β) (k u v : Nat) (p q : Arg) (veq : α → α → Option Bool) (hk : S.cmp k = none)
      (hp : ∀ i ∈ p.needs, (S.vec u).Revealed i) (hq : ∀ i ∈ q.needs, (S.vec v).Revealed i) :
      SysStep S { S with cmp := upd S.cmp k (some ⟨u, v, p, q, veq, .compare veq p q, fun _ => []⟩) }
  /-- a comparison makes a call -/
  | call (S : Sys α β) (k : Nat) (T : Cmp α β) (s : Side) (op : Op α β) (k' : Client α β) (κ : Cfg α β)
      (hk : S.cmp k = some T) (ht : T.prog = .call s op k') (hκ : S.vec (T.vecOf s) = κ)
      (h : ∀ i ∈ op.needs, κ.Revealed i) (hp : ∀ i ∈ op.needsPtr, κ.RevealedPtr i) :
      SysStep S {
        vec := upd S.vec (T.vecOf s) { κ with
          calls := upd κ.calls κ.next (some ⟨op, κ.clock, κ.w, .running op.prog⟩)
          next := κ.next + 1
          clock := κ.clock + 1 }
        cmp := upd S.cmp k (some (T.opened s κ.next k')) }
  /-- the open call performs the action the comparison asked for -/
  | step (S : Sys α β) (k : Nat) (T : Cmp α β) (s : Side) (k' : Client α β) (κ : Cfg α β) (r : Rec α β)
      (a : Act α) (again : a.Resp → Bool) (g : a.Resp → Prog α (Ret α β)) (w' : World α) (b : a.Resp)
      (hk : S.cmp k = some T) (ht : T.prog = .step s k') (hκ : S.vec (T.vecOf s) = κ)
      (hc : κ.calls (T.cid s) = some r) (hr : r.status = .running (.step a again g))
      (he : κ.w.exec (T.cid s) a = some (w', b)) :
      SysStep S {
        vec := upd S.vec (T.vecOf s) { κ with
          w := w'
          calls := κ.setStatus (T.cid s) r (.running (if again b then .step a again g else g b))
          clock := κ.clock + 1 }
        cmp := upd S.cmp k (some { T with prog := if again b then .step s k' else k' }) }
  /-- the open call performs an action on its way to the end -/
  | finStep (S : Sys α β) (k : Nat) (T : Cmp α β) (s : Side) (k' : Ret α β → Client α β) (κ : Cfg α β) (r : Rec α β)
      (a : Act α) (again : a.Resp → Bool) (g : a.Resp → Prog α (Ret α β)) (w' : World α) (b : a.Resp)
      (hk : S.cmp k = some T) (ht : T.prog = .fin s k') (hκ : S.vec (T.vecOf s) = κ)
      (hc : κ.calls (T.cid s) = some r) (hr : r.status = .running (.step a again g))
      (he : κ.w.exec (T.cid s) a = some (w', b)) :
      SysStep S { S with
        vec := upd S.vec (T.vecOf s) { κ with
          w := w'
          calls := κ.setStatus (T.cid s) r (.running (if again b then .step a again g else g b))
          clock := κ.clock + 1 } }
  /-- the open call returns, the comparison goes on with the result -/
  | finRet (S : Sys α β) (k : Nat) (T : Cmp α β) (s : Side) (k' : Ret α β → Client α β) (κ : Cfg α β) (r : Rec α β) (x : Ret α β)
      (hk : S.cmp k = some T) (ht : T.prog = .fin s k') (hκ : S.vec (T.vecOf s) = κ)
      (hc : κ.calls (T.cid s) = some r) (hr : r.status = .running (.ret x)) :
      SysStep S {
        vec := upd S.vec (T.vecOf s) { κ with
          calls := κ.setStatus (T.cid s) r (.done x κ.clock κ.w)
          clock := κ.clock + 1 }
        cmp := upd S.cmp k (some { T with prog := k' x }) }
  /-- the open call panics, and so does the comparison -/
  | panic (S : Sys α β) (k : Nat) (T : Cmp α β) (s : Side) (κ : Cfg α β) (r : Rec α β) (pk : PanicKind)
      (hk : S.cmp k = some T) (ht : (∃ k', T.prog = .step s k') ∨ ∃ k', T.prog = .fin s k') (hκ : S.vec (T.vecOf s) = κ)
      (hc : κ.calls (T.cid s) = some r) (hr : r.status = .running (.panic pk)) :
      SysStep S {
        vec := upd S.vec (T.vecOf s) { κ with
          calls := κ.setStatus (T.cid s) r (.panicked pk κ.clock κ.w)
          clock := κ.clock + 1 }
        cmp := upd S.cmp k (some { T with prog := .panic pk }) }
  /-- the next action of the open call is undefined behaviour -/
  | ub (S : Sys α β) (k : Nat) (T : Cmp α β) (s : Side) (κ : Cfg α β) (r : Rec α β)
      (a : Act α) (again : a.Resp → Bool) (g : a.Resp → Prog α (Ret α β))
      (hk : S.cmp k = some T) (ht : (∃ k', T.prog = .step s k') ∨ ∃ k', T.prog = .fin s k') (hκ : S.vec (T.vecOf s) = κ)
      (hc : κ.calls (T.cid s) = some r) (hr : r.status = .running (.step a again g))
      (he : κ.w.exec (T.cid s) a = none) :
      SysStep S { S with vec := upd S.vec (T.vecOf s) { κ with ub := true } }

/-- The system in which nothing has happened yet: vector `u` holds `l u`. -/
def Sys.init (m : Nat → Mem α) (l : Nat → List α) : Sys α β where
  vec u := Cfg.init (m u) (l u)
  cmp _ := none

end Verif
