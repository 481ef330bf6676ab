import Verif.Weak.Model
import Verif.Model.Compare

/-!
# Comparing vectors, slices and elements with each other under weak memory

The comparing threads of `Model/Compare.lean` (`Client`, `Arg`, `Side`, and what they do: `src/common_traits/eq.rs:4-84`), on vectors that are used as
in `Weak/Model.lean`.

Synchronisation: a comparison happens after some ended calls on its two vectors (`hb`), and each call it makes happens after these and
after the calls it has already made on that side; it may happen after further ended calls.  What a thread learns about one vector by using
another one at the same time is left out.  A thread that knows less may read more messages, so there are only more executions.
-/

namespace Verif.Weak

variable {α β : Type}

/-- A comparison (`src/common_traits/eq.rs:4-84`, see `Verif.Cmp`); `hb`: the ended calls on the vector of either side that happen before it. -/
structure Cmp (α β : Type) extends Verif.Cmp α β where
  hb : Side → List Cid

/-- The comparison makes a call with identifier `c` on side `s` and goes on with `k` (see `Verif.Cmp.opened`). -/
def Cmp.opened (T : Cmp α β) (s : Side) (c : Cid) (k : Client α β) : Cmp α β := { T with toCmp := T.toCmp.opened s c k }

/-- The comparison goes on with `k` (not in the source: control state of the comparison). -/
def Cmp.goesOn (T : Cmp α β) (k : Client α β) : Cmp α β := { T with prog := k }

/-- Several vectors, used by any number of threads, some of which compare (see `Verif.Sys`). -/
structure Sys (α β : Type) where
  vec : Nat → Cfg α β
  cmp : Nat → Option (Cmp α β)

/-- One step of a system (see `Verif.SysStep`; `src/common_traits/eq.rs:4-84`). -/
inductive SysStep : Sys α β → Sys α β → Prop where
  /-- a step of one vector, in which no comparison takes part: the latest calls of the comparisons are left alone -/
  | vec (S : Sys α β) (u : Nat) (κ' : Cfg α β) (h : Step (S.vec u) κ')
      (ho : ∀ k T s, S.cmp k = some T → T.vecOf s = u → κ'.calls (T.cid s) = (S.vec u).calls (T.cid s)) :
      SysStep S { S with vec := upd S.vec u κ' }
  /-- a thread compares; calls that happen before gave it the references to the elements it needs -/
  | start (S : Sys α β) (k u v : Nat) (p q : Arg) (veq : α → α → Option Bool) (H : Side → List Cid) (V V' : View)
      (hk : S.cmp k = none) (hl : Ended (S.vec u) (H .left) V) (hr : Ended (S.vec v) (H .right) V')
      (hp : ∀ i ∈ p.needs, (S.vec u).Revealed (H .left) i) (hq : ∀ i ∈ q.needs, (S.vec v).Revealed (H .right) i) :
      SysStep S { S with cmp := upd S.cmp k (some ⟨⟨u, v, p, q, veq, .compare veq p q, fun _ => []⟩, H⟩) }
  /-- a comparison makes a call, after its earlier calls on that side -/
  | call (S : Sys α β) (k : Nat) (T : Cmp α β) (s : Side) (op : Op α β) (k' : Client α β) (κ : Cfg α β) (H : List Cid) (V : View)
      (hk : S.cmp k = some T) (ht : T.prog = .call s op k') (hκ : S.vec (T.vecOf s) = κ)
      (hH : Ended κ H V) (hb : ∀ c ∈ T.hb s ++ T.own s, c ∈ H)
      (h : ∀ i ∈ op.needs, κ.Revealed H i) (hp : ∀ i ∈ op.needsPtr, κ.RevealedPtr H i) :
      SysStep S {
        vec := upd S.vec (T.vecOf s) { κ with
          calls := upd κ.calls κ.next (some ⟨op, H, V, V, .running op.prog⟩)
          next := κ.next + 1 }
        cmp := upd S.cmp k (some (T.opened s κ.next k')) }
  /-- the open call performs the action the comparison asked for -/
  | step (S : Sys α β) (k : Nat) (T : Cmp α β) (s : Side) (k' : Client α β) (κ : Cfg α β) (r : Rec α β)
      (a : Act α) (again : a.Resp → Bool) (g : a.Resp → Prog α (Ret α β)) (t : Nat) (V : View) (m : WMem α) (b : a.Resp)
      (hk : S.cmp k = some T) (ht : T.prog = .step s k') (hκ : S.vec (T.vecOf s) = κ)
      (hc : κ.calls (T.cid s) = some r) (hr : r.status = .running (.step a again g))
      (he : exec a t r.view κ.mem = .ok V m b) :
      SysStep S {
        vec := upd S.vec (T.vecOf s) { κ with
          mem := m
          calls := upd κ.calls (T.cid s) (some { r with
            view := V
            status := .running (if again b then .step a again g else g b) }) }
        cmp := upd S.cmp k (some (T.goesOn (if again b then .step s k' else k'))) }
  /-- the open call performs an action on its way to the end -/
  | finStep (S : Sys α β) (k : Nat) (T : Cmp α β) (s : Side) (k' : Ret α β → Client α β) (κ : Cfg α β) (r : Rec α β)
      (a : Act α) (again : a.Resp → Bool) (g : a.Resp → Prog α (Ret α β)) (t : Nat) (V : View) (m : WMem α) (b : a.Resp)
      (hk : S.cmp k = some T) (ht : T.prog = .fin s k') (hκ : S.vec (T.vecOf s) = κ)
      (hc : κ.calls (T.cid s) = some r) (hr : r.status = .running (.step a again g))
      (he : exec a t r.view κ.mem = .ok V m b) :
      SysStep S { S with
        vec := upd S.vec (T.vecOf s) { κ with
          mem := m
          calls := upd κ.calls (T.cid s) (some { r with
            view := V
            status := .running (if again b then .step a again g else g b) }) } }
  /-- the open call returns, the comparison goes on with the result -/
  | finRet (S : Sys α β) (k : Nat) (T : Cmp α β) (s : Side) (k' : Ret α β → Client α β) (κ : Cfg α β) (r : Rec α β) (x : Ret α β)
      (hk : S.cmp k = some T) (ht : T.prog = .fin s k') (hκ : S.vec (T.vecOf s) = κ)
      (hc : κ.calls (T.cid s) = some r) (hr : r.status = .running (.ret x)) :
      SysStep S {
        vec := upd S.vec (T.vecOf s) { κ with calls := upd κ.calls (T.cid s) (some { r with status := .done x }) }
        cmp := upd S.cmp k (some (T.goesOn (k' x))) }
  /-- the open call panics, and so does the comparison -/
  | panic (S : Sys α β) (k : Nat) (T : Cmp α β) (s : Side) (κ : Cfg α β) (r : Rec α β) (pk : PanicKind)
      (hk : S.cmp k = some T) (ht : (∃ k', T.prog = .step s k') ∨ ∃ k', T.prog = .fin s k') (hκ : S.vec (T.vecOf s) = κ)
      (hc : κ.calls (T.cid s) = some r) (hr : r.status = .running (.panic pk)) :
      SysStep S {
        vec := upd S.vec (T.vecOf s) { κ with calls := upd κ.calls (T.cid s) (some { r with status := .panicked pk }) }
        cmp := upd S.cmp k (some (T.goesOn (.panic pk))) }
  /-- the next action of the open call may have a bad outcome -/
  | bad (S : Sys α β) (k : Nat) (T : Cmp α β) (s : Side) (κ : Cfg α β) (r : Rec α β)
      (a : Act α) (again : a.Resp → Bool) (g : a.Resp → Prog α (Ret α β)) (t : Nat) (x : Bad)
      (hk : S.cmp k = some T) (ht : (∃ k', T.prog = .step s k') ∨ ∃ k', T.prog = .fin s k') (hκ : S.vec (T.vecOf s) = κ)
      (hc : κ.calls (T.cid s) = some r) (hr : r.status = .running (.step a again g))
      (he : exec a t r.view κ.mem = .bad x) :
      SysStep S { S with vec := upd S.vec (T.vecOf s) { κ with bad := some x } }

/-- The system in which nothing has happened yet (see `Verif.Sys.init`). -/
def Sys.init (m : Nat → Mem α) : Sys α β where
  vec u := Cfg.init (m u)
  cmp _ := none

end Verif.Weak
