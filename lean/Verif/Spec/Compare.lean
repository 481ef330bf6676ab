import Verif.Model.Compare
import Verif.Spec.Views

/-!
# Vocabulary for comparisons of vectors, slices and elements with each other (C55)
-/

namespace Verif

variable {α β : Type}

/-- `S 0, S 1, …, S n` is an execution of a system of vectors; vector `u` initially holds `l u`. -/
structure SysExec (m : Nat → Mem α) (l : Nat → List α) (n : Nat) (S : Nat → Sys α β) : Prop where
  init : S 0 = Sys.init m l
  next : ∀ t, t < n → SysStep (S t) (S (t + 1))

/-- The operand on a side. -/
def Cmp.arg (T : Cmp α β) : Side → Arg
  | .left => T.p
  | .right => T.q

namespace Sys

/-- Thread `k` has begun its comparison; there is neither a result nor a panic yet. -/
def Comparing (S : Sys α β) (k : Nat) : Prop :=
  ∃ T, S.cmp k = some T ∧ (∀ b, T.prog ≠ .ret b) ∧ ∀ e, T.prog ≠ .panic e

/-- The elements which the operand on side `s` consists of: for a vector these are the elements which the comparison's own call of
`iter` returned. -/
def Elements (S : Sys α β) (T : Cmp α β) (s : Side) (es : List Nat) : Prop :=
  match T.arg s with
  | .vec => ∃ c ∈ T.own s, (S.vec (T.vecOf s)).Returned c .iter (.elems es)
  | .slc t => es = t.view
  | .el e => es = [e]

end Sys

/-- At moment `t`, which lies within the comparison `T` of thread `k`, the elements `e` (left) and `f` (right) held values on which
`T::eq` gives `r`. -/
def PairAt (S : Nat → Sys α β) (k : Nat) (T : Cmp α β) (e f : Nat) (r : Option Bool) (t : Nat) : Prop :=
  (S t).Comparing k ∧ ∃ x y, ((S t).vec T.u).content e = some x ∧ ((S t).vec T.v).content f = some y ∧ T.veq x y = r

/-- Up to moment `n` the comparison compared the first pairs of `es` and `fs`, one after the other, pair `i` at moment `τ i`; the
results were `rs`. -/
structure Compared (S : Nat → Sys α β) (n k : Nat) (T : Cmp α β) (es fs : List Nat) (rs : List (Option Bool)) (τ : Nat → Nat) :
    Prop where
  pair : ∀ i r, rs[i]? = some r → τ i ≤ n ∧ ∃ e f, es[i]? = some e ∧ fs[i]? = some f ∧ PairAt S k T e f r (τ i)
  order : ∀ i i', i < i' → i' < rs.length → τ i < τ i'

/-- What the results `rs` of the single comparisons, in order, mean for `es == fs`. -/
inductive Verdict (es fs : List Nat) : List (Option Bool) → Bool → Prop where
  | equal (h : es.length = fs.length) : Verdict es fs (List.replicate es.length (some true)) true
  | differ (j : Nat) : Verdict es fs (List.replicate j (some true) ++ [some false]) false
  | length (h : es.length ≠ fs.length) : Verdict es fs (List.replicate (min es.length fs.length) (some true)) false

/-- Position of element `j` of an operand. -/
def Arg.pos : Arg → Nat → Nat
  | .vec, j => j
  | .slc t, j => t.a + j
  | .el e, _ => e

/-- Up to moment `n` the operand on side `s` of the comparison `T` of thread `k` is not changed: it holds the values `vs` throughout.
For a slice or an element this means that nobody writes to these elements. A whole vector must not grow either while the comparison
finds out its length (`Holding`). -/
structure Steady (S : Nat → Sys α β) (n k : Nat) (T : Cmp α β) (s : Side) (vs : List α) : Prop where
  content : ∀ t, t ≤ n → (S t).Comparing k → ∀ j, j < vs.length → ((S t).vec (T.vecOf s)).content ((T.arg s).pos j) = vs[j]?
  size : match T.arg s with
    | .vec => ∀ c ∈ T.own s, ((S n).vec (T.vecOf s)).Called c .iter → ((S n).vec (T.vecOf s)).Holding c vs
    | .slc t => vs.length = t.len
    | .el _ => vs.length = 1

/-! ## Progress -/

namespace Sys

/-- At this moment the comparison of thread `k` can do nothing but wait for the handle of an element. -/
def Waits (S : Sys α β) (k : Nat) : Prop :=
  ∃ T s K, S.cmp k = some T ∧ T.prog = .step s K ∧ (S.vec (T.vecOf s)).Blocked (T.cid s)

/-- Call `c` of vector `u` is not part of a comparison. -/
def Foreign (S : Sys α β) (u : Nat) (c : Cid) : Prop := ∀ k T s, S.cmp k = some T → T.vecOf s = u → T.cid s ≠ c

/-- In the step from `S` to `S'` the comparison of thread `k` gets ahead: it makes a call, or one of its calls makes a step that
changes this call. -/
def GetsAhead (S S' : Sys α β) (k : Nat) : Prop :=
  SysStep S S' ∧ ∃ T T' s, S.cmp k = some T ∧ S'.cmp k = some T' ∧
    (T'.own s ≠ T.own s ∨ (S'.vec (T.vecOf s)).calls (T.cid s) ≠ (S.vec (T.vecOf s)).calls (T.cid s))

/-- A step with which the work goes on: nobody begins a comparison, and the only new calls are those that the comparisons make. -/
def Works (S S' : Sys α β) : Prop :=
  SysStep S S' ∧ (∀ k, S.cmp k = none → S'.cmp k = none) ∧
    ∀ u c, (S.vec u).calls c = none → (S'.vec u).calls c ≠ none → ¬ S'.Foreign u c

/-- `S'` can be reached from `S` by finishing work. -/
inductive Runs (S : Sys α β) : Sys α β → Prop where
  | refl : S.Runs S
  | step {S' S'' : Sys α β} : S.Runs S' → S'.Works S'' → S.Runs S''

/-- All calls and all comparisons are over. -/
def Idle (S : Sys α β) : Prop := (∀ k, ¬ S.Comparing k) ∧ ∀ u, (S.vec u).Idle

/-- The closures passed to `push_for_idx` do not panic. -/
def SafeClosures (S : Sys α β) : Prop := ∀ u c f, (S.vec u).Called c (.pushForIdx f) → ∀ i, f i ≠ none

/-- It is known that the operand (of vector `u`, which initially held `l`) has elements. -/
def HasElements (S : Sys α β) (l : List α) (u : Nat) : Arg → Prop
  | .vec => l ≠ [] ∨ ∃ d op x len, (S.vec u).Returned d op x ∧ op.ReportsLen len x ∧ 0 < len
  | .slc t => 0 < t.len
  | .el _ => True

/-- The comparison of thread `k` compares element `e` of vector `u` with element `f` of vector `v`: it has the handle of the former
and waits for that of the latter. -/
def WaitsRight (S : Sys α β) (k u e v f : Nat) : Prop :=
  ∃ T K, S.cmp k = some T ∧ T.u = u ∧ T.v = v ∧ T.prog = .step .right K ∧ (S.vec u).Called (T.cid .left) (.elCloned e) ∧
    (S.vec v).Called (T.cid .right) (.elCloned f) ∧ (S.vec v).Blocked (T.cid .right)

end Sys

/-- An infinite execution of a system of vectors. -/
structure InfSysExec (m : Nat → Mem α) (l : Nat → List α) (S : Nat → Sys α β) : Prop where
  init : S 0 = Sys.init m l
  next : ∀ t, SysStep (S t) (S (t + 1))

/-- Fair scheduling: a comparison that from some moment on is unfinished and never has to wait gets ahead, and so does a call that is
not part of a comparison. -/
structure SysFair (S : Nat → Sys α β) : Prop where
  cmp : ∀ k t, (∀ t', t ≤ t' → (S t').Comparing k ∧ ¬ (S t').Waits k) → ∃ t', t ≤ t' ∧ (S t').GetsAhead (S (t' + 1)) k
  call : ∀ u c t, (∀ t', t ≤ t' → (∃ op, ((S t').vec u).Running c op) ∧ (S t').Foreign u c ∧ ¬ ((S t').vec u).Blocked c) →
    ∃ t', t ≤ t' ∧ ((S (t' + 1)).vec u).calls c ≠ ((S t').vec u).calls c

/-- Strongly fair scheduling: a comparison that again and again does not have to wait gets ahead again and again, and so does a call
that is not part of a comparison. -/
structure SysStronglyFair (S : Nat → Sys α β) : Prop where
  cmp : ∀ k, (∀ t, ∃ t', t ≤ t' ∧ (S t').Comparing k ∧ ¬ (S t').Waits k) → ∀ t, ∃ t', t ≤ t' ∧ (S t').GetsAhead (S (t' + 1)) k
  call : ∀ u c, (∀ t, ∃ t', t ≤ t' ∧ (∃ op, ((S t').vec u).Running c op) ∧ (S t').Foreign u c ∧ ¬ ((S t').vec u).Blocked c) →
    ∀ t, ∃ t', t ≤ t' ∧ ((S (t' + 1)).vec u).calls c ≠ ((S t').vec u).calls c

/-- The operands are given in increasing order: vectors with respect to some numbering; two operands in the same vector by their
positions. -/
def Cmp.Upwards (rank : Nat → Nat) (T : Cmp α β) : Prop :=
  rank T.u < rank T.v ∨ T.u = T.v ∧ T.p.pos 0 < T.q.pos 0

end Verif
