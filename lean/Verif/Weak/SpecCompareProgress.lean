import Verif.Weak.SpecCompare
import Verif.Weak.SpecProgress

/-!
# Vocabulary of the progress properties of comparisons under weak memory

The same notions as in `Spec/Compare.lean` for the weak memory model.  Nothing here refers to the programs of the API functions.
-/

namespace Verif.Weak

variable {α β : Type}

namespace Sys

/-- At this moment the comparison of thread `k` can do nothing but wait: whatever messages its call reads, it does not get ahead. -/
def Waits (S : Sys α β) (k : Nat) : Prop :=
  ∃ T s K, S.cmp k = some T ∧ T.prog = .step s K ∧ (S.vec (T.vecOf s)).Blocked (T.cid s)

/-- Call `c` of vector `u` is not the latest call of a comparison. -/
def Foreign (S : Sys α β) (u : Nat) (c : Cid) : Prop := ∀ k T s, S.cmp k = some T → T.vecOf s = u → T.cid s ≠ c

/-- In the step from `S` to `S'` the comparison of thread `k` gets ahead: it makes a call, or a smaller rest of the program of one of its
calls remains to be done. -/
def GetsAhead (S S' : Sys α β) (k : Nat) : Prop :=
  SysStep S S' ∧ ∃ T T' s, S.cmp k = some T ∧ S'.cmp k = some T' ∧
    (T'.own s ≠ T.own s ∨ (S'.vec (T.vecOf s)).at' (T.cid s) ≠ (S.vec (T.vecOf s)).at' (T.cid s))

/-- In the step from `S` to `S'` call `c` of vector `u`, which is not part of a comparison, gets ahead. -/
def CallAhead (S S' : Sys α β) (u : Nat) (c : Cid) : Prop :=
  SysStep S S' ∧ S.Foreign u c ∧ (S.vec u).Advances c (S'.vec u)

/-- A step with which the work goes on: nobody begins a comparison, and the only new calls are those that the comparisons make. -/
def Works (S S' : Sys α β) : Prop :=
  SysStep S S' ∧ (∀ k, S.cmp k = none → S'.cmp k = none) ∧
    ∀ u c, (S.vec u).calls c = none → (S'.vec u).calls c ≠ none → ¬ S'.Foreign u c

/-- `S'` can be reached from `S` by finishing work. -/
inductive Runs (S : Sys α β) : Sys α β → Prop where
  | refl : S.Runs S
  | step {S' S'' : Sys α β} : S.Runs S' → S'.Works S'' → S.Runs S''

/-- All calls and all comparisons are over. -/
def Idle (S : Sys α β) : Prop := (∀ k, ¬ S.Comparing k) ∧ ∀ u, (S.vec u).Idle

/-- Blocking swaps are called with the smaller index first, in all vectors. -/
def SwapsUp (S : Sys α β) : Prop := ∀ u, (S.vec u).SwapsUp

/-- No closure given to `push_for_idx` panics, in no vector (see `Cfg.SafeClosures`). -/
def SafeClosures (S : Sys α β) : Prop := ∀ u, (S.vec u).SafeClosures

/-- Nothing has happened that could have lost the position at which a storage has to grow next (see `Cfg.GrowthIntact`). -/
def GrowthIntact (S : Sys α β) (mx : Nat → Nat) : Prop := ∀ u, (S.vec u).GrowthIntact (mx u)

/-- The unfinished comparisons are given their operands in increasing order (`rank`: some numbering of the vectors). -/
def Upwards (S : Sys α β) (rank : Nat → Nat) : Prop := ∀ k T, S.cmp k = some T → S.Comparing k → T.toCmp.Upwards rank

/-- The comparison of thread `k` compares element `e` of vector `u` with element `f` of vector `v`: it has the handle of the former
and waits for that of the latter. -/
def WaitsRight (S : Sys α β) (k u e v f : Nat) : Prop :=
  ∃ T K, S.cmp k = some T ∧ T.u = u ∧ T.v = v ∧ T.prog = .step .right K ∧ (S.vec u).Called (T.cid .left) (.elCloned e) ∧
    (S.vec v).Called (T.cid .right) (.elCloned f) ∧ (S.vec v).Blocked (T.cid .right)

end Sys

/-- An infinite execution of a system of vectors. (A finite one can always be continued: some vector has no calls, and its maximum
capacity may be set again and again.) -/
structure InfSysExec (m : Nat → Mem α) (S : Nat → Sys α β) : Prop where
  init : S 0 = Sys.init m
  next : ∀ t, SysStep (S t) (S (t + 1))

/-- Strong fairness of the scheduler and of the memory (see `StronglyFair`): a comparison that is able to get ahead again and again gets
ahead again and again, and so does a call that is not part of a comparison. -/
structure SysFair (S : Nat → Sys α β) : Prop where
  cmp : ∀ k, (∀ t, ∃ t', t ≤ t' ∧ (S t').Comparing k ∧ ¬ (S t').Waits k) → ∀ t, ∃ t', t ≤ t' ∧ (S t').GetsAhead (S (t' + 1)) k
  call : ∀ u c, (∀ t, ∃ t', t ≤ t' ∧ (∃ op, ((S t').vec u).Running c op) ∧ (S t').Foreign u c ∧ ¬ ((S t').vec u).Blocked c) →
    ∀ t, ∃ t', t ≤ t' ∧ (S t').CallAhead (S (t' + 1)) u c

end Verif.Weak
