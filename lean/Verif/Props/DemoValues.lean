import Verif.Props.DemoWeak
import Verif.Weak.SpecValues

/-!
# Concrete weak-memory executions that change values

Shared by the examples beside the properties of values in the weak memory model.
-/

namespace Verif.Weak.Show

open Verif.Demo (mem mem_init)

/-- `update(|x| x + 1)` of element 1. -/
def incr : Op Nat Nat := .elUpdate (fun v => (v + 1, true)) 1

/-- `[10, 20]` with capacity 2:
1. `iter`,
2, 3. two increments of element 1 at the same time, after 1,
4, 5. two `replace` of element 0 at the same time, after 1,
6. `push 7` of a thread that knows nothing,
7. `get_cloned(1)` after 2 and 3,
8. `get_cloned(0)` after 4 and 5,
9. `get_cloned(2)` after 6. -/
def values : List (Choice Nat Nat) :=
  [.call .iter []] ++ go 1 5 ++ [.call incr [1], .call incr [1], .call (.elReplace 0 99) [1], .call (.elReplace 0 77) [1],
    .call (.push 7) []] ++ go 2 2 ++ go 3 1 ++ go 2 3 ++ go 3 5 ++ go 4 1 ++ go 5 1 ++ go 4 4 ++ go 5 5 ++ go 6 10 ++
  [.call (.getCloned 1) [2, 3], .call (.getCloned 0) [4, 5], .call (.getCloned 2) [6]] ++ go 7 7 ++ go 8 7 ++ go 9 7

theorem values_possible : Possible [10, 20] 2 8 values := by unfold Possible; rfl

/-- The execution `values`. -/
def ν : Cfg Nat Nat := after [10, 20] 2 8 values

theorem ν_reach : Reach (mem [10, 20] 2 8) ν := reach_after values_possible

theorem ν_ops : ops ν = [.iter, incr, incr, .elReplace 0 99, .elReplace 0 77, .push 7, .getCloned 1, .getCloned 0, .getCloned 2] := rfl

theorem ν_disciplined : ν.Disciplined := by
  refine disciplined_of ν_reach fun op hop e => ?_
  rw [ν_ops] at hop
  simp only [List.mem_cons, List.not_mem_nil, or_false, incr] at hop
  rintro rfl
  simp at hop

/-- `[10, 20, 30]` with capacity 4: call 1 (`swap(0, 1)`) and call 2 (`swap(1, 2)`) at the same time; call 3 pushes 40; call 4
clones all elements afterwards. -/
def swapping : List (Choice Nat Nat) :=
  [.call (.swap .spinning 0 1) [], .call (.swap .spinning 1 2) [], .call (.push 40) []] ++ go 1 12 ++ go 2 14 ++ go 1 4 ++
  go 2 11 ++ go 3 6 ++ [.call .iterCloned [1, 2, 3]] ++ go 4 18

theorem swapping_possible : Possible [10, 20, 30] 4 8 swapping := by unfold Possible; rfl

/-- The execution `swapping`. -/
def ω : Cfg Nat Nat := after [10, 20, 30] 4 8 swapping

theorem ω_init : InitMem (mem [10, 20, 30] 4 8) [10, 20, 30] := mem_init _ _ _ (by decide) (by decide)

theorem ω_reach : Reach (mem [10, 20, 30] 4 8) ω := reach_after swapping_possible

theorem ω_ops : ops ω = [.swap .spinning 0 1, .swap .spinning 1 2, .push 40, .iterCloned] := rfl

theorem ω_disciplined : ω.Disciplined := by
  refine disciplined_of ω_reach fun op hop e => ?_
  rw [ω_ops] at hop
  simp only [List.mem_cons, List.not_mem_nil, or_false] at hop
  rintro rfl
  simp at hop

/-- A call of the execution is one of these. -/
theorem called_of {m : Mem Nat} {κ : Cfg Nat Nat} (h : Reach m κ) {k : Nat} (hk : κ.next = k) {c : Cid} {op : Op Nat Nat} (hc : κ.Called c op) :
    c < k ∧ (κ.calls c).map Rec.op = some op := by
  obtain ⟨r, hr, rfl⟩ := hc
  refine ⟨?_, by rw [hr]; rfl⟩
  rcases Nat.lt_or_ge c κ.next with hlt | hge
  · rw [← hk]; exact hlt
  · rw [h.new c hge] at hr; cases hr

end Verif.Weak.Show
