import Verif.Weak.Sound
import Verif.Weak.Run
import Verif.Props.Demo

/-!
# Concrete weak-memory executions

Shared by the examples beside the properties of the weak memory model.
-/

namespace Verif.Weak.Show

open Verif.Demo (mem mem_init)

/-- `k` steps of call `c`, always with the newest message. -/
def go (c k : Nat) : List (Choice Nat Nat) := List.replicate k (.go c)

/-- What a list of decisions leads to; the initial configuration if it is impossible. -/
def after (l : List Nat) (cap maxCap : Nat) (chs : List (Choice Nat Nat)) : Cfg Nat Nat :=
  ((Cfg.init (mem l cap maxCap)).run chs).getD (Cfg.init (mem l cap maxCap))

/-- The decisions are possible. -/
def Possible (l : List Nat) (cap maxCap : Nat) (chs : List (Choice Nat Nat)) : Prop :=
  ((Cfg.init (mem l cap maxCap) : Cfg Nat Nat).run chs).isSome = true

theorem reach_after {l : List Nat} {cap maxCap : Nat} {chs : List (Choice Nat Nat)} (h : Possible l cap maxCap chs) :
    Reach (mem l cap maxCap) (after l cap maxCap chs) := by
  refine Cfg.reach_of_run .init (chs := chs) ?_
  unfold Possible at h
  unfold after
  rcases hh : (Cfg.init (mem l cap maxCap) : Cfg Nat Nat).run chs with _ | κ
  · rw [hh] at h; cases h
  · rfl

/-- All operations of the calls made so far. -/
def ops (κ : Cfg Nat Nat) : List (Op Nat Nat) := (List.range κ.next).filterMap fun c => (κ.calls c).map Rec.op

theorem only_of {m : Mem Nat} {κ : Cfg Nat Nat} (h : Reach m κ) {p : Op Nat Nat → Prop} (hp : ∀ op ∈ ops κ, p op) : κ.Only p := by
  rintro c op ⟨r, hr, rfl⟩
  refine hp _ (List.mem_filterMap.2 ⟨c, List.mem_range.2 ?_, by rw [hr]; rfl⟩)
  rcases Nat.lt_or_ge c κ.next with hlt | hge
  · exact hlt
  · rw [h.new c hge] at hr; cases hr

/-- Nobody reads through a pointer. -/
theorem disciplined_of {m : Mem Nat} {κ : Cfg Nat Nat} (h : Reach m κ) (hp : ∀ op ∈ ops κ, ∀ e, op ≠ .deref e) :
    κ.Disciplined :=
  fun c e hc => absurd rfl (only_of h (p := fun op => ∀ e, op ≠ .deref e) hp c _ hc e)

/-- `[10, 20]` with capacity 2: call 1 (`push 7`) and call 2 (`extend [1, 2, 3]`) at the same time, both grow the storage. Then:
3. a `len` of a thread that knows nothing; its loads of the capacity and of `len_reserved` are stale,
4. a `len` after the push,
5. `get(4)` after that `len`,
6. `cloned` of that element,
7. `get_cloned(5)` after the push,
8. `push 9` after the `extend`,
9. `vec[9]` of a thread that knows nothing. -/
def growth : List (Choice Nat Nat) :=
  [.call (.push 7) [], .call (.extend (.ofList [1, 2, 3])) []] ++ go 2 6 ++ go 1 3 ++ go 2 1 ++ go 1 8 ++ go 2 7 ++
  [.call .len [], .go 3, .at 3 0, .at 3 0] ++ go 3 2 ++
  [.call .len [1]] ++ go 4 9 ++ [.call (.get 4) [4]] ++ go 5 6 ++ [.call (.elCloned 4) [5]] ++ go 6 4 ++
  [.call (.getCloned 5) [1], .call (.push 9) [2]] ++ go 7 7 ++ go 8 10 ++ [.call (.index 9) []] ++ go 9 6

theorem growth_possible : Possible [10, 20] 2 8 growth := by unfold Possible; rfl

/-- The execution `growth`. -/
def κ : Cfg Nat Nat := after [10, 20] 2 8 growth

theorem init : InitMem (mem [10, 20] 2 8) [10, 20] := mem_init _ _ _ (by decide) (by decide)

theorem reach : Reach (mem [10, 20] 2 8) κ := reach_after growth_possible

theorem ops_eq : ops κ = [.push 7, .extend (.ofList [1, 2, 3]), .len, .len, .get 4, .elCloned 4, .getCloned 5, .push 9, .index 9] := rfl

theorem disciplined : κ.Disciplined := by
  refine disciplined_of reach fun op hop e => ?_
  rw [ops_eq] at hop
  simp only [List.mem_cons, List.not_mem_nil, or_false] at hop
  rintro rfl
  simp at hop

/-- The first five calls of `growth`: without handles of elements. -/
def sights : List (Choice Nat Nat) :=
  [.call (.push 7) [], .call (.extend (.ofList [1, 2, 3])) []] ++ go 2 6 ++ go 1 3 ++ go 2 1 ++ go 1 8 ++ go 2 7 ++
  [.call .len [], .go 3, .at 3 0, .at 3 0] ++ go 3 2 ++ [.call .len [1, 2]] ++ go 4 9 ++ [.call (.get 4) [1, 2]] ++ go 5 6 ++
  [.call (.getRaw .seqCst 3) [2]] ++ go 6 5

theorem sights_possible : Possible [10, 20] 2 8 sights := by unfold Possible; rfl

/-- The execution `sights`. -/
def σ : Cfg Nat Nat := after [10, 20] 2 8 sights

theorem σ_reach : Reach (mem [10, 20] 2 8) σ := reach_after sights_possible

theorem σ_ops : ops σ = [.push 7, .extend (.ofList [1, 2, 3]), .len, .len, .get 4, .getRaw .seqCst 3] := rfl

theorem σ_disciplined : σ.Disciplined := by
  refine disciplined_of σ_reach fun op hop e => ?_
  rw [σ_ops] at hop
  simp only [List.mem_cons, List.not_mem_nil, or_false] at hop
  rintro rfl
  simp at hop

theorem σ_nolock : σ.Only fun op => ¬ op.Locks := by
  refine only_of σ_reach fun op hop => ?_
  rw [σ_ops] at hop
  simp only [List.mem_cons, List.not_mem_nil, or_false] at hop
  rcases hop with h | h | h | h | h | h <;> subst h <;> exact id

/-- An empty vector with capacity 2: call 1 pushes 7; call 2 takes a pointer to it with an ordering `o`, without any other
synchronisation; call 3 reads through the pointer. -/
def pointer (o : MOrd) : List (Choice Nat Nat) :=
  [.call (.push 7) []] ++ go 1 6 ++ [.call (.getRaw o 0) []] ++ go 2 5 ++ [.call (.deref 0) [2]] ++ go 3 2

theorem pointer_possible : Possible [] 2 8 (pointer .seqCst) := by unfold Possible; rfl

/-- The execution `pointer`. -/
def π : Cfg Nat Nat := after [] 2 8 (pointer .seqCst)

theorem π_init : InitMem (mem [] 2 8) [] := mem_init _ _ _ (by decide) (by decide)

theorem π_reach : Reach (mem [] 2 8) π := reach_after pointer_possible

theorem π_disciplined : π.Disciplined := by
  intro c e _
  refine only_of π_reach fun op hop => ?_
  have : ops π = [.push 7, .getRaw .seqCst 0, .deref 0] := rfl
  rw [this] at hop
  simp only [List.mem_cons, List.not_mem_nil, or_false] at hop
  rcases hop with h | h | h <;> subst h
  · exact ⟨id, trivial⟩
  · exact ⟨id, fun _ => rfl⟩
  · exact ⟨id, trivial⟩

end Verif.Weak.Show
