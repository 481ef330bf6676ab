import Verif.Model.Run
import Verif.Proof.Sound

/-!
# Concrete executions

Shared by the examples beside the property theorems: they show that the hypotheses of the theorems are met by
real executions of the model.
-/

namespace Verif.Demo

/-- A growth policy that allocates exactly what is requested (simple enough to compute with). -/
def exact : Policy where
  grow _ n := n
  reserve m n := max m n
  good c m := c ≤ m
  good_le := id
  grow_ok := by intro c m n _ _ h; exact ⟨Nat.le_refl _, h, h⟩
  reserve_ok := by intro c m n h; exact ⟨Nat.le_max_left _ _, Nat.le_trans h (Nat.le_max_left _ _)⟩

/-- A vector with the elements of `l`, capacity `cap` and maximum capacity `maxCap`. -/
def mem (l : List Nat) (cap maxCap : Nat) : Mem Nat where
  reserved := l.length
  written := l.length
  cap := cap
  alloc := cap
  maxCap := maxCap
  growing := false
  pol := exact
  st i := if i < l.length then .SOME else .NONE
  val i := l[i]?

theorem mem_init (l : List Nat) (cap maxCap : Nat) (h : l.length ≤ cap) (h' : cap ≤ maxCap) :
    InitMem (mem l cap maxCap) l := ⟨rfl, rfl, fun _ => rfl, fun _ => rfl, h, rfl, rfl, h'⟩

/-- `k` steps of call `c`. -/
def go (c k : Nat) : List (Choice Nat Nat) := List.replicate k (.go c)

/-- What a list of scheduling decisions leads to; the initial configuration if the schedule is impossible. -/
def after (l : List Nat) (cap maxCap : Nat) (chs : List (Choice Nat Nat)) : Cfg Nat Nat :=
  ((Cfg.init (mem l cap maxCap) l).run chs).getD (Cfg.init (mem l cap maxCap) l)

/-- The schedule is possible. -/
def Possible (l : List Nat) (cap maxCap : Nat) (chs : List (Choice Nat Nat)) : Prop :=
  ((Cfg.init (mem l cap maxCap) l).run chs).isSome = true

theorem run_after {l : List Nat} {cap maxCap : Nat} {chs : List (Choice Nat Nat)}
    (h : Possible l cap maxCap chs) :
    (Cfg.init (mem l cap maxCap) l).run chs = some (after l cap maxCap chs) := by
  unfold Possible at h
  unfold after
  rcases hh : (Cfg.init (mem l cap maxCap) l : Cfg Nat Nat).run chs with _ | κ
  · rw [hh] at h; cases h
  · rfl

theorem reach_after {l : List Nat} {cap maxCap : Nat} {chs : List (Choice Nat Nat)}
    (h : Possible l cap maxCap chs) : Reach (mem l cap maxCap) l (after l cap maxCap chs) :=
  Reach.of_run .init (run_after h)

theorem exec_after {l : List Nat} {cap maxCap : Nat} {chs : List (Choice Nat Nat)}
    (h : Possible l cap maxCap chs) :
    Exec (mem l cap maxCap) l chs.length (fun t => after l cap maxCap (chs.take t)) := by
  obtain ⟨f, hf, -, hft⟩ := Exec.of_run (run_after h)
  have heq : ∀ t, t ≤ chs.length → after l cap maxCap (chs.take t) = f t := by
    intro t ht; unfold after; rw [hft t ht]; rfl
  refine ⟨by rw [heq 0 (by omega), hf.init], fun t ht => ?_⟩
  rw [heq t (by omega), heq (t + 1) (by omega)]
  exact hf.next t ht

/-- Two calls grow the vector `[10, 20]` at the same time: call 2 (`extend [1, 2, 3]`) gets its positions first
and has to allocate, call 1 (`push 7`) gets the position behind, must wait and finishes first. Then call 3
pushes 9. -/
def growth : List (Choice Nat Nat) :=
  [.call (.push 7), .call (.extend (.ofList [1, 2, 3]))] ++ go 2 6 ++ go 1 3 ++ go 2 1 ++ go 1 8 ++ go 2 7 ++
  [.call (.push 9)] ++ go 3 10

theorem growth_possible : Possible [10, 20] 2 8 growth := by unfold Possible; rfl

/-- Results of calls, for the examples. -/
theorem returned_of {κ : Cfg Nat Nat} {c : Cid} {op : Op Nat Nat} {x : Ret Nat Nat}
    (h1 : (κ.calls c).map Rec.op = some op) (h2 : κ.result c = some x) : κ.Returned c op x := by
  unfold Cfg.result at h2
  split at h2
  · rename_i heq
    rw [heq] at h1
    simp only [Option.map_some, Option.some.injEq] at h1 h2
    subst h1 h2
    exact ⟨_, _, _, _, heq⟩
  · cases h2

theorem panicked_of {κ : Cfg Nat Nat} {c : Cid} {op : Op Nat Nat} {k : PanicKind}
    (h1 : (κ.calls c).map Rec.op = some op) (h2 : κ.panicOf c = some k) : κ.Panicked c op k := by
  unfold Cfg.panicOf at h2
  split at h2
  · rename_i heq
    rw [heq] at h1
    simp only [Option.map_some, Option.some.injEq] at h1 h2
    subst h1 h2
    exact ⟨_, _, _, _, heq⟩
  · cases h2

/-- Time of the end of a call. -/
def endOf (κ : Cfg Nat Nat) (c : Cid) : Option Nat := (κ.calls c).bind fun r => r.status.ended.map Prod.fst

/-- Time of the invocation of a call. -/
def callOf (κ : Cfg Nat Nat) (c : Cid) : Option Nat := (κ.calls c).map Rec.callT

theorem before_of {κ : Cfg Nat Nat} {c d : Cid} {t u : Nat} (h1 : endOf κ c = some t) (h2 : callOf κ d = some u)
    (h : t < u) : κ.Before c d := by
  unfold endOf at h1
  unfold callOf at h2
  rcases hc : κ.calls c with _ | r1
  · rw [hc] at h1; cases h1
  rcases hd : κ.calls d with _ | r2
  · rw [hd] at h2; cases h2
  rw [hc] at h1
  rw [hd] at h2
  simp only [Option.map_some, Option.some.injEq, Option.bind_some] at h1 h2
  rcases he : r1.status.ended with _ | ⟨t', w⟩
  · rw [he] at h1; cases h1
  rw [he] at h1
  simp only [Option.map_some, Option.some.injEq] at h1
  exact ⟨r1, r2, hc, hd, t', w, he, by omega⟩

/-- Is the call running? -/
def runningB (κ : Cfg Nat Nat) (c : Cid) : Bool :=
  match κ.calls c with
  | some ⟨_, _, _, .running _⟩ => true
  | _ => false

theorem known {l : List Nat} {cap maxCap : Nat} {κ : Cfg Nat Nat} (hl : l.length ≤ cap) (hc : cap ≤ maxCap)
    (h : Reach (mem l cap maxCap) l κ) {c : Cid} {r : Rec Nat Nat} (hr : κ.calls c = some r) :
    c ∈ List.range κ.next := List.mem_range.2 ((h.inv (mem_init l cap maxCap hl hc)).next c r hr).2

theorem idle_of {l : List Nat} {cap maxCap : Nat} {κ : Cfg Nat Nat} (hl : l.length ≤ cap) (hc : cap ≤ maxCap)
    (h : Reach (mem l cap maxCap) l κ) (hi : (List.range κ.next).any (runningB κ) = false) : κ.Idle := by
  intro c op ct st p hr
  have := known hl hc h hr
  rw [List.any_eq_false] at hi
  exact hi c this (by simp [runningB, hr])

theorem called_of {l : List Nat} {cap maxCap : Nat} {κ : Cfg Nat Nat} (hl : l.length ≤ cap) (hc : cap ≤ maxCap)
    (h : Reach (mem l cap maxCap) l κ) {ops : List (Op Nat Nat)}
    (hops : (List.range κ.next).filterMap (fun c => (κ.calls c).map Rec.op) = ops) {c : Cid} {op : Op Nat Nat}
    (hr : κ.Called c op) : op ∈ ops := by
  obtain ⟨ct, st, s, hr⟩ := hr
  rw [← hops, List.mem_filterMap]
  exact ⟨c, known hl hc h hr, by simp [hr]⟩

end Verif.Demo
