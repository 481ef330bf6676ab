import Verif.Weak.Hole
import Verif.Props.Weak
import Verif.Props.DemoWeakInf

/-!
# Positions left behind by a growth call that panicked, under weak memory: C23
-/

namespace Verif

open Weak

variable {α β : Type} {m : Mem α} {l : List α} {κ : Nat → Weak.Cfg α β}

/-- **C23 under weak memory.** A position which a growth call that panicked left without a value never gets one. -/
theorem C23_weak_permanent (hm : InitMem m l) (h : Weak.InfExec m κ) (hd : ∀ t, (κ t).Disciplined) {s p t : Nat} (hh : Weak.Hole κ s p)
    (ht : s ≤ t) : (κ t).Newest p .NONE := by
  obtain ⟨-, -, -, hN⟩ := h.hole_disciplined hm hd hh ht
  exact hN

/-- **C23 under weak memory.** No length that is ever reported, to whomever, counts such a position or any position behind it. -/
theorem C23_weak_len (hm : InitMem m l) (h : Weak.InfExec m κ) (hd : ∀ t, (κ t).Disciplined) {s p t : Nat} (hh : Weak.Hole κ s p)
    {c : Cid} {op : Op α β} {x : Ret α β} {n : Nat} (hr : (κ t).Returned c op x) (hn : op.ReportsLen n x) : n ≤ p := by
  obtain ⟨K, K0, hw, hN⟩ := h.hole_disciplined hm hd hh (Nat.le_max_left s t)
  exact Nat.le_trans ((hw.done (h.returned (Nat.le_max_right s t) hr)).len n hn).2.1 (hw.counted_below hN c)

/-- **C23 under weak memory.** No call ever hands out (`get`, `iter`, `slice`, …) the element at such a position, or at one behind it. -/
theorem C23_weak_not_reached (hm : InitMem m l) (h : Weak.InfExec m κ) (hd : ∀ t, (κ t).Disciplined) {s p t : Nat} (hh : Weak.Hole κ s p)
    {c : Cid} {op : Op α β} {x : Ret α β} (hr : (κ t).Returned c op x) {i : Nat} (hi : i ∈ x.elements) : i < p := by
  obtain ⟨K, K0, hw, hN⟩ := h.hole_disciplined hm hd hh (Nat.le_max_left s t)
  exact Nat.lt_of_lt_of_le ((hw.done (h.returned (Nat.le_max_right s t) hr)).cn i hi) (hw.counted_below hN c)

section examples

namespace Weak.Show

open Verif.Demo (mem)

/-- `[10, 20]` with capacity 8: the iterator given to call 1 (`extend_n_items`, 2 items) panics before its second item. Call 2 pushes 5 behind.
Then call 3 asks for the length, and call 4 for the elements. -/
def leavesHole : List (Choice Nat Nat) :=
  [.call (.extendN [some 1, none] 2) []] ++ go 1 6 ++ [.call (.push 5) []] ++ go 2 6 ++ [.call .len [1, 2]] ++ go 3 7 ++
    [.call .iter [1, 2]] ++ go 4 6

theorem leavesHole_possible : Possible [10, 20] 8 8 leavesHole := by unfold Possible; rfl

theorem leavesHole_disciplined (t : Nat) : (lasting [10, 20] 8 8 leavesHole t).Disciplined :=
  lasting_disciplined leavesHole_possible
    (disciplined_of (reach_after leavesHole_possible) fun op hop e he => by
      have : ops (after [10, 20] 8 8 leavesHole) = [.extendN [some 1, none] 2, .push 5, .len, .iter] := rfl
      rw [this] at hop
      subst he
      simp at hop) t

theorem leavesHole_hole : Hole (lasting [10, 20] 8 8 leavesHole) 7 3 :=
  ⟨1, _, _, 2, 2, Cfg.panicked_of rfl rfl, ⟨1, by decide, ⟨_, _, _, _, rfl, rfl⟩, ⟨_, rfl, rfl⟩, Cfg.go_moves (t := none) rfl rfl⟩,
    by decide, by decide, ⟨_, rfl, rfl⟩⟩

end Weak.Show

open Weak.Show in
/-- The hypotheses are met: position 3 is a hole, and the push behind it has returned. -/
example : Weak.Hole (lasting [10, 20] 8 8 leavesHole) 7 3 ∧
    (lasting [10, 20] 8 8 leavesHole leavesHole.length).Returned 2 (.push 5) (.nat 4) ∧
    (lasting [10, 20] 8 8 leavesHole leavesHole.length).Newest 3 .NONE := by
  refine ⟨leavesHole_hole, Cfg.returned_of rfl rfl, ?_⟩
  exact C23_weak_permanent (Demo.mem_init [10, 20] 8 8 (by decide) (by decide)) (lasting_inf leavesHole_possible) leavesHole_disciplined
    leavesHole_hole (by decide)

open Weak.Show in
/-- The hypotheses of `C23_weak_len` and `C23_weak_not_reached` are met: the length which call 3 reports, and the elements which call 4 hands
out, do not go beyond the hole, although the vector has reserved 5 positions and position 4 has a value. -/
example : (lasting [10, 20] 8 8 leavesHole leavesHole.length).Returned 3 .len (.nat 3) ∧
    (lasting [10, 20] 8 8 leavesHole leavesHole.length).Returned 4 .iter (.elems [0, 1, 2]) ∧
    (lasting [10, 20] 8 8 leavesHole leavesHole.length).Newest 4 .SOME ∧
    (∀ n, (Op.len : Op Nat Nat).ReportsLen n (.nat 3) → n ≤ 3) ∧ ∀ i ∈ (.elems [0, 1, 2] : Ret Nat Nat).elements, i < 3 := by
  have h3 : (lasting [10, 20] 8 8 leavesHole leavesHole.length).Returned 3 .len (.nat 3) := Cfg.returned_of rfl rfl
  have h4 : (lasting [10, 20] 8 8 leavesHole leavesHole.length).Returned 4 .iter (.elems [0, 1, 2]) := Cfg.returned_of rfl rfl
  have hm := Demo.mem_init [10, 20] 8 8 (by decide) (by decide)
  have hinf := lasting_inf leavesHole_possible
  exact ⟨h3, h4, ⟨_, rfl, rfl⟩, fun n hn => C23_weak_len hm hinf leavesHole_disciplined leavesHole_hole h3 hn,
    fun i hi => C23_weak_not_reached hm hinf leavesHole_disciplined leavesHole_hole h4 hi⟩

end examples

end Verif
