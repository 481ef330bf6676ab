import Verif.Weak.Owner
import Verif.Weak.Taken
import Verif.Props.DemoWeakInf

/-!
# Concrete weak-memory executions after which somebody owns the vector

Shared by the examples beside the properties in `Props/WeakOwner.lean`.
-/

namespace Verif.Weak.Show

open Verif.Demo (mem mem_init)

/-- All calls made so far. -/
def everybody (κ : Cfg Nat Nat) : List Cid := List.range' 1 (κ.next - 1)

/-- The knowledge of somebody who has joined all threads. -/
def owner (κ : Cfg Nat Nat) : View := (κ.join (everybody κ)).getD .bot

theorem owner_exclusive {m : Mem Nat} {κ : Cfg Nat Nat} (h : Reach m κ) (h0 : (κ.calls 0).isNone = true)
    (hj : (κ.join (everybody κ)).isSome = true) : κ.Exclusive (owner κ) := by
  obtain ⟨V, hV⟩ := Option.isSome_iff_exists.1 hj
  refine ⟨everybody κ, by unfold owner; rw [hV]; exact Cfg.ended_of hV, fun c r hc => ?_⟩
  have h1 : c < κ.next := Nat.lt_of_not_le fun hle => by rw [h.new c hle] at hc; cases hc
  have h2 : c ≠ 0 := by rintro rfl; rw [hc] at h0; cases h0
  exact List.mem_range'_1.2 ⟨Nat.pos_of_ne_zero h2, by rw [Nat.add_sub_cancel' (Nat.lt_of_le_of_lt (Nat.zero_le _) h1)]; exact h1⟩

/-- All growth calls have returned. -/
def grown (κ : Cfg Nat Nat) : Bool := (List.range κ.next).all fun c => match κ.calls c with
  | some ⟨_, _, _, _, .done _⟩ => true
  | some ⟨op, _, _, _, _⟩ => op.size.isNone
  | none => true

theorem grown_of {m : Mem Nat} {κ : Cfg Nat Nat} (h : Reach m κ) (hg : grown κ = true) :
    ∀ c op k, κ.Called c op → op.size = some k → ∃ x, κ.Returned c op x := by
  rintro c op k ⟨⟨o, hb, st, v, s⟩, hc, rfl⟩ hk
  have hlt : c < κ.next := Nat.lt_of_not_le fun hle => by rw [h.new c hle] at hc; cases hc
  have := List.all_eq_true.1 hg c (List.mem_range.2 hlt)
  rw [hc] at this
  simp only at hk
  cases s with
  | done x => exact ⟨x, _, hc, rfl, rfl⟩
  | running p => simp only at this; rw [hk] at this; cases this
  | panicked p => simp only at this; rw [hk] at this; cases this

/-- `[10, 20]` with capacity 2: call 1 extends by an iterator that yields 1 and panics then, call 2 pushes 5 at the same time. -/
def hole : List (Choice Nat Nat) :=
  [.call (.extendN [some 1, none] 2) [], .call (.push 5) []] ++ go 1 1 ++ go 2 1 ++ go 1 6 ++ go 2 9 ++ go 1 3

theorem hole_possible : Possible [10, 20] 2 8 hole := by unfold Possible; rfl

/-- The execution `hole`. -/
def η : Cfg Nat Nat := after [10, 20] 2 8 hole

theorem η_reach : Reach (mem [10, 20] 2 8) η := reach_after hole_possible

theorem η_exclusive : η.Exclusive (owner η) := owner_exclusive η_reach rfl rfl

theorem η_disciplined : η.Disciplined := by
  refine disciplined_of η_reach fun op hop e => ?_
  have : ops η = [.extendN [some 1, none] 2, .push 5] := rfl
  rw [this] at hop
  rintro rfl
  simp at hop

/-- `[10, 20]` with capacity and maximum capacity 2: a push that fails. -/
def overrun : List (Choice Nat Nat) := [.call (.push 5) []] ++ go 1 3

theorem overrun_possible : Possible [10, 20] 2 2 overrun := by unfold Possible; rfl

/-- The execution `overrun`. -/
def ξ : Cfg Nat Nat := after [10, 20] 2 2 overrun

theorem ξ_init : InitMem (mem [10, 20] 2 2) [10, 20] := mem_init _ _ _ (by decide) (by decide)

theorem ξ_reach : Reach (mem [10, 20] 2 2) ξ := reach_after overrun_possible

theorem ξ_exclusive : ξ.Exclusive (owner ξ) := owner_exclusive ξ_reach rfl rfl

theorem ξ_disciplined : ξ.Disciplined := by
  refine disciplined_of ξ_reach fun op hop e => ?_
  have : ops ξ = [.push 5] := rfl
  rw [this] at hop
  rintro rfl
  simp at hop

/-- After `overrun`, the maximum capacity is raised to 8. Then call 2 tries to push: it waits. -/
def raised : List (Choice Nat Nat) := overrun ++ [.raise 8, .call (.push 6) [1]] ++ go 2 20

theorem raised_possible : Possible [10, 20] 2 2 raised := by unfold Possible; rfl

/-- The execution `raised`. -/
def ζ : Cfg Nat Nat := after [10, 20] 2 2 raised

theorem ζ_reach : Reach (mem [10, 20] 2 2) ζ := reach_after raised_possible

theorem ζ_disciplined : ζ.Disciplined := by
  refine disciplined_of ζ_reach fun op hop e => ?_
  have : ops ζ = [.push 5, .push 6] := rfl
  rw [this] at hop
  rintro rfl
  simp at hop

theorem κ_exclusive : κ.Exclusive (owner κ) := owner_exclusive reach rfl rfl

theorem κ_grown : ∀ c op k, κ.Called c op → op.size = some k → ∃ x, κ.Returned c op x := grown_of reach rfl

end Verif.Weak.Show
