import Verif.Props.DemoWeakCompare
import Verif.Props.DemoWeakInf
import Verif.Weak.CompareFair

/-!
# Concrete infinite weak-memory executions of systems of vectors

For the example beside `C61_all_end_partial`: a finite schedule after which all comparisons and calls are over, followed by
`reserve_maximum_capacity(0)` on some other vector forever (which changes nothing).
-/

namespace Verif.Weak.Show

open Verif.Demo (mems mems_init)

variable {l : Nat → List Nat} {chs : List (SysChoice Nat Nat)}

/-- The schedule, then nothing of interest forever. -/
def sysLasting (l : Nat → List Nat) (chs : List (SysChoice Nat Nat)) (t : Nat) : Sys Nat Nat := sysAfter l (chs.take t)

theorem sysLasting_end {t : Nat} (ht : chs.length ≤ t) : sysLasting l chs t = sysAfter l chs := by
  unfold sysLasting; rw [List.take_of_length_le ht]

/-- Vector 5 is not used; asking it for no more capacity changes nothing. -/
theorem sysLasting_inf (h : SysPossible l chs) (hi : ((sysAfter l chs).vec 5).Idle)
    (hr : ((sysAfter l chs).vec 5).mem.reserveMax 0 = ((sysAfter l chs).vec 5).mem) : InfSysExec (mems l) (sysLasting l chs) := by
  refine ⟨(sysExec h).init, fun t => ?_⟩
  rcases Nat.lt_or_ge t chs.length with ht | ht
  · exact (sysExec h).next t ht
  · rw [sysLasting_end ht, sysLasting_end (by omega)]
    generalize sysAfter l chs = S at *
    obtain ⟨v, c⟩ := S
    have hs := Step.reserveMax (v 5) 0 hi
    rw [hr] at hs
    have := SysStep.vec ⟨v, c⟩ 5 (v 5) hs fun _ _ _ _ _ => rfl
    have hv : upd v 5 (v 5) = v := by
      funext u
      rw [upd_apply]
      split
      · next h => rw [h]
      · rfl
    simp only [hv] at this
    exact this

/-- If everything ends, the execution is fair. -/
theorem sysLasting_fair (hi : (sysAfter l chs).Idle) : SysFair (sysLasting l chs) where
  cmp k h := by
    obtain ⟨t, ht, hc, -⟩ := h chs.length
    rw [sysLasting_end ht] at hc
    exact (hi.1 k hc).elim
  call u c h := by
    obtain ⟨t, ht, ⟨op, hr⟩, -⟩ := h chs.length
    rw [sysLasting_end ht] at hr
    exact (hi.2 u c op hr).elim

theorem sysLasting_only (h : InfSysExec (mems l) (sysLasting l chs)) {u : Nat} {p : Op Nat Nat → Prop}
    (hp : ((sysAfter l chs).vec u).Only p) (t : Nat) : ((sysLasting l chs t).vec u).Only p := by
  intro c op hc
  have := (h.vec u).called (Nat.le_max_left t chs.length) hc
  rw [sysLasting_end (Nat.le_max_right _ _)] at this
  exact hp c op this

theorem sysLasting_calm (h : InfSysExec (mems l) (sysLasting l chs)) {u : Nat}
    (hp : ∀ c op k, ¬ ((sysAfter l chs).vec u).Panicked c op k) (t : Nat) : ∀ c op k, ¬ ((sysLasting l chs t).vec u).Panicked c op k := by
  intro c op k hc
  have := (h.vec u).panicked (Nat.le_max_left t chs.length) hc
  rw [sysLasting_end (Nat.le_max_right _ _)] at this
  exact hp c op k this

end Verif.Weak.Show
