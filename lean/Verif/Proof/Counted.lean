import Verif.Proof.Quiet
import Verif.Proof.Progress

/-!
# Elements that somebody has got are counted

An element or a slice is only given out after `len` has counted its positions, so that `len_written` is beyond them.
-/

namespace Verif

variable {α β : Type} {m : Mem α} {l : List α}

/-- The positions that a call needs were counted before it began. -/
def NeedsCounted (κ : Cfg α β) : Prop := ∀ c r, κ.calls c = some r → ∀ i ∈ r.op.needs, i < r.start.mem.written

theorem NeedsCounted.revealed {κ : Cfg α β} (h : NeedsCounted κ) (hI : CfgInv (.ofList l) κ) {i : Nat} (hr : κ.Revealed i) :
    i < κ.w.mem.written := by
  obtain ⟨c, r, op, ct, st, et, fin, hc, hi⟩ := hr
  obtain ⟨d, hinfo⟩ := hI.returned hc
  refine Nat.lt_of_lt_of_le ((hinfo.out.reveals (P := fun i => i < fin.mem.written) (fun hl i hi => ?_) fun i hi => ?_).1 i hi)
    hinfo.ev2.written
  · exact Nat.lt_of_lt_of_le hi hl.written
  · exact Nat.lt_of_lt_of_le (h c _ hc i hi) hinfo.ev1.written

theorem NeedsCounted.step {κ κ' : Cfg α β} (h : NeedsCounted κ) (hI : CfgInv (.ofList l) κ) (hs : Step κ κ') : NeedsCounted κ' := by
  intro c r hr
  rcases hold : κ.calls c with _ | r0
  · cases hs with
    | invoke op hn hp =>
      by_cases hcn : c = κ.next
      · subst hcn
        simp only [upd_same] at hr
        cases hr
        exact fun i hi => h.revealed hI (hn i hi)
      · simp only [upd_other _ _ hcn] at hr
        exact h c r hr
    | act c' r' a again g w' b hc' hr' he =>
      have hne : c ≠ c' := by rintro rfl; rw [hold] at hc'; cases hc'
      exact h c r ((setStatus_other hne).symm.trans hr)
    | ub c' r' a again g hc' hr' he => exact h c r hr
    | ret c' r' x hc' hr' =>
      have hne : c ≠ c' := by rintro rfl; rw [hold] at hc'; cases hc'
      exact h c r ((setStatus_other hne).symm.trans hr)
    | panic c' r' x hc' hr' =>
      have hne : c ≠ c' := by rintro rfl; rw [hold] at hc'; cases hc'
      exact h c r ((setStatus_other hne).symm.trans hr)
    | reserveMax N hidle => exact h c r hr
  · obtain ⟨r', h1, h2⟩ := hI.step_rec hs hold
    rw [hr] at h1
    cases h1
    rw [h2.start, h2.op]
    exact h c r0 hold

theorem Reach.counted (hm : InitMem m l) {κ : Cfg α β} (h : Reach m l κ) : NeedsCounted κ := by
  induction h with
  | init => intro c r hc; cases hc
  | step h hs ih => exact ih.step (h.inv hm) hs

end Verif
