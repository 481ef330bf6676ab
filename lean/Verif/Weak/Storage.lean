import Verif.Weak.SpecNext
import Verif.Weak.Sound

/-!
# Who grows the storage, under weak memory

Helper file (no property statements).
-/

namespace Verif.Weak

variable {α β : Type} {D : Mode} {mx n : Nat} {κ : Cfg α β} {K K0 : Cid → Know}

/-- What the next action of a call needs holds. -/
theorem WInv.pre_next (h : WInv D mx n κ K K0) {c : Cid} {a : Act α} (hn : κ.AboutTo c a) : Pre D κ.mem.maxCap (K c) a := by
  obtain ⟨r, again, k, hr, hs⟩ := hn
  have hf := h.fits c r hr
  unfold Fits at hf
  rw [hs] at hf
  exact hf.1

/-- A call that is about to allocate has read the newest capacity. -/
theorem WInv.alloc_newest (h : WInv D mx n κ K K0) {c : Cid} {x : Nat} (hx : (K c).C = some x) (hu : (K c).U x) (hgr : ¬ (K c).Gr x)
    {r : Msg Nat} (hr : κ.mem.cap.getLast? = some r) : r.val = x := by
  have hR := (h.k c).u_r x hu
  obtain ⟨t, q, hq, rfl, -⟩ := (h.k c).c x hx
  rcases Nat.lt_or_ge (t + 1) κ.mem.cap.length with hlt | hge
  · obtain ⟨d, hd⟩ := h.g.cap_old t q hq hlt
    have := h.g.disjR d c _ ((h.k d).gr_r _ hd) hR
    subst this
    exact absurd hd hgr
  · have ht := (List.getElem?_eq_some_iff.1 hq).1
    rw [List.getLast?_eq_getElem?, show κ.mem.cap.length - 1 = t by omega, hq] at hr
    cases hr
    rfl

/-- A call that grows the storage owns the position behind the newest capacity. -/
theorem WInv.grows_owns (h : WInv D mx n κ K K0) {c : Cid} {a : Act α} (hn : κ.AboutTo c a) (hg : a.Grows) {r : Msg Nat}
    (hr : κ.mem.cap.getLast? = some r) : (K c).R r.val := by
  have hp := h.pre_next hn
  cases a <;> first | exact hg.elim | skip
  · obtain ⟨-, -, x, hx, hu, hgr, -⟩ := hp
    rw [h.alloc_newest hx hu hgr hr]
    exact (h.k c).u_r x hu
  · obtain ⟨⟨q, hq, hgr, -⟩, -⟩ := (h.k c).g hp.2
    rw [hr] at hq; cases hq
    exact (h.k c).gr_r _ hgr

end Verif.Weak
