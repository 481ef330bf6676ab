import Verif.Proof.GrowthLemmas
import Verif.Proof.NextLemmas

/-!
# What happens during a call

Helper file (no property statements): the events between the invocation and the end of a call come from the call
itself and from the calls overlapping with it.
-/

namespace Verif

variable {α β : Type} {m : Mem α} {l : List α} {n : Nat} {κ : Nat → Cfg α β}

theorem Exec.overlap_self (h : Exec m l n κ) (hm : InitMem m l) {c : Cid} {r : Rec α β}
    (hc : (κ n).calls c = some r) : (κ n).Overlap c c := by
  have hI := h.inv hm (Nat.le_refl n)
  have : ¬ (κ n).Before c c := by
    rintro ⟨r1, r2, h1, h2, t, f, h3, h4⟩
    rw [hc] at h1 h2
    simp only [Option.some.injEq] at h1 h2
    subst h1 h2
    have := (hI.dataEnd hc h3).2.2.2.2
    omega
  exact ⟨⟨r, hc⟩, ⟨r, hc⟩, this, this⟩

/-- The events after the invocation of `c` and before its end come from calls overlapping with `c`. -/
theorem Exec.window (h : Exec m l n κ) (hm : InitMem m l) {c : Cid} {r : Rec α β} (hc : (κ n).calls c = some r)
    {s : Nat} (h1 : r.callT ≤ s) (h2 : ∀ et fin, r.status.ended = some (et, fin) → s ≤ et) (hsn : s ≤ n) :
    ∃ u, (κ s).w.trace = r.start.trace ++ u ∧ ∀ e ∈ u, (κ n).Overlap c e.cid := by
  obtain ⟨g1, g2, g3, g4, g5⟩ := h.called_at hm hc
  have hev := h.evolves hm h1 hsn
  obtain ⟨u, hu⟩ := hev.trace
  rw [← g3] at hu
  refine ⟨u, hu.symm, fun e he => ?_⟩
  obtain ⟨u1, u2, rfl⟩ := List.append_of_mem he
  have hsplit : (κ s).w.trace = (r.start.trace ++ u1) ++ e :: u2 := by rw [← hu]; simp
  obtain ⟨t, k1, k2, k3, -, ⟨r', p, k4, k5⟩, -, -⟩ := (h.prefix hsn).event_time hm hsplit
  have hct : r.callT ≤ t := by
    rcases Nat.lt_or_ge t r.callT with hlt | hge
    · have := (h.evolves hm (by omega : t + 1 ≤ r.callT) (by omega)).trace.length_le
      rw [k3, ← g3] at this
      simp at this
      omega
    · exact hge
  obtain ⟨r'', q1, q2, q3, ⟨-, q5⟩⟩ := h.during hm (by omega : t < n) k4 k5
  refine ⟨⟨r, hc⟩, ⟨r'', q1⟩, ?_, ?_⟩
  · rintro ⟨a, b, ha, hb, et, fin, hx, hlt⟩
    rw [hc] at ha; rw [q1] at hb
    simp only [Option.some.injEq] at ha hb
    subst ha hb
    have := h2 et fin hx
    omega
  · rintro ⟨a, b, ha, hb, et, fin, hx, hlt⟩
    rw [q1] at ha; rw [hc] at hb
    simp only [Option.some.injEq] at ha hb
    subst ha hb
    have := q5 et ⟨_, fin, q1, hx⟩
    omega

/-- A position that no overlapping call writes to keeps its value during a call. -/
theorem Exec.window_keep (h : Exec m l n κ) (hm : InitMem m l) {c : Cid} {r : Rec α β}
    (hc : (κ n).calls c = some r) {s s' : Nat} (h1 : r.callT ≤ s) (hss : s ≤ s')
    (h2 : ∀ et fin, r.status.ended = some (et, fin) → s' ≤ et)
    (hsn : s' ≤ n) {i : Nat} {v : α}
    (hv : (κ s).content i = some v) (hw : ∀ d op, (κ n).Called d op → (κ n).Overlap c d → ¬ op.MayWrite i) :
    (κ s').content i = some v := by
  obtain ⟨u', hu', hou'⟩ := h.window hm hc (by omega : r.callT ≤ s') h2 hsn
  obtain ⟨u, hu, -⟩ := h.window hm hc h1 (fun et fin he => by have := h2 et fin he; omega) (by omega)
  obtain ⟨t, ht⟩ := (h.evolves hm hss hsn).trace
  have hut : u ++ t = u' := by
    rw [hu, hu', List.append_assoc] at ht
    exact List.append_cancel_left ht
  have hI := h.inv hm hsn
  have hIs := h.inv hm (by omega : s ≤ n)
  have hIn := h.inv hm (Nat.le_refl n)
  rw [hIs.content_eq, hIs.inv.spec_eq] at hv
  rw [hI.content_eq, hI.inv.spec_eq, ← ht, specAt_append]
  have hleg := hI.inv.legal
  rw [← ht] at hleg
  refine specAt_keep hleg.suffix hv fun e he hmod => ?_
  have hmem : e ∈ (κ n).w.trace := by
    apply (h.evolves hm hsn (Nat.le_refl n)).trace.subset
    rw [← ht]; exact List.mem_append_right _ he
  obtain ⟨⟨op, ct, st, ss⟩, hr, hmw⟩ := hIn.modifies hmem hmod
  exact hw _ op ⟨ct, st, ss, hr⟩ (hou' e (by rw [← hut]; exact List.mem_append_right _ he)) hmw

/-- Without overlapping growth calls no position is initialised during a call. -/
theorem Exec.window_none (h : Exec m l n κ) (hm : InitMem m l) {c : Cid} {r : Rec α β}
    (hc : (κ n).calls c = some r) {s s' : Nat} (h1 : r.callT ≤ s) (hss : s ≤ s')
    (h2 : ∀ et fin, r.status.ended = some (et, fin) → s' ≤ et)
    (hsn : s' ≤ n) {i : Nat}
    (hv : (κ s).content i = none) (hw : ∀ d op, (κ n).Called d op → (κ n).Overlap c d → op.size = none) :
    (κ s').content i = none := by
  obtain ⟨u', hu', hou'⟩ := h.window hm hc (by omega : r.callT ≤ s') h2 hsn
  obtain ⟨u, hu, -⟩ := h.window hm hc h1 (fun et fin he => by have := h2 et fin he; omega) (by omega)
  obtain ⟨t, ht⟩ := (h.evolves hm hss hsn).trace
  have hut : u ++ t = u' := by
    rw [hu, hu', List.append_assoc] at ht
    exact List.append_cancel_left ht
  have hI := h.inv hm hsn
  have hIs := h.inv hm (by omega : s ≤ n)
  have hIn := h.inv hm (Nat.le_refl n)
  rw [hIs.content_eq, hIs.inv.spec_eq] at hv
  rw [hI.content_eq, hI.inv.spec_eq, ← ht, specAt_append]
  have hleg := hI.inv.legal
  rw [← ht] at hleg
  refine specAt_none hleg.suffix hv fun d v he => ?_
  have hmem : Ev.publish d i v ∈ (κ n).w.trace := by
    apply (h.evolves hm hsn (Nat.le_refl n)).trace.subset
    rw [← ht]; exact List.mem_append_right _ he
  obtain ⟨op, k, hr, hsz⟩ := hIn.publish_call hmem
  have := hw _ op hr (hou' (.publish d i v) (by rw [← hut]; exact List.mem_append_right _ he))
  rw [this] at hsz
  cases hsz

/-- Beginning and end of a call that is over, in terms of the execution. -/
theorem Exec.ends (h : Exec m l n κ) (hm : InitMem m l) {c : Cid} {r : Rec α β} (hc : (κ n).calls c = some r)
    {et : Nat} {fin : World α} (he : r.status.ended = some (et, fin)) :
    r.callT < et ∧ et < n ∧ r.start = (κ r.callT).w ∧ fin = (κ et).w ∧
      ∀ et' fin', r.status.ended = some (et', fin') → et ≤ et' := by
  obtain ⟨h1, h2, h3⟩ := h.ended_at hm hc he
  obtain ⟨g1, g2, g3, g4, g5⟩ := h.called_at hm hc
  refine ⟨h1, h2, g3, h3, fun et' fin' he' => ?_⟩
  rw [he] at he'
  simp only [Option.some.injEq, Prod.mk.injEq] at he'
  omega

/-- What is known about a call that reports a length. -/
theorem RetInfo.lenOK {σ₀ : SpecSt α} {κ : Cfg α β} {c : Cid} {op : Op α β} {ct : Nat} {st : World α} {x : Ret α β} {et : Nat}
    {fin : World α} {d : List (Ev α)} (h : RetInfo σ₀ κ c op ct st x et fin d) {n : Nat}
    (hr : op.ReportsLen n x) : LenOK c st n fin ∧ op.size = none ∧ ∀ i, ¬ op.MayWrite i := by
  have ho := h.out
  cases op <;> simp only [Op.ReportsLen] at hr <;> subst hr
  · obtain ⟨n', hl, hx, -⟩ := ho
    cases hx
    exact ⟨hl, rfl, fun _ h => h⟩
  · obtain ⟨n', hl, hx, -⟩ := ho
    simp only [Ret.elems.injEq] at hx
    have := congrArg List.length hx
    simp only [List.length_range] at this
    subst this
    exact ⟨hl, rfl, fun _ h => h⟩
  · obtain ⟨n', hl, hx, -⟩ := ho
    simp only [Ret.slc.injEq, Slc.mk.injEq, true_and] at hx
    subst hx
    exact ⟨hl, rfl, fun _ h => h⟩

/-- Where `len` stopped because an element was held, this was due to another call, overlapping with it. -/
theorem Exec.busy_overlap (h : Exec m l n κ) (hm : InitMem m l) {c d : Cid} {i : Nat} (hd' : Ev.busy c i d ∈ (κ n).w.trace) :
    ∃ t d op', (κ n).During c t ∧ d ≠ c ∧ (κ n).Overlap c d ∧ (κ t).Running d op' ∧ (κ t).w.mem.st i = .RESERVED := by
  have hI := h.inv hm (Nat.le_refl n)
  obtain ⟨t1, t2, ht⟩ := List.append_of_mem hd'
  obtain ⟨t, c', r, a, again, kk, b, htn, h1, hcr, hrun, hx, hev, h2⟩ := h.event ht
  obtain ⟨rfl, hhold⟩ := busy_event hev
  have hIt := h.inv hm (by omega : t ≤ n)
  obtain ⟨r1, r2, hr1, hr2, hb1, hb2⟩ := hI.busy _ _ _ hd'
  have hne : c ≠ d := (hI.inv.legal t1 _ t2 ht).2
  have hdur := (h.during hm htn hcr hrun)
  have hrunning : ∃ op', (κ t).Running d op' := by
    rcases hcd : (κ t).calls d with _ | ⟨op', ct', st', s⟩
    · exact absurd hhold (((hIt.fresh d hcd).locks i).1 · |>.elim)
    · cases s with
      | running p => exact ⟨op', ct', st', p, hcd⟩
      | done y t' f =>
        obtain ⟨-, -, -, he⟩ := hIt.status d _ hcd
        exact absurd hhold ((he.loc.locks i).1 · |>.elim)
      | panicked y t' f =>
        obtain ⟨-, -, -, he⟩ := hIt.status d _ hcd
        exact absurd hhold ((he.loc.locks i).1 · |>.elim)
  obtain ⟨op', hop'⟩ := hrunning
  refine ⟨t, d, op', ?_, Ne.symm hne, ⟨⟨r1, hr1⟩, ⟨r2, hr2⟩, ?_, ?_⟩, hop', (hIt.inv.lock i).2 (by simp [hhold])⟩
  · obtain ⟨r', -, -, -, hd⟩ := hdur; exact hd
  · rintro ⟨a, b, ha, hb, hh⟩
    rw [hr1] at ha; rw [hr2] at hb
    simp only [Option.some.injEq] at ha hb
    subst ha hb
    exact hb1 hh
  · rintro ⟨a, b, ha, hb, hh⟩
    rw [hr2] at ha; rw [hr1] at hb
    simp only [Option.some.injEq] at ha hb
    subst ha hb
    exact hb2 hh

end Verif
