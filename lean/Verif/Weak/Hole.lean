import Verif.Weak.SpecHole
import Verif.Weak.Stalled

/-!
# Positions left behind by a growth call that panicked, under weak memory

Helper file (no property statements): only the call that received a position gives it its first value.
-/

namespace Verif.Weak

variable {α β : Type} {D : Mode} {mx n : Nat} {m : Mem α} {l : List α}

/-- The first value of a position is stored by its owner. -/
theorem WInv.first_value {κ κ' : Cfg α β} {K K0 : Cid → Know} (h : WInv D mx n κ K K0) (hs : Step κ κ') {i : Nat} (hN : κ.Newest i .NONE) :
    κ'.Newest i .NONE ∨ ∃ d r p, κ.calls d = some r ∧ r.status = .running p ∧ (K d).U i := by
  have plain : ∀ {μ : WMem α} {f : Cid → Option (Rec α β)}, μ.st i = κ.mem.st i → ({ κ with mem := μ, calls := f } : Cfg α β).Newest i .NONE := by
    intro μ f he
    obtain ⟨r, hr, hv⟩ := hN
    exact ⟨r, by show (μ.st i).getLast? = _; rw [he]; exact hr, hv⟩
  cases hs with
  | call op H V hH hn hp => exact .inl hN
  | bad c r a again k t x hc hr he => exact .inl hN
  | ret c r x hc hr => exact .inl hN
  | panic c r k hc hr => exact .inl hN
  | reserveMax n hi => exact .inl hN
  | act c r a again k t V μ b hc hr he =>
    have hf := h.fits c r hc
    unfold Fits at hf
    rw [hr] at hf
    have hp := hf.1
    cases a with
    | resFetchAdd k o =>
      simp only [exec] at he
      split at he <;> cases he
      exact .inl (plain rfl)
    | resLoad o =>
      simp only [exec] at he
      split at he
      · split at he <;> cases he
        exact .inl (plain rfl)
      · cases he
    | writtenLoad o =>
      simp only [exec] at he
      split at he
      · split at he <;> cases he
        exact .inl (plain rfl)
      · cases he
    | writtenFetchMax k o =>
      simp only [exec] at he
      split at he <;> cases he
      exact .inl (plain rfl)
    | capLoad o =>
      simp only [exec] at he
      split at he
      · split at he <;> cases he
        exact .inl (plain rfl)
      · cases he
    | maxCapLoad => simp only [exec] at he; cases he; exact .inl (plain rfl)
    | growAlloc k =>
      simp only [exec] at he
      split at he <;> cases he
      exact .inl (plain rfl)
    | growPublish o =>
      simp only [exec] at he
      split at he
      · split at he <;> cases he
        exact .inl (plain rfl)
      · cases he
    | stLoad j o =>
      simp only [exec] at he
      split at he
      · split at he
        · split at he <;> cases he
          exact .inl (plain rfl)
        · cases he
      · cases he
    | stCas j e s ok fail =>
      have hes : e = .SOME := hp.2.1
      simp only [exec] at he
      split at he
      · split at he
        · next q hq =>
          split at he
          · next hqe =>
            split at he
            · next hpl =>
              cases he
              by_cases hij : i = j
              · subst hij
                obtain ⟨r', hr', hv⟩ := hN
                have := getLast_of_place (place_last hpl).2 hq
                rw [hr'] at this
                cases this
                rw [hv, hes] at hqe
                cases hqe
              · exact .inl (plain (upd_other _ _ hij))
            all_goals cases he
          · split at he <;> cases he
            exact .inl (plain rfl)
        · cases he
      · cases he
    | stStore j s o =>
      simp only [exec] at he
      split at he
      · split at he <;> cases he
        by_cases hij : i = j
        · subst hij
          rcases hp.2.2.2 with hL | ⟨hU, -⟩
          · obtain ⟨q, hq, hv⟩ := (h.k c).l_last i hL
            obtain ⟨r', hr', hv'⟩ := hN
            rw [hr'] at hq; cases hq
            rw [hv'] at hv; cases hv
          · exact .inr ⟨c, r, _, hc, hr, hU⟩
        · exact .inl (plain (upd_other _ _ hij))
      · cases he
    | valRead j =>
      simp only [exec] at he
      split at he
      · split at he
        · split at he <;> cases he
          exact .inl (plain rfl)
        · cases he
      · cases he
    | valWrite j v =>
      simp only [exec] at he
      split at he
      · split at he <;> cases he
        exact .inl (plain rfl)
      · cases he
    | valSwap j k =>
      simp only [exec] at he
      split at he
      · split at he
        · cases he
        · split at he
          · split at he <;> cases he
            exact .inl (plain rfl)
          · cases he
      · cases he

variable {κ : Nat → Cfg α β}

/-- What is known when there is a hole. -/
theorem InfExec.hole (hm : InitMem m l) (h : InfExec m κ) (ho : ∀ t c op, (κ t).Called c op → Allowed D op) (hx : ∀ t, (κ t).Exceeds mx)
    {s p t : Nat} (hh : Hole κ s p) (ht : s ≤ t) : ∃ K K0, WInv D mx l.length (κ t) K K0 ∧ (κ t).Newest p .NONE := by
  obtain ⟨K, K0, -, hgh⟩ := h.ghost_used' hm ho hx
  have hW := fun t => (hgh t).1.1
  have hP := fun t => (hgh t).1.2.1
  have hl := fun t => (hgh t).1.2.2
  obtain ⟨c, op, k, b, sz, hpan, hrec, h1, h2, hN⟩ := hh
  have hR := InfExec.received_owns hW hP hl hrec h1 h2
  refine ⟨K t, K0 t, hW t, ?_⟩
  induction ht with
  | refl => exact hN
  | @step t ht ih =>
    rcases h.next t with he | he
    · rw [he]; exact ih
    · rcases (hW t).first_value he ih with hn | ⟨d, r, q, hd, hr, hU⟩
      · exact hn
      · exfalso
        have hdc := (hW t).g.disjR d c p (((hW t).k d).u_r p hU) (ghost_r hl ht hR)
        subst hdc
        rcases h.over ht (.inr ⟨k, hpan⟩) with ⟨x, r', g1, -, g3⟩ | ⟨x, r', g1, -, g3⟩ <;> rw [hd] at g1 <;> cases g1 <;> rw [hr] at g3 <;> cases g3

theorem InfExec.returned (h : InfExec m κ) {t t' : Nat} (ht : t ≤ t') {c : Cid} {op : Op α β} {x : Ret α β} (hc : (κ t).Returned c op x) :
    (κ t').Returned c op x := by
  induction ht with
  | refl => exact hc
  | step _ ih =>
    obtain ⟨r, hr, ho, hs⟩ := ih
    obtain ⟨r', h1, h2, h3⟩ := h.goes1 hr
    rw [hs] at h3
    cases hs' : r'.status <;> rw [hs'] at h3 <;> cases h3
    exact ⟨r', h1, h2.trans ho, hs'⟩

/-- The same for disciplined executions. -/
theorem InfExec.hole_disciplined (hm : InitMem m l) (h : InfExec m κ) (hd : ∀ t, (κ t).Disciplined) {s p t : Nat} (hh : Hole κ s p)
    (ht : s ≤ t) : ∃ K K0, WInv ⟨fun e => ∃ s d, (κ s).Called d (.deref e), False, fun _ _ => True⟩ 0 l.length (κ t) K K0 ∧
      (κ t).Newest p .NONE := by
  refine h.hole hm (fun t c op hc => ?_) (fun _ _ _ _ => Nat.zero_le _) hh ht
  refine ⟨fun i ⟨s, d, hd'⟩ => ?_, fun e he => ⟨t, c, he ▸ hc⟩, fun h => h.elim, fun _ _ _ => trivial⟩
  exact hd (max s t) d i (h.called (Nat.le_max_left _ _) hd') c op (h.called (Nat.le_max_right _ _) hc)

theorem Past.not_none {μ : WMem α} {V : View} {i : Nat} (h : Past μ V i) {r : Msg CState} (hr : (μ.st i).getLast? = some r) : r.val ≠ .NONE := by
  obtain ⟨⟨q, hq, hv⟩, -⟩ := h
  rw [hr] at hq; cases hq; exact hv

/-- Whatever is counted lies below the hole. -/
theorem WInv.counted_below {κ : Cfg α β} {K K0 : Cid → Know} (h : WInv D mx n κ K K0) {p : Nat} (hN : κ.Newest p .NONE) (c : Cid) :
    (K c).wn ≤ p := by
  refine Nat.le_of_not_lt fun hlt => ?_
  obtain ⟨q, hq, hv⟩ := last_of h.g.written_ne
  obtain ⟨r, hr, hn⟩ := hN
  have hle : (K c).wn ≤ q.val := by rw [hv]; exact (h.k c).wn.1
  obtain ⟨t, ht⟩ := List.mem_iff_getElem?.1 (List.mem_of_getLast? hq)
  exact (h.g.written_msg t q ht p (by omega)).1.not_none hr hn

end Verif.Weak
