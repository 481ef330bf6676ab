import Verif.Proof.Fair

/-!
# Calls that do not get any further

Helper file (no property statements): what a call owns does not change while the call does not get any further.
-/

namespace Verif

variable {α β : Type} {m : Mem α} {l : List α}

/-- A step in which call `c` does not get any further: nothing is reserved or published by `c`, `c` locks and unlocks
nothing, and the storage does not grow if `c` owns the position at which it has to grow. -/
theorem CfgInv.step_frozen {σ₀ : SpecSt α} {κ κ' : Cfg α β} (h : CfgInv σ₀ κ) (hs : Step κ κ') {c : Cid} {r : Rec α β}
    (hc : κ.calls c = some r) (hc' : κ'.calls c = some r) :
    dataOf c κ'.w.trace = dataOf c κ.w.trace ∧
    (κ.w.mem.cap < κ.w.spec.len → κ.w.spec.owner κ.w.mem.cap = c → κ'.w.mem.cap = κ.w.mem.cap) ∧
    ∀ i, κ'.w.holder i = some c ↔ κ.w.holder i = some c := by
  cases hs with
  | invoke op hn hp => exact ⟨rfl, fun _ _ => rfl, fun _ => .rfl⟩
  | act d r' a again k w' b hd hr' he' =>
    obtain ⟨hsafe, -⟩ := h.running hd hr'
    obtain ⟨hpre, hex⟩ := hsafe _ h.inv (.refl _ _)
    by_cases hne : c = d
    · subst hne
      rw [hc] at hd
      simp only [Option.some.injEq] at hd
      subst hd
      cases hb : again b with
      | true =>
        obtain ⟨rfl, -⟩ := (hex w' b he').2.1 hb
        exact ⟨rfl, fun _ _ => rfl, fun _ => .rfl⟩
      | false =>
        exfalso
        simp only at hc'
        rw [setStatus_self, hb] at hc'
        have h4 := congrArg Rec.status (Option.some.inj hc')
        simp only [Bool.false_eq_true, if_false] at h4
        rw [hr'] at h4
        simp only [Status.running.injEq] at h4
        exact Prog.cont_ne _ a again k b rfl h4
    · have := (exec_inv h.inv hpre he').2 c hne
      exact ⟨this.data, fun h1 h2 => (this.capOwn h1 h2).1, fun i => ⟨this.nohold i, fun hh => (this.hold i hh).1⟩⟩
  | ub c' r' a again k hc' hr' he' => exact ⟨rfl, fun _ _ => rfl, fun _ => .rfl⟩
  | ret c' r' x hc' hr' => exact ⟨rfl, fun _ _ => rfl, fun _ => .rfl⟩
  | panic c' r' x hc' hr' => exact ⟨rfl, fun _ _ => rfl, fun _ => .rfl⟩
  | reserveMax n hidle => exact ⟨rfl, fun _ _ => rfl, fun _ => .rfl⟩

theorem Exec.frozen {n : Nat} {κ : Nat → Cfg α β} (h : Exec m l n κ) (hm : InitMem m l) {s : Nat} {c : Cid}
    {r : Rec α β} (hc : (κ s).calls c = some r) : ∀ {t}, s ≤ t → t ≤ n →
    (∀ u, s ≤ u → u < t → (κ (u + 1)).calls c = (κ u).calls c) →
    (κ t).calls c = some r ∧ dataOf c (κ t).w.trace = dataOf c (κ s).w.trace ∧
    ((κ s).w.mem.cap < (κ s).w.spec.len → (κ s).w.spec.owner (κ s).w.mem.cap = c →
      (κ t).w.mem.cap = (κ s).w.mem.cap) := by
  intro t hst
  induction hst with
  | refl => exact fun _ _ => ⟨hc, rfl, fun _ _ => rfl⟩
  | @step t hst ih =>
    intro hn hf
    obtain ⟨h1, h2, h3⟩ := ih (by omega) fun u hu hut => hf u hu (Nat.lt_succ_of_lt hut)
    have h1' : (κ (t + 1)).calls c = some r := by rw [hf t hst (Nat.lt_succ_self t), h1]
    obtain ⟨g1, g2, -⟩ := (h.inv hm (by omega : t ≤ n)).step_frozen (h.next t (by omega)) h1 h1'
    refine ⟨h1', g1.trans h2, fun k1 k2 => ?_⟩
    have hev := h.evolves hm hst (by omega : t ≤ n)
    have := hev.len
    have hcap := h3 k1 k2
    exact (g2 (by omega) (by rw [hcap, hev.owner _ k1, k2])).trans hcap

/-- A call that does not get any further locks nothing. -/
theorem InfExec.frozen_holder {κ : Nat → Cfg α β} (h : InfExec m l κ) (hm : InitMem m l) {T : Nat} {c : Cid}
    (hst : StalledFrom κ T c) {i s : Nat} (hs : T ≤ s) (hi : (κ s).w.holder i = some c) :
    (κ T).w.holder i = some c := by
  induction hs with
  | refl => exact hi
  | @step s hs ih =>
    obtain ⟨r, p, hc, -⟩ := (h.inv hm (s + 1)).holder hi
    have hc' : (κ s).calls c = some r := by rw [hst s hs, ← hst (s + 1) (Nat.le_succ_of_le hs)]; exact hc
    exact ih (((h.inv hm s).step_frozen (h.next s) hc' hc).2.2 i |>.1 hi)

/-- The position at which the storage has to grow belongs to the call that received it. -/
theorem CfgInv.capOwner_received {κ : Cfg α β} (h : CfgInv (.ofList l) κ) {c : Cid} {b k : Nat}
    (hr : Ev.reserve c b k ∈ κ.w.trace) (h1 : b ≤ κ.w.mem.cap) (h2 : κ.w.mem.cap < b + k) :
    κ.w.mem.cap < κ.w.spec.len ∧ κ.w.spec.owner κ.w.mem.cap = c := by
  have hlen := (h.inv.legal.reserve_ge hr).2
  obtain ⟨b', n', hres2, hb1, hb2⟩ := Legal.owner_reserved h.inv.legal (i := κ.w.mem.cap) (by omega) h.len0_cap
  have ho := h.inv.legal.reserve_inj hres2 hr ⟨hb1, hb2⟩ ⟨h1, h2⟩
  rw [← h.inv.spec_eq] at ho hlen
  exact ⟨by omega, ho⟩

/-- Stalled calls whose positions are within the capacity. -/
theorem InfExec.allocated {κ : Nat → Cfg α β} (h : InfExec m l κ) (hm : InitMem m l) {S : Cid → Prop}
    (hS : ∀ c, S c → ∃ T, StalledFrom κ T c ∧
      ∀ b k, Received κ T c b k → 0 < k → b + k ≤ (κ T).w.mem.cap) : Allocated S κ := by
  intro c hc
  obtain ⟨T, hst, hrec⟩ := hS c hc
  refine ⟨T, fun s hs j hj ho => ?_⟩
  have hI := h.inv hm s
  rcases Nat.lt_or_ge j l.length with hjl | hjl
  · exact Nat.lt_of_lt_of_le hjl hI.len0_cap
  obtain ⟨b, k, hres, hb1, hb2⟩ := Legal.owner_reserved hI.inv.legal (i := j) (by rw [← hI.inv.spec_eq]; exact hj) hjl
  rw [← hI.inv.spec_eq, ho] at hres
  obtain ⟨op, ⟨ct, st, x, hcs⟩, -⟩ := hI.reserve_call hres
  have hcT := hst s hs ▸ hcs
  obtain ⟨-, hd, -⟩ := (h.exec s).frozen hm hcT hs (Nat.le_refl s) fun u hu _ => by
    rw [hst (u + 1) (by omega), hst u hu]
  have hres' : Ev.reserve c b k ∈ (κ T).w.trace := by
    have : Ev.reserve c b k ∈ dataOf c (κ s).w.trace := mem_dataOf.2 ⟨hres, rfl, rfl⟩
    rw [hd] at this
    exact (mem_dataOf.1 this).1
  have h1 := hrec b k (((h.exec T).received_iff hm).2 hres') (by omega)
  have := (h.evolves hm hs).cap
  omega

/-- A call that waits for a locked element can do so once more. -/
theorem Cfg.WaitsFor.again {κ : Cfg α β} {σ₀ : SpecSt α} (hI : CfgInv σ₀ κ) {c : Cid} {r : Rec α β} {j : Nat}
    (h : κ.WaitsFor c r j) (hl : (κ.w.holder j).isSome) (n : Nat) :
    Cfg.Moves { κ with clock := κ.clock + n } c { κ with clock := κ.clock + n + 1 } := by
  obtain ⟨hc, o, f, again, k, hr, hag⟩ := h
  have hst := (hI.inv.lock j).2 hl
  have hcap := hI.inv.cap_of_holder hl
  refine ⟨r, hc, .inl ⟨_, again, k, κ.w, some .RESERVED, hr, ?_, ?_⟩⟩
  · simp only [World.exec, Act.exec, hcap, if_true, hst, reduceCtorEq, if_false, Act.events, List.append_nil,
      List.foldl_nil, Act.holderNext, Act.growerNext]
  · have : κ.calls = Cfg.setStatus { κ with clock := κ.clock + n } c r
        (.running (if again (some .RESERVED) = true then .step _ again k else k (some .RESERVED))) := by
      funext d
      by_cases hd : d = c
      · subst hd
        rw [setStatus_self, hc, if_pos hag, ← hr]
      · rw [setStatus_other hd]
    rw [← this]

end Verif
