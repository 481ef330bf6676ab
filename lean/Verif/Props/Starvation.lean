import Verif.Props.DemoInf

/-!
# C22: starvation

Fair scheduling is not enough for a call that locks elements to end if new calls are made forever: it can find the
element locked each time it tries.
-/

namespace Verif

namespace Starve
open Demo

/-- The vector of the example. -/
def m0 : Mem Nat := mem [10, 20] 2 8

/-- Call 1 (`getCloned 0`) is about to do `p1`, call `d` (the last one) is about to do `pd`, all others have ended. -/
structure St (κ : Cfg Nat Nat) (d : Cid) (m : Mem Nat) (p1 pd : Prog Nat (Ret Nat Nat)) : Prop where
  mem : κ.w.mem = m
  one : ∃ ct st, κ.calls 1 = some ⟨.getCloned 0, ct, st, .running p1⟩
  last : ∃ ct st, κ.calls d = some ⟨.getCloned 0, ct, st, .running pd⟩
  others : ∀ c r, κ.calls c = some r → r.op = .getCloned 0 ∧ (c = 1 ∨ c = d ∨ r.status.ended.isSome)
  next : κ.next = d + 1

/-- Call 1 is about to do `p1`, all others have ended; `d` is the next one. -/
structure St0 (κ : Cfg Nat Nat) (d : Cid) (m : Mem Nat) (p1 : Prog Nat (Ret Nat Nat)) : Prop where
  mem : κ.w.mem = m
  one : ∃ ct st, κ.calls 1 = some ⟨.getCloned 0, ct, st, .running p1⟩
  others : ∀ c r, κ.calls c = some r → r.op = .getCloned 0 ∧ (c = 1 ∨ r.status.ended.isSome)
  next : κ.next = d

theorem exec_some {c : Cid} {w : World Nat} {a : Act Nat} {m' : Mem Nat} {b : a.Resp} (h : a.exec w.mem = some (m', b)) :
    ∃ w', w.exec c a = some (w', b) ∧ w'.mem = m' := by
  unfold World.exec
  rw [h]
  exact ⟨_, rfl, rfl⟩

variable {κ : Cfg Nat Nat} {d : Cid} {m m' : Mem Nat} {p1 pd : Prog Nat (Ret Nat Nat)} {a : Act Nat}
  {again : a.Resp → Bool} {k : a.Resp → Prog Nat (Ret Nat Nat)} {b : a.Resp}

theorem goLast (hd : d ≠ 1) (h : St κ d m p1 (.step a again k)) (he : a.exec m = some (m', b)) :
    ∃ κ', κ.perform (.go d) = some κ' ∧ St κ' d m' p1 (if again b then .step a again k else k b) := by
  obtain ⟨hm, ⟨ct, st, h1⟩, ⟨ct', st', h2⟩, h3, h4⟩ := h
  obtain ⟨w', he', hm'⟩ := exec_some (c := d) (w := κ.w) (by rw [hm]; exact he)
  refine ⟨{ κ with
      w := w'
      calls := κ.setStatus d ⟨.getCloned 0, ct', st', .running (.step a again k)⟩
        (.running (if again b then .step a again k else k b))
      clock := κ.clock + 1 }, by simp only [Cfg.perform, h2, he'], hm', ⟨ct, st, ?_⟩, ⟨ct', st', ?_⟩, ?_, h4⟩
  · simp only [Cfg.setStatus, upd_apply, if_neg hd.symm]; exact h1
  · simp only [Cfg.setStatus, upd_apply, if_true]
  · intro c r hc
    simp only [Cfg.setStatus, upd_apply] at hc
    split at hc
    · rename_i hcc
      simp only [Option.some.injEq] at hc
      subst hc
      exact ⟨rfl, .inr (.inl hcc)⟩
    · exact h3 c r hc

theorem goOne (hd : d ≠ 1) (h : St κ d m (.step a again k) pd) (he : a.exec m = some (m', b)) :
    ∃ κ', κ.perform (.go 1) = some κ' ∧ St κ' d m' (if again b then .step a again k else k b) pd := by
  obtain ⟨hm, ⟨ct, st, h1⟩, ⟨ct', st', h2⟩, h3, h4⟩ := h
  obtain ⟨w', he', hm'⟩ := exec_some (c := 1) (w := κ.w) (by rw [hm]; exact he)
  refine ⟨{ κ with
      w := w'
      calls := κ.setStatus 1 ⟨.getCloned 0, ct, st, .running (.step a again k)⟩
        (.running (if again b then .step a again k else k b))
      clock := κ.clock + 1 }, by simp only [Cfg.perform, h1, he'], hm', ⟨ct, st, ?_⟩, ⟨ct', st', ?_⟩, ?_, h4⟩
  · simp only [Cfg.setStatus, upd_apply, if_true]
  · simp only [Cfg.setStatus, upd_apply, if_neg hd]; exact h2
  · intro c r hc
    simp only [Cfg.setStatus, upd_apply] at hc
    split at hc
    · rename_i hcc
      simp only [Option.some.injEq] at hc
      subst hc
      exact ⟨rfl, .inl hcc⟩
    · exact h3 c r hc

theorem goRet {x : Ret Nat Nat} (hd : d ≠ 1) (h : St κ d m p1 (.ret x)) :
    ∃ κ', κ.perform (.go d) = some κ' ∧ St0 κ' (d + 1) m p1 := by
  obtain ⟨hm, ⟨ct, st, h1⟩, ⟨ct', st', h2⟩, h3, h4⟩ := h
  refine ⟨{ κ with
      calls := κ.setStatus d ⟨.getCloned 0, ct', st', .running (.ret x)⟩ (.done x κ.clock κ.w)
      clock := κ.clock + 1 }, by simp only [Cfg.perform, h2], hm, ⟨ct, st, ?_⟩, ?_, h4⟩
  · simp only [Cfg.setStatus, upd_apply, if_neg hd.symm]; exact h1
  · intro c r hc
    simp only [Cfg.setStatus, upd_apply] at hc
    split at hc
    · simp only [Option.some.injEq] at hc
      subst hc
      exact ⟨rfl, .inr rfl⟩
    · rename_i hcc
      have := h3 c r hc
      exact ⟨this.1, this.2.imp id fun h => h.resolve_left hcc⟩

theorem goCall (hd : d ≠ 1) (h : St0 κ d m p1) :
    ∃ κ', κ.perform (.call (.getCloned 0)) = some κ' ∧ St κ' d m p1 (Op.getCloned 0 : Op Nat Nat).prog := by
  obtain ⟨hm, ⟨ct, st, h1⟩, h3, rfl⟩ := h
  refine ⟨{ κ with
      calls := upd κ.calls κ.next (some ⟨.getCloned 0, κ.clock, κ.w, .running (Op.getCloned 0 : Op Nat Nat).prog⟩)
      next := κ.next + 1
      clock := κ.clock + 1 }, rfl, hm, ⟨ct, st, ?_⟩, ⟨κ.clock, κ.w, ?_⟩, ?_, rfl⟩
  · simp only [upd_apply, if_neg hd.symm]; exact h1
  · simp only [upd_apply, if_true]
  · intro c r hc
    simp only [upd_apply] at hc
    split at hc
    · rename_i hcc
      simp only [Option.some.injEq] at hc
      subst hc
      exact ⟨rfl, .inr (.inl hcc)⟩
    · have := h3 c r hc
      exact ⟨this.1, this.2.imp id .inr⟩

theorem perform_moves {κ' : Cfg Nat Nat} {c : Cid} (h : κ.perform (.go c) = some κ') : κ.Moves c κ' := by
  simp only [Cfg.perform] at h
  split at h
  · cases h
  · rename_i r hc
    refine ⟨r, hc, ?_⟩
    split at h
    · cases h
    · cases h
    · rename_i x hr
      simp only [Option.some.injEq] at h
      exact .inr (.inl ⟨x, hr, h.symm⟩)
    · rename_i x hr
      simp only [Option.some.injEq] at h
      exact .inr (.inr ⟨x, hr, h.symm⟩)
    · rename_i a again k hr
      split at h
      · cases h
      · rename_i w' b he
        simp only [Option.some.injEq] at h
        exact .inl ⟨a, again, k, w', b, hr, he, h.symm⟩

/-- What remains of `getCloned 0` at its attempt to lock the element. -/
def atCas : Prog Nat (Ret Nat Nat) :=
  match (after [10, 20] 2 8 ([.call (.getCloned 0)] ++ go 1 3)).calls 1 with
  | some ⟨_, _, _, .running p⟩ => p
  | _ => .panic .userCode

/-- The schedule. -/
def sched (t : Nat) : Choice Nat Nat :=
  if t = 0 then .call (.getCloned 0) else if t < 4 then .go 1 else
  if (t - 4) % 9 = 0 then .call (.getCloned 0) else if (t - 4) % 9 = 5 then .go 1 else .go (2 + (t - 4) / 9)

/-- The execution. -/
def exec : Nat → Cfg Nat Nat
  | 0 => Cfg.init m0 [10, 20]
  | t + 1 => ((exec t).perform (sched t)).getD (exec t)

theorem exec_succ {t : Nat} {κ' : Cfg Nat Nat} (h : (exec t).perform (sched t) = some κ') : exec (t + 1) = κ' := by
  simp only [exec, h]; rfl

/-- The first four steps. -/
theorem start : St0 (exec 4) 2 m0 atCas ∧ ∀ t, t < 4 → ((exec t).perform (sched t)).isSome := by
  refine ⟨⟨rfl, ⟨_, _, rfl⟩, ?_, rfl⟩, ?_⟩
  · intro c r hc
    have hposs : Possible [10, 20] 2 8 ([.call (.getCloned 0)] ++ go 1 3) := by unfold Possible; rfl
    have hre := reach_after hposs
    have h0 : exec 4 = after [10, 20] 2 8 ([.call (.getCloned 0)] ++ go 1 3) := rfl
    rw [h0] at hc
    obtain ⟨op, ct, st, s⟩ := r
    have h1 := called_of (by decide) (by decide) hre (ops := [.getCloned 0]) rfl ⟨ct, st, s, hc⟩
    have h2 := known (by decide) (by decide) hre hc
    have h3 : c < 2 := List.mem_range.1 h2
    have h4 : 0 < c := ((hre.inv (mem_init _ _ _ (by decide) (by decide))).next c _ hc).1
    exact ⟨by simpa using h1, .inl (Nat.le_antisymm (Nat.le_of_lt_succ h3) h4)⟩
  · intro t ht
    match t, ht with
    | 0, _ => rfl
    | 1, _ => rfl
    | 2, _ => rfl
    | 3, _ => rfl

theorem sched_period (q r : Nat) (hr : r < 9) :
    sched (4 + 9 * q + r) = if r = 0 then .call (.getCloned 0) else if r = 5 then .go 1 else .go (2 + q) := by
  have h1 : (4 + 9 * q + r - 4) % 9 = r := by omega
  have h2 : (4 + 9 * q + r - 4) / 9 = q := by omega
  simp only [sched, h1, h2]
  rw [if_neg (by omega), if_neg (by omega)]

/-- Memory while the element is locked. -/
def m1 : Mem Nat := { m0 with st := upd m0.st 0 .RESERVED }

theorem period (q : Nat) (h : St0 (exec (4 + 9 * q)) (2 + q) m0 atCas) :
    St0 (exec (4 + 9 * (q + 1))) (2 + (q + 1)) m0 atCas ∧
    (∀ r, r < 9 → ((exec (4 + 9 * q + r)).perform (sched (4 + 9 * q + r))).isSome) := by
  have hd : (2 + q : Cid) ≠ 1 := by show (2 + q : Nat) ≠ 1; omega
  obtain ⟨κ1, e1, h1⟩ := goCall hd h
  have e1' : (exec (4 + 9 * q + 0)).perform (sched (4 + 9 * q + 0)) = some κ1 := by
    rw [sched_period q 0 (by decide)]; exact e1
  have x1 := exec_succ e1'
  obtain ⟨κ2, e2, h2⟩ := goLast hd h1 (m' := m0) rfl
  have e2' : (exec (4 + 9 * q + 1)).perform (sched (4 + 9 * q + 1)) = some κ2 := by
    rw [sched_period q 1 (by decide), x1]; exact e2
  have x2 := exec_succ e2'
  obtain ⟨κ3, e3, h3⟩ := goLast hd h2 (m' := m0) rfl
  have e3' : (exec (4 + 9 * q + 2)).perform (sched (4 + 9 * q + 2)) = some κ3 := by
    rw [sched_period q 2 (by decide), x2]; exact e3
  have x3 := exec_succ e3'
  obtain ⟨κ4, e4, h4⟩ := goLast hd h3 (m' := m0) rfl
  have e4' : (exec (4 + 9 * q + 3)).perform (sched (4 + 9 * q + 3)) = some κ4 := by
    rw [sched_period q 3 (by decide), x3]; exact e4
  have x4 := exec_succ e4'
  obtain ⟨κ5, e5, h5⟩ := goLast hd h4 (m' := m1) rfl
  have e5' : (exec (4 + 9 * q + 4)).perform (sched (4 + 9 * q + 4)) = some κ5 := by
    rw [sched_period q 4 (by decide), x4]; exact e5
  have x5 := exec_succ e5'
  obtain ⟨κ6, e6, h6⟩ := goOne hd (a := .stCas 0 .SOME .RESERVED _ _) h5 (m' := m1) rfl
  have e6' : (exec (4 + 9 * q + 5)).perform (sched (4 + 9 * q + 5)) = some κ6 := by
    rw [sched_period q 5 (by decide), x5]; exact e6
  have x6 := exec_succ e6'
  obtain ⟨κ7, e7, h7⟩ := goLast hd h6 (m' := m1) rfl
  have e7' : (exec (4 + 9 * q + 6)).perform (sched (4 + 9 * q + 6)) = some κ7 := by
    rw [sched_period q 6 (by decide), x6]; exact e7
  have x7 := exec_succ e7'
  obtain ⟨κ8, e8, h8⟩ := goLast hd h7 (m' := { m0 with st := upd m1.st 0 .SOME }) rfl
  have e8' : (exec (4 + 9 * q + 7)).perform (sched (4 + 9 * q + 7)) = some κ8 := by
    rw [sched_period q 7 (by decide), x7]; exact e8
  have x8 := exec_succ e8'
  obtain ⟨κ9, e9, h9⟩ := goRet hd h8
  have e9' : (exec (4 + 9 * q + 8)).perform (sched (4 + 9 * q + 8)) = some κ9 := by
    rw [sched_period q 8 (by decide), x8]; exact e9
  have x9 := exec_succ e9'
  have hm : ({ m0 with st := upd m1.st 0 .SOME } : Mem Nat) = m0 := by
    have : upd m1.st 0 .SOME = m0.st := by
      funext i
      simp only [m1, upd_apply]
      split
      · rename_i hi; subst hi; rfl
      · rfl
    rw [this]
  rw [hm] at h9
  refine ⟨?_, ?_⟩
  · show St0 (exec (4 + 9 * q + 8 + 1)) _ m0 atCas
    rw [x9]
    exact h9
  · intro r hr
    match r, hr with
    | 0, _ => rw [e1']; rfl
    | 1, _ => rw [e2']; rfl
    | 2, _ => rw [e3']; rfl
    | 3, _ => rw [e4']; rfl
    | 4, _ => rw [e5']; rfl
    | 5, _ => rw [e6']; rfl
    | 6, _ => rw [e7']; rfl
    | 7, _ => rw [e8']; rfl
    | 8, _ => rw [e9']; rfl

theorem inv (q : Nat) : St0 (exec (4 + 9 * q)) (2 + q) m0 atCas := by
  induction q with
  | zero => exact start.1
  | succ q ih => exact (period q ih).1

theorem possible (t : Nat) : ((exec t).perform (sched t)).isSome := by
  rcases Nat.lt_or_ge t 4 with h | h
  · exact start.2 t h
  · have := (period ((t - 4) / 9) (inv _)).2 ((t - 4) % 9) (Nat.mod_lt _ (by decide))
    rwa [show 4 + 9 * ((t - 4) / 9) + (t - 4) % 9 = t by omega] at this

theorem infExec : InfExec m0 [10, 20] exec := by
  refine ⟨rfl, fun t => ?_⟩
  obtain ⟨κ', h⟩ := Option.isSome_iff_exists.1 (possible t)
  rw [exec_succ h]
  exact Cfg.perform_step h

theorem init0 : InitMem m0 [10, 20] := mem_init [10, 20] 2 8 (by decide) (by decide)

theorem running_one (t : Nat) (ht : 4 ≤ t) : (exec t).Running 1 (.getCloned 0) := by
  obtain ⟨ct, st, h⟩ := (inv t).one
  obtain ⟨ct', st', h'⟩ := (inv 0).one
  obtain ⟨r, k1, k2, -, -, -⟩ := (infExec.exec t).rec_mono init0 h' ht (Nat.le_refl t)
  obtain ⟨op, ct2, st2, s⟩ := r
  simp only at k2
  subst k2
  cases s with
  | running p => exact ⟨_, _, _, k1⟩
  | done x et fin =>
    have := infExec.ended_mono init0 (by omega : t ≤ 4 + 9 * t) k1 rfl
    rw [h] at this; cases this
  | panicked x et fin =>
    have := infExec.ended_mono init0 (by omega : t ≤ 4 + 9 * t) k1 rfl
    rw [h] at this; cases this

theorem called {t : Nat} {c : Cid} {op : Op Nat Nat} (h : (exec t).Called c op) : op = .getCloned 0 := by
  obtain ⟨ct, st, s, h⟩ := (infExec.exec (4 + 9 * t)).called_mono init0 (by omega : t ≤ 4 + 9 * t) (Nat.le_refl _) h
  exact ((inv t).others c _ h).1

theorem fair : Fair exec := by
  intro t c op hrun
  obtain ⟨ct, st, p, hc⟩ := hrun
  by_cases h1 : c = 1
  · subst h1
    refine ⟨4 + 9 * t + 5, by omega, ?_⟩
    obtain ⟨κ', hp⟩ := Option.isSome_iff_exists.1 (possible (4 + 9 * t + 5))
    rw [exec_succ hp]
    rw [sched_period t 5 (by decide)] at hp
    exact perform_moves hp
  · rcases infExec.stay_or_advance init0 hc rfl with hst | ⟨s, r', hs, -, -, hmv, -⟩
    · have := ((inv t).others c _ (hst (4 + 9 * t) (by omega)).1).2
      rcases this with h | h
      · exact absurd h h1
      · cases h
    · exact ⟨s, hs, hmv⟩

end Starve

/-- **C22, C08: limits of progress.** With infinitely many calls, fair scheduling does not guarantee that a call that
locks an element ends: here all calls are `get_cloned(0)`, made one after the other, and the first one never ends,
although it runs again and again. (The lock is a test-and-set spin lock.) -/
theorem C22_starvation : ∃ κ : Nat → Cfg Nat Nat, InfExec (Demo.mem [10, 20] 2 8) [10, 20] κ ∧ Fair κ ∧
    (∀ t c op, (κ t).Called c op → op = .getCloned 0) ∧ ∀ t, 4 ≤ t → (κ t).Running 1 (.getCloned 0) :=
  ⟨Starve.exec, Starve.infExec, Starve.fair, fun _ _ _ h => Starve.called h, Starve.running_one⟩

end Verif
