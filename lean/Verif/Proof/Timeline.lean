import Verif.Proof.Trace

/-!
# Executions over time

Helper file (no property statements): when events happen, and how the records of calls develop.
-/

namespace Verif

variable {α β : Type}

theorem Exec.reach {m : Mem α} {l : List α} {n : Nat} {κ : Nat → Cfg α β} (h : Exec m l n κ) :
    ∀ {t}, t ≤ n → Reach m l (κ t) := by
  intro t
  induction t with
  | zero => intro _; rw [h.init]; exact .init
  | succ t ih => intro ht; exact (ih (by omega)).step (h.next t (by omega))

theorem Exec.prefix {m : Mem α} {l : List α} {n : Nat} {κ : Nat → Cfg α β} (h : Exec m l n κ) {t : Nat}
    (ht : t ≤ n) : Exec m l t κ := ⟨h.init, fun s hs => h.next s (by omega)⟩

/-- Every reachable configuration is the last one of an execution. -/
theorem Reach.exec {m : Mem α} {l : List α} {κ : Cfg α β} (h : Reach m l κ) :
    ∃ n f, Exec m l n f ∧ f n = κ := by
  induction h with
  | init => exact ⟨0, fun _ => Cfg.init m l, ⟨rfl, fun t ht => absurd ht (by omega)⟩, rfl⟩
  | @step κ κ' _ hs ih =>
    obtain ⟨n, f, hf, hn⟩ := ih
    refine ⟨n + 1, fun t => if t ≤ n then f t else κ', ⟨by simp [hf.init], ?_⟩, if_neg (Nat.not_succ_le_self n)⟩
    intro t ht
    by_cases h1 : t + 1 ≤ n
    · rw [if_pos (by omega), if_pos h1]; exact hf.next t (by omega)
    · have : t = n := by omega
      subst this
      rw [if_pos (Nat.le_refl _), if_neg h1, hn]; exact hs

section

variable {m : Mem α} {l : List α} {n : Nat} {κ : Nat → Cfg α β}

theorem Exec.inv (h : Exec m l n κ) (hm : InitMem m l) {t : Nat} (ht : t ≤ n) : CfgInv (.ofList l) (κ t) :=
  (h.reach ht).inv hm

theorem CfgInv.step_clock {σ₀ : SpecSt α} {κ κ' : Cfg α β} (h : CfgInv σ₀ κ) (hs : Step κ κ') :
    κ'.clock = κ.clock + 1 := by
  cases hs with
  | ub c r a again k hc hr he =>
    obtain ⟨hsafe, -⟩ := h.running hc hr
    obtain ⟨hpre, -⟩ := hsafe _ h.inv (.refl _ _)
    have hpre' : Pre r.op.raw c κ.w a := hpre
    obtain ⟨w', b, he', -⟩ := exec_ok h.inv hpre'
    rw [he] at he'; cases he'
  | _ => rfl

theorem Exec.clock (h : Exec m l n κ) (hm : InitMem m l) : ∀ {t : Nat}, t ≤ n → (κ t).clock = t := by
  intro t
  induction t with
  | zero => intro _; rw [h.init]; rfl
  | succ t ih =>
    intro ht
    rw [(h.inv hm (by omega : t ≤ n)).step_clock (h.next t (by omega)), ih (by omega)]

/-- How the record of a call develops. -/
structure RecNext (κ : Cfg α β) (r r' : Rec α β) : Prop where
  op : r'.op = r.op
  callT : r'.callT = r.callT
  start : r'.start = r.start
  ended : ∀ x, r.status.ended = some x → r' = r
  running : r.status.ended = none → r'.status.ended = none ∨ r'.status.ended = some (κ.clock, κ.w)

theorem RecNext.refl (κ : Cfg α β) (r : Rec α β) : RecNext κ r r := ⟨rfl, rfl, rfl, fun _ _ => rfl, fun h => .inl h⟩

theorem CfgInv.step_rec {σ₀ : SpecSt α} {κ κ' : Cfg α β} (h : CfgInv σ₀ κ) (hs : Step κ κ') {c : Cid}
    {r : Rec α β} (hc : κ.calls c = some r) : ∃ r', κ'.calls c = some r' ∧ RecNext κ r r' := by
  cases hs with
  | invoke op hn hp =>
    refine ⟨r, ?_, .refl κ r⟩
    simp only [upd_apply]
    rw [if_neg]
    · exact hc
    · intro he
      have := (h.next c r hc).2
      rw [he] at this
      exact absurd this (Nat.lt_irrefl _)
  | act c' r' a again k w' b hc' hr he =>
    simp only [Cfg.setStatus, upd_apply]
    split
    · rename_i hcc; subst hcc
      rw [hc'] at hc
      simp only [Option.some.injEq] at hc
      subst hc
      refine ⟨_, rfl, rfl, rfl, rfl, ?_, fun _ => .inl rfl⟩
      intro x hx; rw [hr] at hx; cases hx
    · exact ⟨r, hc, .refl κ r⟩
  | ub c' r' a again k hc' hr he => exact ⟨r, hc, .refl κ r⟩
  | ret c' r' x hc' hr =>
    simp only [Cfg.setStatus, upd_apply]
    split
    · rename_i hcc; subst hcc
      rw [hc'] at hc
      simp only [Option.some.injEq] at hc
      subst hc
      refine ⟨_, rfl, rfl, rfl, rfl, ?_, fun _ => .inr rfl⟩
      intro x hx; rw [hr] at hx; cases hx
    · exact ⟨r, hc, .refl κ r⟩
  | panic c' r' x hc' hr =>
    simp only [Cfg.setStatus, upd_apply]
    split
    · rename_i hcc; subst hcc
      rw [hc'] at hc
      simp only [Option.some.injEq] at hc
      subst hc
      refine ⟨_, rfl, rfl, rfl, rfl, ?_, fun _ => .inr rfl⟩
      intro x hx; rw [hr] at hx; cases hx
    · exact ⟨r, hc, .refl κ r⟩
  | reserveMax n hidle => exact ⟨r, hc, .refl κ r⟩

/-- A record that appears belongs to a call that is invoked now. -/
theorem Step.new_rec {κ κ' : Cfg α β} (hs : Step κ κ') {c : Cid} {r' : Rec α β} (hc' : κ'.calls c = some r')
    (hc : κ.calls c = none) :
    r'.callT = κ.clock ∧ r'.start = κ.w ∧ κ'.w = κ.w ∧ r'.status = .running r'.op.prog := by
  have key : ∀ {c1 : Cid} {r1 : Rec α β} {s : Status α β}, κ.calls c1 = some r1 →
      κ.setStatus c1 r1 s c = some r' → False := by
    intro c1 r1 s h1 h2
    simp only [Cfg.setStatus, upd_apply] at h2
    split at h2
    · rename_i hcc; subst hcc; rw [hc] at h1; cases h1
    · rw [hc] at h2; cases h2
  cases hs with
  | invoke op hn hp =>
    simp only [upd_apply] at hc'
    split at hc'
    · simp only [Option.some.injEq] at hc'
      subst hc'
      exact ⟨rfl, rfl, rfl, rfl⟩
    · rw [hc] at hc'; cases hc'
  | act c1 r1 a again k w' b hc1 hr he => exact (key hc1 hc').elim
  | ub c1 r1 a again k hc1 hr he => rw [hc] at hc'; cases hc'
  | ret c1 r1 x hc1 hr => exact (key hc1 hc').elim
  | panic c1 r1 x hc1 hr => exact (key hc1 hc').elim
  | reserveMax n hidle => rw [hc] at hc'; cases hc'

/-- The world changes only by actions of running calls (and by `reserve_maximum_capacity`). -/
theorem Step.world {κ κ' : Cfg α β} (hs : Step κ κ') :
    (κ'.w = κ.w) ∨
    (∃ c r a again k b, κ.calls c = some r ∧ r.status = .running (.step a again k) ∧
      κ.w.exec c a = some (κ'.w, b)) ∨
    (κ.Idle ∧ κ'.w.trace = κ.w.trace ∧ κ'.w.spec = κ.w.spec ∧ κ'.w.mem.st = κ.w.mem.st ∧
      κ'.w.mem.val = κ.w.mem.val ∧ κ'.w.holder = κ.w.holder) := by
  cases hs with
  | act c1 r1 a again k w' b hc1 hr he => exact .inr (.inl ⟨c1, r1, a, again, k, b, hc1, hr, he⟩)
  | reserveMax n hidle => exact .inr (.inr ⟨hidle, rfl, rfl, rfl, rfl, rfl⟩)
  | _ => exact .inl rfl

/-- Record of a call at an earlier and at a later time. -/
theorem Exec.rec_mono (h : Exec m l n κ) (hm : InitMem m l) {s : Nat} {c : Cid} {r : Rec α β}
    (hc : (κ s).calls c = some r) : ∀ {t}, s ≤ t → t ≤ n → ∃ r', (κ t).calls c = some r' ∧ r'.op = r.op ∧
      r'.callT = r.callT ∧ r'.start = r.start ∧ (∀ x, r.status.ended = some x → r' = r) ∧
      (r.status.ended = none → ∀ et w, r'.status.ended = some (et, w) → s ≤ et ∧ et < t ∧ w = (κ et).w) := by
  intro t hst
  induction hst with
  | refl =>
    intro _
    exact ⟨r, hc, rfl, rfl, rfl, fun _ _ => rfl, fun h1 et w h2 => by rw [h1] at h2; cases h2⟩
  | @step t hst ih =>
    intro ht
    have hst : s ≤ t := hst
    obtain ⟨r1, h1, h2, h3, h4, h5, h6⟩ := ih (by omega)
    obtain ⟨r2, g1, g2⟩ := (h.inv hm (by omega : t ≤ n)).step_rec (h.next t (by omega)) h1
    refine ⟨r2, g1, by rw [g2.op, h2], by rw [g2.callT, h3], by rw [g2.start, h4], ?_, ?_⟩
    · intro x hx
      rw [← h5 x hx]
      refine g2.ended x ?_
      rw [h5 x hx]; exact hx
    · intro hn et w hw
      rcases hr : r1.status.ended with _ | ⟨et1, w1⟩
      · rcases g2.running hr with hg | hg
        · rw [hg] at hw; cases hw
        · rw [hg] at hw
          simp only [Option.some.injEq, Prod.mk.injEq] at hw
          rw [h.clock hm (by omega : t ≤ n)] at hw
          obtain ⟨rfl, rfl⟩ := hw
          exact ⟨hst, by omega, rfl⟩
      · have := g2.ended _ hr
        rw [this] at hw
        have := h6 hn et w hw
        exact ⟨this.1, by omega, this.2.2⟩

/-- When a call was invoked. -/
theorem Exec.called_at (h : Exec m l n κ) (hm : InitMem m l) {c : Cid} {r : Rec α β}
    (hc : (κ n).calls c = some r) :
    r.callT < n ∧ (κ r.callT).calls c = none ∧ r.start = (κ r.callT).w ∧
      (κ (r.callT + 1)).calls c = some ⟨r.op, r.callT, r.start, .running r.op.prog⟩ ∧
      (κ (r.callT + 1)).w = (κ r.callT).w := by
  have key : ∀ t, t ≤ n → ∀ r, (κ t).calls c = some r → r.callT < t ∧ (κ r.callT).calls c = none ∧
      r.start = (κ r.callT).w ∧
      (κ (r.callT + 1)).calls c = some ⟨r.op, r.callT, r.start, .running r.op.prog⟩ ∧
      (κ (r.callT + 1)).w = (κ r.callT).w := by
    intro t
    induction t with
    | zero => intro _ r hr; rw [h.init] at hr; simp [Cfg.init] at hr
    | succ t ih =>
      intro ht r hr
      rcases ho : (κ t).calls c with _ | r0
      · have hs := h.next t (by omega)
        obtain ⟨h1, h2, h3, h4⟩ := hs.new_rec hr ho
        rw [h.clock hm (by omega : t ≤ n)] at h1
        rw [h1]
        refine ⟨by omega, ho, h2, ?_, h3⟩
        rw [hr]
        rcases r with ⟨op, ct, st, s⟩
        simp only at h1 h2 h4 ⊢
        rw [h1, h4]
      · obtain ⟨r', h1, h2⟩ := (h.inv hm (by omega : t ≤ n)).step_rec (h.next t (by omega)) ho
        rw [hr] at h1
        simp only [Option.some.injEq] at h1
        subst h1
        have := ih (by omega) r0 ho
        rw [h2.callT, h2.op, h2.start]
        exact ⟨by omega, this.2⟩
  exact key n (Nat.le_refl _) r hc

/-- When a call ended. -/
theorem Exec.ended_at (h : Exec m l n κ) (hm : InitMem m l) {c : Cid} {r : Rec α β}
    (hc : (κ n).calls c = some r) {et : Nat} {w : World α} (he : r.status.ended = some (et, w)) :
    r.callT < et ∧ et < n ∧ w = (κ et).w := by
  obtain ⟨h1, h2, h3, h4, h5⟩ := h.called_at hm hc
  obtain ⟨r', g1, -, -, -, -, g6⟩ := h.rec_mono hm h4 (t := n) (by omega) (Nat.le_refl _)
  rw [hc] at g1
  simp only [Option.some.injEq] at g1
  subst g1
  have := g6 rfl et w he
  exact ⟨by omega, this.2⟩

/-- When an event happened. -/
theorem Exec.event (h : Exec m l n κ) {t1 t2 : List (Ev α)} {e : Ev α} (he : (κ n).w.trace = t1 ++ e :: t2) :
    ∃ t c r a again k b, t < n ∧ (κ t).w.trace = t1 ∧ (κ t).calls c = some r ∧
      r.status = .running (.step a again k) ∧ (κ t).w.exec c a = some ((κ (t + 1)).w, b) ∧
      e ∈ a.events c (κ t).w b ∧ (κ (t + 1)).w.trace = t1 ++ [e] := by
  have key : ∀ s, s ≤ n → ∀ t2, (κ s).w.trace = t1 ++ e :: t2 →
      ∃ t c r a again k b, t < s ∧ (κ t).w.trace = t1 ∧ (κ t).calls c = some r ∧
      r.status = .running (.step a again k) ∧ (κ t).w.exec c a = some ((κ (t + 1)).w, b) ∧
      e ∈ a.events c (κ t).w b ∧ (κ (t + 1)).w.trace = t1 ++ [e] := by
    intro s
    induction s with
    | zero => intro _ t2 h2; rw [h.init] at h2; simp [Cfg.init, World.init] at h2
    | succ s ih =>
      intro hs t2 h2
      have lift : ∀ t2', (κ s).w.trace = t1 ++ e :: t2' → ∃ t c r a again k b, t < s + 1 ∧ (κ t).w.trace = t1 ∧
          (κ t).calls c = some r ∧
          r.status = .running (.step a again k) ∧ (κ t).w.exec c a = some ((κ (t + 1)).w, b) ∧
          e ∈ a.events c (κ t).w b ∧ (κ (t + 1)).w.trace = t1 ++ [e] := by
        intro t2' h2'
        obtain ⟨t, c, r, a, again, k, b, h1, h3⟩ := ih (by omega) t2' h2'
        exact ⟨t, c, r, a, again, k, b, by omega, h3⟩
      rcases (h.next s (by omega)).world with hw | ⟨c, r, a, again, k, b, hc, hr, hx⟩ | ⟨-, hw, -⟩
      · rw [hw] at h2; exact lift t2 h2
      · rcases exec_trace_split hx h2 with ⟨t2', h2'⟩ | ⟨h2', hev⟩
        · exact lift t2' h2'
        · refine ⟨s, c, r, a, again, k, b, by omega, h2'.symm, hc, hr, hx, hev, ?_⟩
          have hl := events_length (w := (κ s).w) (c := c) (b := b)
          have ht := exec_trace hx
          rcases hev' : a.events c (κ s).w b with _ | ⟨x, _ | ⟨y, ys⟩⟩
          · rw [hev'] at hev; cases hev
          · rw [hev'] at hev ht
            simp only [List.mem_singleton] at hev
            rw [ht, h2', hev]
          · rw [hev'] at hl; simp at hl
      · rw [hw] at h2; exact lift t2 h2
  obtain ⟨t, c, r, a, again, k, b, h1⟩ := key n (Nat.le_refl _) t2 he
  exact ⟨t, c, r, a, again, k, b, h1⟩

/-- A running call's time span contains the present. -/
theorem Exec.during (h : Exec m l n κ) (hm : InitMem m l) {t : Nat} (ht : t < n) {c : Cid} {r : Rec α β}
    {p : Prog α (Ret α β)} (hc : (κ t).calls c = some r) (hr : r.status = .running p) :
    ∃ r', (κ n).calls c = some r' ∧ r'.op = r.op ∧ r'.callT < t ∧ (κ n).During c t := by
  obtain ⟨r', g1, g2, g3, g4, g5, g6⟩ := h.rec_mono hm hc (t := n) (by omega) (Nat.le_refl _)
  have hlt := ((h.prefix (by omega : t ≤ n)).called_at hm hc).1
  refine ⟨r', g1, g2, by omega, ⟨r.callT, ⟨r', g1, g3⟩, by omega⟩, ?_⟩
  rintro t1 ⟨r1, w, h1, h2⟩
  rw [g1] at h1
  simp only [Option.some.injEq] at h1
  subst h1
  exact (g6 (by rw [hr]; rfl) t1 w h2).1

/-- The time of an event, as seen from the end of the execution. -/
theorem Exec.event_time (h : Exec m l n κ) (hm : InitMem m l) {t1 t2 : List (Ev α)} {e : Ev α}
    (he : (κ n).w.trace = t1 ++ e :: t2) :
    ∃ t, t < n ∧ (κ t).w.trace = t1 ∧ (κ (t + 1)).w.trace = t1 ++ [e] ∧ (κ n).During e.cid t ∧
      (∃ r p, (κ t).calls e.cid = some r ∧ r.status = .running p) ∧
      (∀ i, (κ t).content i = (specAt (.ofList l) t1).val i) ∧
      (∀ i, (κ (t + 1)).content i = (specAt (.ofList l) (t1 ++ [e])).val i) := by
  obtain ⟨t, c, r, a, again, k, b, ht, h1, hc, hr, hx, hev, h2⟩ := h.event he
  have hI := h.inv hm (by omega : t ≤ n)
  have hI' := h.inv hm (by omega : t + 1 ≤ n)
  have hcid : e.cid = c := by
    obtain ⟨hsafe, -⟩ := hI.running hc hr
    obtain ⟨-, hk⟩ := hsafe _ hI.inv (.refl _ _)
    exact ((hk _ b hx).1 e hev).1
  obtain ⟨r', g1, g2, g3, g4⟩ := h.during hm ht hc hr
  refine ⟨t, ht, h1, h2, by rw [hcid]; exact g4, ⟨r, _, by rw [hcid]; exact hc, hr⟩, ?_, ?_⟩
  · intro i; rw [hI.content_eq, hI.inv.spec_eq, h1]
  · intro i; rw [hI'.content_eq, hI'.inv.spec_eq, h2]

end

end Verif
