import Verif.Proof.GrowthLemmas

/-!
# What the next action of a call is like; the world over time

Helper file (no property statements).
-/

namespace Verif

variable {α β : Type} {σ₀ : SpecSt α}

/-- What is known about the next action of a call. -/
theorem CfgInv.pre {κ : Cfg α β} (h : CfgInv σ₀ κ) {c : Cid} {a : Act α} (hn : κ.Next c a) :
    ∃ op, κ.Running c op ∧ Pre op.raw c κ.w a ∧
      ∃ w' b, κ.w.exec c a = some (w', b) ∧
        ∀ e ∈ a.events c κ.w b, e.cid = c ∧ (e.isData = false ∨ op.Allows (dataOf c κ.w.trace) e) := by
  obtain ⟨op, ct, st, again, k, hc⟩ := hn
  obtain ⟨hsafe, -⟩ := h.running hc rfl
  obtain ⟨hpre, hk⟩ := hsafe _ h.inv (.refl _ _)
  have hpre' : Pre op.raw c κ.w a := hpre
  obtain ⟨w', b, he, -⟩ := exec_ok h.inv hpre'
  exact ⟨op, ⟨ct, st, _, hc⟩, hpre', w', b, he, (hk w' b he).1⟩

theorem Cfg.Running.unique {κ : Cfg α β} {c : Cid} {op op' : Op α β} (h : κ.Running c op) (h' : κ.Called c op') :
    op' = op := by
  obtain ⟨_, _, _, h⟩ := h
  obtain ⟨_, _, _, h'⟩ := h'
  rw [h] at h'
  simp only [Option.some.injEq, Rec.mk.injEq] at h'
  exact h'.1.symm

theorem Cfg.Running.called {κ : Cfg α β} {c : Cid} {op : Op α β} (h : κ.Running c op) : κ.Called c op := by
  obtain ⟨_, _, _, h⟩ := h; exact ⟨_, _, _, h⟩

theorem Cfg.Called.unique {κ : Cfg α β} {c : Cid} {op op' : Op α β} (h : κ.Called c op) (h' : κ.Called c op') :
    op' = op := by
  obtain ⟨_, _, _, h⟩ := h
  obtain ⟨_, _, _, h'⟩ := h'
  rw [h] at h'
  simp only [Option.some.injEq, Rec.mk.injEq] at h'
  exact h'.1.symm

theorem Cfg.Returned.called {κ : Cfg α β} {c : Cid} {op : Op α β} {x : Ret α β} (h : κ.Returned c op x) :
    κ.Called c op := by
  obtain ⟨_, _, _, _, h⟩ := h; exact ⟨_, _, _, h⟩

theorem Cfg.Panicked.called {κ : Cfg α β} {c : Cid} {op : Op α β} {x : PanicKind} (h : κ.Panicked c op x) :
    κ.Called c op := by
  obtain ⟨_, _, _, _, h⟩ := h; exact ⟨_, _, _, h⟩

theorem CfgInv.step_evolves {κ κ' : Cfg α β} (h : CfgInv σ₀ κ) (hs : Step κ κ') : Evolves κ.w κ'.w := by
  cases hs with
  | act c r a again k w' b hc hr he =>
    obtain ⟨hsafe, -⟩ := h.running hc hr
    obtain ⟨hpre, -⟩ := hsafe _ h.inv (.refl _ _)
    have hpre' : Pre r.op.raw c κ.w a := hpre
    exact ((exec_inv h.inv hpre' he).2 (c + 1) (by simp)).ev
  | reserveMax n hidle =>
    have hg : κ.w.grower = none := by
      rcases hg : κ.w.grower with _ | d
      · rfl
      · obtain ⟨⟨op, ct, st, s⟩, p, hr, hp⟩ := h.grower hg
        simp only at hp
        subst hp
        exact absurd hr (hidle d op ct st p)
    exact (reserveMax_inv h.inv hg n).2
  | _ => exact .refl _

section

variable {m : Mem α} {l : List α} {n : Nat} {κ : Nat → Cfg α β}

theorem Exec.evolves (h : Exec m l n κ) (hm : InitMem m l) {s : Nat} :
    ∀ {t}, s ≤ t → t ≤ n → Evolves (κ s).w (κ t).w := by
  intro t hst
  induction hst with
  | refl => intro _; exact .refl _
  | @step t hst ih =>
    intro ht
    have ht : t + 1 ≤ n := ht
    exact (ih (by omega)).trans ((h.inv hm (by omega : t ≤ n)).step_evolves (h.next t (by omega)))

/-- Values stay unless modified. -/
theorem Exec.keep (h : Exec m l n κ) (hm : InitMem m l) {s t : Nat} (hst : s ≤ t) (ht : t ≤ n) {i : Nat} {v : α}
    (hv : (κ s).content i = some v) (hn : ∀ c op, (κ t).Called c op → ¬ op.MayWrite i) :
    (κ t).content i = some v := by
  have hs := h.inv hm (by omega : s ≤ n)
  have hI := h.inv hm ht
  obtain ⟨u, hu⟩ := (h.evolves hm hst ht).trace
  rw [hs.content_eq, hs.inv.spec_eq] at hv
  rw [hI.content_eq, hI.inv.spec_eq, ← hu, specAt_append]
  have hleg := hI.inv.legal
  rw [← hu] at hleg
  exact specAt_keep hleg.suffix hv (fun e he => hI.noModifies hn e (by rw [← hu]; simp [he]))

theorem Exec.keep_some (h : Exec m l n κ) (hm : InitMem m l) {s t : Nat} (hst : s ≤ t) (ht : t ≤ n) {i : Nat}
    (hv : ((κ s).content i).isSome) : ((κ t).content i).isSome := by
  have hs := h.inv hm (by omega : s ≤ n)
  have hI := h.inv hm ht
  rw [hs.content_eq] at hv
  rw [hI.content_eq]
  exact (h.evolves hm hst ht).pub i hv

/-- The call of a running call persists. -/
theorem Exec.called_mono (h : Exec m l n κ) (hm : InitMem m l) {s t : Nat} (hst : s ≤ t) (ht : t ≤ n) {c : Cid}
    {op : Op α β} (hc : (κ s).Called c op) : (κ t).Called c op := by
  obtain ⟨ct, st, ss, hc⟩ := hc
  obtain ⟨⟨op', ct', st', ss'⟩, h1, h2, -⟩ := h.rec_mono hm hc hst ht
  simp only at h2
  subst h2
  exact ⟨_, _, _, h1⟩

/-- Steps of other calls leave the record of a call alone. -/
theorem Step.other {κ κ' : Cfg α β} (hs : Step κ κ') (hI : CfgInv σ₀ κ) {c : Cid} {a : Act α} (hn : κ.Next c a) :
    κ'.Next c a ∨ ∃ w' b, κ.w.exec c a = some (w', b) ∧ κ'.w = w' := by
  obtain ⟨op, ct, st, again, k, hc⟩ := hn
  have keep : ∀ {c1 : Cid} {r1 : Rec α β} {s : Status α β} {κ'' : Cfg α β}, c1 ≠ c →
      κ''.calls = κ.setStatus c1 r1 s → κ''.Next c a := by
    intro c1 r1 s κ'' hne he
    refine ⟨op, ct, st, again, k, ?_⟩
    rw [he]
    simp only [Cfg.setStatus, upd_apply]
    rw [if_neg (fun h => hne h.symm)]
    exact hc
  cases hs with
  | invoke op' hn hp =>
    left
    refine ⟨op, ct, st, again, k, ?_⟩
    simp only [upd_apply]
    rw [if_neg]
    · exact hc
    · intro he
      have := (hI.next c _ hc).2
      rw [he] at this
      exact absurd this (Nat.lt_irrefl _)
  | act c' r' a' again' k' w' b hc' hr he =>
    by_cases hcc : c' = c
    · subst hcc
      rw [hc] at hc'
      simp only [Option.some.injEq] at hc'
      subst hc'
      simp only [Status.running.injEq, Prog.step.injEq] at hr
      obtain ⟨rfl, -⟩ := hr
      exact .inr ⟨w', b, he, rfl⟩
    · exact .inl (keep hcc rfl)
  | ub c' r' a' again' k' hc' hr he => exact .inl ⟨op, ct, st, again, k, hc⟩
  | ret c' r' x hc' hr =>
    by_cases hcc : c' = c
    · subst hcc
      rw [hc] at hc'
      simp only [Option.some.injEq] at hc'
      subst hc'
      cases hr
    · exact .inl (keep hcc rfl)
  | panic c' r' x hc' hr =>
    by_cases hcc : c' = c
    · subst hcc
      rw [hc] at hc'
      simp only [Option.some.injEq] at hc'
      subst hc'
      cases hr
    · exact .inl (keep hcc rfl)
  | reserveMax n hidle => exact .inl ⟨op, ct, st, again, k, hc⟩

theorem reserve_event {w : World α} {c : Cid} {a : Act α} {b : a.Resp} {c' : Cid} {i k : Nat}
    (h : Ev.reserve c' i k ∈ a.events c w b) : (∃ o, a = .resFetchAdd k o) ∧ i = w.mem.reserved ∧ c' = c := by
  cases a with
  | resFetchAdd k' o =>
    simp only [Act.events, List.mem_singleton, Ev.reserve.injEq] at h
    obtain ⟨rfl, rfl, rfl⟩ := h
    exact ⟨⟨o, rfl⟩, rfl, rfl⟩
  | stLoad j o => simp only [Act.events] at h; split at h <;> (try split at h) <;> simp at h
  | stStore j s o => simp only [Act.events] at h; split at h <;> (try split at h) <;> simp at h
  | valWrite j v => simp only [Act.events] at h; split at h <;> (try split at h) <;> simp at h
  | _ => simp [Act.events] at h

/-- `Received` in terms of the trace. -/
theorem Exec.received_iff (h : Exec m l n κ) (hm : InitMem m l) {c : Cid} {b k : Nat} :
    Received κ n c b k ↔ Ev.reserve c b k ∈ (κ n).w.trace := by
  constructor
  · rintro ⟨t, o, ht, hnext, hb, hnot⟩
    have hI := h.inv hm (by omega : t ≤ n)
    rcases (h.next t ht).other hI hnext with h1 | ⟨w', b', he, hw⟩
    · exact absurd h1 hnot
    · have htr := exec_trace he
      have hmem : Ev.reserve c b k ∈ (κ (t + 1)).w.trace := by
        rw [hw, htr]; simp [Act.events, hb]
      exact (h.evolves hm (by omega : t + 1 ≤ n) (Nat.le_refl n)).trace.subset hmem
  · intro he
    obtain ⟨t1, t2, ht⟩ := List.append_of_mem he
    obtain ⟨t, c', ⟨op, ct, st, s⟩, a, again, kk, b', h1, h2, h3, h4, h5, h6, h7⟩ := h.event ht
    simp only at h4
    subst h4
    obtain ⟨⟨o, rfl⟩, rfl, rfl⟩ := reserve_event h6
    refine ⟨t, o, h1, ⟨op, ct, st, again, kk, h3⟩, rfl, ?_⟩
    intro hnext
    have hI := h.inv hm (by omega : t + 1 ≤ n)
    obtain ⟨op', hrun, hpre, w', b1, hex, hev⟩ := hI.pre hnext
    have := hev (.reserve c (κ (t + 1)).w.mem.reserved k) (by simp [Act.events])
    rcases this.2 with h8 | h8
    · cases h8
    · have hd : dataOf c (κ (t + 1)).w.trace = [] := by
        cases op' <;> simp only [Op.Allows] at h8 <;> exact h8.1
      have : Ev.reserve c (κ t).w.mem.reserved k ∈ dataOf c (κ (t + 1)).w.trace :=
        mem_dataOf.2 ⟨by rw [h7]; simp, rfl, rfl⟩
      rw [hd] at this
      cases this

end

end Verif
