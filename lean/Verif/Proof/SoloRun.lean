import Verif.Proof.SoloApi
import Verif.Proof.Quiet

/-!
# Calls that overlap with no other call

Helper file (no property statements): such a call performs the actions of its program one after the other, as
`Prog.solo` does.
-/

namespace Verif

variable {α β : Type} {m : Mem α} {l : List α} {n : Nat} {κ : Nat → Cfg α β}

/-- Two calls that run at the same time overlap. -/
theorem Exec.overlap_running (h : Exec m l n κ) (hm : InitMem m l) {t : Nat} (ht : t ≤ n) {c d : Cid} {rc rd : Rec α β}
    {p q : Prog α (Ret α β)} (hc : (κ t).calls c = some rc) (hrc : rc.status = .running p)
    (hd : (κ t).calls d = some rd) (hrd : rd.status = .running q) : (κ n).Overlap c d := by
  obtain ⟨rc', c1, -, c3, -, -, c6⟩ := h.rec_mono hm hc (t := n) ht (Nat.le_refl _)
  obtain ⟨rd', d1, -, d3, -, -, d6⟩ := h.rec_mono hm hd (t := n) ht (Nat.le_refl _)
  have hct := ((h.prefix ht).called_at hm hc).1
  have hdt := ((h.prefix ht).called_at hm hd).1
  refine ⟨⟨_, c1⟩, ⟨_, d1⟩, ?_, ?_⟩
  · rintro ⟨r1, r2, h1, h2, et, f, he, hlt⟩
    rw [c1] at h1; rw [d1] at h2; cases h1; cases h2
    have := (c6 (by rw [hrc]; rfl) et f he).1
    omega
  · rintro ⟨r1, r2, h1, h2, et, f, he, hlt⟩
    rw [d1] at h1; rw [c1] at h2; cases h1; cases h2
    have := (d6 (by rw [hrd]; rfl) et f he).1
    omega

/-- A call that is invoked while another one runs overlaps with it. -/
theorem Exec.overlap_invoke (h : Exec m l n κ) (hm : InitMem m l) {t : Nat} (ht : t < n) {c d : Cid} {rc rd : Rec α β}
    {p : Prog α (Ret α β)} (hc : (κ t).calls c = some rc) (hrc : rc.status = .running p)
    (hd : (κ (t + 1)).calls d = some rd) (hnew : (κ t).calls d = none) : (κ n).Overlap c d := by
  obtain ⟨rc', c1, -, c3, -, -, c6⟩ := h.rec_mono hm hc (t := n) (Nat.le_of_lt ht) (Nat.le_refl _)
  obtain ⟨rd', d1, -, d3, -, -, d6⟩ := h.rec_mono hm hd (t := n) ht (Nat.le_refl _)
  have hct := ((h.prefix (Nat.le_of_lt ht)).called_at hm hc).1
  obtain ⟨e1, -, -, e4⟩ := (h.next t ht).new_rec hd hnew
  rw [h.clock hm (Nat.le_of_lt ht)] at e1
  refine ⟨⟨_, c1⟩, ⟨_, d1⟩, ?_, ?_⟩
  · rintro ⟨r1, r2, h1, h2, et, f, he, hlt⟩
    rw [c1] at h1; rw [d1] at h2; cases h1; cases h2
    have := (c6 (by rw [hrc]; rfl) et f he).1
    omega
  · rintro ⟨r1, r2, h1, h2, et, f, he, hlt⟩
    rw [d1] at h1; rw [c1] at h2; cases h1; cases h2
    have := (d6 (by rw [e4]; rfl) et f he).1
    omega

/-- State of a call that runs alone, begun when the memory represented `vs`. -/
def SoloOK (vs : List α) (r : Rec α β) (mem : Mem α) : Prop :=
  match r.status with
  | .running p => ∃ x m', p.solo mem = (.done x, m') ∧ m'.Rep (r.op.next vs) ∧ r.op.Gives vs x
  | .done x _ fin => fin.mem.Rep (r.op.next vs) ∧ r.op.Gives vs (.ok x)
  | .panicked k _ fin => fin.mem.Rep (r.op.next vs) ∧ r.op.Gives vs (.error k)

theorem Prog.solo_step {a : Act α} {again : a.Resp → Bool} {k : a.Resp → Prog α β} {mem m' m1 : Mem α} {b : a.Resp}
    {x : Except PanicKind β} (h : (Prog.step a again k).solo mem = (.done x, m')) (he : a.exec mem = some (m1, b)) :
    again b = false ∧ (k b).solo m1 = (.done x, m') := by
  simp only [Prog.solo, he] at h
  split at h
  · simp at h
  · next hb => exact ⟨by simpa using hb, h⟩

theorem World.exec_mem {c : Cid} {a : Act α} {w w' : World α} {b : a.Resp} (h : w.exec c a = some (w', b)) :
    a.exec w.mem = some (w'.mem, b) := by
  unfold World.exec at h
  rcases hx : a.exec w.mem with _ | ⟨m', b'⟩
  · rw [hx] at h; cases h
  · rw [hx] at h
    simp only [Option.some.injEq, Prod.mk.injEq] at h
    obtain ⟨rfl, rfl⟩ := h
    rfl

/-- One step of an execution in which nothing overlaps with `c`. -/
theorem Exec.solo_next (h : Exec m l n κ) (hm : InitMem m l) {c : Cid} (ha : (κ n).Alone c) {vs : List α} {t : Nat}
    (ht : t < n) {r : Rec α β} (hc : (κ t).calls c = some r) (hok : SoloOK vs r (κ t).w.mem) :
    ∃ r', (κ (t + 1)).calls c = some r' ∧ SoloOK vs r' (κ (t + 1)).w.mem := by
  have hI := h.inv hm (Nat.le_of_lt ht)
  have hs := h.next t ht
  -- if the call is over, nothing changes
  obtain ⟨r', hc', -, -, -, hend, -⟩ := h.rec_mono hm hc (t := t + 1) (by omega) ht
  rcases hst : r.status with p | ⟨x, et, fin⟩ | ⟨k, et, fin⟩
  case done =>
    have := hend (et, fin) (by rw [hst]; rfl)
    subst this
    exact ⟨_, hc', by simpa only [SoloOK, hst] using hok⟩
  case panicked =>
    have := hend (et, fin) (by rw [hst]; rfl)
    subst this
    exact ⟨_, hc', by simpa only [SoloOK, hst] using hok⟩
  have hnot : ∀ {d rd q}, (κ t).calls d = some rd → rd.status = .running q → d = c := by
    intro d rd q hd hq
    by_contra hne
    exact ha d hne (h.overlap_running hm (Nat.le_of_lt ht) hc hst hd hq)
  simp only [SoloOK, hst] at hok
  obtain ⟨x, m', hsolo, hrep, hg⟩ := hok
  generalize hk' : κ (t + 1) = κ' at *
  cases hs with
  | invoke op hn hp =>
    exfalso
    have hnone : (κ t).calls (κ t).next = none := by
      by_contra hne
      obtain ⟨r2, hr2⟩ := Option.ne_none_iff_exists'.1 hne
      exact absurd (hI.next _ _ hr2).2 (Nat.lt_irrefl _)
    have hne : (κ t).next ≠ c := by
      rintro rfl
      rw [hnone] at hc; cases hc
    refine ha _ hne (h.overlap_invoke hm ht hc hst (rd := ⟨op, (κ t).clock, (κ t).w, .running op.prog⟩) ?_ hnone)
    rw [hk']; simp
  | act d rd a again k w' b hd hrd he =>
    have := hnot hd hrd
    subst this
    rw [hc] at hd; cases hd
    rw [hst] at hrd; cases hrd
    obtain ⟨h1, h2⟩ := Prog.solo_step hsolo (World.exec_mem he)
    refine ⟨{ r with status := .running (k b) }, by simp [Cfg.setStatus, h1], ?_⟩
    simp only [SoloOK]
    exact ⟨x, m', h2, hrep, hg⟩
  | ub d rd a again k hd hrd he => have := h.inv hm (t := t + 1) (by omega); rw [hk'] at this; exact absurd this.noUB (by simp)
  | ret d rd y hd hrd =>
    have := hnot hd hrd
    subst this
    rw [hc] at hd; cases hd
    rw [hst] at hrd; cases hrd
    simp only [Prog.solo, Prod.mk.injEq, Out.done.injEq] at hsolo
    obtain ⟨rfl, rfl⟩ := hsolo
    refine ⟨{ r with status := .done y (κ t).clock (κ t).w }, by simp [Cfg.setStatus], ?_⟩
    simp only [SoloOK]
    exact ⟨hrep, hg⟩
  | panic d rd k hd hrd =>
    have := hnot hd hrd
    subst this
    rw [hc] at hd; cases hd
    rw [hst] at hrd; cases hrd
    simp only [Prog.solo, Prod.mk.injEq, Out.done.injEq] at hsolo
    obtain ⟨rfl, rfl⟩ := hsolo
    refine ⟨{ r with status := .panicked k (κ t).clock (κ t).w }, by simp [Cfg.setStatus], ?_⟩
    simp only [SoloOK]
    exact ⟨hrep, hg⟩
  | reserveMax k hidle =>
    obtain ⟨op, ct, st, s⟩ := r
    simp only at hst
    subst hst
    exact absurd hc (hidle c op ct st p)

/-- A call that overlaps with no other call, begun when the memory represented `vs`. -/
theorem Exec.alone_run (h : Exec m l n κ) (hm : InitMem m l) {c : Cid} (ha : (κ n).Alone c) {vs : List α} {r : Rec α β}
    (hc : (κ n).calls c = some r) (hrep : r.start.mem.Rep vs) (hf : r.op.Fits vs r.start.mem.maxCap) :
    ∀ t, r.callT < t → t ≤ n → ∃ r', (κ t).calls c = some r' ∧ r'.op = r.op ∧ SoloOK vs r' (κ t).w.mem := by
  obtain ⟨h1, h2, h3, h4, h5⟩ := h.called_at hm hc
  have hI := h.inv hm (n := n) (t := r.callT) (by omega)
  have hstart := (h.inv hm (Nat.le_refl n)).start c r hc
  have hlt : ∀ i, (r.start.spec.val i).isSome → i < vs.length := by
    intro i hi
    rw [h3] at hrep hi
    by_contra hge
    have := hI.inv.val_eq i hi
    rw [hrep.val, List.getElem?_eq_none (by omega)] at this
    rw [← this] at hi; cases hi
  intro t ht
  induction ht with
  | refl =>
    intro _
    obtain ⟨x, ⟨m', e1, e2, e3⟩, e4⟩ := op_ends hrep r.op hf (fun i hi => hlt i (hstart.needs i hi))
      (fun i hi => hlt i (hstart.needsPtr i hi))
    refine ⟨_, h4, rfl, ?_⟩
    simp only [SoloOK, h5, ← h3]
    exact ⟨x, m', e1, e2, e4⟩
  | @step t ht ih =>
    intro htn
    obtain ⟨r', g1, g2, g3⟩ := ih (by omega)
    obtain ⟨r'', k1, k2⟩ := h.solo_next hm ha (by omega) g1 g3
    obtain ⟨r3, j1, j2, -⟩ := h.rec_mono hm g1 (t := t + 1) (by omega) htn
    rw [k1] at j1; cases j1
    exact ⟨_, k1, j2.trans g2, k2⟩

theorem contentAfter_succ (l : List α) (ops : List (Op α β)) {k : Nat} {op : Op α β} (h : ops[k]? = some op) :
    contentAfter l (ops.take (k + 1)) = op.next (contentAfter l (ops.take k)) := by
  rw [contentAfter, List.take_add_one, h, List.foldl_append]; rfl

/-- Calls none of which overlap. -/
theorem Exec.sequential (h : Exec m l n κ) (hm : InitMem m l) (hno : ∀ c d, c ≠ d → ¬ (κ n).Overlap c d)
    {ops : List (Op α β)} (hops : ∀ c op, (κ n).Called c op → ops[c - 1]? = some op)
    (hfit : ∀ c op mem, (κ n).Called c op → (κ n).AtStart c mem → op.Fits (contentAfter l (ops.take (c - 1))) mem.maxCap) :
    ∀ t, t ≤ n →
      (∀ c r, (κ t).calls c = some r → r.start.mem.Rep (contentAfter l (ops.take (c - 1)))) ∧
      ((κ t).Idle → (κ t).w.mem.Rep (contentAfter l (ops.take ((κ t).next - 1)))) ∧
      (∀ c r p, (κ t).calls c = some r → r.status = .running p → (κ t).next = c + 1) := by
  have halone : ∀ c, (κ n).Alone c := fun c d hd => hno c d (Ne.symm hd)
  intro t
  induction t with
  | zero =>
    intro _
    rw [h.init]
    refine ⟨fun c r hr => (by cases hr), fun _ => ?_, fun c r p hr => (by cases hr)⟩
    simp only [Cfg.init, Nat.sub_self, List.take_zero]
    exact hm.rep
  | succ t ih =>
    intro ht
    obtain ⟨i1, i2, i3⟩ := ih (by omega)
    have hI := h.inv hm (n := n) (t := t) (by omega)
    have hs := h.next t ht
    -- what the running call has achieved when it ends
    have hdone : ∀ {c r}, (κ t).calls c = some r → ∀ {p}, r.status = .running p →
        ∃ r', (κ (t + 1)).calls c = some r' ∧ SoloOK (contentAfter l (ops.take (c - 1))) r' (κ (t + 1)).w.mem ∧
          r'.op.next (contentAfter l (ops.take (c - 1))) = contentAfter l (ops.take ((κ t).next - 1)) := by
      intro c r hc p hp
      obtain ⟨r', g1, g2, g3, g4, -⟩ := h.rec_mono hm hc (t := n) (by omega) (Nat.le_refl _)
      have hcall : (κ n).Called c r'.op := ⟨r'.callT, r'.start, r'.status, g1⟩
      have hlt := ((h.prefix (by omega : t ≤ n)).called_at hm hc).1
      obtain ⟨r2, k1, k2, k3⟩ := h.alone_run hm (halone c) g1 (by rw [g4]; exact i1 c r hc)
        (hfit c _ _ hcall ⟨_, g1, rfl⟩) (t + 1) (by omega) ht
      refine ⟨r2, k1, k3, ?_⟩
      have hc1 : 0 < c := (hI.next _ _ hc).1
      rw [i3 c r p hc hp, k2, ← contentAfter_succ l ops (hops c _ hcall)]
      congr 2
      exact Nat.sub_add_cancel hc1
    have hstarts : ∀ c r, (κ (t + 1)).calls c = some r → (κ t).calls c ≠ none →
        r.start.mem.Rep (contentAfter l (ops.take (c - 1))) := by
      intro c r hr hne
      obtain ⟨r0, hr0⟩ := Option.ne_none_iff_exists'.1 hne
      obtain ⟨r', g1, -, -, g4, -⟩ := h.rec_mono hm hr0 (t := t + 1) (by omega) ht
      rw [hr] at g1; cases g1
      rw [g4]; exact i1 c r0 hr0
    have hsame : ∀ {c : Cid} {s : Status α β} {r0 : Rec α β}, (κ t).calls c = some r0 →
        (κ (t + 1)).calls = (κ t).setStatus c r0 s →
        ∀ c' r, (κ (t + 1)).calls c' = some r → (κ t).calls c' ≠ none := by
      intro c s r0 h0 he c' r hr
      rw [he] at hr
      rcases setStatus_cases hr with ⟨rfl, -⟩ | ⟨-, h1⟩
      · rw [h0]; simp
      · rw [h1]; simp
    generalize hk' : κ (t + 1) = κ' at *
    cases hs with
    | invoke op hn hp =>
      have hnone : (κ t).calls (κ t).next = none := by
        by_contra hne
        obtain ⟨r2, hr2⟩ := Option.ne_none_iff_exists'.1 hne
        exact absurd (hI.next _ _ hr2).2 (Nat.lt_irrefl _)
      have hidle : (κ t).Idle := by
        intro c op' ct st p hc
        have hne : c ≠ (κ t).next := by rintro rfl; rw [hnone] at hc; cases hc
        refine hno _ _ hne (h.overlap_invoke hm ht hc rfl (rd := ⟨op, (κ t).clock, (κ t).w, .running op.prog⟩) ?_ hnone)
        rw [hk']; simp
      refine ⟨fun c r hr => ?_, fun hid => ?_, fun c r p hr hst => ?_⟩
      · by_cases hc : c = (κ t).next
        · subst hc
          simp only [upd_same, Option.some.injEq] at hr
          subst hr
          exact i2 hidle
        · refine hstarts c r hr ?_
          simp only [upd_other _ _ hc] at hr
          rw [hr]; simp
      · exact absurd (upd_same _ _ _) (hid (κ t).next op (κ t).clock (κ t).w op.prog)
      · by_cases hc : c = (κ t).next
        · subst hc; rfl
        · simp only [upd_other _ _ hc] at hr
          obtain ⟨op', ct, st, s⟩ := r
          simp only at hst
          subst hst
          exact absurd hr (hidle c op' ct st p)
    | act d rd a again k w' b hd hrd he =>
      refine ⟨fun c r hr => hstarts c r hr (hsame hd rfl c r hr), fun hid => ?_, fun c r p hr hst => ?_⟩
      · exact absurd (upd_same _ _ _) (hid d rd.op rd.callT rd.start _)
      · rcases setStatus_cases hr with ⟨rfl, -⟩ | ⟨-, h1⟩
        · exact i3 c rd _ hd hrd
        · exact i3 c r p h1 hst
    | ub d rd a again k hd hrd he => have := h.inv hm (t := t + 1) (by omega); rw [hk'] at this; exact absurd this.noUB (by simp)
    | ret d rd y hd hrd =>
      refine ⟨fun c r hr => hstarts c r hr (hsame hd rfl c r hr), fun _ => ?_, fun c r p hr hst => ?_⟩
      · obtain ⟨r', e1, e2, e3⟩ := hdone hd hrd
        simp only [Cfg.setStatus, upd_same, Option.some.injEq] at e1
        subst e1
        simp only [SoloOK] at e2
        rw [← e3]; exact e2.1
      · rcases setStatus_cases hr with ⟨rfl, rfl⟩ | ⟨-, h1⟩
        · cases hst
        · exact i3 c r p h1 hst
    | panic d rd y hd hrd =>
      refine ⟨fun c r hr => hstarts c r hr (hsame hd rfl c r hr), fun _ => ?_, fun c r p hr hst => ?_⟩
      · obtain ⟨r', e1, e2, e3⟩ := hdone hd hrd
        simp only [Cfg.setStatus, upd_same, Option.some.injEq] at e1
        subst e1
        simp only [SoloOK] at e2
        rw [← e3]; exact e2.1
      · rcases setStatus_cases hr with ⟨rfl, rfl⟩ | ⟨-, h1⟩
        · cases hst
        · exact i3 c r p h1 hst
    | reserveMax k hidle =>
      refine ⟨fun c r hr => i1 c r hr, fun _ => ?_, fun c r p hr hst => i3 c r p hr hst⟩
      have := i2 hidle
      exact ⟨this.reserved, this.written, this.st, this.val, this.cap, this.alloc, this.growing,
        ((κ t).w.mem.pol.reserve_ok k this.good).2⟩

theorem Cfg.Leads.trans {κ κ' κ'' : Cfg α β} (h : κ.Leads κ') (h' : κ'.Leads κ'') : κ.Leads κ'' := by
  induction h' with
  | refl => exact h
  | step _ hs ih => exact ih.step hs

/-- A call whose program ends when run alone does end if only it is allowed to act. -/
theorem Prog.solo_leads {c : Cid} : ∀ (p : Prog α (Ret α β)) {κ : Cfg α β} {r : Rec α β} {x : Except PanicKind (Ret α β)}
    {m' : Mem α}, κ.calls c = some r → r.status = .running p → p.solo κ.w.mem = (.done x, m') →
    ∃ κ' et fin, κ.Leads κ' ∧ κ'.calls c = some { r with status := match x with
      | .ok y => .done y et fin
      | .error k => .panicked k et fin } ∧ (∀ d, d ≠ c → κ'.calls d = κ.calls d) ∧ κ'.w.mem = m' := by
  intro p
  induction p with
  | ret y =>
    intro κ r x m' hc hr h
    simp only [Prog.solo, Prod.mk.injEq, Out.done.injEq] at h
    obtain ⟨rfl, rfl⟩ := h
    exact ⟨_, κ.clock, κ.w, .step .refl (.ret κ c r y hc hr), by simp [Cfg.setStatus], fun d hd => by
      simp [Cfg.setStatus, hd], rfl⟩
  | panic k =>
    intro κ r x m' hc hr h
    simp only [Prog.solo, Prod.mk.injEq, Out.done.injEq] at h
    obtain ⟨rfl, rfl⟩ := h
    exact ⟨_, κ.clock, κ.w, .step .refl (.panic κ c r k hc hr), by simp [Cfg.setStatus], fun d hd => by
      simp [Cfg.setStatus, hd], rfl⟩
  | step a again k ih =>
    intro κ r x m' hc hr h
    rcases hx : a.exec κ.w.mem with _ | ⟨m1, b⟩
    · simp only [Prog.solo, hx] at h; simp at h
    obtain ⟨h1, h2⟩ := Prog.solo_step h hx
    obtain ⟨w', hw, hmem⟩ : ∃ w', κ.w.exec c a = some (w', b) ∧ w'.mem = m1 := by
      unfold World.exec; rw [hx]; exact ⟨_, rfl, rfl⟩
    have hs := Step.act κ c r a again k w' b hc hr hw
    rw [h1] at hs
    obtain ⟨κ', et, fin, g1, g2, g3, g4⟩ := ih b (κ := { κ with
        w := w', calls := κ.setStatus c r (.running (k b)), clock := κ.clock + 1 })
      (r := { r with status := .running (k b) }) (by simp [Cfg.setStatus]) rfl (by rw [← hmem] at h2; exact h2)
    refine ⟨κ', et, fin, (Cfg.Leads.step .refl hs).trans g1, g2, fun d hd => ?_, g4⟩
    rw [g3 d hd]
    simp [Cfg.setStatus, hd]

/-- If nothing runs and all growth calls returned, the memory represents a list. -/
theorem CfgInv.rep {κ : Cfg α β} (h : CfgInv (.ofList l) κ) (hidle : κ.Idle)
    (hall : ∀ c op k, κ.Called c op → op.size = some k → ∃ x, κ.Returned c op x) : ∃ vs, κ.w.mem.Rep vs := by
  have hrun : ∀ {d : Cid}, ¬ ∃ r p, κ.calls d = some r ∧ r.status = .running p := by
    rintro d ⟨⟨op, ct, st, s⟩, p, hr, rfl⟩
    exact hidle d op ct st p hr
  have hval : ∀ i, i < κ.w.spec.len → (κ.w.spec.val i).isSome := by
    intro i hi
    have hleg := h.inv.legal
    rw [h.inv.spec_eq] at hi ⊢
    by_cases hil : i < l.length
    · exact specAt_pub hleg (by simp [SpecSt.ofList, hil])
    obtain ⟨b, k, he, h1, h2⟩ := hleg.owner_reserved hi (by omega)
    obtain ⟨op, hc, hs⟩ := h.reserve_call he
    obtain ⟨x, ct, st, et, fin, hr⟩ := hall _ _ _ hc hs
    have hst := h.status _ _ hr
    simp only [StatusOK] at hst
    obtain ⟨d, hi⟩ := h.returned hr
    rcases hv : (specAt (.ofList l) κ.w.trace).val i with _ | v
    · have := (hst.2.2.2.loc.unpub i).1 (by rw [h.inv.spec_eq]; exact ⟨‹_›, rfl, hv⟩)
      have h5 := hi.noUnpub i this.1 this.2.1
      rw [this.2.2] at h5; cases h5
    · rfl
  have hhold : ∀ i, κ.w.holder i = none := by
    intro i
    rcases hh : κ.w.holder i with _ | d
    · rfl
    · exact absurd (h.holder hh) hrun
  have hgrow : κ.w.grower = none := by
    rcases hh : κ.w.grower with _ | d
    · rfl
    · exact absurd (h.grower hh) hrun
  have hget : ∀ i (hi : i < κ.w.spec.len), κ.w.mem.val i = some ((κ.w.spec.val i).get (hval i hi)) := by
    intro i hi
    rw [h.inv.val_eq i (hval i hi)]; simp
  refine ⟨List.ofFn fun i : Fin κ.w.spec.len => (κ.w.spec.val i).get (hval i i.2), ?_, ?_, ?_, ?_, ?_, ?_, ?_, h.inv.good⟩
  · rw [List.length_ofFn]; exact h.inv.len_eq
  · rw [List.length_ofFn]
    rcases Nat.eq_zero_or_pos κ.w.mem.written with h0 | hpos
    · omega
    · have := h.inv.pub_len _ (h.inv.written (κ.w.mem.written - 1) (by omega))
      omega
  · intro i
    rw [List.length_ofFn]
    split
    · next hi =>
      have h1 : κ.w.mem.st i ≠ .NONE := by
        intro hn
        have := (h.inv.st_none i).1 hn
        have h2 := hval i hi
        rw [this] at h2; cases h2
      have h2 : κ.w.mem.st i ≠ .RESERVED := by
        intro hn
        have := (h.inv.lock i).1 hn
        rw [hhold i] at this; cases this
      rcases hst : κ.w.mem.st i with _ | _ | _
      · exact absurd hst h1
      · exact absurd hst h2
      · rfl
    · next hi =>
      rw [h.inv.st_none i]
      rcases hv : κ.w.spec.val i with _ | v
      · rfl
      · exact absurd (h.inv.pub_len i (by rw [hv]; rfl)) hi
  · intro i
    by_cases hi : i < κ.w.spec.len
    · rw [hget i hi, List.getElem?_ofFn, dif_pos hi]
    · rw [h.inv.unres i (by omega), List.getElem?_ofFn, dif_neg hi]
  · rw [List.length_ofFn]
    rcases Nat.eq_zero_or_pos κ.w.spec.len with h0 | hpos
    · omega
    · have := h.inv.pub_cap _ (hval (κ.w.spec.len - 1) (by omega))
      omega
  · exact h.inv.grow_none hgrow
  · rw [h.inv.growing, hgrow]; rfl

/-- No call is running when a call that overlaps with none is invoked. -/
theorem Exec.alone_idle (h : Exec m l n κ) (hm : InitMem m l) {c : Cid} (ha : (κ n).Alone c) {r : Rec α β}
    (hc : (κ n).calls c = some r) : (κ r.callT).Idle := by
  obtain ⟨h1, h2, h3, h4, h5⟩ := h.called_at hm hc
  intro d op ct st p hd
  have hne : d ≠ c := by rintro rfl; rw [h2] at hd; cases hd
  obtain ⟨e1, e2, e3, e4⟩ := h.overlap_invoke hm h1 hd rfl h4 h2
  exact ha d hne ⟨e2, e1, e4, e3⟩

end Verif
