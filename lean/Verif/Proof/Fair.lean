import Verif.Proof.Progress

/-!
# Fair infinite executions

Helper file (no property statements).
-/

namespace Verif

variable {α β : Type} {m : Mem α} {l : List α} {κ : Nat → Cfg α β}

theorem InfExec.exec (h : InfExec m l κ) (n : Nat) : Exec m l n κ := ⟨h.init, fun t _ => h.next t⟩

theorem InfExec.inv (h : InfExec m l κ) (hm : InitMem m l) (t : Nat) : CfgInv (.ofList l) (κ t) :=
  (h.exec t).inv hm (Nat.le_refl t)

theorem InfExec.evolves (h : InfExec m l κ) (hm : InitMem m l) {s t : Nat} (hst : s ≤ t) :
    Evolves (κ s).w (κ t).w := (h.exec t).evolves hm hst (Nat.le_refl t)

/-- The call did something: it ended or went on to the rest of its program. -/
def Rec.Advances (r r' : Rec α β) : Prop :=
  r'.status.ended.isSome ∨
  ∃ a again k b, r.status = .running (.step a again k) ∧ again b = false ∧ r' = { r with status := .running (k b) }

/-- A step of call `c`: it either waits or advances. -/
theorem CfgInv.moves {κ κ' : Cfg α β} (h : CfgInv (.ofList l) κ) {c : Cid} (hmv : κ.Moves c κ') {r : Rec α β}
    (hc : κ.calls c = some r) :
    (κ.Blocked c ∧ κ'.calls c = some r ∧ κ'.w = κ.w) ∨ (∃ r', κ'.calls c = some r' ∧ r.Advances r') := by
  obtain ⟨r1, hc1, ⟨a, again, k, w', b, hr, he, rfl⟩ | ⟨x, hr, rfl⟩ | ⟨k, hr, rfl⟩⟩ := hmv
  · rw [hc] at hc1
    simp only [Option.some.injEq] at hc1
    subst hc1
    cases hb : again b with
    | true =>
      obtain ⟨hsafe, -⟩ := h.running hc hr
      obtain ⟨-, hex⟩ := hsafe _ h.inv (.refl _ _)
      obtain ⟨rfl, hok⟩ := (hex w' b he).2.1 hb
      refine .inl ⟨h.blocked_iff.2 ⟨r, a, again, k, b, hc, hr, he, hb, hok⟩, ?_, rfl⟩
      show κ.setStatus c r _ c = some r
      rw [setStatus_self]
      simp [← hr]
    | false =>
      refine .inr ⟨_, setStatus_self, .inr ⟨a, again, k, b, hr, hb, ?_⟩⟩
      simp
  · exact .inr ⟨_, setStatus_self, .inl rfl⟩
  · exact .inr ⟨_, setStatus_self, .inl rfl⟩

/-- A running call either stays where it is forever, or advances at some moment. -/
theorem InfExec.stay_or_advance (h : InfExec m l κ) (hm : InitMem m l) {t : Nat} {c : Cid} {r : Rec α β}
    {p : Prog α (Ret α β)} (hc : (κ t).calls c = some r) (hr : r.status = .running p) :
    (∀ s, t ≤ s → (κ s).calls c = some r ∧ Rely c (κ t).w (κ s).w) ∨
    (∃ s r', t ≤ s ∧ (κ s).calls c = some r ∧ Rely c (κ t).w (κ s).w ∧ (κ s).Moves c (κ (s + 1)) ∧
      (κ (s + 1)).calls c = some r' ∧ r.Advances r') := by
  classical
  by_cases hall : ∃ s r', t ≤ s ∧ (κ s).calls c = some r ∧ Rely c (κ t).w (κ s).w ∧ (κ s).Moves c (κ (s + 1)) ∧
      (κ (s + 1)).calls c = some r' ∧ r.Advances r'
  · exact .inr hall
  · left
    intro s hs
    induction hs with
    | refl => exact ⟨hc, .refl _ _⟩
    | @step s hs ih =>
      obtain ⟨hcs, hrel⟩ := ih
      rcases (h.inv hm s).step_other (h.next s) hcs hr with hmv | ⟨h1, h2⟩
      · rcases (h.inv hm s).moves hmv hcs with ⟨-, h1, h2⟩ | ⟨r', h1, h2⟩
        · exact ⟨h1, by rw [h2]; exact hrel⟩
        · exact absurd ⟨s, r', hs, hcs, hrel, hmv, h1, h2⟩ hall
      · exact ⟨h1, hrel.trans h2⟩

/-- A call that is over stays over. -/
theorem InfExec.ended_mono (h : InfExec m l κ) (hm : InitMem m l) {s t : Nat} (hst : s ≤ t) {c : Cid} {r : Rec α β}
    (hc : (κ s).calls c = some r) {x} (he : r.status.ended = some x) : (κ t).calls c = some r := by
  obtain ⟨r', h1, -, -, -, h2, -⟩ := (h.exec t).rec_mono hm hc hst (Nat.le_refl t)
  rw [h2 x he] at h1
  exact h1

/-- The positions of the calls in `S` are within the capacity, from some moment on. -/
def Allocated (S : Cid → Prop) (κ : Nat → Cfg α β) : Prop :=
  ∀ c, S c → ∃ T, ∀ s, T ≤ s → ∀ j, j < (κ s).w.spec.len → (κ s).w.spec.owner j = c → j < (κ s).w.mem.cap

theorem Fair.except (h : Fair κ) : FairExcept (fun _ => False) κ := fun t c op _ => h t c op

theorem Allocated.empty : Allocated (fun _ => False) κ := fun _ h => h.elim

/-- The owner of the position at which the storage has to grow eventually grows it, if somebody waits for it. -/
theorem InfExec.cap_grows (h : InfExec m l κ) (hm : InitMem m l) {S : Cid → Prop} (hf : FairExcept S κ)
    (hS : Allocated S κ) (hp : ∀ t, (κ t).GrowthIntact)
    {C i : Nat} : ∀ (p : Prog α (Ret α β)) (t : Nat) (r : Rec α β), (κ t).w.mem.cap = C → C < i →
    i < (κ t).w.spec.len → i < (κ t).w.mem.maxCap → (κ t).w.spec.owner i ≠ (κ t).w.spec.owner C →
    (κ t).calls ((κ t).w.spec.owner C) = some r → r.status = .running p →
    ∃ t', t ≤ t' ∧ C < (κ t').w.mem.cap := by
  have hown : ∀ t, (κ t).w.mem.cap = C → C < (κ t).w.spec.len → ¬ (∃ t', t ≤ t' ∧ C < (κ t').w.mem.cap) →
      ¬ S ((κ t).w.spec.owner C) := by
    intro t _ hl hno hSc
    obtain ⟨T, hT⟩ := hS _ hSc
    have hev := h.evolves hm (Nat.le_max_left t T)
    exact hno ⟨max t T, Nat.le_max_left _ _, hT _ (Nat.le_max_right _ _) C (Nat.lt_of_lt_of_le hl hev.len)
      (hev.owner C hl)⟩
  intro p
  induction p with
  | ret x =>
    intro t r hcap hCi hil him hne hc hr
    by_contra hno
    have hnS := hown t hcap (by omega) hno
    simp only [not_exists, not_and, Nat.not_lt] at hno
    have hev : ∀ s, t ≤ s → (κ s).w.mem.cap = C ∧ i < (κ s).w.spec.len ∧ i < (κ s).w.mem.maxCap ∧
        (κ s).w.spec.owner i = (κ t).w.spec.owner i ∧ (κ s).w.spec.owner C = (κ t).w.spec.owner C := by
      intro s hs
      have e := h.evolves hm hs
      have := e.cap; have := e.len; have := e.maxCap; have := hno s hs
      exact ⟨by omega, by omega, by omega, e.owner i hil, e.owner C (by omega)⟩
    rcases h.stay_or_advance hm hc hr with hst | ⟨s, r', hs, hcs, -, hmv, hcs', hadv⟩
    · obtain ⟨s, hs, hmv⟩ := hf t _ _ hnS (Cfg.running_of hc hr)
      obtain ⟨e1, e2, e3, e4, e5⟩ := hev s hs
      have hnb := (h.inv hm s).capOwner_not_blocked (by omega)
      rw [e1, e5] at hnb
      rcases (h.inv hm s).moves hmv (hst s hs).1 with ⟨hb, -⟩ | ⟨r', h1, h2⟩
      · exact hnb hb
      · rw [(hst (s + 1) (by omega)).1] at h1
        simp only [Option.some.injEq] at h1
        subst h1
        rcases h2 with h2 | ⟨a, again, k, b, h2, -⟩
        · rw [hr] at h2; cases h2
        · rw [hr] at h2; cases h2
    · rcases hadv with he | ⟨a, again, k, b, h2, -⟩
      · obtain ⟨e1, e2, e3, e4, e5⟩ := hev (s + 1) (by omega)
        obtain ⟨r2, p2, n2, hc2, hr2, -⟩ := (h.inv hm (s + 1)).capOwner (hp (s + 1)) (i := i) (by omega) e2 e3
          (by rw [e1, e4, e5]; exact hne)
        rw [e1, e5, hcs'] at hc2
        simp only [Option.some.injEq] at hc2
        subst hc2
        rw [hr2] at he; cases he
      · rw [hr] at h2; cases h2
  | panic x =>
    intro t r hcap hCi hil him hne hc hr
    by_contra hno
    have hnS := hown t hcap (by omega) hno
    simp only [not_exists, not_and, Nat.not_lt] at hno
    have hev : ∀ s, t ≤ s → (κ s).w.mem.cap = C ∧ i < (κ s).w.spec.len ∧ i < (κ s).w.mem.maxCap ∧
        (κ s).w.spec.owner i = (κ t).w.spec.owner i ∧ (κ s).w.spec.owner C = (κ t).w.spec.owner C := by
      intro s hs
      have e := h.evolves hm hs
      have := e.cap; have := e.len; have := e.maxCap; have := hno s hs
      exact ⟨by omega, by omega, by omega, e.owner i hil, e.owner C (by omega)⟩
    rcases h.stay_or_advance hm hc hr with hst | ⟨s, r', hs, hcs, -, hmv, hcs', hadv⟩
    · obtain ⟨s, hs, hmv⟩ := hf t _ _ hnS (Cfg.running_of hc hr)
      obtain ⟨e1, e2, e3, e4, e5⟩ := hev s hs
      have hnb := (h.inv hm s).capOwner_not_blocked (by omega)
      rw [e1, e5] at hnb
      rcases (h.inv hm s).moves hmv (hst s hs).1 with ⟨hb, -⟩ | ⟨r', h1, h2⟩
      · exact hnb hb
      · rw [(hst (s + 1) (by omega)).1] at h1
        simp only [Option.some.injEq] at h1
        subst h1
        rcases h2 with h2 | ⟨a, again, k, b, h2, -⟩
        · rw [hr] at h2; cases h2
        · rw [hr] at h2; cases h2
    · rcases hadv with he | ⟨a, again, k, b, h2, -⟩
      · obtain ⟨e1, e2, e3, e4, e5⟩ := hev (s + 1) (by omega)
        obtain ⟨r2, p2, n2, hc2, hr2, -⟩ := (h.inv hm (s + 1)).capOwner (hp (s + 1)) (i := i) (by omega) e2 e3
          (by rw [e1, e4, e5]; exact hne)
        rw [e1, e5, hcs'] at hc2
        simp only [Option.some.injEq] at hc2
        subst hc2
        rw [hr2] at he; cases he
      · rw [hr] at h2; cases h2
  | step a again k ih =>
    intro t r hcap hCi hil him hne hc hr
    by_contra hno
    have hnS := hown t hcap (by omega) hno
    simp only [not_exists, not_and, Nat.not_lt] at hno
    have hev : ∀ s, t ≤ s → (κ s).w.mem.cap = C ∧ i < (κ s).w.spec.len ∧ i < (κ s).w.mem.maxCap ∧
        (κ s).w.spec.owner i = (κ t).w.spec.owner i ∧ (κ s).w.spec.owner C = (κ t).w.spec.owner C := by
      intro s hs
      have e := h.evolves hm hs
      have := e.cap; have := e.len; have := e.maxCap; have := hno s hs
      exact ⟨by omega, by omega, by omega, e.owner i hil, e.owner C (by omega)⟩
    rcases h.stay_or_advance hm hc hr with hst | ⟨s, r', hs, hcs, -, hmv, hcs', hadv⟩
    · obtain ⟨s, hs, hmv⟩ := hf t _ _ hnS (Cfg.running_of hc hr)
      obtain ⟨e1, e2, e3, e4, e5⟩ := hev s hs
      have hnb := (h.inv hm s).capOwner_not_blocked (by omega)
      rw [e1, e5] at hnb
      rcases (h.inv hm s).moves hmv (hst s hs).1 with ⟨hb, -⟩ | ⟨r', h1, h2⟩
      · exact hnb hb
      · rw [(hst (s + 1) (by omega)).1] at h1
        simp only [Option.some.injEq] at h1
        subst h1
        rcases h2 with h2 | ⟨a', again', k', b, h2, hbf, h3⟩
        · rw [hr] at h2; cases h2
        · have h4 := congrArg Rec.status h3
          simp only at h4
          rw [h2] at h4
          simp only [Status.running.injEq] at h4
          exact Prog.cont_ne _ a' again' k' b rfl h4.symm
    · obtain ⟨e1, e2, e3, e4, e5⟩ := hev (s + 1) (by omega)
      rcases hadv with he | ⟨a', again', k', b, h2, hbf, h3⟩
      · obtain ⟨r2, p2, n2, hc2, hr2, -⟩ := (h.inv hm (s + 1)).capOwner (hp (s + 1)) (i := i) (by omega) e2 e3
          (by rw [e1, e4, e5]; exact hne)
        rw [e1, e5, hcs'] at hc2
        simp only [Option.some.injEq] at hc2
        subst hc2
        rw [hr2] at he; cases he
      · rw [hr] at h2
        simp only [Status.running.injEq, Prog.step.injEq] at h2
        obtain ⟨rfl, h4, h5⟩ := h2
        have h4 := eq_of_heq h4
        have h5 := eq_of_heq h5
        subst h4 h5
        obtain ⟨t', ht', hC⟩ := ih b (s + 1) r' e1 hCi e2 e3 (by rw [e4, e5]; exact hne)
          (by rw [e5]; exact hcs') (by rw [h3])
        exact absurd hC (by have := hno t' (by omega); omega)

/-- A property of programs that continuations inherit. -/
def Prog.Closed (P : Prog α (Ret α β) → Prop) : Prop :=
  ∀ a again k b, P (.step a again k) → P (k b)

/-- A running call ends, or it is stuck at some step forever, waiting again and again. -/
theorem InfExec.ends_or_stuck (h : InfExec m l κ) (hm : InitMem m l) {S : Cid → Prop} (hf : FairExcept S κ)
    {P : Prog α (Ret α β) → Prop} (hP : Prog.Closed P) {c : Cid} (hcS : ¬ S c) : ∀ (p : Prog α (Ret α β)) (t : Nat) (r : Rec α β), (κ t).calls c = some r →
    r.status = .running p → P p →
    (∃ t' r' x, t ≤ t' ∧ (κ t').calls c = some r' ∧ r'.status.ended = some x) ∨
    (∃ t' r' a again k, t ≤ t' ∧ r'.status = .running (.step a again k) ∧ P (.step a again k) ∧
      (∀ s, t' ≤ s → (κ s).calls c = some r' ∧ Rely c (κ t').w (κ s).w) ∧
      ∀ s, t' ≤ s → ∃ s', s ≤ s' ∧ (κ s').Blocked c) := by
  have key : ∀ (p : Prog α (Ret α β)) (t : Nat) (r : Rec α β), (κ t).calls c = some r →
      r.status = .running p → P p → (∀ s, t ≤ s → (κ s).calls c = some r ∧ Rely c (κ t).w (κ s).w) →
      (∃ a again k, p = .step a again k) ∧ ∀ s, t ≤ s → ∃ s', s ≤ s' ∧ (κ s').Blocked c := by
    intro p t r hc hr hp hst
    have hb : ∀ s, t ≤ s → ∃ s', s ≤ s' ∧ (κ s').Blocked c := by
      intro s hs
      obtain ⟨s', hs', hmv⟩ := hf s _ _ hcS (Cfg.running_of (hst s hs).1 hr)
      rcases (h.inv hm s').moves hmv (hst s' (by omega)).1 with ⟨hb, -⟩ | ⟨r', h1, h2⟩
      · exact ⟨s', hs', hb⟩
      · exfalso
        rw [(hst (s' + 1) (by omega)).1] at h1
        simp only [Option.some.injEq] at h1
        subst h1
        rcases h2 with h2 | ⟨a', again', k', b, h2, hbf, h3⟩
        · rw [hr] at h2; cases h2
        · have h4 := congrArg Rec.status h3
          simp only at h4
          rw [h2] at h4
          simp only [Status.running.injEq] at h4
          exact Prog.cont_ne _ a' again' k' b rfl h4.symm
    refine ⟨?_, hb⟩
    obtain ⟨s', hs', hbl⟩ := hb t (Nat.le_refl t)
    obtain ⟨r2, a, again, k, b, hc2, hr2, -⟩ := (h.inv hm s').blocked_iff.1 hbl
    rw [(hst s' hs').1] at hc2
    simp only [Option.some.injEq] at hc2
    subst hc2
    rw [hr] at hr2
    simp only [Status.running.injEq] at hr2
    exact ⟨a, again, k, hr2⟩
  intro p
  induction p with
  | ret x =>
    intro t r hc hr hp
    rcases h.stay_or_advance hm hc hr with hst | ⟨s, r', hs, hcs, -, hmv, hcs', hadv⟩
    · obtain ⟨⟨a, again, k, h1⟩, -⟩ := key _ t r hc hr hp hst
      cases h1
    · rcases hadv with he | ⟨a, again, k, b, h2, -⟩
      · obtain ⟨x, hx⟩ := Option.isSome_iff_exists.1 he
        exact .inl ⟨s + 1, r', x, by omega, hcs', hx⟩
      · rw [hr] at h2; cases h2
  | panic x =>
    intro t r hc hr hp
    rcases h.stay_or_advance hm hc hr with hst | ⟨s, r', hs, hcs, -, hmv, hcs', hadv⟩
    · obtain ⟨⟨a, again, k, h1⟩, -⟩ := key _ t r hc hr hp hst
      cases h1
    · rcases hadv with he | ⟨a, again, k, b, h2, -⟩
      · obtain ⟨x, hx⟩ := Option.isSome_iff_exists.1 he
        exact .inl ⟨s + 1, r', x, by omega, hcs', hx⟩
      · rw [hr] at h2; cases h2
  | step a again k ih =>
    intro t r hc hr hp
    rcases h.stay_or_advance hm hc hr with hst | ⟨s, r', hs, hcs, -, hmv, hcs', hadv⟩
    · obtain ⟨-, h2⟩ := key _ t r hc hr hp hst
      exact .inr ⟨t, r, a, again, k, Nat.le_refl t, hr, hp, hst, h2⟩
    · rcases hadv with he | ⟨a', again', k', b, h2, hbf, h3⟩
      · obtain ⟨x, hx⟩ := Option.isSome_iff_exists.1 he
        exact .inl ⟨s + 1, r', x, by omega, hcs', hx⟩
      · rw [hr] at h2
        simp only [Status.running.injEq, Prog.step.injEq] at h2
        obtain ⟨rfl, h4, h5⟩ := h2
        have h4 := eq_of_heq h4
        have h5 := eq_of_heq h5
        subst h4 h5
        rcases ih b (s + 1) r' hcs' (by rw [h3]) (hP _ _ _ _ hp) with ⟨t', r2, x, h6, h7, h8⟩ | ⟨t', r2, a2, g2, k2, h6, h7⟩
        · exact .inl ⟨t', r2, x, by omega, h7, h8⟩
        · exact .inr ⟨t', r2, a2, g2, k2, by omega, h7⟩

/-! ## Calls that do not lock elements -/

/-- The program does not try to lock an element. -/
def Prog.NoLock {ρ : Type} : Prog α ρ → Prop
  | .step a _ k => (∀ i e n o f, a ≠ .stCas i e n o f) ∧ ∀ b, (k b).NoLock
  | _ => True

theorem Prog.NoLock.bind {ρ ρ' : Type} {p : Prog α ρ} {f : ρ → Prog α ρ'} (hp : p.NoLock) (hf : ∀ r, (f r).NoLock) :
    (p.bind f).NoLock := by
  induction p with
  | ret r => exact hf r
  | panic k => trivial
  | step a again k ih => exact ⟨hp.1, fun b => ih b (hp.2 b)⟩

theorem noLock_act {a : Act α} (h : ∀ i e n o f, a ≠ .stCas i e n o f) : (act a).NoLock := ⟨h, fun _ => trivial⟩

theorem noLock_spin {a : Act α} {g : a.Resp → Bool} (h : ∀ i e n o f, a ≠ .stCas i e n o f) : (spin a g).NoLock :=
  ⟨h, fun _ => trivial⟩

section

open Prog

theorem noLock_settled : ∀ (n s : Nat), (CVec.settled s n : Prog α Nat).NoLock := by
  intro n
  induction n with
  | zero => intro s; trivial
  | succ n ih =>
    intro s
    refine NoLock.bind (noLock_act (by simp)) fun b => ?_
    split
    · exact ih _
    · trivial

theorem noLock_len : (CVec.len : Prog α Nat).NoLock := by
  refine NoLock.bind (noLock_act (by simp)) fun _ => NoLock.bind (noLock_act (by simp)) fun _ =>
    NoLock.bind (noLock_act (by simp)) fun _ => NoLock.bind (noLock_settled _ _) fun _ =>
    NoLock.bind (noLock_act (by simp)) fun _ => trivial

theorem noLock_reservedLen : (CVec.reservedLen : Prog α Nat).NoLock :=
  NoLock.bind (noLock_act (by simp)) fun _ => NoLock.bind (noLock_act (by simp)) fun _ => trivial

theorem noLock_colGet (i : Nat) : (Col.get i : Prog α _).NoLock := NoLock.bind (noLock_act (by simp)) fun _ => trivial

theorem noLock_get (i : Nat) : (CVec.get i : Prog α _).NoLock := by
  refine NoLock.bind noLock_len fun _ => ?_
  split
  · exact noLock_colGet _
  · trivial

theorem noLock_index (i : Nat) : (CVec.index i : Prog α _).NoLock := by
  refine NoLock.bind (noLock_get _) fun o => ?_
  cases o <;> trivial

theorem noLock_assert (i : Nat) : (Col.assertHasCapacityFor i : Prog α _).NoLock := by
  refine NoLock.bind (noLock_act (by simp)) fun _ => ?_
  split <;> trivial

theorem noLock_growTo (i : Nat) : (Col.growTo i : Prog α _).NoLock := by
  refine NoLock.bind (noLock_act (by simp)) fun _ => ?_
  split
  · trivial
  · refine NoLock.bind (noLock_act (by simp)) fun _ => ?_
    split
    · exact NoLock.bind (noLock_act (by simp)) fun _ => noLock_act (by simp)
    · trivial

theorem noLock_singleItem (i : Nat) : (Col.singleItem i : Prog α _).NoLock := by
  refine NoLock.bind (noLock_assert _) fun _ => NoLock.bind (noLock_spin (by simp)) fun _ => ?_
  split
  · trivial
  · exact noLock_growTo _
  · trivial

theorem noLock_nItems (i n : Nat) : (Col.nItems i n : Prog α _).NoLock := by
  unfold Col.nItems
  split
  · trivial
  · refine NoLock.bind (noLock_assert _) fun _ => NoLock.bind (noLock_spin (by simp)) fun _ => ?_
    split
    · trivial
    · exact noLock_growTo _
    · trivial

theorem noLock_init (i : Nat) (v : α) : (COpt.init i v).NoLock :=
  NoLock.bind (noLock_act (by simp)) fun _ => noLock_act (by simp)

theorem noLock_writeItems : ∀ (n i : Nat) (items : List (Option α)), (CVec.writeItems i n items).NoLock := by
  intro n
  induction n with
  | zero => intro i items; trivial
  | succ n ih =>
    intro i items
    rcases items with _ | ⟨_ | v, vs⟩
    · trivial
    · trivial
    · exact NoLock.bind (noLock_init _ _) fun _ => ih _ _

theorem noLock_extendN (items : List (Option α)) (n : Nat) : (CVec.extendN items n).NoLock :=
  NoLock.bind (noLock_act (by simp)) fun _ => NoLock.bind (noLock_nItems _ _) fun _ =>
    NoLock.bind (noLock_writeItems _ _ _) fun _ => trivial

theorem noLock_slice (r : Rng) : (CVec.slice r : Prog α _).NoLock := NoLock.bind noLock_len fun _ => trivial

theorem noLock_rawRefs (o : MOrd) : ∀ (l : List Nat), (Loop.rawRefs o l : Prog α _).NoLock := by
  intro l
  induction l with
  | nil => trivial
  | cons i is ih =>
    refine NoLock.bind (NoLock.bind (noLock_act (by simp)) fun _ => trivial) fun p => NoLock.bind ih fun _ => ?_
    cases p <;> trivial

theorem noLock_chunkLoop (n k : Nat) : ∀ (l : List Nat), (CVec.chunkLoop n k l : Prog α _).NoLock := by
  intro l
  induction l with
  | nil => trivial
  | cons i is ih => exact NoLock.bind (noLock_slice _) fun _ => NoLock.bind ih fun _ => trivial

theorem noLock_getRaw (o : MOrd) (i : Nat) : (CVec.getRaw o i : Prog α _).NoLock := by
  refine NoLock.bind noLock_reservedLen fun _ => ?_
  split
  · refine NoLock.bind (noLock_colGet _) fun o => ?_
    cases o
    · trivial
    · exact NoLock.bind (noLock_act (by simp)) fun _ => trivial
  · trivial

theorem noLock_slGet (s : Slc) (i : Nat) : (s.get i : Prog α _).NoLock := by
  unfold Slc.get
  split
  · exact noLock_colGet _
  · trivial

theorem noLock_slIndex (s : Slc) (i : Nat) : (s.index i : Prog α _).NoLock := by
  refine NoLock.bind (noLock_slGet _ _) fun o => ?_
  cases o <;> trivial

theorem Op.noLock {op : Op α β} (h : ¬ op.Locks) : op.prog.NoLock := by
  cases op <;> simp only [Op.Locks, not_true_eq_false, not_false_eq_true] at h <;>
    first | exact trivial | refine NoLock.bind ?_ fun _ => trivial
  case push => exact NoLock.bind (noLock_act (by simp)) fun _ => NoLock.bind (noLock_singleItem _) fun _ =>
    NoLock.bind (noLock_init _ _) fun _ => trivial
  case pushForIdx f =>
    refine NoLock.bind (noLock_act (by simp)) fun _ => ?_
    split
    · exact NoLock.bind (noLock_singleItem _) fun _ => NoLock.bind (noLock_init _ _) fun _ => trivial
    · trivial
  case extend => exact noLock_extendN _ _
  case extendN => exact noLock_extendN _ _
  case extendForIdx =>
    refine NoLock.bind (noLock_act (by simp)) fun _ => NoLock.bind (noLock_nItems _ _) fun _ => ?_
    split
    · split
      · exact NoLock.bind (noLock_writeItems _ _ _) fun _ => trivial
      · trivial
    · trivial
  case len => exact noLock_len
  case isEmpty => exact NoLock.bind noLock_len fun _ => trivial
  case capacity => exact noLock_act (by simp)
  case maximumCapacity => exact noLock_act (by simp)
  case get => exact noLock_get _
  case index => exact noLock_index _
  case iter => exact NoLock.bind noLock_len fun _ => trivial
  case slice => exact noLock_slice _
  case asSlice => exact NoLock.bind noLock_len fun _ => noLock_slice _
  case splitAt =>
    refine NoLock.bind noLock_len fun _ => ?_
    split
    · exact NoLock.bind (noLock_slice _) fun _ => NoLock.bind (noLock_slice _) fun _ => trivial
    · trivial
  case splitFirst =>
    refine NoLock.bind (noLock_get _) fun o => ?_
    cases o
    · trivial
    · exact NoLock.bind noLock_len fun _ => NoLock.bind (noLock_slice _) fun _ => trivial
  case splitLast =>
    refine NoLock.bind noLock_len fun _ => ?_
    split
    · trivial
    · exact NoLock.bind (noLock_slice _) fun _ => NoLock.bind (noLock_index _) fun _ => trivial
  case chunks =>
    unfold CVec.chunks
    split
    · exact NoLock.bind noLock_len fun _ => noLock_chunkLoop _ _ _
    · trivial
  case getRaw => exact noLock_getRaw _ _
  case iterRef => exact NoLock.bind noLock_reservedLen fun _ => noLock_rawRefs _ _
  case slGet => exact noLock_slGet _ _
  case slIndex => exact noLock_slIndex _ _
  case slSplitAt => unfold Slc.splitAt; split <;> trivial
  case slSplitFirst =>
    refine NoLock.bind (noLock_slGet _ _) fun o => ?_
    cases o <;> trivial
  case slSplitLast =>
    unfold Slc.splitLast
    split
    · trivial
    · exact NoLock.bind (noLock_slIndex _ _) fun _ => trivial
  case slChunks => unfold Slc.chunks; split <;> trivial
  case slGetRaw =>
    unfold Slc.getRaw
    split
    · exact noLock_getRaw _ _
    · trivial
  case slIterRef => exact noLock_rawRefs _ _
  case deref => exact noLock_act (by simp)

end

/-- When a call was invoked. -/
theorem InfExec.called_at (h : InfExec m l κ) (hm : InitMem m l) {t : Nat} {c : Cid} {op : Op α β}
    (hc : (κ t).Called c op) : ∃ t0 r, t0 ≤ t ∧ (κ t0).calls c = some r ∧ r.op = op ∧ r.status = .running op.prog := by
  obtain ⟨ct, st, s, hc⟩ := hc
  obtain ⟨h1, -, -, h4, -⟩ := (h.exec t).called_at hm hc
  exact ⟨ct + 1, _, h1, h4, rfl, rfl⟩

/-- A call that waits for capacity again and again does not stay stuck. -/
theorem InfExec.not_stuck_cap (h : InfExec m l κ) (hm : InitMem m l) {S : Cid → Prop} (hf : FairExcept S κ)
    (hS : Allocated S κ) (hp : ∀ t, (κ t).GrowthIntact) {c : Cid} {t : Nat} {r : Rec α β} {a : Act α} {again : a.Resp → Bool} {k : a.Resp → Prog α (Ret α β)}
    (hr : r.status = .running (.step a again k)) (hn : ∀ i e n o f, a ≠ .stCas i e n o f)
    (hst : ∀ s, t ≤ s → (κ s).calls c = some r ∧ Rely c (κ t).w (κ s).w)
    (hbl : ∀ s, t ≤ s → ∃ s', s ≤ s' ∧ (κ s').Blocked c) : False := by
  have hwait : ∀ s, t ≤ s → (κ s).Blocked c → ∃ i, (κ s).w.mem.cap < i ∧ i < (κ t).w.spec.len ∧
      i < (κ s).w.spec.len ∧ i < (κ s).w.mem.maxCap ∧ (κ s).w.spec.owner i ≠ (κ s).w.spec.owner (κ s).w.mem.cap := by
    intro s hs hb
    obtain ⟨r2, a2, g2, k2, b2, hc2, hr2, -, -, hok⟩ := (h.inv hm s).blocked_iff.1 hb
    rw [(hst s hs).1] at hc2
    simp only [Option.some.injEq] at hc2
    subst hc2
    rw [hr] at hr2
    simp only [Status.running.injEq, Prog.step.injEq] at hr2
    obtain ⟨rfl, -, -⟩ := hr2
    cases a <;> simp only [BlockOK] at hok
    · obtain ⟨-, h1, i, h2, h3, h4, h5⟩ := hok
      refine ⟨i, h2, ?_, h3, h4, by rw [h5]; exact fun hh => h1 hh.symm⟩
      by_contra hge
      exact (hst s hs).2.fresh i (by omega) h3 h5
    · exact (hn _ _ _ _ _ rfl).elim
  have hgrow : ∀ n, ∃ s, t ≤ s ∧ n ≤ (κ s).w.mem.cap := by
    intro n
    induction n with
    | zero => exact ⟨t, Nat.le_refl t, Nat.zero_le _⟩
    | succ n ih =>
      obtain ⟨s, hs, hn⟩ := ih
      obtain ⟨s', hs', hb⟩ := hbl s hs
      have hle := (h.evolves hm hs').cap
      rcases Nat.lt_or_ge n (κ s').w.mem.cap with hlt | hge
      · exact ⟨s', by omega, hlt⟩
      · obtain ⟨i, h1, h2, h3, h4, h5⟩ := hwait s' (by omega) hb
        obtain ⟨rd, p, n', hcd, hrd, -⟩ := (h.inv hm s').capOwner (hp s') h1 h3 h4 h5
        obtain ⟨t', ht', hlt⟩ := h.cap_grows hm hf hS hp (C := (κ s').w.mem.cap) (i := i) p s' rd rfl h1 h3 h4 h5 hcd hrd
        exact ⟨t', by omega, by omega⟩
  obtain ⟨s, hs, hn⟩ := hgrow (κ t).w.spec.len
  obtain ⟨s', hs', hb⟩ := hbl s hs
  obtain ⟨i, h1, h2, -⟩ := hwait s' (by omega) hb
  have hle := (h.evolves hm hs').cap
  omega

/-- A call that locks no element ends. -/
theorem InfExec.noLock_ends (h : InfExec m l κ) (hm : InitMem m l) {S : Cid → Prop} (hf : FairExcept S κ)
    (hS : Allocated S κ) (hp : ∀ t, (κ t).GrowthIntact) {c : Cid} (hcS : ¬ S c) {op : Op α β} (hop : ¬ op.Locks) {t : Nat} (hc : (κ t).Called c op) :
    ∃ t' r x, (κ t').calls c = some r ∧ r.status.ended = some x := by
  obtain ⟨t0, r, -, hc0, rfl, hr⟩ := h.called_at hm hc
  rcases h.ends_or_stuck hm hf (P := Prog.NoLock) (fun a again k b hh => hh.2 b) hcS _ t0 r hc0 hr (Op.noLock hop) with
    ⟨t', r', x, -, h2, h3⟩ | ⟨t', r', a, again, k, -, h2, h3, h4, h5⟩
  · exact ⟨t', r', x, h2, h3⟩
  · exact (h.not_stuck_cap hm hf hS hp h2 h3.1 h4 h5).elim

/-- A call that is never blocked ends. -/
theorem InfExec.unblocked_ends (h : InfExec m l κ) (hm : InitMem m l) (hf : Fair κ) {c : Cid} {op : Op α β}
    {t : Nat} (hc : (κ t).Called c op) (hnb : ∀ t, ¬ (κ t).Blocked c) :
    ∃ t' r x, (κ t').calls c = some r ∧ r.status.ended = some x := by
  obtain ⟨t0, r, -, hc0, rfl, hr⟩ := h.called_at hm hc
  rcases h.ends_or_stuck hm hf.except (P := fun _ => True) (fun a again k b hh => trivial) id _ t0 r hc0 hr trivial with
    ⟨t', r', x, -, h2, h3⟩ | ⟨t', r', a, again, k, -, h2, h3, h4, h5⟩
  · exact ⟨t', r', x, h2, h3⟩
  · obtain ⟨s, -, hb⟩ := h5 t' (Nat.le_refl _)
    exact (hnb s hb).elim

/-- The record of every call is constant from some moment on. -/
theorem InfExec.settles (h : InfExec m l κ) (hm : InitMem m l) (hf : Fair κ) (c : Cid) :
    ∃ T, ∀ s, T ≤ s → (κ s).calls c = (κ T).calls c := by
  classical
  by_cases hex : ∃ t r, (κ t).calls c = some r
  · obtain ⟨t, ⟨op, ct, st, s⟩, hc⟩ := hex
    obtain ⟨t0, r, -, hc0, rfl, hr⟩ := h.called_at hm (t := t) ⟨ct, st, s, hc⟩
    rcases h.ends_or_stuck hm hf.except (P := fun _ => True) (fun a again k b hh => trivial) id _ t0 r hc0 hr trivial with
      ⟨t', r', x, -, h2, h3⟩ | ⟨t', r', a, again, k, -, h2, h3, h4, h5⟩
    · exact ⟨t', fun s hs => by rw [h2]; exact h.ended_mono hm hs h2 h3⟩
    · exact ⟨t', fun s hs => by rw [(h4 s hs).1, (h4 t' (Nat.le_refl _)).1]⟩
  · simp only [not_exists] at hex
    have : ∀ t, (κ t).calls c = none := fun t => by
      rcases hh : (κ t).calls c with _ | r
      · rfl
      · exact absurd hh (hex t r)
    exact ⟨0, fun s _ => by rw [this, this]⟩

/-- If only finitely many calls are made, all records are constant from some moment on. -/
theorem InfExec.settles_all (h : InfExec m l κ) (hm : InitMem m l) (hf : Fair κ) (hN : FinitelyManyCalls κ) :
    ∃ T, ∀ s, T ≤ s → ∀ c, (κ s).calls c = (κ T).calls c := by
  obtain ⟨N, hN⟩ := hN
  have key : ∀ k, ∃ T, ∀ s, T ≤ s → ∀ c, c < k → (κ s).calls c = (κ T).calls c := by
    intro k
    induction k with
    | zero => exact ⟨0, fun s _ c hc => absurd hc (Nat.not_lt_zero c)⟩
    | succ k ih =>
      obtain ⟨T1, h1⟩ := ih
      obtain ⟨T2, h2⟩ := h.settles hm hf k
      refine ⟨max T1 T2, fun s hs c hc => ?_⟩
      rcases Nat.lt_succ_iff_lt_or_eq.1 hc with hlt | rfl
      · rw [h1 s (by omega) c hlt, h1 (max T1 T2) (by omega) c hlt]
      · rw [h2 s (by omega), h2 (max T1 T2) (by omega)]
  obtain ⟨T, hT⟩ := key N
  refine ⟨T, fun s hs c => ?_⟩
  rcases Nat.lt_or_ge c N with hlt | hge
  · exact hT s hs c hlt
  · have : ∀ t, (κ t).calls c = none := fun t => by
      rcases hh : (κ t).calls c with _ | ⟨op, ct, st, s⟩
      · rfl
      · exact absurd (hN t c op ⟨ct, st, s, hh⟩) (Nat.not_lt.2 hge)
    rw [this, this]

theorem Op.SwapsUp.ordered {op : Op α β} (h : op.SwapsUp) : op.Ordered := by
  cases op <;> try exact trivial
  all_goals rename_i mm _ _; cases mm <;> first | exact trivial | exact h

/-- A step in which no record changes and some call is running does not change the world. -/
theorem CfgInv.quiet_step {κ κ' : Cfg α β} (h : CfgInv (.ofList l) κ) (hs : Step κ κ')
    (hq : ∀ c, κ'.calls c = κ.calls c) (hni : ¬ κ.Idle) : κ'.w = κ.w := by
  have hadv : ∀ c (r : Rec α β), κ.calls c = some r → κ.Moves c κ' → κ'.w = κ.w := by
    intro c r hc hmv
    rcases h.moves hmv hc with ⟨-, -, hw⟩ | ⟨r', h1, h2⟩
    · exact hw
    · exfalso
      obtain ⟨r0, hc0, hcase⟩ := hmv
      rw [hq c, hc] at h1
      simp only [Option.some.injEq] at h1
      subst h1
      rw [hc] at hc0
      simp only [Option.some.injEq] at hc0
      subst hc0
      rcases h2 with h2 | ⟨a, again, k, b, h2, hbf, h3⟩
      · rcases hcase with ⟨a, again, k, w', b, hr, -⟩ | ⟨x, hr, -⟩ | ⟨x, hr, -⟩ <;> rw [hr] at h2 <;> cases h2
      · have h4 := congrArg Rec.status h3
        simp only at h4
        rw [h2] at h4
        simp only [Status.running.injEq] at h4
        exact Prog.cont_ne _ a again k b rfl h4.symm
  cases hs with
  | invoke op hn hp => rfl
  | act c r a again k w' b hc hr he =>
    exact hadv c r hc ⟨r, hc, .inl ⟨a, again, k, w', b, hr, he, rfl⟩⟩
  | ub c r a again k hc hr he => rfl
  | ret c r x hc hr => rfl
  | panic c r x hc hr => rfl
  | reserveMax n hidle => exact absurd hidle hni

/-- If only finitely many calls are made and all swaps go up, all calls end. -/
theorem InfExec.all_end (h : InfExec m l κ) (hm : InitMem m l) (hf : Fair κ) (hN : FinitelyManyCalls κ)
    (hp : ∀ t, (κ t).GrowthIntact) (hsw : ∀ t c op, (κ t).Called c op → op.SwapsUp) :
    ∃ T, ∀ s, T ≤ s → (κ s).Idle := by
  obtain ⟨T, hT⟩ := h.settles_all hm hf hN
  by_cases hidle : (κ T).Idle
  · exact ⟨T, fun s hs c op ct st p => by rw [hT s hs c]; exact hidle c op ct st p⟩
  exfalso
  have hni : ∀ s, T ≤ s → ¬ (κ s).Idle := by
    intro s hs hi
    exact hidle fun c op ct st p => by rw [← hT s hs c]; exact hi c op ct st p
  have hw : ∀ s, T ≤ s → (κ s).w = (κ T).w := by
    intro s hs
    induction hs with
    | refl => rfl
    | @step s hs ih =>
      have hs : T ≤ s := hs
      rw [(h.inv hm s).quiet_step (h.next s) (fun c => by rw [hT (s + 1) (by omega), hT s hs]) (hni s hs), ih]
  -- some call can proceed at time T
  have hd : ∃ d op, (κ T).Running d op ∧ ¬ (κ T).Blocked d := by
    unfold Cfg.Idle at hidle
    simp only [not_forall, Classical.not_not] at hidle
    obtain ⟨c, op, ct, st, p, hc⟩ := hidle
    by_cases hb : (κ T).Blocked c
    · exact (h.inv hm T).progress (hp T) (fun c op hc => (hsw T c op hc).ordered) (κ T).w.spec.len c hb
        (fun _ _ _ _ i _ _ _ _ _ _ _ => Nat.le_add_right _ _)
    · exact ⟨c, op, ⟨ct, st, p, hc⟩, hb⟩
  obtain ⟨d, op, hrun, hnb⟩ := hd
  obtain ⟨s, hs, hmv⟩ := hf T d op hrun
  obtain ⟨ct, st, p, hcd⟩ := hrun
  have hcs : (κ s).calls d = some ⟨op, ct, st, .running p⟩ := by rw [hT s hs, hcd]
  rcases (h.inv hm s).moves hmv hcs with ⟨hb, -⟩ | ⟨r', h1, h2⟩
  · refine hnb ((h.inv hm T).blocked_iff.2 ?_)
    obtain ⟨r, a, again, k, b, k1, k2, k3, k4, k5⟩ := (h.inv hm s).blocked_iff.1 hb
    rw [hT s hs] at k1
    rw [hw s hs] at k3 k5
    exact ⟨r, a, again, k, b, k1, k2, k3, k4, k5⟩
  · rw [hT (s + 1) (by omega), hcd] at h1
    simp only [Option.some.injEq] at h1
    subst h1
    rcases h2 with h2 | ⟨a, again, k, b, h2, hbf, h3⟩
    · cases h2
    · have h4 := congrArg Rec.status h3
      simp only at h4 h2
      rw [h2] at h4
      simp only [Status.running.injEq] at h4
      exact Prog.cont_ne _ a again k b rfl h4.symm

/-- Programs of calls that lock no element never try to lock one. -/
theorem Reach.noLock {κ : Cfg α β} (h : Reach m l κ) {c : Cid} {r : Rec α β} {p : Prog α (Ret α β)}
    (hc : κ.calls c = some r) (hr : r.status = .running p) (hop : ¬ r.op.Locks) : p.NoLock := by
  induction h generalizing c r p with
  | init => simp [Cfg.init] at hc
  | @step κ κ' hre hs ih =>
    cases hs with
    | invoke op hn hp =>
      simp only [upd_apply] at hc
      split at hc
      · simp only [Option.some.injEq] at hc
        subst hc
        simp only [Status.running.injEq] at hr
        subst hr
        exact Op.noLock hop
      · exact ih hc hr hop
    | act c' r' a again k w' b hc' hr' he' =>
      by_cases hcc : c = c'
      · subst hcc
        have h1 : some { r' with status := _ } = some r := setStatus_self.symm.trans hc
        simp only [Option.some.injEq] at h1
        subst h1
        simp only [Status.running.injEq] at hr
        subst hr
        have := ih hc' hr' hop
        split
        · exact this
        · exact this.2 b
      · exact ih ((setStatus_other hcc).symm.trans hc) hr hop
    | ub c' r' a again k hc' hr' he' => exact ih hc hr hop
    | ret c' r' x hc' hr' =>
      by_cases hcc : c = c'
      · subst hcc
        have h1 : some { r' with status := _ } = some r := setStatus_self.symm.trans hc
        simp only [Option.some.injEq] at h1
        subst h1
        cases hr
      · exact ih ((setStatus_other hcc).symm.trans hc) hr hop
    | panic c' r' x hc' hr' =>
      by_cases hcc : c = c'
      · subst hcc
        have h1 : some { r' with status := _ } = some r := setStatus_self.symm.trans hc
        simp only [Option.some.injEq] at h1
        subst h1
        cases hr
      · exact ih ((setStatus_other hcc).symm.trans hc) hr hop
    | reserveMax n hidle => exact ih hc hr hop

end Verif
