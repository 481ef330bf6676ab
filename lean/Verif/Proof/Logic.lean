import Verif.Proof.Inv

/-!
# Rely/guarantee reasoning about programs

Helper file (no property statements).
-/

namespace Verif

variable {α β ρ ρ' : Type}

/-- Parameters of the logic: initial abstract state, the call, whether it may read without holding,
which elements it may hold while it waits for which, and the events it is allowed to perform, given its data events so
far. -/
structure Ctx (α : Type) where
  σ₀ : SpecSt α
  c : Cid
  raw : Bool
  nested : Nat → Nat → Prop
  A : List (Ev α) → Ev α → Prop

/-- Discipline while waiting: a call waiting for an element, which is held, owns no unpublished position and holds only
what it may hold while it waits for this element; a call waiting for capacity holds no element, does not
own the position at which the capacity has to grow but owns one beyond. -/
def BlockOK (c : Cid) (nested : Nat → Nat → Prop) (w : World α) : Act α → Prop
  | .stCas i _ _ _ _ => w.mem.st i = .RESERVED ∧
      (∀ j, j < w.spec.len → w.spec.owner j = c → (w.spec.val j).isSome) ∧
      ∀ j, w.holder j = some c → nested j i
  | .capLoad _ => (∀ j, w.holder j ≠ some c) ∧
      w.spec.owner w.mem.cap ≠ c ∧
      ∃ i, w.mem.cap < i ∧ i < w.spec.len ∧ i < w.mem.maxCap ∧ w.spec.owner i = c
  | _ => False

/-- `Safe X Q QP p w`: from world `w`, and whatever other calls do in between, call `X.c` running `p` only
performs actions whose precondition holds, only performs allowed events, respects the blocking discipline,
and ends with `Q` (return) or `QP` (panic). -/
def Safe (X : Ctx α) (Q : ρ → World α → Prop) (QP : PanicKind → World α → Prop) :
    Prog α ρ → World α → Prop
  | .ret r, w => ∀ w', Inv X.σ₀ w' → Rely X.c w w' → Q r w'
  | .panic k, w => ∀ w', Inv X.σ₀ w' → Rely X.c w w' → QP k w'
  | .step a again k, w => ∀ w', Inv X.σ₀ w' → Rely X.c w w' →
      Pre X.raw X.c w' a ∧ ∀ w'' b, w'.exec X.c a = some (w'', b) →
        (∀ e, e ∈ a.events X.c w' b → X.A (dataOf X.c w'.trace) e) ∧
        (again b = true → w'' = w' ∧ BlockOK X.c X.nested w' a) ∧
        (again b = false → Safe X Q QP (k b) w'')

variable {X : Ctx α} {Q : ρ → World α → Prop} {QP : PanicKind → World α → Prop}

theorem Safe.stable {p : Prog α ρ} {w w' : World α} (h : Safe X Q QP p w) (hr : Rely X.c w w') :
    Safe X Q QP p w' := by
  cases p with
  | ret r => exact fun w'' hI hr' => h w'' hI (hr.trans hr')
  | panic k => exact fun w'' hI hr' => h w'' hI (hr.trans hr')
  | step a again k => exact fun w'' hI hr' => h w'' hI (hr.trans hr')

theorem Safe.mono {Q' : ρ → World α → Prop} {QP' : PanicKind → World α → Prop} {p : Prog α ρ}
    (hQ : ∀ r w, Inv X.σ₀ w → Q r w → Q' r w) (hQP : ∀ k w, Inv X.σ₀ w → QP k w → QP' k w) :
    ∀ {w : World α}, Safe X Q QP p w → Safe X Q' QP' p w := by
  induction p with
  | ret r => exact fun h w' hI hr => hQ r w' hI (h w' hI hr)
  | panic k => exact fun h w' hI hr => hQP k w' hI (h w' hI hr)
  | step a again k ih =>
    intro w h w' hI hr
    obtain ⟨hp, hs⟩ := h w' hI hr
    refine ⟨hp, fun w'' b he => ?_⟩
    obtain ⟨h1, h2, h3⟩ := hs w'' b he
    exact ⟨h1, h2, fun hb => ih b (h3 hb)⟩

theorem exec_inv {σ₀ : SpecSt α} {w w' : World α} {raw : Bool} {c : Cid} {a : Act α} {b : a.Resp}
    (hI : Inv σ₀ w) (hp : Pre raw c w a) (he : w.exec c a = some (w', b)) :
    Inv σ₀ w' ∧ ∀ c', c' ≠ c → Rely c' w w' := by
  obtain ⟨w1, b1, he1, h1, h2⟩ := exec_ok hI hp
  rw [he] at he1
  simp only [Option.some.injEq, Prod.mk.injEq] at he1
  obtain ⟨rfl, rfl⟩ := he1
  exact ⟨h1, h2⟩

theorem Safe.bind {Q' : ρ' → World α → Prop} {p : Prog α ρ} {f : ρ → Prog α ρ'}
    (hf : ∀ r w', Inv X.σ₀ w' → Q r w' → Safe X Q' QP (f r) w') :
    ∀ {w : World α}, Inv X.σ₀ w → Safe X Q QP p w → Safe X Q' QP (p.bind f) w := by
  induction p with
  | ret r => exact fun hI h => hf r _ hI (h _ hI (.refl _ _))
  | panic k => exact fun _ h => h
  | step a again k ih =>
    intro w hI0 h w' hI hr
    obtain ⟨hp, hs⟩ := h w' hI hr
    refine ⟨hp, fun w'' b he => ?_⟩
    obtain ⟨h1, h2, h3⟩ := hs w'' b he
    exact ⟨h1, h2, fun hb => ih b (exec_inv hI hp he).1 (h3 hb)⟩

/-- Rule for a step whose outcome is determined by an `exec` equation. -/
theorem Safe.step {a : Act α} {again : a.Resp → Bool} {k : a.Resp → Prog α ρ} {w : World α}
    (h : ∀ w1, Inv X.σ₀ w1 → Rely X.c w w1 → Pre X.raw X.c w1 a ∧
      ∃ w2 b, w1.exec X.c a = some (w2, b) ∧ (∀ e, e ∈ a.events X.c w1 b → X.A (dataOf X.c w1.trace) e) ∧
        (Inv X.σ₀ w2 → (again b = true → w2 = w1 ∧ BlockOK X.c X.nested w1 a) ∧
          (again b = false → Safe X Q QP (k b) w2))) :
    Safe X Q QP (.step a again k) w := by
  intro w1 hI hr
  obtain ⟨hp, w2, b, he, hA, hk⟩ := h w1 hI hr
  refine ⟨hp, fun w2' b' he' => ?_⟩
  rw [he] at he'
  simp only [Option.some.injEq, Prod.mk.injEq] at he'
  obtain ⟨rfl, rfl⟩ := he'
  exact ⟨hA, hk (exec_inv hI hp he).1⟩

theorem Safe.act {a : Act α} {f : a.Resp → Prog α ρ} {w : World α}
    (h : ∀ w1, Inv X.σ₀ w1 → Rely X.c w w1 → Pre X.raw X.c w1 a ∧
      ∃ w2 b, w1.exec X.c a = some (w2, b) ∧ (∀ e, e ∈ a.events X.c w1 b → X.A (dataOf X.c w1.trace) e) ∧
        (Inv X.σ₀ w2 → Safe X Q QP (f b) w2)) :
    Safe X Q QP ((act a).bind f) w := by
  refine Safe.step (k := f) (fun w1 hI hr => ?_)
  obtain ⟨hp, w2, b, he, hA, hk⟩ := h w1 hI hr
  exact ⟨hp, w2, b, he, hA, fun hI2 => ⟨fun hb => by simp at hb, fun _ => hk hI2⟩⟩

theorem Safe.spin {a : Act α} {again : a.Resp → Bool} {f : a.Resp → Prog α ρ} {w : World α}
    (h : ∀ w1, Inv X.σ₀ w1 → Rely X.c w w1 → Pre X.raw X.c w1 a ∧
      ∃ w2 b, w1.exec X.c a = some (w2, b) ∧ (∀ e, e ∈ a.events X.c w1 b → X.A (dataOf X.c w1.trace) e) ∧
        (Inv X.σ₀ w2 → (again b = true → w2 = w1 ∧ BlockOK X.c X.nested w1 a) ∧
          (again b = false → Safe X Q QP (f b) w2))) :
    Safe X Q QP ((spin a again).bind f) w :=
  Safe.step (k := f) h

/-! ## Local knowledge of a call -/

/-- What call `c`, started in `w0`, knows about itself: `L` the elements it holds, `U` the positions it owns
which are not published, `d` its data events, `g` whether it is growing. -/
structure LocB (c : Cid) (w0 : World α) (L U : Nat → Prop) (d : List (Ev α)) (g : Prop) (w : World α) :
    Prop where
  ev : Evolves w0 w
  maxCap : w.mem.maxCap = w0.mem.maxCap
  locks : ∀ i, w.holder i = some c ↔ L i
  unpub : ∀ i, (i < w.spec.len ∧ w.spec.owner i = c ∧ w.spec.val i = none) ↔ U i
  data : dataOf c w.trace = d
  grow : w.grower = some c ↔ g

/-- … and nothing has been written to the unpublished positions. -/
structure Loc (c : Cid) (w0 : World α) (L U : Nat → Prop) (d : List (Ev α)) (g : Prop) (w : World α) : Prop
    extends LocB c w0 L U d g w where
  clean : ∀ i, U i → w.mem.val i = none

/-- No position. -/
def noPos : Nat → Prop := fun _ => False

theorem LocB.stable {σ₀ : SpecSt α} {c : Cid} {w0 w w' : World α} {L U : Nat → Prop} {d : List (Ev α)} {g : Prop}
    (hI : Inv σ₀ w) (hr : Rely c w w') (h : LocB c w0 L U d g w) : LocB c w0 L U d g w' where
  ev := h.ev.trans hr.ev
  maxCap := by rw [hr.maxCap, h.maxCap]
  locks := fun i => by
    rw [← h.locks i]
    exact ⟨hr.nohold i, fun hh => (hr.hold i hh).1⟩
  unpub := fun i => by
    rw [← h.unpub i]
    constructor
    · rintro ⟨h1, h2, h3⟩
      have hlt : i < w.spec.len := by
        rcases Nat.lt_or_ge i w.spec.len with hlt | hge
        · exact hlt
        · exact absurd h2 (hr.fresh i hge h1)
      refine ⟨hlt, by rw [← hr.ev.owner i hlt]; exact h2, ?_⟩
      rcases hv : w.spec.val i with _ | v
      · rfl
      · have := hr.ev.pub i (by simp [hv]); simp [h3] at this
    · rintro ⟨h1, h2, h3⟩
      exact ⟨Nat.lt_of_lt_of_le h1 hr.ev.len, by rw [hr.ev.owner i h1]; exact h2, (hr.own i h1 h2 h3).1⟩
  data := by rw [hr.data, h.data]
  grow := by
    rw [← h.grow]
    constructor
    · exact hr.nogrow
    · intro hg
      have := hI.grow_some c hg
      rw [(hr.capOwn this.1 this.2.1).2.1]; exact hg

theorem Loc.stable {σ₀ : SpecSt α} {c : Cid} {w0 w w' : World α} {L U : Nat → Prop} {d : List (Ev α)} {g : Prop}
    (hI : Inv σ₀ w) (hr : Rely c w w') (h : Loc c w0 L U d g w) : Loc c w0 L U d g w' where
  toLocB := h.toLocB.stable hI hr
  clean := fun i hi => by
    obtain ⟨h1, h2, h3⟩ := (h.unpub i).2 hi
    rw [(hr.own i h1 h2 h3).2]; exact h.clean i hi

theorem Loc.congr {c : Cid} {w0 w : World α} {L L' U U' : Nat → Prop} {d d' : List (Ev α)} {g g' : Prop}
    (h : Loc c w0 L U d g w) (hL : ∀ i, L i ↔ L' i) (hU : ∀ i, U i ↔ U' i) (hd : d = d') (hg : g ↔ g') :
    Loc c w0 L' U' d' g' w where
  ev := h.ev
  maxCap := h.maxCap
  locks := fun i => by rw [← hL]; exact h.locks i
  unpub := fun i => by rw [← hU]; exact h.unpub i
  data := by rw [← hd]; exact h.data
  grow := by rw [← hg]; exact h.grow
  clean := fun i hi => h.clean i ((hU i).2 hi)

section rules
variable {w0 w : World α} {L U : Nat → Prop} {d : List (Ev α)} {g : Prop}

/-- End of the program. -/
theorem safe_ret {r : ρ} (hI : Inv X.σ₀ w) (hL : Loc X.c w0 L U d g w)
    (h : ∀ w1, Inv X.σ₀ w1 → Evolves w w1 → Loc X.c w0 L U d g w1 → Q r w1) :
    Safe X Q QP (.ret r) w :=
  fun w1 hI1 hr => h w1 hI1 hr.ev (hL.stable hI hr)

theorem safe_panic {k : PanicKind} (hI : Inv X.σ₀ w) (hL : Loc X.c w0 L U d g w)
    (h : ∀ w1, Inv X.σ₀ w1 → Evolves w w1 → Loc X.c w0 L U d g w1 → QP k w1) :
    Safe X Q QP (.panic k : Prog α ρ) w :=
  fun w1 hI1 hr => h w1 hI1 hr.ev (hL.stable hI hr)

theorem safe_resLoad {o : MOrd} {f : Nat → Prog α ρ} (hI : Inv X.σ₀ w) (hL : Loc X.c w0 L U d g w)
    (h : ∀ w1, Inv X.σ₀ w1 → Rely X.c w w1 → Loc X.c w0 L U d g w1 → Safe X Q QP (f w1.mem.reserved) w1) :
    Safe X Q QP ((act (.resLoad o)).bind f) w :=
  Safe.act fun w1 hI1 hr =>
    ⟨trivial, _, _, exec_resLoad X.c w1 o, by simp [Act.events], fun _ => h w1 hI1 hr (hL.stable hI hr)⟩

theorem safe_writtenLoad {o : MOrd} {f : Nat → Prog α ρ} (hI : Inv X.σ₀ w) (hL : Loc X.c w0 L U d g w)
    (h : ∀ w1, Inv X.σ₀ w1 → Rely X.c w w1 → Loc X.c w0 L U d g w1 → Safe X Q QP (f w1.mem.written) w1) :
    Safe X Q QP ((act (.writtenLoad o)).bind f) w :=
  Safe.act fun w1 hI1 hr =>
    ⟨trivial, _, _, exec_writtenLoad X.c w1 o, by simp [Act.events], fun _ => h w1 hI1 hr (hL.stable hI hr)⟩

theorem safe_capLoad {o : MOrd} {f : Nat → Prog α ρ} (hI : Inv X.σ₀ w) (hL : Loc X.c w0 L U d g w)
    (h : ∀ w1, Inv X.σ₀ w1 → Rely X.c w w1 → Loc X.c w0 L U d g w1 → Safe X Q QP (f w1.mem.cap) w1) :
    Safe X Q QP ((act (.capLoad o)).bind f) w :=
  Safe.act fun w1 hI1 hr =>
    ⟨trivial, _, _, exec_capLoad X.c w1 o, by simp [Act.events], fun _ => h w1 hI1 hr (hL.stable hI hr)⟩

theorem safe_maxCapLoad {f : Nat → Prog α ρ} (hI : Inv X.σ₀ w) (hL : Loc X.c w0 L U d g w)
    (h : ∀ w1, Inv X.σ₀ w1 → Rely X.c w w1 → Loc X.c w0 L U d g w1 → Safe X Q QP (f w1.mem.maxCap) w1) :
    Safe X Q QP ((act .maxCapLoad).bind f) w :=
  Safe.act fun w1 hI1 hr =>
    ⟨trivial, _, _, exec_maxCapLoad X.c w1, by simp [Act.events], fun _ => h w1 hI1 hr (hL.stable hI hr)⟩

theorem safe_writtenFetchMax {n : Nat} {o : MOrd} {f : Unit → Prog α ρ} (hI : Inv X.σ₀ w)
    (hL : Loc X.c w0 L U d g w) (hn : ∀ i, i < n → (w.spec.val i).isSome)
    (h : ∀ w1, Inv X.σ₀ w1 → Rely X.c w w1 → Loc X.c w0 L U d g w1 → n ≤ w1.mem.written →
      Safe X Q QP (f ()) w1) :
    Safe X Q QP ((act (.writtenFetchMax n o)).bind f) w :=
  Safe.act fun w1 hI1 hr => by
    have hp : ∀ i, i < n → (w1.spec.val i).isSome := fun i hi => hr.ev.pub i (hn i hi)
    have hg := (guar_written hI1 n hp).2 X.c
    refine ⟨hp, _, _, exec_writtenFetchMax X.c w1 n o, by simp [Act.events], fun hI2 => ?_⟩
    refine h _ hI2 (hr.trans hg) (hL.stable hI (hr.trans hg)) ?_
    simp only [World.afterWritten]; omega

/-- Looking at the state of a position not held by the call itself. -/
theorem safe_stLoad {i : Nat} {o : MOrd} {f : CState → Prog α ρ} (hI : Inv X.σ₀ w)
    (hL : Loc X.c w0 L U d g w) (hc : i < w.mem.cap) (hn : ¬ L i)
    (hA : ∀ (d : List (Ev α)) (e : Ev α), e.cid = X.c → e.isData = false → X.A d e)
    (hs : ∀ w1, Inv X.σ₀ w1 → Rely X.c w w1 → Loc X.c w0 L U d g w1 → (w1.spec.val i).isSome →
      Safe X Q QP (f .SOME) w1)
    (hh : ∀ w1, Inv X.σ₀ w1 → Rely X.c w w1 → Loc X.c w0 L U d g w1 → w.spec.val i = none →
      Safe X Q QP (f .NONE) w1)
    (hb : ∀ w1 d', Inv X.σ₀ w1 → Rely X.c w w1 → Loc X.c w0 L U d g w1 → (w1.spec.val i).isSome →
      Ev.busy X.c i d' ∈ w1.trace → Safe X Q QP (f .RESERVED) w1) :
    Safe X Q QP ((act (.stLoad i o)).bind f) w :=
  Safe.act fun w1 hI1 hr => by
    have hc1 : i < w1.mem.cap := Nat.lt_of_lt_of_le hc hr.ev.cap
    have hL1 := hL.stable hI hr
    have hn1 : w1.holder i ≠ some X.c := fun hh => hn ((hL1.locks i).1 hh)
    refine ⟨⟨hc1, hn1⟩, ?_⟩
    rcases hst : w1.mem.st i with _ | _ | _
    · have hv := (hI1.st_none i).1 hst
      have hg := guar_look (c := X.c) hI1 (.hole X.c i) rfl hv (.inl rfl)
      have hr2 := hr.trans (hg.2 X.c (by simp [Ev.isData]))
      refine ⟨_, _, exec_stLoad_none X.c w1 i o hc1 hst, ?_, fun hI2 => hh _ hI2 hr2 (hL.stable hI hr2) ?_⟩
      · intro e he
        simp only [Act.events, List.mem_singleton] at he
        subst he; exact hA _ _ rfl rfl
      · rcases hv0 : w.spec.val i with _ | v
        · rfl
        · have := hr.ev.pub i (by simp [hv0]); simp [hv] at this
    · have hho := (hI1.lock i).1 hst
      obtain ⟨d', hd'⟩ := Option.isSome_iff_exists.1 hho
      have hcd : X.c ≠ d' := by rintro hcd; exact hn1 (by rw [hd', hcd])
      have hv := hI1.pub_of_holder hho
      have hg := guar_look (c := X.c) hI1 (.busy X.c i d') rfl ⟨hv, hcd⟩ (.inl rfl)
      have hr2 := hr.trans (hg.2 X.c (by simp [Ev.isData]))
      refine ⟨_, _, exec_stLoad_busy X.c w1 i o d' hc1 hst hd', ?_,
        fun hI2 => hb _ d' hI2 hr2 (hL.stable hI hr2) hv (by simp [World.afterLook])⟩
      intro e he
      simp only [Act.events, hd', List.mem_singleton] at he
      subst he; exact hA _ _ rfl rfl
    · have hv : (w1.spec.val i).isSome := by
        rcases hv : w1.spec.val i with _ | v
        · have := (hI1.st_none i).2 hv; rw [hst] at this; cases this
        · rfl
      have hg := guar_look (c := X.c) hI1 (.seen X.c i) rfl hv (.inl rfl)
      have hr2 := hr.trans (hg.2 X.c (by simp [Ev.isData]))
      refine ⟨_, _, exec_stLoad_some X.c w1 i o hc1 hst, ?_,
        fun hI2 => hs _ hI2 hr2 (hL.stable hI hr2) hv⟩
      intro e he
      simp only [Act.events, List.mem_singleton] at he
      subst he; exact hA _ _ rfl rfl

theorem loc_afterLock {σ₀ : SpecSt α} {c : Cid} {i : Nat} (_hI : Inv σ₀ w) (hL : Loc c w0 L U d g w) :
    Evolves w (w.afterLock c i) ∧ Loc c w0 (fun j => j = i ∨ L j) U d g (w.afterLock c i) := by
  have he : Evolves w (w.afterLock c i) :=
    ⟨Nat.le_refl _, fun _ _ => rfl, fun _ h => h, Nat.le_refl _, Nat.le_refl _, List.prefix_rfl,
      Nat.le_refl _, rfl⟩
  refine ⟨he, ⟨hL.ev.trans he, hL.maxCap, ?_, hL.unpub, hL.data, hL.grow⟩, hL.clean⟩
  intro j
  simp only [World.afterLock, upd_apply]
  split
  · rename_i hj; simp [hj]
  · rename_i hj; simp [hj, hL.locks j]

theorem loc_afterUnlock {σ₀ : SpecSt α} {c : Cid} {i : Nat} (_hI : Inv σ₀ w) (hL : Loc c w0 L U d g w) :
    Evolves w (w.afterUnlock i) ∧ Loc c w0 (fun j => j ≠ i ∧ L j) U d g (w.afterUnlock i) := by
  have he : Evolves w (w.afterUnlock i) :=
    ⟨Nat.le_refl _, fun _ _ => rfl, fun _ h => h, Nat.le_refl _, Nat.le_refl _, List.prefix_rfl,
      Nat.le_refl _, rfl⟩
  refine ⟨he, ⟨hL.ev.trans he, hL.maxCap, ?_, hL.unpub, hL.data, hL.grow⟩, hL.clean⟩
  intro j
  simp only [World.afterUnlock, upd_apply]
  split
  · rename_i hj; simp [hj]
  · rename_i hj; simp [hj, hL.locks j]

/-- Blocking acquisition of an element. -/
theorem safe_lock {i : Nat} {f : Bool → Prog α ρ} (hI : Inv X.σ₀ w) (hL : Loc X.c w0 L U d g w)
    (hc : i < w.mem.cap) (hU : ∀ j, ¬ U j) (hn : ∀ j, L j → X.nested j i)
    (ht : ∀ w1, Inv X.σ₀ w1 → Evolves w w1 → Loc X.c w0 (fun j => j = i ∨ L j) U d g w1 → ¬ L i →
      (w1.spec.val i).isSome → Safe X Q QP (f true) w1)
    (hf : ∀ w1, Inv X.σ₀ w1 → Rely X.c w w1 → Loc X.c w0 L U d g w1 → w.spec.val i = none →
      Safe X Q QP (f false) w1) :
    Safe X Q QP ((COpt.lock i).bind f) w := by
  unfold COpt.lock
  simp only [Prog.bind_eq, Prog.bind_assoc, Prog.pure_eq, Prog.ret_bind]
  refine Safe.spin fun w1 hI1 hr => ?_
  have hc1 : i < w1.mem.cap := Nat.lt_of_lt_of_le hc hr.ev.cap
  have hL1 := hL.stable hI hr
  refine ⟨⟨hc1, rfl, rfl⟩, ?_⟩
  by_cases hs : w1.mem.st i = .SOME
  · refine ⟨_, _, exec_stCas_ok X.c w1 i _ _ hc1 hs, by simp [Act.events], fun hI2 => ⟨?_, fun _ => ?_⟩⟩
    · intro hb; simp at hb
    · have hl := loc_afterLock (i := i) hI1 hL1
      refine ht _ hI2 (hr.ev.trans hl.1) hl.2 ?_ ?_
      · intro hLi
        have := (hI1.lock i).2 (by simp [(hL1.locks i).2 hLi])
        rw [hs] at this; cases this
      · exact hI2.pub_of_holder (by simp [World.afterLock])
  · refine ⟨_, _, exec_stCas_fail X.c w1 i _ _ hc1 hs, by simp [Act.events], fun hI2 => ⟨?_, fun hb => ?_⟩⟩
    · intro hb
      refine ⟨rfl, by simpa using hb, ?_, fun j hj => hn j ((hL1.locks j).1 hj)⟩
      intro j hj ho
      rcases hv : w1.spec.val j with _ | v
      · exact absurd ((hL1.unpub j).1 ⟨hj, ho, hv⟩) (hU j)
      · rfl
    · have hst : w1.mem.st i = .NONE := by
        rcases hst : w1.mem.st i with _ | _ | _
        · rfl
        · rw [hst] at hb; simp at hb
        · exact absurd hst hs
      have hv := (hI1.st_none i).1 hst
      refine hf _ hI2 hr hL1 ?_
      rcases hv0 : w.spec.val i with _ | v
      · rfl
      · have := hr.ev.pub i (by simp [hv0]); simp [hv] at this

/-- Single attempt to acquire an element. -/
theorem safe_tryLock {i : Nat} {f : Bool → Prog α ρ} (hI : Inv X.σ₀ w) (hL : Loc X.c w0 L U d g w)
    (hc : i < w.mem.cap)
    (ht : ∀ w1, Inv X.σ₀ w1 → Evolves w w1 → Loc X.c w0 (fun j => j = i ∨ L j) U d g w1 → ¬ L i →
      (w1.spec.val i).isSome → Safe X Q QP (f true) w1)
    (hf : ∀ w1, Inv X.σ₀ w1 → Rely X.c w w1 → Loc X.c w0 L U d g w1 → Safe X Q QP (f false) w1) :
    Safe X Q QP ((COpt.tryLock i).bind f) w := by
  unfold COpt.tryLock
  simp only [Prog.bind_eq, Prog.bind_assoc, Prog.pure_eq, Prog.ret_bind]
  refine Safe.act fun w1 hI1 hr => ?_
  have hc1 : i < w1.mem.cap := Nat.lt_of_lt_of_le hc hr.ev.cap
  have hL1 := hL.stable hI hr
  refine ⟨⟨hc1, rfl, rfl⟩, ?_⟩
  by_cases hs : w1.mem.st i = .SOME
  · refine ⟨_, _, exec_stCas_ok X.c w1 i _ _ hc1 hs, by simp [Act.events], fun hI2 => ?_⟩
    have hl := loc_afterLock (i := i) hI1 hL1
    refine ht _ hI2 (hr.ev.trans hl.1) hl.2 ?_ ?_
    · intro hLi
      have := (hI1.lock i).2 (by simp [(hL1.locks i).2 hLi])
      rw [hs] at this; cases this
    · exact hI2.pub_of_holder (by simp [World.afterLock])
  · exact ⟨_, _, exec_stCas_fail X.c w1 i _ _ hc1 hs, by simp [Act.events], fun hI2 => hf _ hI2 hr hL1⟩

/-- Release of a held element. -/
theorem safe_unlock {i : Nat} {f : Unit → Prog α ρ} (hI : Inv X.σ₀ w) (hL : Loc X.c w0 L U d g w) (hi : L i)
    (h : ∀ w1, Inv X.σ₀ w1 → Evolves w w1 → Loc X.c w0 (fun j => j ≠ i ∧ L j) U d g w1 →
      Safe X Q QP (f ()) w1) :
    Safe X Q QP ((COpt.unlock i).bind f) w := by
  unfold COpt.unlock
  refine Safe.act fun w1 hI1 hr => ?_
  have hL1 := hL.stable hI hr
  have hh : w1.holder i = some X.c := (hL1.locks i).2 hi
  have hc1 := hI1.cap_of_holder (i := i) (by simp [hh])
  have hs := (hI1.lock i).2 (by simp [hh])
  refine ⟨⟨rfl, hc1, .inl hh⟩, _, _, exec_stStore_unlock X.c w1 i _ hc1 (by simp [hs]),
    by simp [Act.events, hs], fun hI2 => ?_⟩
  have hl := loc_afterUnlock (i := i) hI1 hL1
  exact h _ hI2 (hr.ev.trans hl.1) hl.2

/-- Read of a held element. -/
theorem safe_valRead {i : Nat} {f : α → Prog α ρ} (hI : Inv X.σ₀ w) (hL : Loc X.c w0 L U d g w)
    (hi : (w.spec.val i).isSome) (hr' : X.raw = true ∨ L i) (hA : ∀ v, X.A d (.read X.c i v))
    (h : ∀ w1 v, Inv X.σ₀ w1 → Evolves w w1 → (L i → w.spec.val i = some v) → w1.spec.val i = some v →
      Loc X.c w0 L U (d ++ [.read X.c i v]) g w1 → Safe X Q QP (f v) w1) :
    Safe X Q QP ((act (.valRead i)).bind f) w := by
  refine Safe.act fun w1 hI1 hr => ?_
  have hL1 := hL.stable hI hr
  have hp := hr.ev.pub i hi
  obtain ⟨v, hv⟩ := Option.isSome_iff_exists.1 hp
  have hm := hI1.val_eq i hp
  rw [hv] at hm
  refine ⟨⟨hp, ?_⟩, _, _, exec_valRead X.c w1 i v (hI1.pub_cap i hp) hm, ?_, fun hI2 => ?_⟩
  · rcases hr' with hr' | hr'
    · exact .inl hr'
    · exact .inr ((hL1.locks i).2 hr')
  · intro e he
    simp only [Act.events, List.mem_singleton] at he
    subst he; rw [hL1.data]; exact hA v
  · have he : Evolves w1 (w1.afterLook (.read X.c i v)) :=
      ⟨Nat.le_refl _, fun _ _ => rfl, fun _ h => h, Nat.le_refl _, Nat.le_refl _, List.prefix_append _ _,
        Nat.le_refl _, rfl⟩
    refine h _ v hI2 (hr.ev.trans he) ?_ hv ⟨⟨hL1.ev.trans he, hL1.maxCap, hL1.locks, hL1.unpub, ?_, hL1.grow⟩, hL1.clean⟩
    · intro hLi
      have := (hr.hold i ((hL.locks i).2 hLi)).2
      rw [← this]; exact hv
    · simp only [World.afterLook, dataOf_append, hL1.data]
      simp [dataOf, Ev.isData, Ev.cid]

/-- Write to a held element. -/
theorem safe_valWrite {i : Nat} {v : α} {f : Unit → Prog α ρ} (hI : Inv X.σ₀ w) (hL : Loc X.c w0 L U d g w)
    (hi : L i) (hA : ∀ old, w.spec.val i = some old → X.A d (.write X.c i old v))
    (h : ∀ w1 old, Inv X.σ₀ w1 → Evolves w w1 → w.spec.val i = some old → w1.spec.val i = some v →
      Loc X.c w0 L U (d ++ [.write X.c i old v]) g w1 → Safe X Q QP (f ()) w1) :
    Safe X Q QP ((act (.valWrite i v)).bind f) w := by
  refine Safe.act fun w1 hI1 hr => ?_
  have hL1 := hL.stable hI hr
  have hh : w1.holder i = some X.c := (hL1.locks i).2 hi
  have hc1 := hI1.cap_of_holder (i := i) (by simp [hh])
  have hs := (hI1.lock i).2 (by simp [hh])
  have hp := hI1.pub_of_holder (i := i) (by simp [hh])
  obtain ⟨old, hv⟩ := Option.isSome_iff_exists.1 hp
  have hm := hI1.val_eq i hp
  rw [hv] at hm
  have hw : w.spec.val i = some old := by
    have := (hr.hold i ((hL.locks i).2 hi)).2
    rw [← this]; exact hv
  refine ⟨⟨hc1, .inl hh⟩, _, _, exec_valWrite_write X.c w1 i old v hc1 hs hm, ?_, fun hI2 => ?_⟩
  · intro e he
    simp only [Act.events, hs, hm, if_true, List.mem_singleton] at he
    subst he; rw [hL1.data]; exact hA old hw
  · have hpub : ∀ j, ((w1.afterWrite X.c i old v).spec.val j).isSome = (w1.spec.val j).isSome := by
      intro j
      simp only [World.afterWrite, specNext, upd_apply]
      split
      · rename_i hj; subst hj; simp [hp]
      · rfl
    have he : Evolves w1 (w1.afterWrite X.c i old v) :=
      ⟨Nat.le_refl _, fun _ _ => rfl, fun j h => by rw [hpub]; exact h, Nat.le_refl _, Nat.le_refl _,
        List.prefix_append _ _, Nat.le_refl _, rfl⟩
    refine h _ old hI2 (hr.ev.trans he) hw (by simp [World.afterWrite, specNext])
      ⟨⟨hL1.ev.trans he, hL1.maxCap, hL1.locks, ?_, ?_, hL1.grow⟩, fun j hj => ?_⟩
    · intro j
      rw [← hL1.unpub j]
      have := hpub j
      constructor
      · rintro ⟨h1, h2, h3⟩
        refine ⟨h1, h2, ?_⟩
        rw [h3] at this
        rcases hx : w1.spec.val j with _ | x
        · rfl
        · simp [hx] at this
      · rintro ⟨h1, h2, h3⟩
        refine ⟨h1, h2, ?_⟩
        rw [h3] at this
        rcases hx : (w1.afterWrite X.c i old v).spec.val j with _ | x
        · rfl
        · simp [hx] at this
    · simp only [World.afterWrite, dataOf_append, hL1.data]
      simp [dataOf, Ev.isData, Ev.cid]
    · have hji : j ≠ i := by
        rintro rfl
        have := ((hL1.unpub j).2 hj).2.2
        rw [hv] at this; cases this
      simp only [World.afterWrite, upd_other _ _ hji]
      exact hL1.clean j hj

/-- Exchange of two held elements. -/
theorem safe_valSwap {i j : Nat} {f : Unit → Prog α ρ} (hI : Inv X.σ₀ w) (hL : Loc X.c w0 L U d g w)
    (hij : i ≠ j) (hi : L i) (hj : L j) (hA : X.A d (.swap X.c i j))
    (h : ∀ w1, Inv X.σ₀ w1 → Evolves w w1 →
      Loc X.c w0 L U (d ++ [.swap X.c i j]) g w1 → Safe X Q QP (f ()) w1) :
    Safe X Q QP ((act (.valSwap i j)).bind f) w := by
  refine Safe.act fun w1 hI1 hr => ?_
  have hL1 := hL.stable hI hr
  have hhi : w1.holder i = some X.c := (hL1.locks i).2 hi
  have hhj : w1.holder j = some X.c := (hL1.locks j).2 hj
  have hpi := hI1.pub_of_holder (i := i) (by simp [hhi])
  have hpj := hI1.pub_of_holder (i := j) (by simp [hhj])
  obtain ⟨vi, hvi⟩ := Option.isSome_iff_exists.1 hpi
  obtain ⟨vj, hvj⟩ := Option.isSome_iff_exists.1 hpj
  have hmi := hI1.val_eq i hpi
  have hmj := hI1.val_eq j hpj
  rw [hvi] at hmi; rw [hvj] at hmj
  refine ⟨⟨hij, hhi, hhj⟩, _, _,
    exec_valSwap X.c w1 i j vi vj (hI1.pub_cap i hpi) (hI1.pub_cap j hpj) hmi hmj, ?_, fun hI2 => ?_⟩
  · intro e he
    simp only [Act.events, List.mem_singleton] at he
    subst he; rw [hL1.data]; exact hA
  · have hpub : ∀ k, ((w1.afterSwap X.c i j vi vj).spec.val k).isSome = (w1.spec.val k).isSome := by
      intro k
      simp only [World.afterSwap, specNext, upd_apply]
      split
      · rename_i hk; subst hk; simp [hpi, hpj]
      · split
        · rename_i hk; subst hk; simp [hpi, hpj]
        · rfl
    have he : Evolves w1 (w1.afterSwap X.c i j vi vj) :=
      ⟨Nat.le_refl _, fun _ _ => rfl, fun j h => by rw [hpub]; exact h, Nat.le_refl _, Nat.le_refl _,
        List.prefix_append _ _, Nat.le_refl _, rfl⟩
    refine h _ hI2 (hr.ev.trans he)
      ⟨⟨hL1.ev.trans he, hL1.maxCap, hL1.locks, ?_, ?_, hL1.grow⟩, fun k hk => ?_⟩
    · intro k
      rw [← hL1.unpub k]
      have := hpub k
      constructor
      · rintro ⟨h1, h2, h3⟩
        refine ⟨h1, h2, ?_⟩
        rw [h3] at this
        rcases hx : w1.spec.val k with _ | x
        · rfl
        · simp [hx] at this
      · rintro ⟨h1, h2, h3⟩
        refine ⟨h1, h2, ?_⟩
        rw [h3] at this
        rcases hx : (w1.afterSwap X.c i j vi vj).spec.val k with _ | x
        · rfl
        · simp [hx] at this
    · simp only [World.afterSwap, dataOf_append, hL1.data]
      simp [dataOf, Ev.isData, Ev.cid]
    · have hn := ((hL1.unpub k).2 hk).2.2
      have hki : k ≠ i := by rintro rfl; rw [hvi] at hn; cases hn
      have hkj : k ≠ j := by rintro rfl; rw [hvj] at hn; cases hn
      simp only [World.afterSwap, upd_other _ _ hki, upd_other _ _ hkj]
      exact hL1.clean k hk

/-- Reservation of `n` positions. -/
theorem safe_resFetchAdd {n : Nat} {o : MOrd} {f : Nat → Prog α ρ} (hI : Inv X.σ₀ w)
    (hL : Loc X.c w0 L U d g w) (hA : ∀ b, X.A d (.reserve X.c b n))
    (h : ∀ w1 b, Inv X.σ₀ w1 → Evolves w w1 → w.spec.len ≤ b → w1.spec.len = b + n →
      Loc X.c w0 L (fun i => (b ≤ i ∧ i < b + n) ∨ U i) (d ++ [.reserve X.c b n]) g w1 →
      Safe X Q QP (f b) w1) :
    Safe X Q QP ((act (.resFetchAdd n o)).bind f) w := by
  refine Safe.act fun w1 hI1 hr => ?_
  have hL1 := hL.stable hI hr
  have hlen := hI1.len_eq
  have hle := hr.ev.len
  refine ⟨trivial, _, _, exec_resFetchAdd X.c w1 n o, ?_, fun hI2 => ?_⟩
  · intro e he
    simp only [Act.events, List.mem_singleton] at he
    subst he; rw [hL1.data]; exact hA _
  · have he : Evolves w1 (w1.afterReserve X.c n) :=
      ⟨by simp [World.afterReserve, specNext],
        fun i hi => by simp only [World.afterReserve, specNext]; rw [if_neg (by omega)],
        fun _ h => h, Nat.le_refl _, Nat.le_refl _, List.prefix_append _ _, Nat.le_refl _, rfl⟩
    refine h _ w1.mem.reserved hI2 (hr.ev.trans he) (by omega)
      (by simp only [World.afterReserve, specNext]; omega)
      ⟨⟨hL1.ev.trans he, hL1.maxCap, hL1.locks, ?_, ?_, hL1.grow⟩, fun i hi => ?_⟩
    · intro i
      rw [← hL1.unpub i]
      simp only [World.afterReserve, specNext]
      constructor
      · rintro ⟨h1, h2, h3⟩
        by_cases hb : w1.mem.reserved ≤ i ∧ i < w1.mem.reserved + n
        · exact .inl hb
        · rw [if_neg hb] at h2
          exact .inr ⟨by omega, h2, h3⟩
      · rintro (h1 | ⟨h1, h2, h3⟩)
        · refine ⟨by omega, by rw [if_pos h1], ?_⟩
          rcases hv : w1.spec.val i with _ | v
          · rfl
          · have := hI1.pub_len i (by simp [hv]); omega
        · exact ⟨by omega, by rw [if_neg (by omega)]; exact h2, h3⟩
    · simp only [World.afterReserve, dataOf_append, hL1.data]
      simp [dataOf, Ev.isData, Ev.cid]
    · rcases hi with hi | hi
      · exact hI1.unres i (by omega)
      · exact hL1.clean i hi

/-- Initialisation of an owned, unpublished position. -/
theorem safe_init {i : Nat} {v : α} {f : Unit → Prog α ρ} (hI : Inv X.σ₀ w) (hL : Loc X.c w0 L U d g w)
    (hi : U i) (hUc : ∀ j, U j → j < w.mem.cap) (hA : X.A d (.publish X.c i v))
    (h : ∀ w1, Inv X.σ₀ w1 → Evolves w w1 →
      Loc X.c w0 L (fun j => j ≠ i ∧ U j) (d ++ [.publish X.c i v]) g w1 → Safe X Q QP (f ()) w1) :
    Safe X Q QP ((COpt.init i v).bind f) w := by
  unfold COpt.init
  simp only [Prog.bind_eq, Prog.bind_assoc]
  refine Safe.act fun w1 hI1 hr => ?_
  have hL1 := hL.stable hI hr
  have hc1 : i < w1.mem.cap := Nat.lt_of_lt_of_le (hUc i hi) hr.ev.cap
  obtain ⟨hl, ho, hv⟩ := (hL1.unpub i).2 hi
  refine ⟨⟨hc1, .inr ⟨hl, ho, hv, hL1.clean i hi, fun j h1 h2 h3 =>
    Nat.lt_of_lt_of_le (hUc j ((hL1.unpub j).1 ⟨h1, h2, h3⟩)) hr.ev.cap⟩⟩, _, _,
    exec_valWrite_init X.c w1 i v hc1 (by rw [(hI1.st_none i).2 hv]; simp), ?_, fun hI2 => ?_⟩
  · intro e he
    simp [Act.events, (hI1.st_none i).2 hv] at he
  · have he1 : Evolves w1 (w1.afterInit i v) :=
      ⟨Nat.le_refl _, fun _ _ => rfl, fun _ h => h, Nat.le_refl _, Nat.le_refl _, List.prefix_rfl,
        Nat.le_refl _, rfl⟩
    have hL2 : LocB X.c w0 L U d g (w1.afterInit i v) :=
      ⟨hL1.ev.trans he1, hL1.maxCap, hL1.locks, hL1.unpub, hL1.data, hL1.grow⟩
    have hm2 : (w1.afterInit i v).mem.val i = some v := by simp [World.afterInit]
    have hclean : ∀ j, j ≠ i ∧ U j → (w1.afterInit i v).mem.val j = none := fun j hj => by
      simp only [World.afterInit, upd_other _ _ hj.1]
      exact hL1.clean j hj.2
    generalize w1.afterInit i v = w2 at *
    refine Safe.act fun w3 hI3 hr3 => ?_
    have hL3 := hL2.stable hI2 hr3
    obtain ⟨hl2, ho2, hv2⟩ := (hL2.unpub i).2 hi
    obtain ⟨hl3, ho3, hv3⟩ := (hL3.unpub i).2 hi
    have hm3 : w3.mem.val i = some v := by rw [(hr3.own i hl2 ho2 hv2).2, hm2]
    have hc3 : i < w3.mem.cap := Nat.lt_of_lt_of_le (Nat.lt_of_lt_of_le hc1 he1.cap) hr3.ev.cap
    have hs3 := (hI3.st_none i).2 hv3
    refine ⟨⟨rfl, hc3, .inr ⟨hl3, ho3, hv3, by simp [hm3]⟩⟩, _, _,
      exec_stStore_publish X.c w3 i _ v hc3 hs3 hm3, ?_, fun hI4 => ?_⟩
    · intro e he
      simp only [Act.events, hs3, hm3, and_self, if_true, List.mem_singleton] at he
      subst he; rw [hL3.data]; exact hA
    · have he3 : Evolves w3 (w3.afterPublish X.c i v) := by
        refine ⟨Nat.le_refl _, fun _ _ => rfl, ?_, Nat.le_refl _, Nat.le_refl _,
          List.prefix_append _ _, Nat.le_refl _, rfl⟩
        intro j hj
        simp only [World.afterPublish, specNext, upd_apply]
        split
        · simp
        · exact hj
      have hn := hI3.holder_none hv3
      refine h _ hI4 (((hr.ev.trans he1).trans hr3.ev).trans he3)
        ⟨⟨hL3.ev.trans he3, hL3.maxCap, ?_, ?_, ?_, hL3.grow⟩, fun j hj => ?_⟩
      · intro j
        rw [← hL3.locks j]
        simp only [World.afterPublish, upd_apply]
        split
        · rename_i hj; subst hj; simp [hn]
        · rfl
      · intro j
        rw [← hL3.unpub j]
        simp only [World.afterPublish, specNext, upd_apply]
        split
        · rename_i hj; simp [hj]
        · rename_i hj; simp [hj]
      · simp only [World.afterPublish, dataOf_append, hL3.data]
        simp [dataOf, Ev.isData, Ev.cid]
      · obtain ⟨k1, k2, k3⟩ := (hL2.unpub j).2 hj.2
        show w3.mem.val j = none
        rw [(hr3.own j k1 k2 k3).2]; exact hclean j hj

end rules

end Verif
