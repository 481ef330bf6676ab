import Verif.Proof.Logic
import Verif.Spec.Accesses

/-!
# Rules for the functions of the crate

Helper file (no property statements).
-/

namespace Verif

variable {α β ρ : Type} {X : Ctx α} {Q : ρ → World α → Prop} {QP : PanicKind → World α → Prop}
  {w0 w : World α} {L U : Nat → Prop} {d : List (Ev α)} {g : Prop}

theorem none_of_evolves {w w' : World α} (h : Evolves w w') {i : Nat} (hv : w'.spec.val i = none) :
    w.spec.val i = none := by
  rcases hv0 : w.spec.val i with _ | v
  · rfl
  · have := h.pub i (by simp [hv0]); simp [hv] at this

/-- What a result `n` of `len`, started in `w0` by `c`, means in a later world `w`. -/
structure LenOK (c : Cid) (w0 : World α) (n : Nat) (w : World α) : Prop where
  pub : ∀ i, i < n → (w.spec.val i).isSome
  written : n ≤ w.mem.written
  low : w0.mem.written ≤ n
  lower : ∀ m, (∀ i, i < m → (w0.spec.val i).isSome) → m ≤ n ∨ ∃ d, Ev.busy c n d ∈ w.trace

theorem LenOK.later {c : Cid} {w0 w w' : World α} {n : Nat} (h : LenOK c w0 n w) (he : Evolves w w') :
    LenOK c w0 n w' where
  pub := fun i hi => he.pub i (h.pub i hi)
  written := Nat.le_trans h.written he.written
  low := h.low
  lower := fun m hm => (h.lower m hm).imp id fun ⟨d, hd⟩ => ⟨d, he.trace.subset hd⟩

theorem LenOK.earlier {c : Cid} {w00 w0 w : World α} {n : Nat} (h : LenOK c w0 n w) (he : Evolves w00 w0) :
    LenOK c w00 n w where
  pub := h.pub
  written := h.written
  low := Nat.le_trans he.written h.low
  lower := fun m hm => h.lower m fun i hi => he.pub i (hm i hi)

abbrev Looks (X : Ctx α) : Prop := ∀ (d : List (Ev α)) (e : Ev α), e.cid = X.c → e.isData = false → X.A d e

theorem safe_settled (hA : Looks X) :
    ∀ (k start : Nat) {w : World α} {f : Nat → Prog α ρ}, Inv X.σ₀ w → Loc X.c w0 L U d g w →
    start + k ≤ w.mem.cap → (∀ j, L j → j < start) →
    (∀ n w1, Inv X.σ₀ w1 → Rely X.c w w1 → Loc X.c w0 L U d g w1 → start ≤ n → n ≤ start + k →
      (∀ i, start ≤ i → i < n → (w1.spec.val i).isSome) →
      (n = start + k ∨ w.spec.val n = none ∨ ∃ d', Ev.busy X.c n d' ∈ w1.trace) → Safe X Q QP (f n) w1) →
    Safe X Q QP ((CVec.settled start k).bind f) w := by
  intro k
  induction k with
  | zero =>
    intro start w f hI hL hc hn h
    simp only [CVec.settled, Prog.pure_eq, Prog.ret_bind]
    exact h start w hI (.refl _ _) hL (Nat.le_refl _) (Nat.le_refl _) (by omega) (.inl rfl)
  | succ k ih =>
    intro start w f hI hL hc hn h
    simp only [CVec.settled, Prog.bind_eq, Prog.bind_assoc]
    refine safe_stLoad hI hL (by omega) (fun hl => by have := hn _ hl; omega) hA ?_ ?_ ?_
    · intro w1 hI1 hr hL1 hv
      simp only [if_true]
      refine ih (start + 1) hI1 hL1 (by have := hr.ev.cap; omega) (fun j hj => by have := hn j hj; omega) ?_
      intro n w2 hI2 hr2 hL2 h1 h2 h3 h4
      refine h n w2 hI2 (hr.trans hr2) hL2 (by omega) (by omega) ?_ ?_
      · intro i hi hi'
        rcases Nat.lt_or_ge start i with hlt | hge
        · exact h3 i hlt hi'
        · have : i = start := by omega
          subst this; exact hr2.ev.pub _ hv
      · rcases h4 with h4 | h4 | h4
        · exact .inl (by omega)
        · exact .inr (.inl (none_of_evolves hr.ev h4))
        · exact .inr (.inr h4)
    · intro w1 hI1 hr hL1 hv
      simp only [reduceCtorEq, if_false, Prog.pure_eq, Prog.ret_bind]
      exact h start w1 hI1 hr hL1 (Nat.le_refl _) (by omega) (by omega) (.inr (.inl hv))
    · intro w1 d' hI1 hr hL1 hv hb
      simp only [reduceCtorEq, if_false, Prog.pure_eq, Prog.ret_bind]
      exact h start w1 hI1 hr hL1 (Nat.le_refl _) (by omega) (by omega) (.inr (.inr ⟨d', hb⟩))

theorem safe_len {f : Nat → Prog α ρ} (hA : Looks X) (hI : Inv X.σ₀ w) (hL : Loc X.c w0 L U d g w)
    (hn : ∀ j, L j → j < w.mem.written)
    (h : ∀ n w1, Inv X.σ₀ w1 → Rely X.c w w1 → Loc X.c w0 L U d g w1 → LenOK X.c w n w1 →
      Safe X Q QP (f n) w1) :
    Safe X Q QP (CVec.len.bind f) w := by
  unfold CVec.len
  simp only [Prog.bind_eq, Prog.bind_assoc, Prog.pure_eq]
  refine safe_writtenLoad hI hL fun w1 hI1 hr1 hL1 => ?_
  refine safe_capLoad hI1 hL1 fun w2 hI2 hr2 hL2 => ?_
  refine safe_resLoad hI2 hL2 fun w3 hI3 hr3 hL3 => ?_
  have hw := hI1.written_le
  have hwl := hI1.written_le_len
  have e1 := hr1.ev.written
  have e2 := hr2.ev.cap
  have e3 := hr3.ev.cap
  have e4 := hr2.ev.len
  have e5 := hr3.ev.len
  have hres := hI3.len_eq
  generalize hun : (if w3.mem.reserved ≤ w2.mem.cap then w3.mem.reserved else w2.mem.cap) = un
  have hun1 : un ≤ w2.mem.cap := by subst hun; split <;> omega
  have hun2 : un = w3.mem.reserved ∨ un = w2.mem.cap := by subst hun; split <;> simp
  have hun3 : w1.mem.written ≤ un := by omega
  refine safe_settled hA _ _ hI3 hL3 (by omega) ?_ ?_
  · intro j hj; have := hn j hj; omega
  · intro n w4 hI4 hr4 hL4 h1 h2 h3 h4
    have r14 := hr2.trans (hr3.trans hr4)
    have hpub : ∀ i, i < n → (w4.spec.val i).isSome := by
      intro i hi
      rcases Nat.lt_or_ge i w1.mem.written with hlt | hge
      · exact r14.ev.pub i (hI1.written i hlt)
      · exact h3 i hge hi
    refine safe_writtenFetchMax hI4 hL4 hpub fun w5 hI5 hr5 hL5 hwr => ?_
    have r05 := hr1.trans (r14.trans hr5)
    simp only [Prog.ret_bind]
    refine h n w5 hI5 r05 hL5 ⟨fun i hi => hr5.ev.pub i (hpub i hi), hwr, by omega, ?_⟩
    intro m hm
    rcases h4 with h4 | h4 | ⟨d', h4⟩
    · left
      rcases Nat.lt_or_ge n m with hlt | hge
      · have hp := hm n hlt
        have p3 := (hr1.trans (hr2.trans hr3)).ev.pub n hp
        have p2 := (hr1.trans hr2).ev.pub n hp
        have l3 := hI3.pub_len n p3
        have l2 := hI2.pub_cap n p2
        omega
      · exact hge
    · left
      rcases Nat.lt_or_ge n m with hlt | hge
      · have hp := (hr1.trans (hr2.trans hr3)).ev.pub n (hm n hlt)
        rw [h4] at hp; simp at hp
      · exact hge
    · exact .inr ⟨d', hr5.ev.trace.subset h4⟩

theorem safe_reservedLen {f : Nat → Prog α ρ} (hI : Inv X.σ₀ w) (hL : Loc X.c w0 L U d g w)
    (h : ∀ n w1, Inv X.σ₀ w1 → Rely X.c w w1 → Loc X.c w0 L U d g w1 → n ≤ w1.mem.cap → n ≤ w1.spec.len →
      (∀ i, n ≤ i → w.spec.val i = none) → Safe X Q QP (f n) w1) :
    Safe X Q QP (CVec.reservedLen.bind f) w := by
  unfold CVec.reservedLen
  simp only [Prog.bind_eq, Prog.bind_assoc, Prog.pure_eq, Prog.ret_bind]
  refine safe_resLoad hI hL fun w1 hI1 hr1 hL1 => ?_
  refine safe_capLoad hI1 hL1 fun w2 hI2 hr2 hL2 => ?_
  have hres := hI1.len_eq
  have e1 := hr2.ev.len
  refine h _ w2 hI2 (hr1.trans hr2) hL2 ?_ ?_ ?_
  · split <;> omega
  · split <;> omega
  · intro i hi
    rcases hv : w.spec.val i with _ | v
    · rfl
    · have p1 := hr1.ev.pub i (by simp [hv])
      have p2 := hr2.ev.pub i p1
      have l1 := hI1.pub_len i p1
      have l2 := hI2.pub_cap i p2
      split at hi <;> omega

theorem safe_colGet {i : Nat} {f : Option Nat → Prog α ρ} (hI : Inv X.σ₀ w) (hL : Loc X.c w0 L U d g w)
    (hs : ∀ w1, Inv X.σ₀ w1 → Rely X.c w w1 → Loc X.c w0 L U d g w1 → i < w1.mem.cap →
      Safe X Q QP (f (some i)) w1)
    (hn : ∀ w1, Inv X.σ₀ w1 → Rely X.c w w1 → Loc X.c w0 L U d g w1 → w.mem.cap ≤ i →
      Safe X Q QP (f none) w1) :
    Safe X Q QP ((Col.get i).bind f) w := by
  unfold Col.get
  simp only [Prog.bind_eq, Prog.bind_assoc, Prog.pure_eq, Prog.ret_bind]
  refine safe_capLoad hI hL fun w1 hI1 hr1 hL1 => ?_
  by_cases hlt : i < w1.mem.cap
  · simp only [hlt, if_true]; exact hs w1 hI1 hr1 hL1 hlt
  · simp only [hlt, if_false]; exact hn w1 hI1 hr1 hL1 (by have := hr1.ev.cap; omega)

/-- Access to an element known to be inside the capacity. -/
theorem safe_colGet' {i : Nat} {f : Option Nat → Prog α ρ} (hI : Inv X.σ₀ w) (hL : Loc X.c w0 L U d g w)
    (hc : i < w.mem.cap)
    (hs : ∀ w1, Inv X.σ₀ w1 → Rely X.c w w1 → Loc X.c w0 L U d g w1 → Safe X Q QP (f (some i)) w1) :
    Safe X Q QP ((Col.get i).bind f) w :=
  safe_colGet hI hL (fun w1 hI1 hr1 hL1 _ => hs w1 hI1 hr1 hL1) (fun _ _ _ _ hh => absurd hh (by omega))

theorem safe_get {i : Nat} {f : Option Nat → Prog α ρ} (hA : Looks X) (hI : Inv X.σ₀ w)
    (hL : Loc X.c w0 L U d g w) (hnl : ∀ j, L j → j < w.mem.written)
    (hs : ∀ n w1, Inv X.σ₀ w1 → Rely X.c w w1 → Loc X.c w0 L U d g w1 → LenOK X.c w n w1 → i < n →
      Safe X Q QP (f (some i)) w1)
    (hn : ∀ n w1, Inv X.σ₀ w1 → Rely X.c w w1 → Loc X.c w0 L U d g w1 → LenOK X.c w n w1 → n ≤ i →
      Safe X Q QP (f none) w1) :
    Safe X Q QP ((CVec.get i).bind f) w := by
  unfold CVec.get
  simp only [Prog.bind_eq, Prog.bind_assoc]
  refine safe_len hA hI hL hnl fun n w1 hI1 hr1 hL1 hlen => ?_
  by_cases hi : i < n
  · simp only [hi, if_true]
    refine safe_colGet' hI1 hL1 (hI1.pub_cap i (hlen.pub i hi)) fun w2 hI2 hr2 hL2 => ?_
    exact hs n w2 hI2 (hr1.trans hr2) hL2 (hlen.later hr2.ev) hi
  · simp only [hi, if_false, Prog.pure_eq, Prog.ret_bind]
    exact hn n w1 hI1 hr1 hL1 hlen (by omega)

/-! ## growth -/

theorem safe_assertCap {i : Nat} {f : Unit → Prog α ρ} (hI : Inv X.σ₀ w) (hL : Loc X.c w0 L U d g w)
    (h : ∀ w1, Inv X.σ₀ w1 → Rely X.c w w1 → Loc X.c w0 L U d g w1 → i < w1.mem.maxCap →
      Safe X Q QP (f ()) w1)
    (hp : ∀ w1, Inv X.σ₀ w1 → Evolves w w1 → Loc X.c w0 L U d g w1 → w1.mem.maxCap ≤ i →
      QP .maxCapacity w1) :
    Safe X Q QP ((Col.assertHasCapacityFor i).bind f) w := by
  unfold Col.assertHasCapacityFor
  simp only [Prog.bind_eq, Prog.bind_assoc]
  refine safe_maxCapLoad hI hL fun w1 hI1 hr1 hL1 => ?_
  by_cases hi : i < w1.mem.maxCap
  · simp only [hi, if_true, Prog.pure_eq, Prog.ret_bind]; exact h w1 hI1 hr1 hL1 hi
  · simp only [hi, if_false, Prog.panic_bind]
    refine safe_panic hI1 hL1 fun w2 hI2 he hL2 => hp w2 hI2 (hr1.ev.trans he) hL2 ?_
    have h1 := hL1.maxCap
    have h2 := hL2.maxCap
    omega

theorem safe_growTo {n : Nat} {f : Unit → Prog α ρ} (hI : Inv X.σ₀ w) (hL : Loc X.c w0 L U d False w)
    (hU : U w.mem.cap) (hn : w.mem.cap < n) (hm : n ≤ w.mem.maxCap)
    (h : ∀ w1, Inv X.σ₀ w1 → Evolves w w1 → Loc X.c w0 L U d False w1 → n ≤ w1.mem.cap →
      Safe X Q QP (f ()) w1) :
    Safe X Q QP ((Col.growTo n).bind f) w := by
  have capStable : ∀ {w w1 : World α}, Inv X.σ₀ w → Loc X.c w0 L U d False w → U w.mem.cap →
      Rely X.c w w1 → w1.mem.cap = w.mem.cap := by
    intro w w1 _ hL hU hr
    have := (hL.unpub _).2 hU
    exact (hr.capOwn this.1 this.2.1).1
  unfold Col.growTo
  simp only [Prog.bind_eq, Prog.bind_assoc]
  refine safe_capLoad hI hL fun w1 hI1 hr1 hL1 => ?_
  have hc1 := capStable hI hL hU hr1
  rw [if_neg (by omega)]
  simp only [Prog.bind_assoc]
  refine safe_maxCapLoad hI1 hL1 fun w2 hI2 hr2 hL2 => ?_
  have hc2 := capStable hI1 hL1 (by rw [hc1]; exact hU) hr2
  have hm2 : w2.mem.maxCap = w.mem.maxCap := by rw [hr2.maxCap, hr1.maxCap]
  rw [if_pos (by omega)]
  simp only [Prog.bind_assoc]
  refine Safe.act fun w3 hI3 hr3 => ?_
  have hL3 := hL2.stable hI2 hr3
  have hc3 := capStable hI2 hL2 (by rw [hc2, hc1]; exact hU) hr3
  have hm3 : w3.mem.maxCap = w.mem.maxCap := by rw [hr3.maxCap, hm2]
  have hU3 : U w3.mem.cap := by rw [hc3, hc2, hc1]; exact hU
  obtain ⟨hl3, ho3, hv3⟩ := (hL3.unpub _).2 hU3
  have hg3 : w3.grower = none := by
    rcases hg : w3.grower with _ | c'
    · rfl
    · have := (hI3.grow_some c' hg).2.1
      rw [ho3] at this; subst this
      exact absurd (hL3.grow.1 hg) id
  have hgrow : w3.mem.growing = false := by rw [hI3.growing, hg3]; rfl
  refine ⟨⟨by omega, by omega, hl3, ho3, hg3⟩, _, _, exec_growAlloc X.c w3 n hgrow, by simp [Act.events],
    fun hI4 => ?_⟩
  have hgo := w3.mem.pol.grow_ok hI3.good (n := n) (by omega) (by omega)
  have e34 : Evolves w3 (w3.afterAlloc X.c n) :=
    ⟨Nat.le_refl _, fun _ _ => rfl, fun _ h => h, Nat.le_refl _, Nat.le_refl _, List.prefix_rfl,
      Nat.le_refl _, rfl⟩
  have hL4 : Loc X.c w0 L U d True (w3.afterAlloc X.c n) :=
    ⟨⟨hL3.ev.trans e34, hL3.maxCap, hL3.locks, hL3.unpub, hL3.data, by simp [World.afterAlloc]⟩, fun i hi => by
      simp only [World.afterAlloc]
      split
      · rfl
      · exact hL3.clean i hi⟩
  have hcap4 : (w3.afterAlloc X.c n).mem.cap = w3.mem.cap := rfl
  have hal4 : n ≤ (w3.afterAlloc X.c n).mem.alloc := hgo.1
  generalize w3.afterAlloc X.c n = w4 at *
  refine Safe.act fun w5 hI5 hr5 => ?_
  have hL5 := hL4.stable hI4 hr5
  obtain ⟨hl4, ho4, _⟩ := (hL4.unpub _).2 (show U w4.mem.cap by rw [hcap4]; exact hU3)
  have h45 := hr5.capOwn hl4 ho4
  have hg5 : w5.grower = some X.c := hL5.grow.2 trivial
  have hgrow5 : w5.mem.growing = true := by rw [hI5.growing, hg5]; rfl
  refine ⟨hg5, _, _, exec_growPublish X.c w5 _ hgrow5, by simp [Act.events], fun hI6 => ?_⟩
  have e56 : Evolves w5 w5.afterPublishCap :=
    ⟨Nat.le_refl _, fun _ _ => rfl, fun _ h => h, Nat.le_refl _, hI5.cap_alloc, List.prefix_rfl,
      Nat.le_refl _, rfl⟩
  have hL6 : Loc X.c w0 L U d False w5.afterPublishCap :=
    ⟨⟨hL5.ev.trans e56, hL5.maxCap, hL5.locks, hL5.unpub, hL5.data, by simp [World.afterPublishCap]⟩, hL5.clean⟩
  refine h _ hI6 ((hr1.ev.trans hr2.ev).trans ((hr3.ev.trans e34).trans (hr5.ev.trans e56))) hL6 ?_
  simp only [World.afterPublishCap]
  omega

theorem writePermit_just {c i : Nat} : writePermit c i = .JustWrite ↔ i < c := by
  unfold writePermit
  rcases Nat.lt_trichotomy i c with h | h | h
  · rw [Nat.compare_eq_lt.2 h]; simp [h]
  · rw [Nat.compare_eq_eq.2 h]; simp; omega
  · rw [Nat.compare_eq_gt.2 h]; simp; omega

theorem writePermit_grow {c i : Nat} : writePermit c i = .GrowThenWrite ↔ i = c := by
  unfold writePermit
  rcases Nat.lt_trichotomy i c with h | h | h
  · rw [Nat.compare_eq_lt.2 h]; simp; omega
  · rw [Nat.compare_eq_eq.2 h]; simp; omega
  · rw [Nat.compare_eq_gt.2 h]; simp; omega

theorem writePermit_spin {c i : Nat} : writePermit c i = .Spin ↔ c < i := by
  unfold writePermit
  rcases Nat.lt_trichotomy i c with h | h | h
  · rw [Nat.compare_eq_lt.2 h]; simp; omega
  · rw [Nat.compare_eq_eq.2 h]; simp; omega
  · rw [Nat.compare_eq_gt.2 h]; simp; omega

theorem writePermitN_just {c b n : Nat} : writePermitN c b n = .JustWrite ↔ b + n - 1 < c := by
  dsimp only [writePermitN]
  rcases Nat.lt_trichotomy (b + n - 1) c with h | h | h
  · rw [Nat.compare_eq_lt.2 h]; simp [h]
  all_goals
    first | rw [Nat.compare_eq_eq.2 h] | rw [Nat.compare_eq_gt.2 h]
    rcases Nat.lt_trichotomy b c with h' | h' | h'
    · rw [Nat.compare_eq_lt.2 h']; simp; omega
    · rw [Nat.compare_eq_eq.2 h']; simp; omega
    · rw [Nat.compare_eq_gt.2 h']; simp; omega

theorem writePermitN_grow {c b n : Nat} : writePermitN c b n = .GrowThenWrite ↔ b ≤ c ∧ c ≤ b + n - 1 := by
  dsimp only [writePermitN]
  rcases Nat.lt_trichotomy (b + n - 1) c with h | h | h
  · rw [Nat.compare_eq_lt.2 h]; simp; omega
  all_goals
    first | rw [Nat.compare_eq_eq.2 h] | rw [Nat.compare_eq_gt.2 h]
    rcases Nat.lt_trichotomy b c with h' | h' | h'
    · rw [Nat.compare_eq_lt.2 h']; simp; omega
    · rw [Nat.compare_eq_eq.2 h']; simp; omega
    · rw [Nat.compare_eq_gt.2 h']; simp; omega

theorem writePermitN_spin {c b n : Nat} : writePermitN c b n = .Spin ↔ c < b ∧ c ≤ b + n - 1 := by
  dsimp only [writePermitN]
  rcases Nat.lt_trichotomy (b + n - 1) c with h | h | h
  · rw [Nat.compare_eq_lt.2 h]; simp; omega
  all_goals
    first | rw [Nat.compare_eq_eq.2 h] | rw [Nat.compare_eq_gt.2 h]
    rcases Nat.lt_trichotomy b c with h' | h' | h'
    · rw [Nat.compare_eq_lt.2 h']; simp; omega
    · rw [Nat.compare_eq_eq.2 h']; simp; omega
    · rw [Nat.compare_eq_gt.2 h']; simp; omega

/-- Waiting for capacity at a reserved position. -/
theorem safe_capSpin {b : Nat} {o : MOrd} {again : Nat → Bool} {f : Nat → Prog α ρ} (hI : Inv X.σ₀ w)
    (hL : Loc X.c w0 noPos U d False w) (hag : ∀ c, again c = true → c < b) (hb : U b)
    (hmin : ∀ j, U j → b ≤ j) (hm : b < w.mem.maxCap)
    (h : ∀ w1, Inv X.σ₀ w1 → Rely X.c w w1 → Loc X.c w0 noPos U d False w1 → again w1.mem.cap = false →
      Safe X Q QP (f w1.mem.cap) w1) :
    Safe X Q QP ((spin (.capLoad o) again).bind f) w := by
  refine Safe.spin fun w1 hI1 hr => ?_
  have hL1 := hL.stable hI hr
  refine ⟨trivial, _, _, exec_capLoad X.c w1 o, by simp [Act.events], fun hI2 => ⟨?_, fun hb' => ?_⟩⟩
  · intro hag'
    have hlt := hag _ hag'
    obtain ⟨hl, ho, hv⟩ := (hL1.unpub _).2 hb
    refine ⟨rfl, fun j hj => (hL1.locks j).1 hj, ?_, b, hlt, hl, by rw [hr.maxCap]; exact hm, ho⟩
    intro ho
    have hc : w1.mem.cap < w1.spec.len := by omega
    have hvc : w1.spec.val w1.mem.cap = none := by
      rcases hv : w1.spec.val w1.mem.cap with _ | v
      · rfl
      · have := hI1.pub_cap _ (by rw [hv]; rfl); omega
    have := hmin _ ((hL1.unpub _).1 ⟨hc, ho, hvc⟩)
    omega
  · exact h w1 hI1 hr hL1 hb'

theorem safe_singleItem {i : Nat} {f : Unit → Prog α ρ} (hI : Inv X.σ₀ w) (hL : Loc X.c w0 noPos U d False w)
    (hi : U i) (hmin : ∀ j, U j → i ≤ j)
    (h : ∀ w1, Inv X.σ₀ w1 → Evolves w w1 → Loc X.c w0 noPos U d False w1 → i < w1.mem.cap →
      Safe X Q QP (f ()) w1)
    (hp : ∀ w1, Inv X.σ₀ w1 → Evolves w w1 → Loc X.c w0 noPos U d False w1 → w1.mem.maxCap ≤ i →
      QP .maxCapacity w1) :
    Safe X Q QP ((Col.singleItem i).bind f) w := by
  unfold Col.singleItem
  simp only [Prog.bind_eq, Prog.bind_assoc]
  refine safe_assertCap hI hL (fun w1 hI1 hr1 hL1 hm => ?_) hp
  refine safe_capSpin hI1 hL1 (b := i) (fun c hc => ?_) hi hmin hm fun w2 hI2 hr2 hL2 hag => ?_
  · simpa [writePermit_spin] using hc
  · have hm2 : i < w2.mem.maxCap := by rw [hr2.maxCap]; exact hm
    have hle : i ≤ w2.mem.cap := by
      rcases Nat.lt_or_ge w2.mem.cap i with hlt | hge
      · rw [writePermit_spin.2 hlt] at hag; simp at hag
      · exact hge
    rcases Nat.lt_or_ge i w2.mem.cap with hlt | hge
    · rw [writePermit_just.2 hlt]
      exact h w2 hI2 (hr1.ev.trans hr2.ev) hL2 hlt
    · have heq : i = w2.mem.cap := by omega
      rw [writePermit_grow.2 heq]
      refine safe_growTo hI2 hL2 (by rw [← heq]; exact hi) (by omega) (by omega) ?_
      intro w3 hI3 he3 hL3 hc3
      exact h w3 hI3 ((hr1.ev.trans hr2.ev).trans he3) hL3 (by omega)

theorem safe_nItems {b n : Nat} {f : Unit → Prog α ρ} (hI : Inv X.σ₀ w) (hL : Loc X.c w0 noPos U d False w)
    (hi : ∀ i, U i ↔ b ≤ i ∧ i < b + n)
    (h : ∀ w1, Inv X.σ₀ w1 → Evolves w w1 → Loc X.c w0 noPos U d False w1 → (0 < n → b + n ≤ w1.mem.cap) →
      Safe X Q QP (f ()) w1)
    (hp : ∀ w1, Inv X.σ₀ w1 → Evolves w w1 → Loc X.c w0 noPos U d False w1 → 0 < n →
      w1.mem.maxCap < b + n → QP .maxCapacity w1) :
    Safe X Q QP ((Col.nItems b n).bind f) w := by
  unfold Col.nItems
  by_cases hn : n = 0
  · simp only [hn, if_true, Prog.pure_eq, Prog.ret_bind]
    exact h w hI (.refl _) hL (by omega)
  · simp only [hn, if_false, Prog.bind_eq, Prog.bind_assoc]
    refine safe_assertCap hI hL (fun w1 hI1 hr1 hL1 hm => ?_)
      (fun w1 hI1 he1 hL1 hm => hp w1 hI1 he1 hL1 (by omega) (by omega))
    refine safe_capSpin hI1 hL1 (b := b) (fun c hc => ?_) ((hi b).2 (by omega))
      (fun j hj => ((hi j).1 hj).1) (by omega) fun w2 hI2 hr2 hL2 hag => ?_
    · have : writePermitN c b n = .Spin := by simpa using hc
      exact (writePermitN_spin.1 this).1
    · have hm2 : b + n - 1 < w2.mem.maxCap := by rw [hr2.maxCap]; exact hm
      rcases Nat.lt_or_ge (b + n - 1) w2.mem.cap with hlt | hge
      · rw [writePermitN_just.2 hlt]
        exact h w2 hI2 (hr1.ev.trans hr2.ev) hL2 (by omega)
      · have hbc : b ≤ w2.mem.cap := by
          rcases Nat.lt_or_ge w2.mem.cap b with hlt | hge'
          · rw [writePermitN_spin.2 ⟨hlt, hge⟩] at hag; simp at hag
          · exact hge'
        rw [writePermitN_grow.2 ⟨hbc, hge⟩]
        refine safe_growTo hI2 hL2 ((hi _).2 (by omega)) (by omega) (by omega) ?_
        intro w3 hI3 he3 hL3 hc3
        exact h w3 hI3 ((hr1.ev.trans hr2.ev).trans he3) hL3 (by omega)

/-- Outcome of writing the items of an iterator into `[b, b+n)`. -/
theorem safe_writeItems {f : Unit → Prog α ρ} :
    ∀ (n : Nat) (b : Nat) (items : List (Option α)) {w : World α} {U : Nat → Prop} {d : List (Ev α)},
    Inv X.σ₀ w → Loc X.c w0 noPos U d False w →
    (∀ i, U i ↔ b ≤ i ∧ i < b + n) → (0 < n → b + n ≤ w.mem.cap) →
    (∀ vs v, vs.length < n → vs.map some ++ [some v] <+: items →
      X.A (d ++ pubs X.c b vs) (.publish X.c (b + vs.length) v)) →
    (∀ w1 vs, Inv X.σ₀ w1 → Evolves w w1 → Loc X.c w0 noPos noPos (d ++ pubs X.c b vs) False w1 →
      vs.length = n → (∃ rest, items = vs.map some ++ rest) → Safe X Q QP (f ()) w1) →
    (∀ w1 vs, Inv X.σ₀ w1 → Evolves w w1 → vs.length < n →
      Loc X.c w0 noPos (fun i => b + vs.length ≤ i ∧ i < b + n) (d ++ pubs X.c b vs) False w1 →
      items = vs.map some → QP .iterTooShort w1) →
    (∀ w1 vs rest, Inv X.σ₀ w1 → Evolves w w1 → vs.length < n →
      Loc X.c w0 noPos (fun i => b + vs.length ≤ i ∧ i < b + n) (d ++ pubs X.c b vs) False w1 →
      items = vs.map some ++ none :: rest → QP .userCode w1) →
    Safe X Q QP ((CVec.writeItems b n items).bind f) w := by
  intro n
  induction n with
  | zero =>
    intro b items w U d hI hL hU hc hA h hp1 hp2
    simp only [CVec.writeItems, Prog.pure_eq, Prog.ret_bind]
    refine h w [] hI (.refl _) (hL.congr (fun _ => .rfl) (fun i => ?_) (by simp [pubs]) .rfl) rfl ⟨items, rfl⟩
    rw [hU]; simp [noPos]
  | succ n ih =>
    intro b items w U d hI hL hU hc hA h hp1 hp2
    match items with
    | [] =>
      simp only [CVec.writeItems, Prog.panic_bind]
      refine safe_panic hI hL fun w1 hI1 he1 hL1 => hp1 w1 [] hI1 he1 (by simp)
        (hL1.congr (fun _ => .rfl) (fun i => ?_) (by simp [pubs]) .rfl) rfl
      rw [hU]; simp
    | none :: rest =>
      simp only [CVec.writeItems, Prog.panic_bind]
      refine safe_panic hI hL fun w1 hI1 he1 hL1 => hp2 w1 [] rest hI1 he1 (by simp)
        (hL1.congr (fun _ => .rfl) (fun i => ?_) (by simp [pubs]) .rfl) rfl
      rw [hU]; simp
    | some v :: rest =>
      simp only [CVec.writeItems, Prog.bind_eq, Prog.bind_assoc]
      refine safe_init hI hL ((hU b).2 (by omega))
        (fun j hj => by have := (hU j).1 hj; have := hc (by omega); omega)
        (by simpa [pubs] using hA [] v (by simp) ⟨rest, by simp⟩) fun w1 hI1 he1 hL1 => ?_
      refine ih (b + 1) rest hI1 hL1 (fun i => ?_) (fun _ => ?_) ?_ ?_ ?_ ?_
      · rw [hU]; omega
      · have := hc (by omega); have := he1.cap; omega
      · intro vs v' hlt hpre
        obtain ⟨rest', hpre⟩ := hpre
        have := hA (v :: vs) v' (by simp; omega) ⟨rest', by simp [← hpre]⟩
        simp only [pubs, List.length_cons] at this
        rw [List.append_assoc, List.singleton_append, show b + 1 + vs.length = b + (vs.length + 1) by omega]
        exact this
      · intro w2 vs hI2 he2 hL2 hlen ⟨rest', hrest⟩
        refine h w2 (v :: vs) hI2 (he1.trans he2)
          (hL2.congr (fun _ => .rfl) (fun _ => .rfl) (by simp [pubs]) .rfl) (by simp [hlen])
          ⟨rest', by simp [hrest]⟩
      · intro w2 vs hI2 he2 hlt hL2 heq
        refine hp1 w2 (v :: vs) hI2 (he1.trans he2) (by simp; omega)
          (hL2.congr (fun _ => .rfl) (fun i => ?_) (by simp [pubs]) .rfl) (by simp [heq])
        simp only [List.length_cons]; omega
      · intro w2 vs rest' hI2 he2 hlt hL2 heq
        refine hp2 w2 (v :: vs) rest' hI2 (he1.trans he2) (by simp; omega)
          (hL2.congr (fun _ => .rfl) (fun i => ?_) (by simp [pubs]) .rfl) (by simp [heq])
        simp only [List.length_cons]; omega

/-! ## elements -/

theorem safe_cloneIntoOption {i : Nat} {f : Option α → Prog α ρ} (hI : Inv X.σ₀ w)
    (hL : Loc X.c w0 noPos noPos d g w) (hc : i < w.mem.cap) (hA : ∀ v, X.A d (.read X.c i v))
    (hs : ∀ w1 v, Inv X.σ₀ w1 → Evolves w w1 → Loc X.c w0 noPos noPos (d ++ [.read X.c i v]) g w1 →
      Safe X Q QP (f (some v)) w1)
    (hn : ∀ w1, Inv X.σ₀ w1 → Evolves w w1 → Loc X.c w0 noPos noPos d g w1 → w.spec.val i = none →
      Safe X Q QP (f none) w1) :
    Safe X Q QP ((COpt.cloneIntoOption i).bind f) w := by
  unfold COpt.cloneIntoOption
  simp only [Prog.bind_eq, Prog.bind_assoc]
  refine safe_lock hI hL hc (fun _ h => h) (fun _ h => absurd h id) ?_ ?_
  · intro w1 hI1 he1 hL1 _ hp
    simp only [if_true, Prog.bind_assoc, Prog.pure_eq]
    refine safe_valRead hI1 hL1 hp (.inr (.inl rfl)) hA fun w2 v hI2 he2 _ hv hL2 => ?_
    refine safe_unlock hI2 hL2 (.inl rfl) fun w3 hI3 he3 hL3 => ?_
    simp only [Prog.ret_bind]
    refine hs w3 v hI3 ((he1.trans he2).trans he3) (hL3.congr (fun j => ?_) (fun _ => .rfl) rfl .rfl)
    simp only [noPos]; constructor
    · rintro ⟨h1, h2 | h2⟩
      · exact h1 h2
      · exact h2
    · exact fun h => h.elim
  · intro w1 hI1 hr1 hL1 hv
    simp only [Bool.false_eq_true, if_false, Prog.pure_eq, Prog.ret_bind]
    exact hn w1 hI1 hr1.ev hL1 hv

theorem noPos_after (i : Nat) : ∀ j, (j ≠ i ∧ (j = i ∨ noPos j)) ↔ noPos j := by
  intro j
  simp only [noPos]; constructor
  · rintro ⟨h1, h2 | h2⟩
    · exact h1 h2
    · exact h2
  · exact fun h => h.elim

/-- An element that has a value. -/
structure ElemOK (w : World α) (i : Nat) : Prop where
  pub : (w.spec.val i).isSome

theorem safe_cloned {i : Nat} {f : α → Prog α ρ} (hI : Inv X.σ₀ w)
    (hL : Loc X.c w0 noPos noPos d g w) (hp : (w.spec.val i).isSome) (hA : ∀ v, X.A d (.read X.c i v))
    (hs : ∀ w1 v, Inv X.σ₀ w1 → Evolves w w1 → Loc X.c w0 noPos noPos (d ++ [.read X.c i v]) g w1 →
      Safe X Q QP (f v) w1) :
    Safe X Q QP ((Elem.cloned i).bind f) w := by
  unfold Elem.cloned
  simp only [Prog.bind_eq, Prog.bind_assoc]
  refine safe_cloneIntoOption hI hL (hI.pub_cap i hp) hA (fun w1 v hI1 he1 hL1 => ?_)
    (fun _ _ _ _ hv => by simp [hv] at hp)
  exact hs w1 v hI1 he1 hL1

theorem safe_map {i : Nat} {φ : α → Option β} {f : β → Prog α ρ} (hI : Inv X.σ₀ w)
    (hL : Loc X.c w0 noPos noPos d g w) (hp : (w.spec.val i).isSome) (hA : ∀ v, X.A d (.read X.c i v))
    (hs : ∀ w1 v b, Inv X.σ₀ w1 → Evolves w w1 → Loc X.c w0 noPos noPos (d ++ [.read X.c i v]) g w1 →
      φ v = some b → Safe X Q QP (f b) w1)
    (hu : ∀ w1 v, Inv X.σ₀ w1 → Evolves w w1 → Loc X.c w0 noPos noPos (d ++ [.read X.c i v]) g w1 →
      φ v = none → QP .userCode w1) :
    Safe X Q QP ((Elem.map φ i).bind f) w := by
  unfold Elem.map COpt.map
  simp only [Prog.bind_eq, Prog.bind_assoc]
  refine safe_lock hI hL (hI.pub_cap i hp) (fun _ h => h) (fun _ h => absurd h id) ?_
    (fun _ _ _ _ hv => by simp [hv] at hp)
  intro w1 hI1 he1 hL1 _ hp1
  simp only [if_true, Prog.bind_assoc, Prog.pure_eq]
  refine safe_valRead hI1 hL1 hp1 (.inr (.inl rfl)) hA fun w2 v hI2 he2 _ hv hL2 => ?_
  refine safe_unlock hI2 hL2 (.inl rfl) fun w3 hI3 he3 hL3 => ?_
  have hL3' := hL3.congr (noPos_after i) (fun _ => .rfl) rfl .rfl
  rcases hφ : φ v with _ | b
  · simp only [Prog.panic_bind]
    exact safe_panic hI3 hL3' fun w4 hI4 he4 hL4 =>
      hu w4 v hI4 ((he1.trans he2).trans (he3.trans he4)) hL4 hφ
  · simp only [Prog.ret_bind]
    exact hs w3 v b hI3 ((he1.trans he2).trans he3) hL3' hφ

theorem safe_isSomeAnd {i : Nat} {φ : α → Option Bool} {f : Bool → Prog α ρ} (hI : Inv X.σ₀ w)
    (hL : Loc X.c w0 noPos noPos d g w) (hp : (w.spec.val i).isSome) (hA : ∀ v, X.A d (.read X.c i v))
    (hs : ∀ w1 v b, Inv X.σ₀ w1 → Evolves w w1 → Loc X.c w0 noPos noPos (d ++ [.read X.c i v]) g w1 →
      φ v = some b → Safe X Q QP (f b) w1)
    (hu : ∀ w1 v, Inv X.σ₀ w1 → Evolves w w1 → Loc X.c w0 noPos noPos (d ++ [.read X.c i v]) g w1 →
      φ v = none → QP .userCode w1) :
    Safe X Q QP ((COpt.isSomeAnd φ i).bind f) w := by
  unfold COpt.isSomeAnd
  simp only [Prog.bind_eq, Prog.bind_assoc]
  refine safe_lock hI hL (hI.pub_cap i hp) (fun _ h => h) (fun _ h => absurd h id) ?_
    (fun _ _ _ _ hv => by simp [hv] at hp)
  intro w1 hI1 he1 hL1 _ hp1
  simp only [if_true, Prog.bind_assoc, Prog.pure_eq]
  refine safe_valRead hI1 hL1 hp1 (.inr (.inl rfl)) hA fun w2 v hI2 he2 _ hv hL2 => ?_
  refine safe_unlock hI2 hL2 (.inl rfl) fun w3 hI3 he3 hL3 => ?_
  have hL3' := hL3.congr (noPos_after i) (fun _ => .rfl) rfl .rfl
  rcases hφ : φ v with _ | b
  · simp only [Prog.panic_bind]
    exact safe_panic hI3 hL3' fun w4 hI4 he4 hL4 =>
      hu w4 v hI4 ((he1.trans he2).trans (he3.trans he4)) hL4 hφ
  · simp only [Prog.ret_bind]
    exact hs w3 v b hI3 ((he1.trans he2).trans he3) hL3' hφ

theorem safe_replace {i : Nat} {v : α} {f : α → Prog α ρ} (hI : Inv X.σ₀ w)
    (hL : Loc X.c w0 noPos noPos d g w) (hp : (w.spec.val i).isSome) (hA : ∀ v, X.A d (.read X.c i v))
    (hA' : ∀ old, X.A (d ++ [.read X.c i old]) (.write X.c i old v))
    (hs : ∀ w1 old, Inv X.σ₀ w1 → Evolves w w1 →
      Loc X.c w0 noPos noPos (d ++ [.read X.c i old, .write X.c i old v]) g w1 → Safe X Q QP (f old) w1) :
    Safe X Q QP ((Elem.replace i v).bind f) w := by
  unfold Elem.replace COpt.replace
  simp only [Prog.bind_eq, Prog.bind_assoc]
  refine safe_lock hI hL (hI.pub_cap i hp) (fun _ h => h) (fun _ h => absurd h id) ?_
    (fun _ _ _ _ hv => by simp [hv] at hp)
  intro w1 hI1 he1 hL1 _ hp1
  simp only [if_true, Prog.bind_assoc, Prog.pure_eq]
  refine safe_valRead hI1 hL1 hp1 (.inr (.inl rfl)) hA fun w2 old hI2 he2 _ hv hL2 => ?_
  refine safe_valWrite hI2 hL2 (.inl rfl) (fun old' ho => ?_) fun w3 old' hI3 he3 hold _ hL3 => ?_
  · rw [hv] at ho
    simp only [Option.some.injEq] at ho
    subst ho; exact hA' _
  rw [hv] at hold
  simp only [Option.some.injEq] at hold
  subst hold
  refine safe_unlock hI3 hL3 (.inl rfl) fun w4 hI4 he4 hL4 => ?_
  have hL4' := hL4.congr (noPos_after i) (fun _ => .rfl) (List.append_assoc _ _ _) .rfl
  simp only [Prog.ret_bind]
  exact hs w4 old hI4 ((he1.trans he2).trans (he3.trans he4)) hL4'

theorem safe_set {i : Nat} {v : α} {f : Unit → Prog α ρ} (hI : Inv X.σ₀ w)
    (hL : Loc X.c w0 noPos noPos d g w) (hp : (w.spec.val i).isSome)
    (hA' : ∀ old, X.A d (.write X.c i old v))
    (hs : ∀ w1 old, Inv X.σ₀ w1 → Evolves w w1 →
      Loc X.c w0 noPos noPos (d ++ [.write X.c i old v]) g w1 → Safe X Q QP (f ()) w1) :
    Safe X Q QP ((Elem.set i v).bind f) w := by
  unfold Elem.set COpt.setSome
  simp only [Prog.bind_eq, Prog.bind_assoc]
  refine safe_lock hI hL (hI.pub_cap i hp) (fun _ h => h) (fun _ h => absurd h id) ?_
    (fun _ _ _ _ hv => by simp [hv] at hp)
  intro w1 hI1 he1 hL1 _ hp1
  simp only [if_true, Prog.bind_assoc, Prog.pure_eq]
  refine safe_valWrite hI1 hL1 (.inl rfl) (fun old' _ => hA' old') fun w3 old hI3 he3 hold _ hL3 => ?_
  refine safe_unlock hI3 hL3 (.inl rfl) fun w4 hI4 he4 hL4 => ?_
  have hL4' := hL4.congr (noPos_after i) (fun _ => .rfl) rfl .rfl
  simp only [Prog.ret_bind, if_true]
  exact hs w4 old hI4 (he1.trans (he3.trans he4)) hL4'

theorem safe_update {i : Nat} {φ : α → α × Bool} {f : Unit → Prog α ρ} (hI : Inv X.σ₀ w)
    (hL : Loc X.c w0 noPos noPos d g w) (hp : (w.spec.val i).isSome) (hA : ∀ v, X.A d (.read X.c i v))
    (hA' : ∀ old, X.A (d ++ [.read X.c i old]) (.write X.c i old (φ old).1))
    (hs : ∀ w1 old, Inv X.σ₀ w1 → Evolves w w1 →
      Loc X.c w0 noPos noPos (d ++ [.read X.c i old, .write X.c i old (φ old).1]) g w1 → (φ old).2 = true →
      Safe X Q QP (f ()) w1)
    (hu : ∀ w1 old, Inv X.σ₀ w1 → Evolves w w1 →
      Loc X.c w0 noPos noPos (d ++ [.read X.c i old, .write X.c i old (φ old).1]) g w1 → (φ old).2 = false →
      QP .userCode w1) :
    Safe X Q QP ((Elem.update φ i).bind f) w := by
  unfold Elem.update COpt.updateIfSome
  simp only [Prog.bind_eq, Prog.bind_assoc]
  refine safe_lock hI hL (hI.pub_cap i hp) (fun _ h => h) (fun _ h => absurd h id) ?_
    (fun _ _ _ _ hv => by simp [hv] at hp)
  intro w1 hI1 he1 hL1 _ hp1
  simp only [if_true, Prog.bind_assoc, Prog.pure_eq]
  refine safe_valRead hI1 hL1 hp1 (.inr (.inl rfl)) hA fun w2 old hI2 he2 _ hv hL2 => ?_
  refine safe_valWrite hI2 hL2 (.inl rfl) (fun old' ho => ?_) fun w3 old' hI3 he3 hold _ hL3 => ?_
  · rw [hv] at ho
    simp only [Option.some.injEq] at ho
    subst ho; exact hA' _
  · rw [hv] at hold
    simp only [Option.some.injEq] at hold
    subst hold
    refine safe_unlock hI3 hL3 (.inl rfl) fun w4 hI4 he4 hL4 => ?_
    have hL4' := hL4.congr (noPos_after i) (fun _ => .rfl) (List.append_assoc _ _ _) .rfl
    rcases hφ : (φ old).2 with _ | _
    · simp only [Bool.false_eq_true, if_false, Prog.panic_bind]
      exact safe_panic hI4 hL4' fun w5 hI5 he5 hL5 =>
        hu w5 old hI5 ((he1.trans he2).trans ((he3.trans he4).trans he5)) hL5 hφ
    · simp only [if_true, Prog.ret_bind]
      exact hs w4 old hI4 ((he1.trans he2).trans (he3.trans he4)) hL4' hφ

theorem safe_getRaw {i : Nat} {o : MOrd} {f : Option Nat → Prog α ρ} (hAl : Looks X) (hI : Inv X.σ₀ w)
    (hL : Loc X.c w0 noPos noPos d g w) (hc : i < w.mem.cap)
    (hs : ∀ w1, Inv X.σ₀ w1 → Rely X.c w w1 → Loc X.c w0 noPos noPos d g w1 → (w1.spec.val i).isSome →
      Safe X Q QP (f (some i)) w1)
    (hn : ∀ w1, Inv X.σ₀ w1 → Rely X.c w w1 → Loc X.c w0 noPos noPos d g w1 →
      (w.spec.val i = none ∨ ∃ d', Ev.busy X.c i d' ∈ w1.trace) → Safe X Q QP (f none) w1) :
    Safe X Q QP ((COpt.getRaw o i).bind f) w := by
  unfold COpt.getRaw
  simp only [Prog.bind_eq, Prog.bind_assoc, Prog.pure_eq, Prog.ret_bind]
  refine safe_stLoad hI hL hc id hAl ?_ ?_ ?_
  · intro w1 hI1 hr1 hL1 hv
    simp only [if_true]; exact hs w1 hI1 hr1 hL1 hv
  · intro w1 hI1 hr1 hL1 hv
    simp only [reduceCtorEq, if_false]; exact hn w1 hI1 hr1 hL1 (.inl hv)
  · intro w1 d' hI1 hr1 hL1 hv hb
    simp only [reduceCtorEq, if_false]; exact hn w1 hI1 hr1 hL1 (.inr ⟨d', hb⟩)

end Verif
