import Verif.Weak.CompareEnds

/-!
# All comparisons end, under weak memory, for C61

Helper file (no property statements).
-/

namespace Verif.Weak

variable {α β : Type} {m : Nat → Mem α} {l : Nat → List α} {S : Nat → Sys α β} {n k : Nat} {T T' : Cmp α β}

theorem Cmp.Keeps.trans {T'' : Cmp α β} (h : T.Keeps T') (h' : T'.Keeps T'') : T.Keeps T'' :=
  ⟨h'.u.trans h.u, h'.v.trans h.v, h'.p.trans h.p, h'.q.trans h.q, h'.veq.trans h.veq, h'.hb.trans h.hb,
    fun s c hc => h'.own s c (h.own s c hc)⟩

namespace InfSysExec

theorem exec (h : InfSysExec m S) (n : Nat) : SysExec m n S := ⟨h.init, fun t _ => h.next t⟩

theorem inv (h : InfSysExec m S) (t : Nat) : SysInv m (S t) := (h.exec t).inv (Nat.le_refl t)

theorem fine (h : InfSysExec m S) (hm : ∀ u, InitMem (m u) (l u)) (hd : ∀ t, (S t).Disciplined) (t u : Nat) : Fine ((S t).vec u) :=
  (h.exec t).fine hm (hd t) (Nat.le_refl t) u

theorem phase (h : InfSysExec m S) (hm : ∀ u, InitMem (m u) (l u)) (hd : ∀ t, (S t).Disciplined) (t k : Nat) (T : Cmp α β)
    (hk : (S t).cmp k = some T) : Phase S t k T :=
  (h.exec t).phase hm (hd t) (Nat.le_refl t) k T hk

theorem vec (h : InfSysExec m S) (u : Nat) : InfExec (m u) fun t => (S t).vec u where
  init := by show (S 0).vec u = _; rw [h.init]; rfl
  next t := ((h.next t).split (h.inv t)).1 u

theorem onward (h : InfSysExec m S) (hm : ∀ u, InitMem (m u) (l u)) (hd : ∀ t, (S t).Disciplined) {t : Nat}
    (hk : (S t).cmp k = some T) : ∃ T', (S t).Onward (S (t + 1)) k T T' :=
  (h.next t).onward (h.inv t) (h.fine hm hd t) (h.phase hm hd t) hk

/-- A comparison that was begun is not forgotten. -/
theorem goesOn (h : InfSysExec m S) (hm : ∀ u, InitMem (m u) (l u)) (hd : ∀ t, (S t).Disciplined) {t0 : Nat}
    (hk : (S t0).cmp k = some T) : ∀ t, t0 ≤ t → ∃ T', (S t).cmp k = some T' ∧ T.Keeps T' := by
  intro t ht
  induction ht with
  | refl => exact ⟨T, hk, .refl T⟩
  | @step t ht ih =>
    obtain ⟨T1, h1, h2⟩ := ih
    obtain ⟨T2, hO⟩ := h.onward hm hd h1
    exact ⟨T2, hO.cmp', h2.trans hO.keeps⟩

/-- The running call of a comparison stays its latest call. -/
theorem current (h : InfSysExec m S) (hm : ∀ u, InitMem (m u) (l u)) (hd : ∀ t, (S t).Disciplined) {t0 : Nat}
    (hk : (S t0).cmp k = some T) {s : Side} (hrun : ∀ t, t0 ≤ t → ∃ op, ((S t).vec (T.vecOf s)).Running (T.cid s) op) :
    ∀ t, t0 ≤ t → ∃ T', (S t).cmp k = some T' ∧ T.Keeps T' ∧ T'.cid s = T.cid s := by
  intro t ht
  induction ht with
  | refl => exact ⟨T, hk, .refl T, rfl⟩
  | @step t ht ih =>
    obtain ⟨T1, h1, h2, h3⟩ := ih
    obtain ⟨T2, hO⟩ := h.onward hm hd h1
    refine ⟨T2, hO.cmp', h2.trans hO.keeps, ?_⟩
    refine Classical.byContradiction fun hne => ?_
    obtain ⟨op, hr⟩ := hrun t ht
    refine hO.old s (fun he => hne (he.trans h3)) op ?_
    rw [h2.vecOf, h3]
    exact hr

end InfSysExec

/-- A new comparison has not made a call. -/
theorem SysStep.started {S S' : Sys α β} (hs : SysStep S S') (hk : S.cmp k = none) (hk' : S'.cmp k = some T) (s : Side) : T.cid s = 0 := by
  have key : ∀ {k1 T1}, S.cmp k1 ≠ none → upd S.cmp k1 (some T1) k = some T → False := by
    intro k1 T1 h1 h2
    have : k ≠ k1 := by rintro rfl; exact h1 hk
    rw [upd_other _ _ this, hk] at h2
    cases h2
  have key' : ∀ {k1 T1 T1'}, S.cmp k1 = some T1' → upd S.cmp k1 (some T1) k = some T → False := fun h1 h2 => key (by rw [h1]; simp) h2
  cases hs with
  | vec u κ' hs ho => rw [hk] at hk'; cases hk'
  | start k1 u v p q veq H V V' hk1 =>
    by_cases hkk : k = k1
    · subst hkk
      simp only [upd_same, Option.some.injEq] at hk'
      subst hk'
      rfl
    · simp only [upd_other _ _ hkk] at hk'
      rw [hk] at hk'; cases hk'
  | call k1 T1 s op K κ H V hk1 => exact (key' hk1 hk').elim
  | step k1 T1 s K κ r a again g t V w b hk1 => exact (key' hk1 hk').elim
  | finStep k1 T1 s K κ r a again g t V w b hk1 => rw [hk] at hk'; cases hk'
  | finRet k1 T1 s K κ r z hk1 => exact (key' hk1 hk').elim
  | panic k1 T1 s κ r pk hk1 => exact (key' hk1 hk').elim
  | bad k1 T1 s κ r a again g t x hk1 => rw [hk] at hk'; cases hk'

namespace InfSysExec

/-- A call that is not part of a comparison does not become part of one. -/
theorem foreign (h : InfSysExec m S) (hm : ∀ u, InitMem (m u) (l u)) (hd : ∀ t, (S t).Disciplined) {u : Nat} {c : Cid} {op : Op α β}
    {t0 : Nat} (hc : ((S t0).vec u).Called c op) (hf : (S t0).Foreign u c) : ∀ t, t0 ≤ t → (S t).Foreign u c := by
  intro t ht
  induction ht with
  | refl => exact hf
  | @step t ht ih =>
    intro k T s hk hu he
    obtain ⟨r, hr, -⟩ := (h.vec u).called ht hc
    have hr : ((S t).vec u).calls c = some r := hr
    rcases h1 : (S t).cmp k with _ | T1
    · have := (h.next t).started h1 hk s
      rw [he] at this
      have hpos := (h.inv t).called_pos hr
      rw [this] at hpos
      exact hpos rfl
    · obtain ⟨T2, hO⟩ := h.onward hm hd h1
      have h2 := hO.cmp'
      rw [hk] at h2
      cases h2
      have hu1 : T1.vecOf s = u := by rw [← hu, hO.keeps.vecOf]
      rcases hO.new s with h3 | h3
      · exact ih k T1 s h1 hu1 (h3.symm.trans he)
      · rw [he, hu1] at h3
        rw [((h.inv t).reach u).new c (Nat.le_of_eq h3.symm)] at hr
        cases hr

/-- A comparison that never ends waits forever. -/
theorem cmp_forever (h : InfSysExec m S) (hm : ∀ u, InitMem (m u) (l u)) (hd : ∀ t, (S t).Disciplined) (hf : SysFair S) {t0 : Nat}
    (hc : ∀ t, t0 ≤ t → (S t).Comparing k) : ∃ t1 T s K, t0 ≤ t1 ∧ ∀ t, t1 ≤ t → (S t).cmp k = some T ∧ T.prog = .step s K ∧
      ((S t).vec (T.vecOf s)).Blocked (T.cid s) := by
  obtain ⟨x, ⟨t1, ht1, rfl⟩, hmin⟩ := (jobLess_wf (α := α) (β := β)).has_min {x | ∃ t, t0 ≤ t ∧ (S t).cmpPart k = x} ⟨_, t0, Nat.le_refl _, rfl⟩
  obtain ⟨T, hT, -⟩ := hc t1 ht1
  have hconst : ∀ t, t1 ≤ t → (S t).cmp k = some T ∧ (S t).cmpPart k = (S t1).cmpPart k := by
    intro t ht
    induction ht with
    | refl => exact ⟨hT, rfl⟩
    | @step t ht ih =>
      obtain ⟨g1, g2⟩ := ih
      have ht : t1 ≤ t := ht
      obtain ⟨T2, hO⟩ := h.onward hm hd g1
      have hno : ¬ JobLess ((S (t + 1)).cmpPart k) ((S t).cmpPart k) := by
        rw [g2]
        exact hmin _ ⟨t + 1, by omega, rfl⟩
      refine ⟨?_, ((hO.part g1).resolve_right hno).trans g2⟩
      rw [hO.cmp', (hO.same.resolve_right hno).1]
  have hw : ∃ t2, ∀ t, t2 ≤ t → (S t).Comparing k → (S t).Waits k := by
    refine Classical.byContradiction fun hno => ?_
    simp only [not_exists, not_forall] at hno
    obtain ⟨t', ht', ha⟩ := hf.cmp k (fun t => by obtain ⟨t', g1, g2, g3⟩ := hno t; exact ⟨t', g1, g2, g3⟩) t1
    obtain ⟨g1, g2⟩ := hconst t' ht'
    obtain ⟨T2, hO⟩ := h.onward hm hd g1
    have := hO.ahead g1 ha
    rw [g2] at this
    exact hmin _ ⟨t' + 1, by omega, rfl⟩ this
  obtain ⟨t2, hw⟩ := hw
  have hw' : ∀ t, max t1 t2 ≤ t → ∃ s K, T.prog = .step s K ∧ ((S t).vec (T.vecOf s)).Blocked (T.cid s) := by
    intro t ht
    obtain ⟨T', s, K, g1, g2, g3⟩ := hw t (by omega) (hc t (by omega))
    rw [(hconst t (by omega)).1] at g1
    cases g1
    exact ⟨s, K, g2, g3⟩
  obtain ⟨s, K, g1, -⟩ := hw' _ (Nat.le_refl _)
  refine ⟨max t1 t2, T, s, K, by omega, fun t ht => ⟨(hconst t (by omega)).1, g1, ?_⟩⟩
  obtain ⟨s', K', g2, g3⟩ := hw' t ht
  rw [g1] at g2
  cases g2
  exact g3

/-- A call that never ends is blocked forever, or part of a comparison that waits forever. -/
theorem forever (h : InfSysExec m S) (hm : ∀ u, InitMem (m u) (l u)) (hd : ∀ t, (S t).Disciplined) (hf : SysFair S) {u : Nat} {c : Cid}
    {t0 : Nat} (hrun : ∀ t, t0 ≤ t → ∃ op, ((S t).vec u).Running c op) :
    (∃ t1, t0 ≤ t1 ∧ ∀ t, t1 ≤ t → ((S t).vec u).Blocked c) ∨
      ∃ t1 k T s s' K, t0 ≤ t1 ∧ T.vecOf s' = u ∧ T.cid s' = c ∧ ∀ t, t1 ≤ t → (S t).cmp k = some T ∧ T.prog = .step s K ∧
        ((S t).vec (T.vecOf s)).Blocked (T.cid s) := by
  by_cases hfo : (S t0).Foreign u c
  · left
    obtain ⟨op, r, p, hr, ho, -⟩ := hrun t0 (Nat.le_refl _)
    have hfor := h.foreign hm hd ⟨r, hr, ho⟩ hfo
    refine (h.vec u).forever (c := c) (fun hinf t => ?_) hrun
    obtain ⟨t', ht', ha⟩ := hf.call u c (fun t => by
      obtain ⟨t', g1, g2, g3⟩ := hinf (max t t0)
      exact ⟨t', by omega, g2, hfor t' (by omega), g3⟩) t
    exact ⟨t', ht', ha.2.2⟩
  · right
    simp only [Sys.Foreign, not_forall, Classical.not_not] at hfo
    obtain ⟨k, T, s', hk, rfl, rfl⟩ := hfo
    have hcur := h.current hm hd hk hrun
    have hcmp : ∀ t, t0 ≤ t → (S t).Comparing k := by
      intro t ht
      obtain ⟨T1, h1, h2, h3⟩ := hcur t ht
      obtain ⟨op, hr⟩ := hrun t ht
      refine (h.phase hm hd t k T1 h1).comparing (h.inv t) h1 (s := s') (op := op) ?_
      rw [h2.vecOf, h3]
      exact hr
    obtain ⟨t1, T1, s, K, g1, g2⟩ := h.cmp_forever hm hd hf hcmp
    obtain ⟨T2, h1, h2, h3⟩ := hcur t1 g1
    have := (g2 t1 (Nat.le_refl _)).1
    rw [h1] at this
    cases this
    exact ⟨t1, k, T1, s, s', K, g1, h2.vecOf s', h3, g2⟩

theorem ends (h : InfSysExec m S) (hm : ∀ u, InitMem (m u) (l u)) (hf : SysFair S) (hd : ∀ t, (S t).Disciplined)
    (hs : ∀ t, (S t).SwapsUp) {mx : Nat → Nat} (hg : ∀ t, (S t).GrowthIntact mx) {rank : Nat → Nat} (hup : ∀ t, (S t).Upwards rank)
    {R : Nat} (hR : ∀ t k T, (S t).cmp k = some T → rank T.v ≤ R) {u : Nat} {c : Cid} {t : Nat}
    (hrun : ∀ s, t ≤ s → ∃ op, ((S s).vec u).Running c op) : False := by
  let D : Nat → Mode := fun u => ⟨fun e => ∃ s d, ((S s).vec u).Called d (.deref e), False, fun i j => i < j⟩
  have ho : ∀ u t c op, ((S t).vec u).Called c op → Allowed (D u) op := by
    intro u t c op hc
    refine ⟨fun i ⟨s, d, hd'⟩ => ?_, fun e he => ⟨t, c, he ▸ hc⟩, fun h => h.elim, fun _ _ => SwapsUp.lt (hs t u c op hc)⟩
    exact hd (max s t) u d i ((h.vec u).called (Nat.le_max_left _ _) hd') c op ((h.vec u).called (Nat.le_max_right _ _) hc)
  have hgh := fun u => (h.vec u).ghost (D := D u) (hm u) (ho u) fun t c op hp => Nat.le_of_eq ((hg t u).2 c op hp).symm
  choose K K0 _ hgh using hgh
  have hW : ∀ u t, WInv (D u) (mx u) (l u).length ((S t).vec u) (K u t) (K0 u t) := fun u t => (hgh u t).1
  have hP : ∀ u t, PInv (l u).length ((S t).vec u) (K u t) := fun u t => (hgh u t).2.1
  have hl : ∀ u t, Later ((S t).vec u) ((S (t + 1)).vec u) (K u t) (K u (t + 1)) := fun u t => (hgh u t).2.2
  have hB : ∀ u t, BInv ((S t).vec u) := fun u t => binv ((h.inv t).reach u)
  have hG : ∀ t, Ghost D mx (fun u => (l u).length) (S t) (fun u => K u t) := fun t =>
    ⟨fun u => ⟨K0 u t, hW u t⟩, fun u => hP u t, fun u => hB u t⟩
  have hord : ∀ u, (D u).ordered := fun _ _ _ h => h
  -- the maximum capacity stays the same
  have hmax : ∀ u c t, (∀ s, t ≤ s → ∃ op, ((S s).vec u).Running c op) → ∀ s, t ≤ s →
      ((S s).vec u).mem.maxCap = ((S t).vec u).mem.maxCap := by
    intro u c t hrun s hs
    induction hs with
    | refl => rfl
    | @step s hs ih =>
      rw [← ih]
      rcases (h.vec u).next s with he | he
      · rw [show (S (s + 1)).vec u = _ from he]
      · exact (h.fine hm hd s u).maxCap he (hrun s hs)
  -- nobody waits for storage forever
  have hcap : ∀ u c t (o : MOrd), (∀ s, t ≤ s → ∃ op, ((S s).vec u).Running c op) →
      (∀ s, t ≤ s → Waits (D u) ((S s).vec u).mem (K u s c) (.capLoad o : Act α)) → False := by
    intro u c t o hr hw
    obtain ⟨⟨i, hi⟩, -⟩ := hw t (Nat.le_refl _)
    have hi' : ∀ s, t ≤ s → (K u s c).R i ∧ lastVal ((S s).vec u).mem.cap < i ∧ i < ((S s).vec u).mem.maxCap := by
      intro s hs
      have h1 := ghost_r (hl u) hs hi
      exact ⟨h1, (hw s hs).2 i h1⟩
    obtain ⟨t', ht', hc⟩ := eventually_const (f := fun s => lastVal ((S s).vec u).mem.cap) (fun s t => ghost_cap (hl u)) (B := i) _ t rfl
      (fun s hs => Nat.le_of_lt (hi' s hs).2.1)
    obtain ⟨d, hd'⟩ := next_owner (hW u t') (hP u t') (hi' t' ht').1 (hi' t' ht').2.1
    have hdo : ∀ s, t' ≤ s → (K u s d).R (lastVal ((S s).vec u).mem.cap) := by
      intro s hs
      have : lastVal ((S s).vec u).mem.cap = _ := hc s hs
      rw [this]
      exact ghost_r (hl u) hs hd'
    have hdr : ∀ s, t' ≤ s → ∃ op, ((S s).vec u).Running d op := by
      intro s hs
      have := hi' s (by omega)
      exact owner_running (hW u s) (hP u s) (hg s u) rfl (hdo s hs) this.1 this.2.1 this.2.2 (hr s (by omega))
    rcases h.forever hm hd hf hdr with ⟨t2, ht2, hb⟩ | ⟨t2, k, T, s, s', K', ht2, rfl, rfl, hw'⟩
    · obtain ⟨r, a, again, g, -, -, hw'⟩ := blocked_waits (hW u t2) (hB u t2) (hb t2 (Nat.le_refl _))
      exact owner_not_waiting rfl (hdo t2 ht2) hw'
    · obtain ⟨g1, g2, g3⟩ := hw' t2 (Nat.le_refl _)
      exact ((h.phase hm hd t2 k T g1).waitsAt (hG t2) g2 g3).owner_free (h.inv t2) (hG t2) g3 (hdr t2 ht2) rfl (hdo t2 ht2)
  -- nobody waits for an element forever
  have hlock : ∀ M N u i c t, R - rank u = M → ((S t).vec u).mem.maxCap - i = N → (∀ s, t ≤ s → Locked ((S s).vec u).mem i) →
      (∀ s, t ≤ s → (K u s c).L i) → False := by
    intro M
    induction M using Nat.strongRecOn with
    | ind M ihM =>
      intro N
      induction N using Nat.strongRecOn with
      | ind N ihN =>
        intro u i c t hM hN hlk hL
        have hr : ∀ s, t ≤ s → ∃ op, ((S s).vec u).Running c op := fun s hs => holder_running (hW u s) (hP u s) (hL s hs)
        rcases h.forever hm hd hf hr with ⟨t2, ht2, hb⟩ | ⟨t2, k, T, s, s', K', ht2, rfl, rfl, hw'⟩
        · obtain ⟨a, _, _, hw⟩ := (h.vec u).wait (hW u) hb
          have hw := fun s hs => (hw s hs).2
          cases a with
          | capLoad o => exact hcap u c t2 o (fun s hs => hr s (by omega)) hw
          | stCas j e s ok fail =>
            obtain ⟨h1, h2, -, h3⟩ := hw t2 (Nat.le_refl _)
            have hij := hord u _ _ (h3 i (hL t2 ht2))
            have hjm := alloc_bound (hW u t2) h2
            have hsame := hmax u c t hr t2 ht2
            obtain ⟨d, hd'⟩ := (hP u t2).held j h1
            have hlk' : ∀ s, t2 ≤ s → Locked ((S s).vec u).mem j := fun s hs => (hw s hs).1
            exact ihN (((S t2).vec u).mem.maxCap - j) (by omega) u j d t2 hM rfl hlk' (fun s hs => ghost_l (hl u) hs hd' hlk')
          | _ => exact hw t2 (Nat.le_refl _)
        · have hb : ∀ t, t2 ≤ t → ((S t).vec (T.vecOf s)).Blocked (T.cid s) := fun t ht => (hw' t ht).2.2
          obtain ⟨a, again, g, hw⟩ := (h.vec _).wait (hW (T.vecOf s)) hb
          obtain ⟨g1, g2, g3⟩ := hw' t2 (Nat.le_refl _)
          obtain ⟨⟨r, hr1, hr2⟩, hw2⟩ := hw t2 (Nat.le_refl _)
          have hcmp : (S t2).Comparing k := ⟨T, g1, by rw [g2]; exact fun _ hb => by (cases hb), by rw [g2]; exact fun _ hb => by (cases hb)⟩
          obtain ⟨j, e1, e2, o1, o2, rfl, hj⟩ := ((h.phase hm hd t2 k T g1).waitsAt (hG t2) g2 g3).holds (h.inv t2) (hG t2)
            (hup t2 k T g1 hcmp) hord (hr t2 ht2) (hL t2 ht2) hr1 hr2 hw2
          obtain ⟨h1, h2, -, -⟩ := hw2
          obtain ⟨d, hd'⟩ := (hP _ t2).held j h1
          have hjm := alloc_bound (hW _ t2) h2
          have hlk' : ∀ t, t2 ≤ t → Locked ((S t).vec (T.vecOf s)).mem j := fun t ht => (hw t ht).2.1
          have hL' : ∀ t, t2 ≤ t → (K (T.vecOf s) t d).L j := fun t ht => ghost_l (hl _) ht hd' hlk'
          rcases hj with ⟨hv, hij⟩ | ⟨rfl, hlt⟩
          · have hsame := hmax _ _ t hr t2 ht2
            rw [hv] at hjm hlk' hL'
            exact ihN (((S t2).vec (T.vecOf s')).mem.maxCap - j) (by omega) _ j d t2 hM rfl hlk' hL'
          · have h5 : rank (T.vecOf .right) ≤ R := hR t2 k T g1
            exact ihM (R - rank (T.vecOf .right)) (by omega) _ _ j d t2 rfl rfl hlk' hL'
  -- nobody waits forever
  have hend : ∀ u c t, (∀ s, t ≤ s → ((S s).vec u).Blocked c) → False := by
    intro u c t hb
    obtain ⟨a, _, _, hw⟩ := (h.vec u).wait (hW u) hb
    have hw := fun s hs => (hw s hs).2
    cases a with
    | capLoad o => exact hcap u c t o (fun s hs => (hb s hs).1) hw
    | stCas j e s ok fail =>
      obtain ⟨d, hd'⟩ := (hP u t).held j (hw t (Nat.le_refl _)).1
      have hlk : ∀ s, t ≤ s → Locked ((S s).vec u).mem j := fun s hs => (hw s hs).1
      exact hlock _ _ u j d t rfl rfl hlk (fun s hs => ghost_l (hl u) hs hd' hlk)
    | _ => exact hw t (Nat.le_refl _)
  rcases h.forever hm hd hf hrun with ⟨t1, -, hb⟩ | ⟨t1, k, T, s, s', K', -, -, -, hw⟩
  · exact hend u c t1 hb
  · exact hend _ _ t1 fun t ht => (hw t ht).2.2

/-- All calls and all comparisons end. -/
theorem all_end (h : InfSysExec m S) (hm : ∀ u, InitMem (m u) (l u)) (hf : SysFair S) (hd : ∀ t, (S t).Disciplined)
    (hs : ∀ t, (S t).SwapsUp) {mx : Nat → Nat} (hg : ∀ t, (S t).GrowthIntact mx) {rank : Nat → Nat} (hup : ∀ t, (S t).Upwards rank)
    {B : Nat} (hB : ∀ t k T, (S t).cmp k = some T → T.v < B) (t : Nat) :
    (∀ k, ∃ t', t ≤ t' ∧ ¬ (S t').Comparing k) ∧
      ∀ u c op, ((S t).vec u).Called c op → ∃ t', t ≤ t' ∧ ((S t').vec u).Over c op := by
  have hR : ∃ R, ∀ v, v < B → rank v ≤ R := by
    clear hB
    induction B with
    | zero => exact ⟨0, fun v hv => by omega⟩
    | succ B ih =>
      obtain ⟨R, hR⟩ := ih
      refine ⟨max R (rank B), fun v hv => ?_⟩
      by_cases he : v = B
      · subst he; omega
      · have := hR v (by omega); omega
  obtain ⟨R, hR⟩ := hR
  have hend : ∀ {u c t}, (∀ s, t ≤ s → ∃ op, ((S s).vec u).Running c op) → False := fun hrun =>
    h.ends hm hf hd hs hg hup (R := R) (fun t k T hk => hR _ (hB t k T hk)) hrun
  refine ⟨fun k => ?_, fun u c op hc => ?_⟩
  · refine Classical.byContradiction fun hno => ?_
    simp only [not_exists, not_and, Classical.not_not] at hno
    obtain ⟨t1, T, s, K, -, hw⟩ := h.cmp_forever hm hd hf hno
    exact hend fun s hs => (hw s hs).2.2.1
  · refine Classical.byContradiction fun hno => ?_
    refine hend (u := u) (c := c) (t := t) fun s hs => ?_
    rcases running_or_over ((h.vec u).called hs hc) with hr | hov
    · exact ⟨op, hr⟩
    · exact absurd ⟨s, hs, hov⟩ hno

end InfSysExec

end Verif.Weak
