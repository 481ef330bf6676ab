import Verif.Proof.CompareHangs
import Mathlib.Data.Nat.Find

/-!
# Comparisons end under fair scheduling, for C56
-/

namespace Verif

variable {α β : Type} {m : Nat → Mem α} {l : Nat → List α} {S : Nat → Sys α β} {n k : Nat} {T T' : Cmp α β}

/-- Nothing happens that matters. -/
structure Rests (S S' : Sys α β) : Prop where
  cmp : S'.cmp = S.cmp
  calls : ∀ u, (S'.vec u).calls = (S.vec u).calls
  same : ∀ u, (S'.vec u).w = (S.vec u).w ∨ (S.vec u).Idle

theorem Rests.of_upd {S : Sys α β} {u : Nat} {κ' : Cfg α β} {c : Nat → Option (Cmp α β)} (h1 : c = S.cmp)
    (h2 : κ'.calls = (S.vec u).calls) (h3 : κ'.w = (S.vec u).w ∨ (S.vec u).Idle) : Rests S ⟨upd S.vec u κ', c⟩ := by
  refine ⟨h1, fun u' => ?_, fun u' => ?_⟩
  · by_cases hu : u' = u
    · subst hu; simp only [upd_same]; exact h2
    · simp only [upd_other _ _ hu]
  · by_cases hu : u' = u
    · subst hu; simp only [upd_same]; exact h3
    · simp only [upd_other _ _ hu]; exact .inl trivial

theorem setStatus_again {κ : Cfg α β} {c : Cid} {r : Rec α β} {s : Status α β} (hc : κ.calls c = some r) (hs : s = r.status) :
    κ.setStatus c r s = κ.calls := by
  funext d
  by_cases hd : d = c
  · subst hd
    refine setStatus_self.trans ?_
    rw [hc, hs]
  · exact setStatus_other hd

/-- A spinning action changes nothing. -/
theorem CfgInv.spin_same {σ : SpecSt α} {κ : Cfg α β} (h : CfgInv σ κ) {c : Cid} {r : Rec α β} {a : Act α}
    {again : a.Resp → Bool} {g : a.Resp → Prog α (Ret α β)} (hc : κ.calls c = some r) (hr : r.status = .running (.step a again g))
    {w' : World α} {b : a.Resp} (he : κ.w.exec c a = some (w', b)) (hab : again b = true) : w' = κ.w := by
  obtain ⟨hsafe, -⟩ := h.running hc hr
  obtain ⟨-, hex⟩ := hsafe _ h.inv (.refl _ _)
  exact ((hex w' b he).2.1 hab).1

theorem Prog.cont_status {r : Rec α β} {a : Act α} {again : a.Resp → Bool} {g : a.Resp → Prog α (Ret α β)} {b : a.Resp}
    (hr : r.status = .running (.step a again g)) : Status.running (g b) ≠ r.status := by
  intro h
  rw [hr] at h
  simp only [Status.running.injEq] at h
  exact Prog.cont_ne _ a again g b rfl h

/-- A comparison is begun, or a call that is not part of one. -/
structure Begins (S S' : Sys α β) : Prop where
  cmp : ∀ k T, S.cmp k = some T → S'.cmp k = some T
  calls : ∀ u c, c < (S.vec u).next → (S'.vec u).calls c = (S.vec u).calls c
  fresh : ∀ k T s, S.cmp k = none → S'.cmp k = some T → T.cid s = 0
  new : (∃ k, S.cmp k = none ∧ S'.cmp k ≠ none) ∨ ∃ u c, (S.vec u).calls c = none ∧ (S'.vec u).calls c ≠ none ∧ S'.Foreign u c

/-- What can happen. -/
theorem SysExec.allKinds (h : SysExec m l n S) (hm : ∀ u, InitMem (m u) (l u)) {S' : Sys α β} (hst : SysStep (S n) S') :
    (∃ k T s T', (S n).Comparing k ∧ Ahead (S n) S' k T s T') ∨ (∃ u c, (S n).Foreign u c ∧ Goes (S n) S' u c) ∨ Rests (S n) S' ∨
      Begins (S n) S' := by
  have hO := h.ok hm (Nat.le_refl n)
  have hI := hO.toSysInv
  have hI' : ∀ u, CfgInv (.ofList (l u)) ((S n).vec u) := fun u => (hI.reach u).inv (hm u)
  have hst' := hst
  have busy : ∀ {k T}, (S n).cmp k = some T → (∀ x : Bool ⊕ PanicKind, T.prog ≠ x.elim .ret .panic) → (S n).Comparing k :=
    fun hk hx => ⟨_, hk, fun b hb => hx (.inl b) hb, fun b hb => hx (.inr b) hb⟩
  cases hst with
  | vec u κ' hs ho =>
    -- a call that is not part of a comparison
    have foreign : ∀ {c r s'}, κ'.calls = ((S n).vec u).setStatus c r s' → ((S n).vec u).calls c = some r → s' ≠ r.status →
        (S n).Foreign u c := by
      intro c r s' hcalls hc hne k T s hk hu hcid
      subst hcid
      have := ho k T s hk hu
      rw [hcalls, hc] at this
      have := setStatus_self.symm.trans this
      exact hne (congrArg Rec.status (Option.some.inj this))
    cases hs with
    | invoke op hn hp =>
      refine .inr (.inr (.inr ⟨fun k T hk => hk, fun u' c hc => ?_, fun k T s h1 h2 => ?_, .inr ⟨u, ((S n).vec u).next, ?_, ?_, ?_⟩⟩))
      · by_cases hu : u' = u
        · subst hu
          simp only [upd_same]
          exact upd_other _ _ (Nat.ne_of_lt hc)
        · simp only [upd_other _ _ hu]
      · rw [h1] at h2; cases h2
      · rcases hx : ((S n).vec u).calls ((S n).vec u).next with _ | r
        · rfl
        · exact absurd ((hI' u).next _ _ hx).2 (Nat.lt_irrefl _)
      · simp only [upd_same]; intro hh; cases hh
      · intro k T s hk hu hcid
        have h1 := hI.ids k T s hk
        rw [hu, hcid] at h1
        exact Nat.lt_irrefl _ h1
    | act c r a again g w' b hc hr he =>
      cases hab : again b with
      | true =>
        refine .inr (.inr (.inl (Rests.of_upd rfl ?_ (.inl ((hI' u).spin_same hc hr he hab)))))
        exact setStatus_again hc (by rw [if_pos rfl, hr])
      | false =>
        have hf : (S n).Foreign u c := foreign (s' := .running (g b)) (by simp only [hab]; rfl) hc (Prog.cont_status hr)
        have hs := Step.act _ _ _ _ _ _ _ _ hc hr he
        simp only [hab] at hs
        refine .inr (.inl ⟨u, c, hf, Goes.of hf (r' := { r with status := .running (g b) }) hc hr rfl hs rfl
          ((hI' u).exec_maxCap hc hr he) ?_⟩)
        rw [Cfg.rest_some (r := { r with status := .running (g b) }) (p := g b)]
        · exact ⟨a, again, g, b, rfl, rfl⟩
        · exact setStatus_self
        · rfl
    | ub c r a again g hc hr he =>
      have := (Reach.step (hI.reach u) (.ub _ _ _ _ _ _ hc hr he)).inv (hm _)
      exact absurd this.noUB (by simp)
    | ret c r x hc hr =>
      have hf : (S n).Foreign u c := foreign rfl hc (by rw [hr]; simp)
      refine .inr (.inl ⟨u, c, hf, Goes.of hf (r' := { r with status := .done x _ _ }) hc hr rfl (.ret _ _ _ _ hc hr) rfl rfl ?_⟩)
      rw [Cfg.rest_none]
      · trivial
      · rintro op' ⟨_, _, _, hcc⟩
        have := setStatus_self.symm.trans hcc
        cases this
    | panic c r x hc hr =>
      have hf : (S n).Foreign u c := foreign rfl hc (by rw [hr]; simp)
      refine .inr (.inl ⟨u, c, hf, Goes.of hf (r' := { r with status := .panicked x _ _ }) hc hr rfl (.panic _ _ _ _ hc hr) rfl rfl ?_⟩)
      rw [Cfg.rest_none]
      · trivial
      · rintro op' ⟨_, _, _, hcc⟩
        have := setStatus_self.symm.trans hcc
        cases this
    | reserveMax N hidle => exact .inr (.inr (.inl (Rests.of_upd rfl rfl (.inr hidle))))
  | start k u v p q veq hk hp hq =>
    refine .inr (.inr (.inr ⟨fun k' T hk' => ?_, fun _ _ _ => rfl, fun k' T s h1 h2 => ?_, .inl ⟨k, hk, ?_⟩⟩))
    · have : k' ≠ k := by rintro rfl; rw [hk] at hk'; cases hk'
      simp only [upd_other _ _ this]
      exact hk'
    · by_cases hkk : k' = k
      · subst hkk
        simp only [upd_same, Option.some.injEq] at h2
        subst h2
        rfl
      · simp only [upd_other _ _ hkk] at h2
        rw [h1] at h2; cases h2
    · simp only [upd_same]
      intro hh; cases hh
  | call k T s op K κ hk ht hκ hn hp =>
    subst hκ
    exact .inl ⟨k, T, s, _, busy hk (by rw [ht]; rintro (x | x) <;> simp), h.ahead_call hm hk ht hst' rfl rfl⟩
  | step k T s K κ r a again g w' b hk ht hκ hcl hr he =>
    subst hκ
    cases hab : again b with
    | true =>
      refine .inr (.inr (.inl (Rests.of_upd ?_ ?_ (.inl ((hI' _).spin_same hcl hr he hab)))))
      · funext k'
        by_cases hkk : k' = k
        · subst hkk
          rw [upd_same, hk, if_pos rfl, Cmp.eta ht]
        · rw [upd_other _ _ hkk]
      · exact setStatus_again hcl (by rw [if_pos rfl, hr])
    | false =>
      simp only [hab] at hst'
      refine .inl ⟨k, T, s, _, busy hk (by rw [ht]; rintro (x | x) <;> simp), Ahead.opened hI hm hk (r' := { r with status := .running (g b) }) (K := K) hcl rfl
        (by have := Step.act _ _ _ _ _ _ _ _ hcl hr he; simp only [hab] at this; exact this) rfl ((hI' _).exec_maxCap hcl hr he)
        ?_ hst' rfl rfl (.inl ?_)⟩
      · exact fun hh => Prog.cont_status hr (congrArg Rec.status hh)
      · rw [ht]; exact .step _ _
  | finStep k T s K κ r a again g w' b hk ht hκ hcl hr he =>
    subst hκ
    cases hab : again b with
    | true =>
      refine .inr (.inr (.inl (Rests.of_upd rfl ?_ (.inl ((hI' _).spin_same hcl hr he hab)))))
      exact setStatus_again hcl (by rw [if_pos rfl, hr])
    | false =>
      simp only [hab] at hst'
      refine .inl ⟨k, T, s, _, busy hk (by rw [ht]; rintro (x | x) <;> simp), Ahead.opened hI hm hk (r' := { r with status := .running (g b) }) (K := T.prog) hcl rfl
        (by have := Step.act _ _ _ _ _ _ _ _ hcl hr he; simp only [hab] at this; exact this) rfl ((hI' _).exec_maxCap hcl hr he)
        ?_ hst' rfl ?_ (.inr ⟨rfl, _, _, hr, rfl, a, again, g, b, rfl, rfl⟩)⟩
      · exact fun hh => Prog.cont_status hr (congrArg Rec.status hh)
      · funext k'
        simp only [upd_apply]
        split
        · rename_i h; rw [h, hk]
        · rfl
  | finRet k T s K κ r z hk ht hκ hcl hr =>
    subst hκ
    refine .inl ⟨k, T, s, _, busy hk (by rw [ht]; rintro (x | x) <;> simp), Ahead.opened hI hm hk
      (r' := { r with status := .done z ((S n).vec (T.vecOf s)).clock ((S n).vec (T.vecOf s)).w }) (K := K z) hcl rfl
      (.ret _ _ _ _ hcl hr) rfl rfl ?_ hst' rfl rfl (.inl ?_)⟩
    · intro hh
      have h4 := congrArg Rec.status hh
      rw [hr] at h4
      cases h4
    · rw [ht]; exact .fin _ _ _
  | panic k T s κ r pk hk ht hκ hcl hr =>
    subst hκ
    exact ((hO.phase _ _ hk).no_panic hI hm hcl hr ht).elim
  | ub k T s κ r a again g hk ht hκ hcl hr he =>
    subst hκ
    have := (Reach.step (hI.reach _) (.ub _ _ _ _ _ _ hcl hr he)).inv (hm _)
    exact absurd this.noUB (by simp)

/-- What can happen while work is being finished. -/
theorem SysExec.kinds (h : SysExec m l n S) (hm : ∀ u, InitMem (m u) (l u)) {S' : Sys α β} (hw : (S n).Works S') :
    (∃ k T s T', (S n).Comparing k ∧ Ahead (S n) S' k T s T') ∨ (∃ u c, (S n).Foreign u c ∧ Goes (S n) S' u c) ∨ Rests (S n) S' := by
  obtain ⟨hst, hnc, hnn⟩ := hw
  rcases h.allKinds hm hst with h1 | h1 | h1 | h1
  · exact .inl h1
  · exact .inr (.inl h1)
  · exact .inr (.inr h1)
  · rcases h1.new with ⟨k, h2, h3⟩ | ⟨u, c, h2, h3, h4⟩
    · exact (h3 (hnc k h2)).elim
    · exact (hnn u c h2 h3 h4).elim

namespace Rests

variable {S S' : Sys α β} (h : Rests S S')
include h

theorem running {u : Nat} {c : Cid} {op : Op α β} : (S'.vec u).Running c op ↔ (S.vec u).Running c op := by
  unfold Cfg.Running; rw [h.calls]

theorem foreign {u : Nat} {c : Cid} : S'.Foreign u c ↔ S.Foreign u c := by unfold Sys.Foreign; rw [h.cmp]

theorem comparing : S'.Comparing k ↔ S.Comparing k := by unfold Sys.Comparing; rw [h.cmp]

theorem left : S'.left = S.left := by
  funext i
  have h1 : S'.callPart i = S.callPart i := by
    unfold Sys.callPart
    rw [Cfg.rest_eq (congrFun (h.calls _) _)]
    by_cases hf' : S.Foreign i.unpair.1 i.unpair.2
    · rw [if_pos hf', if_pos (h.foreign.2 hf')]
    · rw [if_neg hf', if_neg fun hf2 => hf' (h.foreign.1 hf2)]
  unfold Sys.left
  rw [h1]
  congr 1
  rcases hk : S.cmp i with _ | T
  · unfold Sys.cmpPart; rw [h.cmp, hk]
  · rw [Sys.cmpPart_some hk, Sys.cmpPart_some (by rw [h.cmp]; exact hk), Cfg.rest_eq (congrFun (h.calls _) _),
      Cfg.rest_eq (congrFun (h.calls _) _)]

theorem blocked (hI : SysInv m l S) (hI' : SysInv m l S') (hm : ∀ u, InitMem (m u) (l u)) {u : Nat} {c : Cid} :
    (S'.vec u).Blocked c ↔ (S.vec u).Blocked c := by
  rcases h.same u with hw | hidle
  · rw [((hI'.reach u).inv (hm u)).blocked_iff, ((hI.reach u).inv (hm u)).blocked_iff, h.calls, hw]
  · constructor
    · rintro ⟨⟨op, hr⟩, -⟩
      obtain ⟨ct, st, p, hc⟩ := h.running.1 hr
      exact (hidle _ _ _ _ _ hc).elim
    · rintro ⟨⟨op, ct, st, p, hc⟩, -⟩
      exact (hidle _ _ _ _ _ hc).elim

theorem waits (hI : SysInv m l S) (hI' : SysInv m l S') (hm : ∀ u, InitMem (m u) (l u)) : S'.Waits k ↔ S.Waits k := by
  unfold Sys.Waits
  rw [h.cmp]
  simp only [h.blocked hI hI' hm]

end Rests

theorem InfSysExec.exec (h : InfSysExec m l S) (n : Nat) : SysExec m l n S := ⟨h.init, fun t _ => h.next t⟩

/-- From some moment on only spinning steps are made. -/
theorem InfSysExec.settles (h : InfSysExec m l S) (hm : ∀ u, InitMem (m u) (l u)) {N : Nat}
    (hN : ∀ t, N ≤ t → (S t).Works (S (t + 1))) : ∃ t0, N ≤ t0 ∧ ∀ t, t0 ≤ t → Rests (S t) (S (t + 1)) := by
  obtain ⟨M, hM⟩ := (h.exec N).bound (Nat.le_refl N)
  have main : ∀ f : Nat → Option (Prog α (Ret α β)) × Job α β, (∀ i, M ≤ i → f i = nothing) → ∀ t, N ≤ t → (S t).left = f →
      ∃ t0, N ≤ t0 ∧ ∀ t, t0 ≤ t → Rests (S t) (S (t + 1)) := by
    intro f
    induction f using (Weak.oneLess_wf nothing partLess_wf M).induction with
    | _ f ih =>
      intro hz t ht hf
      by_cases hall : ∀ t', t ≤ t' → Rests (S t') (S (t' + 1))
      · exact ⟨t, ht, hall⟩
      · -- the first step that counts
        have hex : ∃ d, ¬ Rests (S (t + d)) (S (t + d + 1)) := by
          simp only [not_forall] at hall
          obtain ⟨t', ht', hn⟩ := hall
          exact ⟨t' - t, by rwa [show t + (t' - t) = t' by omega]⟩
        obtain ⟨d, hd, hmin⟩ : ∃ d, ¬ Rests (S (t + d)) (S (t + d + 1)) ∧ ∀ d', d' < d → Rests (S (t + d')) (S (t + d' + 1)) := by
          classical
          exact ⟨Nat.find hex, Nat.find_spec hex, fun d' hd' => Classical.not_not.1 (Nat.find_min hex hd')⟩
        have hsame : ∀ d', d' ≤ d → (S (t + d')).left = f := by
          intro d'
          induction d' with
          | zero => exact fun _ => hf
          | succ d' ih' => exact fun hle => (hmin d' (by omega)).left.trans (ih' (by omega))
        have hfd := hsame d (Nat.le_refl d)
        have hI := ((h.exec (t + d)).ok hm (Nat.le_refl _)).toSysInv
        have key : ∀ i, PartLess ((S (t + d + 1)).left i) ((S (t + d)).left i) →
            (∀ j, j ≠ i → (S (t + d + 1)).left j = (S (t + d)).left j) → ∃ t0, N ≤ t0 ∧ ∀ t, t0 ≤ t → Rests (S t) (S (t + 1)) := by
          intro i h1 h2
          have hi : i < M := by
            refine Nat.lt_of_not_le fun hle => ?_
            rw [hfd, hz i hle] at h1
            exact partLess_nothing h1
          refine ih (S (t + d + 1)).left ⟨i, hi, ?_, fun j hj => ?_⟩ (fun j hj => ?_) (t + d + 1) (by omega) rfl
          · rw [← hfd]; exact h1
          · rw [← hfd]; exact h2 j hj
          · rw [h2 j (by omega), hfd]; exact hz j hj
        rcases (h.exec (t + d)).kinds hm (hN (t + d) (by omega)) with ⟨k, T, s, T', -, hA⟩ | ⟨u, c, hfo, hG⟩ | hR
        · obtain ⟨h1, h2⟩ := hA.left_less hI hm
          exact key _ h1 h2
        · obtain ⟨h1, h2⟩ := hG.left_less hfo
          exact key _ h1 h2
        · exact (hd hR).elim
  exact main _ (fun i hi => Sys.left_nothing (hM i hi).1 (hM i hi).2) N (Nat.le_refl N) rfl

/-- Everything ends. -/
theorem InfSysExec.all_end (h : InfSysExec m l S) (hm : ∀ u, InitMem (m u) (l u)) (hf : SysFair S) {N : Nat}
    (hN : ∀ t, N ≤ t → (S t).Works (S (t + 1))) (rank : Nat → Nat)
    (hup : ∀ k T, (S N).cmp k = some T → (S N).Comparing k → T.Upwards rank)
    (hsw : ∀ u c op, ((S N).vec u).Called c op → op.SwapsUp) (hp : ∀ t, N ≤ t → ∀ u, ((S t).vec u).GrowthIntact) :
    ∃ t0, ∀ t, t0 ≤ t → (S t).Idle := by
  have hfit : ∀ t, N ≤ t → Fit rank (S t) := by
    intro t ht
    induction ht with
    | refl => exact ⟨hsw, hup⟩
    | @step t hle ih =>
      rcases (h.exec t).kinds hm (hN t hle) with ⟨k, T, s, T', hc, hA⟩ | ⟨u, c, hfo, hG⟩ | hR
      · exact hA.fit hc ih
      · exact ih.same hG.cmp hG.called
      · exact ih.same hR.cmp fun u c op hc => by
          obtain ⟨ct, st, x, hc⟩ := hc
          rw [hR.calls] at hc
          exact ⟨ct, st, x, hc⟩
  obtain ⟨t0, ht0, hR⟩ := h.settles hm hN
  have hI : ∀ t, SysInv m l (S t) := fun t => ((h.exec t).ok hm (Nat.le_refl t)).toSysInv
  refine ⟨t0, fun t ht => Classical.byContradiction fun hidle => ?_⟩
  have hb : (∃ k, (S t).Comparing k) ∨ ∃ u c op, ((S t).vec u).Running c op := by
    refine Classical.byContradiction fun hno => hidle ⟨fun k hk => hno (.inl ⟨k, hk⟩), fun u c op ct st p hc => ?_⟩
    exact hno (.inr ⟨u, c, op, ct, st, p, hc⟩)
  rcases (h.exec t).moving hm (hfit t (by omega)).sw rank (hfit t (by omega)).up (hp t (by omega)) hb with ⟨k, hk, hw⟩ | ⟨u, c, op, hr, hfo, hbl⟩
  · obtain ⟨t', ht', hst, T, T', s, h1, h2, h3⟩ := hf.cmp k t (fun t' ht' => by
      induction ht' with
      | refl => exact ⟨hk, hw⟩
      | @step t' hle ih =>
        have hr := hR t' (Nat.le_trans ht hle)
        exact ⟨hr.comparing.2 ih.1, fun hx => ih.2 ((hr.waits (hI _) (hI _) hm).1 hx)⟩)
    have hr := hR t' (Nat.le_trans ht ht')
    rw [hr.cmp, h1] at h2
    cases h2
    rcases h3 with h3 | h3
    · exact h3 rfl
    · exact h3 (congrFun (hr.calls _) _)
  · obtain ⟨t', ht', h1⟩ := hf.call u c t (fun t' ht' => by
      induction ht' with
      | refl => exact ⟨⟨op, hr⟩, hfo, hbl⟩
      | @step t' hle ih =>
        have hr := hR t' (Nat.le_trans ht hle)
        obtain ⟨⟨op', h1⟩, h2, h3⟩ := ih
        exact ⟨⟨op', hr.running.2 h1⟩, hr.foreign.2 h2, fun hx => h3 ((hr.blocked (hI _) (hI _) hm).1 hx)⟩)
    exact h1 (congrFun ((hR t' (Nat.le_trans ht ht')).calls _) _)

end Verif
