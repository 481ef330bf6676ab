import Verif.Proof.CompareEnds

/-!
# Comparisons that never end, for C56
-/

namespace Verif

variable {α β : Type} {m : Nat → Mem α} {l : Nat → List α} {S : Nat → Sys α β} {n k : Nat} {T T' : Cmp α β}

/-! ## Comparing an operand with itself -/

/-- Since call `N` it has been known that there are elements. -/
structure Filled (N : Cid) (κ : Cfg α β) : Prop where
  now : 0 < κ.w.mem.written
  calls : ∀ c r, N ≤ c → κ.calls c = some r → 0 < r.start.mem.written

theorem Filled.step {l : List α} {N : Cid} {κ κ' : Cfg α β} (h : Filled N κ) (hI : CfgInv (.ofList l) κ) (hs : Step κ κ') :
    Filled N κ' := by
  refine ⟨Nat.lt_of_lt_of_le h.now (hI.step_evolves hs).written, fun c r hc hr => ?_⟩
  rcases hold : κ.calls c with _ | r0
  · cases hs with
    | invoke op hn hp =>
      by_cases hcn : c = κ.next
      · subst hcn
        simp only [upd_same] at hr
        cases hr
        exact h.now
      · simp only [upd_other _ _ hcn] at hr
        exact h.calls c r hc hr
    | act c' r' a again g w' b hc' hr' he =>
      have hne : c ≠ c' := by rintro rfl; rw [hold] at hc'; cases hc'
      exact h.calls c r hc ((setStatus_other hne).symm.trans hr)
    | ub c' r' a again g hc' hr' he => exact h.calls c r hc hr
    | ret c' r' x hc' hr' =>
      have hne : c ≠ c' := by rintro rfl; rw [hold] at hc'; cases hc'
      exact h.calls c r hc ((setStatus_other hne).symm.trans hr)
    | panic c' r' x hc' hr' =>
      have hne : c ≠ c' := by rintro rfl; rw [hold] at hc'; cases hc'
      exact h.calls c r hc ((setStatus_other hne).symm.trans hr)
    | reserveMax N hidle => exact h.calls c r hc hr
  · obtain ⟨r', h1, h2⟩ := hI.step_rec hs hold
    rw [hr] at h1
    cases h1
    rw [h2.start]
    exact h.calls c r0 hc hold

theorem SysExec.vecStep (h : SysExec m l n S) (hm : ∀ u, InitMem (m u) (l u)) {t : Nat} (ht : t < n) : VecStep (S t) (S (t + 1)) := by
  have hO := h.ok hm (t := t) (by omega)
  have key : ∀ {u κ'}, Step ((S t).vec u) κ' → ∀ {c}, S (t + 1) = ⟨upd (S t).vec u κ', c⟩ → VecStep (S t) (S (t + 1)) := by
    intro u κ' hs c he u'
    rw [he]
    by_cases hu : u' = u
    · subst hu; simp only [upd_same]; exact .inr hs
    · simp only [upd_other _ _ hu]; exact .inl trivial
  have hstep := h.next t ht
  generalize hS : S (t + 1) = S' at hstep key ⊢
  cases hstep with
  | vec u κ' hs ho => exact key hs rfl
  | start k u v p q veq hk hp hq => exact fun u => .inl rfl
  | call k T s op K κ hk ht hκ hn hp => subst hκ; exact key (.invoke _ _ hn hp) rfl
  | step k T s K κ r a again g w' b hk ht hκ hcl hr he => subst hκ; exact key (.act _ _ _ _ _ _ _ _ hcl hr he) rfl
  | finStep k T s K κ r a again g w' b hk ht hκ hcl hr he => subst hκ; exact key (.act _ _ _ _ _ _ _ _ hcl hr he) rfl
  | finRet k T s K κ r z hk ht hκ hcl hr => subst hκ; exact key (.ret _ _ _ _ hcl hr) rfl
  | panic k T s κ r pk hk ht hκ hcl hr => subst hκ; exact key (.panic _ _ _ _ hcl hr) rfl
  | ub k T s κ r a again g hk ht hκ hcl hr he => subst hκ; exact key (.ub _ _ _ _ _ _ hcl hr he) rfl

theorem SysExec.filled (h : SysExec m l n S) (hm : ∀ u, InitMem (m u) (l u)) {N u t0 : Nat} (h0 : Filled N ((S t0).vec u)) :
    ∀ {t}, t0 ≤ t → t ≤ n → Filled N ((S t).vec u) := by
  intro t hle
  induction hle with
  | refl => exact fun _ => h0
  | @step t hle ih =>
    intro ht
    have ih := ih (by omega)
    rcases h.vecStep hm (t := t) (by omega) u with he | hs
    · rw [he]; exact ih
    · exact ih.step (((h.ok hm (t := t) (by omega)).reach u).inv (hm u)) hs

/-- The calls of a comparison are made after it has begun. -/
theorem SysExec.own_later (h : SysExec m l n S) (hm : ∀ u, InitMem (m u) (l u)) {t0 : Nat} (h0 : (S t0).cmp k = none) :
    ∀ {t}, t0 ≤ t → t ≤ n → ∀ {T}, (S t).cmp k = some T → ∀ s c, c ∈ T.own s → ((S t0).vec (T.vecOf s)).next ≤ c := by
  have mono : ∀ {t}, t0 ≤ t → t ≤ n → ∀ u, ((S t0).vec u).next ≤ ((S t).vec u).next := by
    intro t hle
    induction hle with
    | refl => exact fun _ u => Nat.le_refl _
    | @step t hle ih =>
      intro ht u
      refine Nat.le_trans (ih (by omega) u) ?_
      rcases h.vecStep hm (t := t) (by omega) u with he | hs
      · rw [he]
      · exact hs.next_le
  intro t hle
  induction hle with
  | refl => intro _ T hT; rw [h0] at hT; cases hT
  | @step t hle ih =>
    intro ht T1 hT1
    have ih := fun {T} => ih (by omega) (T := T)
    have hmono := mono (t := t) hle (by omega)
    have hstep := h.next t (by omega)
    generalize S (t + 1) = S' at hstep hT1
    have key : ∀ {k0 T T'}, (S t).cmp k0 = some T → S'.cmp = upd (S t).cmp k0 (some T') → T'.own = T.own → T'.u = T.u → T'.v = T.v →
        ∀ s c, c ∈ T1.own s → ((S t0).vec (T1.vecOf s)).next ≤ c := by
      intro k0 T T' hk hc ho hu hv
      rw [hc] at hT1
      by_cases hkk : k = k0
      · subst hkk
        simp only [upd_same, Option.some.injEq] at hT1
        subst hT1
        intro s c
        rw [ho]
        have := ih hk s c
        cases s with
        | left => simp only [Cmp.vecOf, hu]; exact this
        | right => simp only [Cmp.vecOf, hv]; exact this
      · rw [upd_other _ _ hkk] at hT1
        exact ih hT1
    cases hstep with
    | vec u κ' hs ho => exact ih hT1
    | start k1 u v p q veq hk hp hq =>
      by_cases hkk : k = k1
      · subst hkk
        simp only [upd_same, Option.some.injEq] at hT1
        subst hT1
        intro s c hc
        cases hc
      · simp only [upd_other _ _ hkk] at hT1
        exact ih hT1
    | call k1 T s op K κ hk ht hκ hn hp =>
      subst hκ
      by_cases hkk : k = k1
      · subst hkk
        simp only [upd_same, Option.some.injEq] at hT1
        subst hT1
        intro s' c hc
        simp only [Cmp.opened] at hc
        have hv : (T.opened s ((S t).vec (T.vecOf s)).next K).vecOf s' = T.vecOf s' := by cases s' <;> rfl
        rw [hv]
        split at hc
        · rename_i hs
          rcases List.mem_cons.1 hc with rfl | hc
          · rw [hs]; exact hmono _
          · exact ih hk s' c hc
        · exact ih hk s' c hc
      · simp only [upd_other _ _ hkk] at hT1
        exact ih hT1
    | step k1 T s K κ r a again g w' b hk ht hκ hcl hr he => exact key hk rfl rfl rfl rfl
    | finStep k1 T s K κ r a again g w' b hk ht hκ hcl hr he => exact ih hT1
    | finRet k1 T s K κ r z hk ht hκ hcl hr => exact key hk rfl rfl rfl rfl
    | panic k1 T s κ r pk hk ht hκ hcl hr => exact key hk rfl rfl rfl rfl
    | ub k1 T s κ r a again g hk ht hκ hcl hr he => exact ih hT1

theorem SysExec.filled_of (h : SysExec m l n S) (hm : ∀ u, InitMem (m u) (l u)) {t0 u : Nat} (ht : t0 ≤ n)
    (hh : l u ≠ [] ∨ ∃ d op x len, ((S t0).vec u).Returned d op x ∧ op.ReportsLen len x ∧ 0 < len) :
    Filled ((S t0).vec u).next ((S t0).vec u) := by
  have hI := ((h.ok hm ht).reach u).inv (hm u)
  refine ⟨?_, fun c r hc hr => ?_⟩
  · rcases hh with hl | ⟨d, op, x, len, hr, hrep, hpos⟩
    · have : ∀ t, t ≤ n → 0 < ((S t).vec u).w.mem.written := by
        intro t
        induction t with
        | zero =>
          intro _
          rw [h.init]
          show 0 < (m u).written
          rw [(hm u).written]
          exact List.length_pos_iff.2 hl
        | succ t ih =>
          intro ht
          refine Nat.lt_of_lt_of_le (ih (by omega)) ?_
          rcases h.vecStep hm (t := t) (by omega) u with he | hs
          · rw [he]
          · exact ((((h.ok hm (t := t) (by omega)).reach u).inv (hm u)).step_evolves hs).written
      exact this t0 ht
    · obtain ⟨ct, st, et, fin, hd⟩ := hr
      obtain ⟨dd, hinfo⟩ := hI.returned hd
      exact Nat.lt_of_lt_of_le hpos (Nat.le_trans (hinfo.lenOK hrep).1.written hinfo.ev2.written)
  · have := (hI.next c r hr).2
    exact (Nat.lt_irrefl _ (Nat.lt_of_lt_of_le this hc)).elim

/-- An operand that has elements. -/
theorem SysExec.elements_pos (h : SysExec m l n S) (hm : ∀ u, InitMem (m u) (l u)) {t0 : Nat} (ht : t0 ≤ n) (h0 : (S t0).cmp k = none)
    (hk : (S n).cmp k = some T) {s : Side} (hh : (S t0).HasElements (l (T.vecOf s)) (T.vecOf s) (T.arg s)) {es : List Nat}
    (he : (S n).Elements T s es) : 0 < es.length := by
  unfold Sys.Elements at he
  cases ha : T.arg s with
  | vec =>
    simp only [ha] at he
    rw [ha] at hh
    obtain ⟨c, hc, ct, st, et, fin, hcall⟩ := he
    have hI := ((h.ok hm (Nat.le_refl n)).reach (T.vecOf s)).inv (hm _)
    have h1 := (h.filled hm (h.filled_of hm ht hh) ht (Nat.le_refl n)).calls c _ (h.own_later hm h0 ht (Nat.le_refl n) hk s c hc) hcall
    obtain ⟨d, hi⟩ := hI.returned hcall
    obtain ⟨n', hlen, hes, -⟩ := hi.out
    cases hes
    rw [List.length_range]
    exact Nat.lt_of_lt_of_le h1 hlen.low
  | slc t =>
    simp only [ha] at he
    subst he
    rw [ha] at hh
    have hh : 0 < t.len := hh
    simpa [Slc.view] using hh
  | el e =>
    simp only [ha] at he
    subst he
    simp

/-- An operand is compared with itself: the comparison does not end. -/
theorem SysExec.self_hangs (h : SysExec m l n S) (hm : ∀ u, InitMem (m u) (l u)) {t0 : Nat} (ht : t0 ≤ n) (h0 : (S t0).cmp k = none)
    (hk : (S n).cmp k = some T) (huv : T.u = T.v) (hpos : T.p.pos 0 = T.q.pos 0)
    (hl : (S t0).HasElements (l T.u) T.u T.p) (hr : (S t0).HasElements (l T.v) T.v T.q) : (S n).Comparing k := by
  have hO := h.ok hm (Nat.le_refl n)
  have key : ∀ {es fs rs}, Hist S n k T es fs rs → 0 < es.length ∧ 0 < fs.length ∧ rs = [] := by
    intro es fs rs hH
    have h1 := h.elements_pos hm ht h0 hk (s := .left) hl hH.left
    have h2 := h.elements_pos hm ht h0 hk (s := .right) hr hH.right
    refine ⟨h1, h2, ?_⟩
    rcases hrs : rs with _ | ⟨r, rs'⟩
    · rfl
    · exfalso
      have e1 : es[0]? = some es[0] := List.getElem?_eq_getElem h1
      have e2 : fs[0]? = some fs[0] := List.getElem?_eq_getElem h2
      have g1 := hH.left.pos hm hO.toSysInv e1
      have g2 := hH.right.pos hm hO.toSysInv e2
      refine hH.diff huv 0 es[0] (by rw [hrs]; simp) e1 (e2.trans ?_)
      rw [g1, g2]
      exact congrArg some hpos.symm
  refine ⟨T, hk, fun b hb => ?_, fun e he => ?_⟩
  · cases hO.phase k T hk with
    | ret es fs rs b' hH hv h =>
      obtain ⟨h1, h2, rfl⟩ := key hH
      generalize hrs : ([] : List (Option Bool)) = rs at hv
      cases hv with
      | equal hl =>
        have := congrArg List.length hrs
        simp at this
        omega
      | differ j =>
        have := congrArg List.length hrs
        simp at this
      | length hl =>
        have := congrArg List.length hrs
        simp at this
        omega
    | locking es fs j e f hH he hf h => cases h <;> rename_i h <;> rw [h] at hb <;> cases hb
    | judging es fs j e f x y hH h => cases h <;> rename_i h <;> rw [h] at hb <;> cases hb
    | callL _ _ h => rw [h] at hb; cases hb
    | finL _ _ _ _ h => rw [h] at hb; cases hb
    | callR _ _ _ _ h => rw [h] at hb; cases hb
    | finR _ _ _ _ _ _ h => rw [h] at hb; cases hb
    | fail _ _ _ _ h => rw [h] at hb; cases hb
  · cases hO.phase k T hk with
    | fail es fs j hH h => have := (key hH).2.2; simp at this
    | locking es fs j e f hH he' hf h => cases h <;> rename_i h <;> rw [h] at he <;> cases he
    | judging es fs j e f x y hH h => cases h <;> rename_i h <;> rw [h] at he <;> cases he
    | callL _ _ h => rw [h] at he; cases he
    | finL _ _ _ _ h => rw [h] at he; cases he
    | callR _ _ _ _ h => rw [h] at he; cases he
    | finR _ _ _ _ _ _ h => rw [h] at he; cases he
    | ret _ _ _ _ _ _ h => rw [h] at he; cases he

/-! ## Two comparisons that wait for each other -/

/-- A call that finds the handle taken waits. -/
theorem At.blocked_of {κ : Cfg α β} {l : List α} {c : Cid} {e : Nat} (h : At κ c e .wait) (hI : CfgInv (.ofList l) κ)
    (hh : (κ.w.holder e).isSome) : κ.Blocked c := by
  refine Classical.byContradiction fun hb => ?_
  obtain ⟨⟨ct, st, hc⟩, -⟩ := h
  simp only [Stage.prog, elCloned_prog] at hc
  obtain ⟨w', b, he, hab⟩ := hI.step_of_not_blocked hc rfl hb
  change Option CState at b
  have hst := (hI.inv.lock e).2 hh
  have hcap : e < κ.w.mem.cap := hI.inv.pub_cap e (hI.inv.pub_of_holder hh)
  simp only [World.exec, Act.exec, hcap, if_true, hst, reduceCtorEq, if_false, Option.some.injEq, Prod.mk.injEq] at he
  obtain ⟨rfl, rfl⟩ := he
  cases hab

/-- A comparison that waits stays where it is. -/
theorem SysExec.waits_step (h : SysExec m l n S) (hm : ∀ u, InitMem (m u) (l u)) {t : Nat} (ht : t < n) (hk : (S t).cmp k = some T)
    (hw : (S t).Waits k) : (S (t + 1)).cmp k = some T ∧
      ∀ s, Quiet ((S t).vec (T.vecOf s)) ((S (t + 1)).vec (T.vecOf s)) (T.cid s) := by
  have hO := h.ok hm (t := t) (by omega)
  have hI := hO.toSysInv
  have hI' : ∀ u, CfgInv (.ofList (l u)) ((S t).vec u) := fun u => (hI.reach u).inv (hm u)
  have hvs := h.vecStep hm ht
  obtain ⟨T0, s0, K0, hk0, hp0, hb0⟩ := hw
  rw [hk] at hk0
  cases hk0
  have other : ∀ {k1 T1 s1 T1'}, Acts (S t) (S (t + 1)) k1 T1 s1 T1' → k1 ≠ k → (S (t + 1)).cmp k = some T ∧
      ∀ s, Quiet ((S t).vec (T.vecOf s)) ((S (t + 1)).vec (T.vecOf s)) (T.cid s) := by
    intro k1 T1 s1 T1' hA hne
    refine ⟨by rw [hA.cmp', upd_other _ _ (Ne.symm hne)]; exact hk, fun s => hA.quiet hI hk fun hh => hne hh.1.symm⟩
  have hstep := h.next t ht
  generalize hS : S (t + 1) = S' at hstep
  have hvc : ∀ {v c}, S' = ⟨v, c⟩ → (S (t + 1)).vec = v ∧ (S (t + 1)).cmp = c := by
    intro v c he; rw [hS, he]; exact ⟨rfl, rfl⟩
  rw [← hS]
  cases hstep with
  | vec u κ' hs ho =>
    obtain ⟨hv, hc⟩ := hvc rfl
    refine ⟨by rw [hc]; exact hk, fun s => ⟨hvs _, ?_⟩⟩
    rw [hv]
    by_cases hu : T.vecOf s = u
    · subst hu; rw [upd_same]; exact ho k T s hk rfl
    · rw [upd_other _ _ hu]
  | start k1 u v p q veq hk1 hp hq =>
    obtain ⟨hv, hc⟩ := hvc rfl
    have hne : k ≠ k1 := by rintro rfl; rw [hk] at hk1; cases hk1
    exact ⟨by rw [hc, upd_other _ _ hne]; exact hk, fun s => ⟨hvs _, by rw [hv]⟩⟩
  | call k1 T1 s op K κ hk1 ht1 hκ hn hp =>
    subst hκ
    obtain ⟨hv, hc⟩ := hvc rfl
    refine other (Acts.call hI hm hk1 hn hp hv hc) ?_
    rintro rfl
    rw [hk] at hk1
    cases hk1
    rw [hp0] at ht1
    cases ht1
  | step k1 T1 s K κ r a again g w' b hk1 ht1 hκ hcl hr he =>
    subst hκ
    obtain ⟨hv, hc⟩ := hvc rfl
    by_cases hne : k1 = k
    · subst hne
      rw [hk] at hk1
      cases hk1
      rw [hp0] at ht1
      simp only [Client.step.injEq] at ht1
      obtain ⟨rfl, rfl⟩ := ht1
      obtain ⟨r', a', again', g', b', hc', hr', he', hag, hok⟩ := (hI' _).blocked_iff.1 hb0
      rw [hcl] at hc'
      cases hc'
      rw [hr] at hr'
      simp only [Status.running.injEq, Prog.step.injEq] at hr'
      obtain ⟨rfl, h1, h2⟩ := hr'
      cases eq_of_heq h1
      cases eq_of_heq h2
      rw [he] at he'
      simp only [Option.some.injEq, Prod.mk.injEq] at he'
      obtain ⟨rfl, rfl⟩ := he'
      refine ⟨?_, fun s => ⟨hvs _, ?_⟩⟩
      · rw [hc, upd_same, ← hp0]
        simp [hag]
      · rw [hv]
        have same : ∀ c, (upd (S t).vec (T.vecOf s0) { (S t).vec (T.vecOf s0) with
            w := ((S t).vec (T.vecOf s0)).w
            calls := ((S t).vec (T.vecOf s0)).setStatus (T.cid s0) r (.running (if again b then .step a again g else g b))
            clock := ((S t).vec (T.vecOf s0)).clock + 1 } (T.vecOf s)).calls c = ((S t).vec (T.vecOf s)).calls c := by
          intro c
          by_cases hu : T.vecOf s = T.vecOf s0
          · rw [hu, upd_same]
            by_cases hcc : c = T.cid s0
            · subst hcc
              refine setStatus_self.trans ?_
              rw [hcl]
              obtain ⟨op, ct, st, x⟩ := r
              simp only at hr
              subst hr
              simp [hag]
            · exact setStatus_other hcc
          · rw [upd_other _ _ hu]
        exact same _
    · exact other (Acts.open hI hm hk1 hcl (.act _ _ _ _ _ _ _ _ hcl hr he) rfl hv hc) hne
  | finStep k1 T1 s K κ r a again g w' b hk1 ht1 hκ hcl hr he =>
    subst hκ
    obtain ⟨hv, hc⟩ := hvc rfl
    have hc' : (S (t + 1)).cmp = upd (S t).cmp k1 (some { T1 with prog := .fin s K }) := by
      rw [hc, ← Cmp.eta ht1]
      funext k'
      simp only [upd_apply]
      split
      · rename_i h; rw [h, hk1]
      · rfl
    refine other (Acts.open hI hm hk1 hcl (.act _ _ _ _ _ _ _ _ hcl hr he) rfl hv hc') ?_
    rintro rfl
    rw [hk] at hk1
    cases hk1
    rw [hp0] at ht1
    cases ht1
  | finRet k1 T1 s K κ r z hk1 ht1 hκ hcl hr =>
    subst hκ
    obtain ⟨hv, hc⟩ := hvc rfl
    refine other (Acts.open hI hm hk1 hcl (.ret _ _ _ _ hcl hr) rfl hv hc) ?_
    rintro rfl
    rw [hk] at hk1
    cases hk1
    rw [hp0] at ht1
    cases ht1
  | panic k1 T1 s κ r pk hk1 ht1 hκ hcl hr =>
    subst hκ
    exact ((hO.phase _ _ hk1).no_panic hI hm hcl hr ht1).elim
  | ub k1 T1 s κ r a again g hk1 ht1 hκ hcl hr he =>
    subst hκ
    have := (Reach.step (hI.reach _) (.ub _ _ _ _ _ _ hcl hr he)).inv (hm _)
    exact absurd this.noUB (by simp)

/-- The comparison has the handle of `e` and takes that of `f` next. -/
structure Half (S : Sys α β) (k : Nat) (T : Cmp α β) (e f : Nat) : Prop where
  cmp : S.cmp k = some T
  prog : ∃ K, T.prog = .step .right K
  left : At (S.vec T.u) (T.cid .left) e .held
  right : At (S.vec T.v) (T.cid .right) f .wait

theorem SysOK.half (hO : SysOK m l S n) (hm : ∀ u, InitMem (m u) (l u)) {u e v f : Nat} (h : (S n).WaitsRight k u e v f) :
    ∃ T, T.u = u ∧ T.v = v ∧ Half (S n) k T e f := by
  obtain ⟨T, K, hk, rfl, rfl, hp, h1, h2, hb⟩ := h
  suffices hx : At ((S n).vec T.u) (T.cid .left) e .held ∧ At ((S n).vec T.v) (T.cid .right) f .wait from
    ⟨T, rfl, rfl, hk, ⟨K, hp⟩, hx.1, hx.2⟩
  cases hO.waitsAt hm hk ⟨T, .right, K, hk, hp, hb⟩ with
  | left e' hat hh hl ho => rw [hp] at ho; exact (ho (.inl rfl)).elim
  | right e' f' j es fs hl hr hh hn hes hfs he hf =>
    obtain ⟨⟨ct, st, c1⟩, -⟩ := id hl
    obtain ⟨⟨ct', st', c2⟩, -⟩ := id hr
    have e1 := Cfg.Called.unique h1 ⟨ct, st, _, c1⟩
    have e2 := Cfg.Called.unique h2 ⟨ct', st', _, c2⟩
    cases e1
    cases e2
    exact ⟨hl, hr⟩

theorem SysExec.opposite (h : SysExec m l n S) (hm : ∀ u, InitMem (m u) (l u)) {k k' u e v f t0 : Nat}
    (h1 : (S t0).WaitsRight k u e v f) (h2 : (S t0).WaitsRight k' v f u e) (ht0 : t0 ≤ n) :
    (S n).WaitsRight k u e v f ∧ (S n).WaitsRight k' v f u e := by
  obtain ⟨T, hu, hv, g1⟩ := (h.ok hm ht0).half hm h1
  obtain ⟨T', hu', hv', g2⟩ := (h.ok hm ht0).half hm h2
  -- each of them waits
  have blocked : ∀ {t}, t ≤ n → Half (S t) k T e f → Half (S t) k' T' f e →
      ((S t).vec T.v).Blocked (T.cid .right) ∧ ((S t).vec T'.v).Blocked (T'.cid .right) := by
    intro t ht g1 g2
    have hI : ∀ u, CfgInv (.ofList (l u)) ((S t).vec u) := fun u => ((h.ok hm ht).reach u).inv (hm u)
    have k1 : ((S t).vec T.u).w.holder e = some (T.cid .left) := g1.left.knows
    have k2 : ((S t).vec T'.u).w.holder f = some (T'.cid .left) := g2.left.knows
    refine ⟨g1.right.blocked_of (hI _) ?_, g2.right.blocked_of (hI _) ?_⟩
    · rw [hv, ← hu', k2]; rfl
    · rw [hv', ← hu, k1]; rfl
  have key : ∀ {t}, t0 ≤ t → t ≤ n → Half (S t) k T e f ∧ Half (S t) k' T' f e := by
    intro t hle
    induction hle with
    | refl => exact fun _ => ⟨g1, g2⟩
    | @step t hle ih =>
      intro ht
      obtain ⟨g1, g2⟩ := ih (by omega)
      have hI : ∀ u, CfgInv (.ofList (l u)) ((S t).vec u) := fun u => ((h.ok hm (t := t) (by omega)).reach u).inv (hm u)
      obtain ⟨b1, b2⟩ := blocked (by omega) g1 g2
      have one : ∀ {k T e f}, Half (S t) k T e f → ((S t).vec T.v).Blocked (T.cid .right) → Half (S (t + 1)) k T e f := by
        intro k T e f g hb
        obtain ⟨K, hp⟩ := g.prog
        obtain ⟨c1, c2⟩ := h.waits_step hm (t := t) (by omega) g.cmp ⟨T, .right, K, g.cmp, hp, hb⟩
        exact ⟨c1, g.prog, g.left.quiet (hI _) (c2 .left), g.right.quiet (hI _) (c2 .right)⟩
      exact ⟨one g1 b1, one g2 b2⟩
  obtain ⟨g1, g2⟩ := key ht0 (Nat.le_refl n)
  obtain ⟨b1, b2⟩ := blocked (Nat.le_refl n) g1 g2
  have back : ∀ {k T e f}, Half (S n) k T e f → ((S n).vec T.v).Blocked (T.cid .right) → (S n).WaitsRight k T.u e T.v f := by
    intro k T e f g hb
    obtain ⟨K, hp⟩ := g.prog
    obtain ⟨⟨ct, st, c1⟩, -⟩ := g.left
    obtain ⟨⟨ct', st', c2⟩, -⟩ := g.right
    exact ⟨T, K, g.cmp, rfl, rfl, hp, ⟨ct, st, _, c1⟩, ⟨ct', st', _, c2⟩, hb⟩
  have r1 := back g1 b1
  have r2 := back g2 b2
  rw [hu, hv] at r1
  rw [hu', hv'] at r2
  exact ⟨r1, r2⟩

theorem Sys.WaitsRight.comparing {S : Sys α β} {u e v f : Nat} (h : S.WaitsRight k u e v f) : S.Comparing k := by
  obtain ⟨T, K, hk, -, -, hp, -⟩ := h
  exact ⟨T, hk, fun b hb => (by rw [hp] at hb; cases hb), fun e he => (by rw [hp] at he; cases he)⟩

end Verif
