import Verif.Proof.CompareFair
import Verif.Proof.StrongFair

/-!
# All comparisons end under strongly fair scheduling, for C56

Helper file (no property statements).
-/

namespace Verif

variable {α β : Type} {m : Nat → Mem α} {l : Nat → List α} {S : Nat → Sys α β} {n k : Nat} {T T' : Cmp α β}

theorem Cmp.Keeps.trans {T'' : Cmp α β} (h : T.Keeps T') (h' : T'.Keeps T'') : T.Keeps T'' :=
  ⟨h'.u.trans h.u, h'.v.trans h.v, h'.p.trans h.p, h'.q.trans h.q, h'.veq.trans h.veq, fun s c hc => h'.own s c (h.own s c hc)⟩

/-- Nothing happens to the comparison, or less is left to do. -/
structure Sys.Onward (S S' : Sys α β) (k : Nat) (T T' : Cmp α β) : Prop where
  cmp' : S'.cmp k = some T'
  keeps : T.Keeps T'
  old : ∀ s, T'.cid s ≠ T.cid s → ∀ op, ¬ (S.vec (T.vecOf s)).Running (T.cid s) op
  new : ∀ s, T'.cid s = T.cid s ∨ T'.cid s = (S.vec (T.vecOf s)).next
  same : (T' = T ∧ ∀ s, (S'.vec (T.vecOf s)).calls (T.cid s) = (S.vec (T.vecOf s)).calls (T.cid s)) ∨ JobLess (S'.cmpPart k) (S.cmpPart k)

theorem Sys.Onward.part {S S' : Sys α β} (h : S.Onward S' k T T') (hk : S.cmp k = some T) :
    S'.cmpPart k = S.cmpPart k ∨ JobLess (S'.cmpPart k) (S.cmpPart k) := by
  refine h.same.imp (fun ⟨h1, h2⟩ => ?_) id
  subst h1
  rw [Sys.cmpPart_some hk, Sys.cmpPart_some h.cmp', Cfg.rest_eq (h2 .left), Cfg.rest_eq (h2 .right)]

theorem Sys.Onward.ahead {S S' : Sys α β} (h : S.Onward S' k T T') (hk : S.cmp k = some T) (ha : S.GetsAhead S' k) :
    JobLess (S'.cmpPart k) (S.cmpPart k) := by
  refine h.same.resolve_left fun ⟨h1, h2⟩ => ?_
  subst h1
  obtain ⟨-, T1, T2, s, g1, g2, g3⟩ := ha
  rw [hk] at g1
  rw [h.cmp'] at g2
  cases g1
  cases g2
  rcases g3 with g3 | g3
  · exact g3 rfl
  · exact g3 (h2 s)

/-- What a step does to a comparison. -/
theorem SysExec.onward (h : SysExec m l n S) (hm : ∀ u, InitMem (m u) (l u)) {S' : Sys α β} (hst : SysStep (S n) S')
    (hk : (S n).cmp k = some T) : ∃ T', (S n).Onward S' k T T' := by
  have hI := (h.ok hm (Nat.le_refl n)).toSysInv
  have quiet : S'.cmp k = some T → (∀ s, (S'.vec (T.vecOf s)).calls (T.cid s) = ((S n).vec (T.vecOf s)).calls (T.cid s)) →
      ∃ T', (S n).Onward S' k T T' := fun h1 h2 => ⟨T, h1, .refl T, fun s hh => (hh rfl).elim, fun s => .inl rfl, .inl ⟨rfl, h2⟩⟩
  rcases h.allKinds hm hst with ⟨k1, T1, s1, T1', -, hA⟩ | ⟨u, c, hfo, hG⟩ | hR | hB
  · by_cases hkk : k = k1
    · subst hkk
      have hT := hA.acts.cmp
      rw [hk] at hT
      cases hT
      refine ⟨T1', by rw [hA.acts.cmp', upd_same], hA.acts.keeps, fun s hs => ?_, fun s => ?_, .inr (hA.cmpPart_less hI)⟩
      · by_cases hss : s = s1
        · subst hss; exact hA.old hs
        · exact (hs (hA.acts.other s hss)).elim
      · by_cases hss : s = s1
        · subst hss; exact hA.acts.mine
        · exact .inl (hA.acts.other s hss)
    · exact quiet (by rw [hA.acts.cmp', upd_other _ _ hkk]; exact hk) fun s => (hA.acts.quiet hI hk fun hh => hkk hh.1).same
  · refine quiet (by rw [hG.cmp]; exact hk) fun s => hG.other _ _ ?_
    rintro ⟨hu, hc⟩
    exact hfo k T s hk hu hc
  · exact quiet (by rw [hR.cmp]; exact hk) fun s => congrFun (hR.calls _) _
  · exact quiet (hB.cmp k T hk) fun s => hB.calls _ _ (hI.ids k T s hk)

/-- What a step does to a call that is not part of a comparison. -/
theorem SysExec.foreign_step (h : SysExec m l n S) (hm : ∀ u, InitMem (m u) (l u)) {S' : Sys α β} (hst : SysStep (S n) S')
    {u : Nat} {c : Cid} {r : Rec α β} (hc : ((S n).vec u).calls c = some r) (hf : (S n).Foreign u c) :
    S'.Foreign u c ∧ ((S'.vec u).calls c = ((S n).vec u).calls c ∨ Less ((S'.vec u).rest c) (((S n).vec u).rest c)) := by
  have hI := (h.ok hm (Nat.le_refl n)).toSysInv
  obtain ⟨hpos, hlt⟩ := ((hI.reach u).inv (hm u)).next c r hc
  refine ⟨fun k T s hk hu hcid => ?_, ?_⟩
  · rcases h1 : (S n).cmp k with _ | T1
    · rcases h.allKinds hm hst with ⟨k1, T1, s1, T1', -, hA⟩ | ⟨u', c', hfo, hG⟩ | hR | hB
      · rw [hA.acts.cmp'] at hk
        have : k ≠ k1 := by rintro rfl; rw [hA.acts.cmp] at h1; cases h1
        rw [upd_other _ _ this, h1] at hk
        cases hk
      · rw [hG.cmp, h1] at hk; cases hk
      · rw [hR.cmp, h1] at hk; cases hk
      · have := hB.fresh k T s h1 hk
        rw [hcid] at this
        rw [this] at hpos
        exact Nat.lt_irrefl _ hpos
    · obtain ⟨T2, hO⟩ := h.onward hm hst h1
      have h2 := hO.cmp'
      rw [hk] at h2
      cases h2
      have hu1 : T1.vecOf s = u := by rw [← hu, hO.keeps.vecOf]
      rcases hO.new s with h3 | h3
      · exact hf k T1 s h1 hu1 (h3.symm.trans hcid)
      · rw [hcid, hu1] at h3
        rw [h3] at hlt
        exact Nat.lt_irrefl _ hlt
  · rcases h.allKinds hm hst with ⟨k1, T1, s1, T1', -, hA⟩ | ⟨u', c', hfo, hG⟩ | hR | hB
    · refine .inl (hA.vec_other ?_)
      rintro ⟨rfl, hcid⟩
      rcases hA.acts.mine with h3 | h3
      · exact hf k1 T1 s1 hA.acts.cmp rfl (h3.symm.trans hcid.symm)
      · rw [hcid, h3] at hlt
        exact Nat.lt_irrefl _ hlt
    · by_cases hne : u = u' ∧ c = c'
      · obtain ⟨rfl, rfl⟩ := hne
        exact .inr hG.less
      · exact .inl (hG.other _ _ hne)
    · exact .inl (congrFun (hR.calls _) _)
    · exact .inl (hB.calls _ _ hlt)

namespace InfSysExec

section basic

variable (h : InfSysExec m l S) (hm : ∀ u, InitMem (m u) (l u))
include h hm

theorem ok (t : Nat) : SysOK m l S t := (h.exec t).ok hm (Nat.le_refl t)

theorem vinv (t u : Nat) : CfgInv (.ofList (l u)) ((S t).vec u) := ((h.ok hm t).reach u).inv (hm u)

theorem vecStep (t : Nat) : VecStep (S t) (S (t + 1)) := (h.exec (t + 1)).vecStep hm (Nat.lt_succ_self t)

theorem evolves {u s t : Nat} (hst : s ≤ t) : Evolves ((S s).vec u).w ((S t).vec u).w := by
  induction hst with
  | refl => exact .refl _
  | @step t hst ih =>
    rcases h.vecStep hm t u with he | hs
    · rw [he]; exact ih
    · exact ih.trans ((h.vinv hm t u).step_evolves hs)

/-- A call that was made is not forgotten. -/
theorem called {u c s t : Nat} {op : Op α β} (hst : s ≤ t) (hc : ((S s).vec u).Called c op) : ((S t).vec u).Called c op := by
  induction hst with
  | refl => exact hc
  | @step t hst ih =>
    rcases h.vecStep hm t u with he | hs
    · rw [he]; exact ih
    · obtain ⟨ct, st, x, hr⟩ := ih
      obtain ⟨⟨op', ct', st', x'⟩, h1, h2⟩ := (h.vinv hm t u).step_rec hs hr
      cases h2.op
      exact ⟨_, _, _, h1⟩

/-- A comparison that was begun is not forgotten. -/
theorem goesOn {t0 : Nat} (hk : (S t0).cmp k = some T) : ∀ t, t0 ≤ t → ∃ T', (S t).cmp k = some T' ∧ T.Keeps T' := by
  intro t ht
  induction ht with
  | refl => exact ⟨T, hk, .refl T⟩
  | @step t ht ih =>
    obtain ⟨T1, h1, h2⟩ := ih
    obtain ⟨T2, hO⟩ := (h.exec t).onward hm (h.next t) h1
    exact ⟨T2, hO.cmp', h2.trans hO.keeps⟩

/-- The running call of a comparison stays its latest call. -/
theorem current {t0 : Nat} (hk : (S t0).cmp k = some T) {s : Side}
    (hrun : ∀ t, t0 ≤ t → ∃ op, ((S t).vec (T.vecOf s)).Running (T.cid s) op) :
    ∀ t, t0 ≤ t → ∃ T', (S t).cmp k = some T' ∧ T.Keeps T' ∧ T'.cid s = T.cid s := by
  intro t ht
  induction ht with
  | refl => exact ⟨T, hk, .refl T, rfl⟩
  | @step t ht ih =>
    obtain ⟨T1, h1, h2, h3⟩ := ih
    obtain ⟨T2, hO⟩ := (h.exec t).onward hm (h.next t) h1
    refine ⟨T2, hO.cmp', h2.trans hO.keeps, ?_⟩
    refine Classical.byContradiction fun hne => ?_
    obtain ⟨op, hr⟩ := hrun t ht
    refine hO.old s (fun he => hne (he.trans h3)) op ?_
    rw [h2.vecOf, h3]
    exact hr

end basic

/-- Nobody changes the maximum capacity while there are running calls. -/
theorem _root_.Verif.CfgInv.maxCap_step {σ : SpecSt α} {κ κ' : Cfg α β} (h : CfgInv σ κ) (hs : Step κ κ') {c : Cid} {op : Op α β}
    (hr : κ.Running c op) : κ'.w.mem.maxCap = κ.w.mem.maxCap := by
  cases hs with
  | act c r a again k w' b hc hr he => exact h.exec_maxCap hc hr he
  | reserveMax n hidle =>
    obtain ⟨ct, st, p, hc⟩ := hr
    exact (hidle _ _ _ _ _ hc).elim
  | _ => rfl

section stays

variable (h : InfSysExec m l S) (hm : ∀ u, InitMem (m u) (l u))
include h hm

theorem maxCap {u : Nat} {c : Cid} {t0 : Nat} (hrun : ∀ t, t0 ≤ t → ∃ op, ((S t).vec u).Running c op) : ∀ t, t0 ≤ t →
    ((S t).vec u).w.mem.maxCap = ((S t0).vec u).w.mem.maxCap := by
  intro t ht
  induction ht with
  | refl => rfl
  | @step t ht ih =>
    rcases h.vecStep hm t u with he | hs
    · rw [he]; exact ih
    · obtain ⟨op, hr⟩ := hrun t ht
      exact ((h.vinv hm t u).maxCap_step hs hr).trans ih

/-- An element that stays locked is held by the same call. -/
theorem holder {u i t0 : Nat} {d : Cid} (hd : ((S t0).vec u).w.holder i = some d) (hi : ∀ t, t0 ≤ t → (((S t).vec u).w.holder i).isSome) :
    ∀ t, t0 ≤ t → ((S t).vec u).w.holder i = some d := by
  intro t ht
  induction ht with
  | refl => exact hd
  | @step t ht ih =>
    rcases h.vecStep hm t u with he | hs
    · rw [he]; exact ih
    · exact (h.vinv hm t u).holder_step hs ih (hi (t + 1) (Nat.le_succ_of_le ht))

/-- What a comparison that waits forever holds and what it waits for. -/
theorem waiting {t1 : Nat} (hw : ∀ t, t1 ≤ t → (S t).cmp k = some T ∧ (S t).Waits k) :
    (∃ e, (∀ t, t1 ≤ t → (((S t).vec T.u).w.holder e).isSome ∧ (∀ j, ((S t).vec T.u).w.holder j ≠ some (T.cid .left)) ∧
      ∀ op, ¬ ((S t).vec T.v).Running (T.cid .right) op) ∧ ((S t1).vec T.u).Called (T.cid .left) (.elCloned e)) ∨
    ∃ e f, (∀ t, t1 ≤ t → (((S t).vec T.v).w.holder f).isSome ∧ ∀ j, ((S t).vec T.v).w.holder j ≠ some (T.cid .right)) ∧
      ((S t1).vec T.u).Called (T.cid .left) (.elCloned e) ∧ ((S t1).vec T.v).Called (T.cid .right) (.elCloned f) ∧
      (T.p.pos 0 < T.q.pos 0 → e < f) := by
  have hat : ∀ t, t1 ≤ t → WaitsAt S t k T := fun t ht => (h.ok hm t).waitsAt hm (hw t ht).1 (hw t ht).2
  have htidy : ∀ t, t1 ≤ t → Tidy (S t) T := fun t ht => (h.exec t).tidy hm (Nat.le_refl t) (hw t ht).1
  have called : ∀ {κ : Cfg α β} {c e st}, At κ c e st → κ.Called c (.elCloned e) := by
    rintro κ c e st ⟨⟨ct, st', hc⟩, -⟩
    exact ⟨_, _, _, hc⟩
  have opens : ∀ {t f}, t1 ≤ t → At ((S t).vec T.v) (T.cid .right) f .wait → T.prog.Opens .right := by
    rintro t f ht ⟨⟨ct, st, hc⟩, -⟩
    exact ((htidy t ht).closed .right).resolve_right fun hno => hno _ ⟨ct, st, _, hc⟩
  cases hat t1 (Nat.le_refl _) with
  | left e h1 h2 h3 h4 =>
    refine .inl ⟨e, fun t ht => ?_, called h1⟩
    cases hat t ht with
    | left e' g1 g2 g3 g4 =>
      have := (h.called hm ht (called h1)).unique (called g1)
      cases this
      exact ⟨g2, g3, fun op => ((htidy t ht).closed .right).resolve_left h4 op⟩
    | right e' f' j' es' fs' g1 g2 => exact (h4 (opens ht g2)).elim
  | right e f j es fs h1 h2 h3 h4 h5 h6 h7 h8 =>
    refine .inr ⟨e, f, fun t ht => ?_, called h1, called h2, fun hlt => ?_⟩
    · cases hat t ht with
      | left e' g1 g2 g3 g4 => exact (g4 (opens (Nat.le_refl _) h2)).elim
      | right e' f' j' es' fs' g1 g2 g3 g4 =>
        have := (h.called hm ht (called h2)).unique (called g2)
        cases this
        exact ⟨g3, g4⟩
    · exact Arg.pos_lt hlt hm (h.ok hm t1).toSysInv rfl rfl h5 h6 h7 h8

end stays

section ends

variable (h : InfSysExec m l S) (hm : ∀ u, InitMem (m u) (l u)) (hf : SysStronglyFair S)
include h hm hf

/-- A comparison that never ends waits forever. -/
theorem cmp_forever {t0 : Nat} (hc : ∀ t, t0 ≤ t → (S t).Comparing k) : ∃ t1 T, t0 ≤ t1 ∧ ∀ t, t1 ≤ t → (S t).cmp k = some T ∧
    (S t).Waits k := by
  obtain ⟨x, ⟨t1, ht1, rfl⟩, hmin⟩ := (jobLess_wf (α := α) (β := β)).has_min {x | ∃ t, t0 ≤ t ∧ (S t).cmpPart k = x} ⟨_, t0, Nat.le_refl _, rfl⟩
  obtain ⟨T, hT, -⟩ := hc t1 ht1
  have hconst : ∀ t, t1 ≤ t → (S t).cmp k = some T ∧ (S t).cmpPart k = (S t1).cmpPart k := by
    intro t ht
    induction ht with
    | refl => exact ⟨hT, rfl⟩
    | @step t ht ih =>
      obtain ⟨g1, g2⟩ := ih
      have ht : t1 ≤ t := ht
      obtain ⟨T2, hO⟩ := (h.exec t).onward hm (h.next t) g1
      have hno : ¬ JobLess ((S (t + 1)).cmpPart k) ((S t).cmpPart k) := by
        rw [g2]
        exact hmin _ ⟨t + 1, by omega, rfl⟩
      refine ⟨?_, ((hO.part g1).resolve_right hno).trans g2⟩
      rw [hO.cmp', (hO.same.resolve_right hno).1]
  have hw : ∃ t2, ∀ t, t2 ≤ t → (S t).Comparing k → (S t).Waits k := by
    refine Classical.byContradiction fun hno => ?_
    simp only [not_exists, not_forall] at hno
    obtain ⟨t', ht', ha⟩ := hf.cmp k (fun t => by obtain ⟨t', g1, g2, g3⟩ := hno t; exact ⟨t', g1, g2, g3⟩) t1
    obtain ⟨g1, g2⟩ := hconst t' ht'
    obtain ⟨T2, hO⟩ := (h.exec t').onward hm (h.next t') g1
    have := hO.ahead g1 ha
    rw [g2] at this
    exact hmin _ ⟨t' + 1, by omega, rfl⟩ this
  obtain ⟨t2, hw⟩ := hw
  exact ⟨max t1 t2, T, by omega, fun t ht => ⟨(hconst t (by omega)).1, hw t (by omega) (hc t (by omega))⟩⟩

/-- A call that never ends is blocked forever, or part of a comparison that waits forever. -/
theorem forever {u : Nat} {c : Cid} {t0 : Nat} (hrun : ∀ t, t0 ≤ t → ∃ op, ((S t).vec u).Running c op) :
    (∃ t1 r, t0 ≤ t1 ∧ ∀ t, t1 ≤ t → ((S t).vec u).calls c = some r ∧ ((S t).vec u).Blocked c) ∨
      ∃ t1 k T s, t0 ≤ t1 ∧ T.vecOf s = u ∧ T.cid s = c ∧ ∀ t, t1 ≤ t → (S t).cmp k = some T ∧ (S t).Waits k := by
  by_cases hfo : (S t0).Foreign u c
  · left
    have hrec : ∀ t, t0 ≤ t → ∃ r, ((S t).vec u).calls c = some r := fun t ht => by
      obtain ⟨op, ct, st, p, hr⟩ := hrun t ht
      exact ⟨_, hr⟩
    have hfor : ∀ t, t0 ≤ t → (S t).Foreign u c := by
      intro t ht
      induction ht with
      | refl => exact hfo
      | @step t ht ih =>
        obtain ⟨r, hr⟩ := hrec t ht
        exact ((h.exec t).foreign_step hm (h.next t) hr ih).1
    obtain ⟨x, ⟨t1, ht1, rfl⟩, hmin⟩ := (less_wf (α := α) (β := β)).has_min {x | ∃ t, t0 ≤ t ∧ ((S t).vec u).rest c = x} ⟨_, t0, Nat.le_refl _, rfl⟩
    have hconst : ∀ t, t1 ≤ t → ((S t).vec u).rest c = ((S t1).vec u).rest c ∧ ((S (t + 1)).vec u).calls c = ((S t).vec u).calls c := by
      have key : ∀ t, t1 ≤ t → ((S t).vec u).rest c = ((S t1).vec u).rest c → ((S (t + 1)).vec u).calls c = ((S t).vec u).calls c := by
        intro t ht he
        obtain ⟨r, hr⟩ := hrec t (by omega)
        refine ((h.exec t).foreign_step hm (h.next t) hr (hfor t (by omega))).2.resolve_right fun hl => ?_
        rw [he] at hl
        exact hmin _ ⟨t + 1, by omega, rfl⟩ hl
      intro t ht
      induction ht with
      | refl => exact ⟨rfl, key t1 (Nat.le_refl _) rfl⟩
      | @step t ht ih =>
        have ht : t1 ≤ t := ht
        have h1 : ((S (t + 1)).vec u).rest c = ((S t1).vec u).rest c := (Cfg.rest_eq ih.2).trans ih.1
        exact ⟨h1, key (t + 1) (by omega) h1⟩
    obtain ⟨r, hr⟩ := hrec t1 ht1
    have hsame : ∀ t, t1 ≤ t → ((S t).vec u).calls c = some r := by
      intro t ht
      induction ht with
      | refl => exact hr
      | @step t ht ih => exact (hconst t ht).2.trans ih
    refine Classical.byContradiction fun hno => ?_
    obtain ⟨t', ht', hch⟩ := hf.call u c (fun t => by
      refine Classical.byContradiction fun hno' => hno ⟨max t t1, r, by omega, fun s hs => ⟨hsame s (by omega), ?_⟩⟩
      refine Classical.byContradiction fun hb => hno' ⟨s, by omega, hrun s (by omega), hfor s (by omega), hb⟩) t1
    exact hch (hconst t' ht').2
  · right
    simp only [Sys.Foreign, not_forall, Classical.not_not] at hfo
    obtain ⟨k, T, s, hk, rfl, rfl⟩ := hfo
    have hcur := h.current hm hk hrun
    have hcmp : ∀ t, t0 ≤ t → (S t).Comparing k := by
      intro t ht
      obtain ⟨T1, h1, h2, h3⟩ := hcur t ht
      obtain ⟨op, hr⟩ := hrun t ht
      refine ((h.exec t).tidy hm (Nat.le_refl t) h1).comparing h1 (s := s) (op := op) ?_
      rw [h2.vecOf, h3]
      exact hr
    obtain ⟨t1, T1, g1, g2⟩ := h.cmp_forever hm hf hcmp
    obtain ⟨T2, h1, h2, h3⟩ := hcur t1 g1
    have := (g2 t1 (Nat.le_refl _)).1
    rw [h1] at this
    cases this
    exact ⟨t1, k, T1, s, g1, h2.vecOf s, h3, g2⟩

/-- Nobody waits forever. -/
theorem ends (hs : ∀ t u c op, ((S t).vec u).Called c op → op.SwapsUp) (hg : ∀ t u, ((S t).vec u).GrowthIntact) {rank : Nat → Nat}
    (hup : ∀ t k T, (S t).cmp k = some T → (S t).Comparing k → T.Upwards rank) {R : Nat} (hR : ∀ t k T, (S t).cmp k = some T → rank T.v ≤ R)
    {u : Nat} {c : Cid} {t : Nat} (hrun : ∀ s, t ≤ s → ∃ op, ((S s).vec u).Running c op) : False := by
  have hI := h.vinv hm
  -- what a call waits for that does not get any further
  have hblock : ∀ {u c t r}, (∀ s, t ≤ s → ((S s).vec u).calls c = some r ∧ ((S s).vec u).Blocked c) →
      (∀ s, t ≤ s → BlockOK c r.op.Nested ((S s).vec u).w (.capLoad .acquire : Act α)) ∨
        ∃ j, ∀ s, t ≤ s → (((S s).vec u).w.holder j).isSome ∧ ∀ i, ((S s).vec u).w.holder i = some c → r.op.Nested i j := by
    intro u c t r hb
    have hb' : ∀ s, t ≤ s → ∃ a again g, r.status = .running (.step a again g) ∧ BlockOK c r.op.Nested ((S s).vec u).w a := by
      intro s hs
      obtain ⟨r', a, again, g, b, hc, hr, -, -, hok⟩ := (hI s u).blocked_iff.1 (hb s hs).2
      rw [(hb s hs).1] at hc
      cases hc
      exact ⟨a, again, g, hr, hok⟩
    obtain ⟨a, again, g, hr, hok⟩ := hb' t (Nat.le_refl _)
    have hall : ∀ s, t ≤ s → BlockOK c r.op.Nested ((S s).vec u).w a := by
      intro s hs
      obtain ⟨a', again', g', hr', hok'⟩ := hb' s hs
      rw [hr] at hr'
      cases hr'
      exact hok'
    cases a <;> simp only [BlockOK] at hok
    · exact .inl hall
    · rename_i j _ _ _ _
      exact .inr ⟨j, fun s hs => ⟨((hI s u).inv.lock j).1 (hall s hs).1, (hall s hs).2.2⟩⟩
  -- nobody waits for storage forever
  have hcap : ∀ {u c t r}, (∀ s, t ≤ s → ((S s).vec u).calls c = some r ∧ ((S s).vec u).Blocked c) →
      (∀ s, t ≤ s → BlockOK c r.op.Nested ((S s).vec u).w (.capLoad .acquire : Act α)) → False := by
    intro u c t r hb hok
    have hmx := h.maxCap hm (u := u) (c := c) (t0 := t) fun s hs => (hb s hs).2.1
    have hi : ∀ s, t ≤ s → ∃ i, ((S s).vec u).w.mem.cap < i ∧ i < ((S s).vec u).w.spec.len ∧ i < ((S s).vec u).w.mem.maxCap ∧
        ((S s).vec u).w.spec.owner i ≠ ((S s).vec u).w.spec.owner ((S s).vec u).w.mem.cap := by
      intro s hs
      obtain ⟨-, h1, i, h2, h3, h4, h5⟩ := hok s hs
      exact ⟨i, h2, h3, h4, by rw [h5]; exact Ne.symm h1⟩
    obtain ⟨t', ht', hc⟩ := Weak.eventually_const (f := fun s => ((S s).vec u).w.mem.cap) (fun s t hst => (h.evolves hm hst).cap)
      (B := ((S t).vec u).w.mem.maxCap) _ t rfl (fun s hs => by
        obtain ⟨i, h1, -, h2, -⟩ := hi s hs
        have := hmx s hs
        omega)
    have hdr : ∀ s, t' ≤ s → ((S s).vec u).w.spec.owner ((S s).vec u).w.mem.cap =
        ((S t').vec u).w.spec.owner ((S t').vec u).w.mem.cap := by
      intro s hs
      have hc' : ((S s).vec u).w.mem.cap = ((S t').vec u).w.mem.cap := hc s hs
      obtain ⟨i, h1, h2, -⟩ := hi t' ht'
      rw [hc']
      exact (h.evolves hm hs).owner _ (by omega)
    have hgr : ∀ s, t' ≤ s → ∃ op n, ((S s).vec u).Running (((S t').vec u).w.spec.owner ((S t').vec u).w.mem.cap) op ∧ op.size = some n := by
      intro s hs
      obtain ⟨i, h1, h2, h3, h4⟩ := hi s (by omega)
      obtain ⟨r, p, n, g1, g2, g3⟩ := (hI s u).capOwner (hg s u) h1 h2 h3 h4
      rw [hdr s hs] at g1
      exact ⟨_, n, Cfg.running_of g1 g2, g3⟩
    rcases h.forever hm hf (fun s hs => ⟨_, (hgr s hs).choose_spec.choose_spec.1⟩) with ⟨t2, r2, ht2, hb2⟩ | ⟨t2, k, T, s', ht2, hu, hcid, hw⟩
    · obtain ⟨i, h1, h2, -⟩ := hi t2 (by omega)
      have := (hI t2 u).capOwner_not_blocked (by omega)
      rw [hdr t2 ht2] at this
      exact this (hb2 t2 (Nat.le_refl _)).2
    · obtain ⟨op, n, hr, hsz⟩ := hgr t2 ht2
      have hel : ∃ e, op = .elCloned e := by
        have hc : ((S t2).vec u).Called (T.cid s') op := by
          rw [hcid]
          obtain ⟨ct, st, p, hr⟩ := hr
          exact ⟨_, _, _, hr⟩
        rw [← hcid] at hr
        rcases h.waiting hm hw with ⟨e, hh, h1⟩ | ⟨e, f, -, h1, h2, -⟩
        · cases s' with
          | left => subst hu; exact ⟨e, (hc.unique h1).symm⟩
          | right => subst hu; exact ((hh t2 (Nat.le_refl _)).2.2 _ hr).elim
        · cases s' with
          | left => subst hu; exact ⟨e, (hc.unique h1).symm⟩
          | right => subst hu; exact ⟨f, (hc.unique h2).symm⟩
      obtain ⟨e, rfl⟩ := hel
      cases hsz
  have hmaxi : ∀ {t u i}, (((S t).vec u).w.holder i).isSome → i < ((S t).vec u).w.mem.maxCap := by
    intro t u i hh
    have hI := (hI t u).inv
    have h1 := hI.pub_cap i (hI.pub_of_holder hh)
    have h2 := ((S t).vec u).w.mem.pol.good_le hI.good
    omega
  -- nobody waits for an element forever
  have hlock : ∀ M N u i t, R - rank u = M → ((S t).vec u).w.mem.maxCap - i = N →
      (∀ s, t ≤ s → (((S s).vec u).w.holder i).isSome) → False := by
    intro M
    induction M using Nat.strongRecOn with
    | ind M ihM =>
      intro N
      induction N using Nat.strongRecOn with
      | ind N ihN =>
        intro u i t hM hN hh
        obtain ⟨c, hc⟩ := Option.isSome_iff_exists.1 (hh t (Nat.le_refl _))
        have hhold := h.holder hm hc hh
        have hr : ∀ s, t ≤ s → ∃ op, ((S s).vec u).Running c op := fun s hs => by
          obtain ⟨r, p, h1, h2⟩ := (hI s u).holder (hhold s hs)
          exact ⟨_, Cfg.running_of h1 h2⟩
        have hmx := h.maxCap hm hr
        have hi := hmaxi (hh t (Nat.le_refl _))
        rcases h.forever hm hf hr with ⟨t2, r2, ht2, hb2⟩ | ⟨t2, k, T, s', ht2, hu, hcid, hw⟩
        · rcases hblock hb2 with hok | ⟨j, hj⟩
          · exact (hok t2 (Nat.le_refl _)).1 i (hhold t2 ht2)
          · obtain ⟨op2, ct2, st2, x2⟩ := r2
            have hlt := (hs t2 u c op2 ⟨ct2, st2, x2, (hb2 t2 (Nat.le_refl _)).1⟩).ordered.nested ((hj t2 (Nat.le_refl _)).2 i (hhold t2 ht2))
            have := hmx t2 ht2
            exact ihN (((S t2).vec u).w.mem.maxCap - j) (by omega) u j t2 hM rfl fun s hs => (hj s hs).1
        · have hcmp : (S t2).Comparing k := by
            obtain ⟨T', s, K, g1, g2, -⟩ := (hw t2 (Nat.le_refl _)).2
            exact ⟨T', g1, by rw [g2]; exact fun _ hb => by (cases hb), by rw [g2]; exact fun _ hb => by (cases hb)⟩
          obtain ⟨op, hro⟩ := hr t2 ht2
          have hho := hhold t2 ht2
          rw [← hcid] at hro hho
          rcases h.waiting hm hw with ⟨e, hh', h1⟩ | ⟨e, f, hh', h1, h2, hef⟩
          · cases s' with
            | left => subst hu; exact (hh' t2 (Nat.le_refl _)).2.1 i hho
            | right => subst hu; exact (hh' t2 (Nat.le_refl _)).2.2 _ hro
          · cases s' with
            | right => subst hu; exact (hh' t2 (Nat.le_refl _)).2 i hho
            | left =>
              subst hu
              have hei : i = e := ((h.ok hm t2).reach T.u).holder_uses (hm _) (op := .elCloned e) hho h1
              subst hei
              rcases hup t2 k T (hw t2 (Nat.le_refl _)).1 hcmp with hlt | ⟨huv, hlt⟩
              · have h5 := hR t2 k T (hw t2 (Nat.le_refl _)).1
                have hlt' : rank (T.vecOf .left) < rank T.v := hlt
                exact ihM (R - rank T.v) (by omega) _ T.v f t2 rfl rfl fun s hs => (hh' s hs).1
              · have hij := hef hlt
                have := hmx t2 ht2
                have hu : T.vecOf .left = T.v := huv
                rw [hu] at this hM hN hi
                exact ihN (((S t2).vec T.v).w.mem.maxCap - f) (by omega) T.v f t2 hM rfl fun s hs => (hh' s hs).1
  rcases h.forever hm hf hrun with ⟨t1, r, ht1, hb⟩ | ⟨t1, k, T, s', ht1, -, -, hw⟩
  · rcases hblock hb with hok | ⟨j, hj⟩
    · exact hcap hb hok
    · exact hlock _ _ u j t1 rfl rfl fun s hs => (hj s hs).1
  · rcases h.waiting hm hw with ⟨e, hh, -⟩ | ⟨e, f, hh, -⟩
    · exact hlock _ _ _ e t1 rfl rfl fun s hs => (hh s hs).1
    · exact hlock _ _ _ f t1 rfl rfl fun s hs => (hh s hs).1

/-- All calls and all comparisons end. -/
theorem all_end_strong (hs : ∀ t u c op, ((S t).vec u).Called c op → op.SwapsUp) (hg : ∀ t u, ((S t).vec u).GrowthIntact) {rank : Nat → Nat}
    (hup : ∀ t k T, (S t).cmp k = some T → (S t).Comparing k → T.Upwards rank) {B : Nat} (hB : ∀ t k T, (S t).cmp k = some T → T.v < B)
    (t : Nat) : (∀ k, ∃ t', t ≤ t' ∧ ¬ (S t').Comparing k) ∧
      ∀ u c op, ((S t).vec u).Called c op → ∃ t', t ≤ t' ∧ ((S t').vec u).Called c op ∧ ¬ ((S t').vec u).Running c op := by
  have hR : ∃ R, ∀ v, v < B → rank v ≤ R := by
    clear hB
    induction B with
    | zero => exact ⟨0, fun v hv => by omega⟩
    | succ B ih =>
      obtain ⟨R, hR⟩ := ih
      refine ⟨max R (rank B), fun v hv => ?_⟩
      by_cases he : v = B
      · subst he; omega
      · have := hR v (by omega); omega
  obtain ⟨R, hR⟩ := hR
  have hend : ∀ {u c t}, (∀ s, t ≤ s → ∃ op, ((S s).vec u).Running c op) → False := fun hrun =>
    h.ends hm hf hs hg hup (R := R) (fun t k T hk => hR _ (hB t k T hk)) hrun
  refine ⟨fun k => ?_, fun u c op hc => ?_⟩
  · refine Classical.byContradiction fun hno => ?_
    simp only [not_exists, not_and, Classical.not_not] at hno
    obtain ⟨t1, T, ht1, hw⟩ := h.cmp_forever hm hf hno
    obtain ⟨T', s, K, g1, g2, -⟩ := (hw t1 (Nat.le_refl _)).2
    rw [(hw t1 (Nat.le_refl _)).1] at g1
    cases g1
    refine hend (u := T.vecOf s) (c := T.cid s) (t := t1) fun t ht => ?_
    obtain ⟨T', s', K', g1, g3, g4⟩ := (hw t ht).2
    rw [(hw t ht).1] at g1
    cases g1
    rw [g2] at g3
    cases g3
    exact g4.1
  · refine Classical.byContradiction fun hno => ?_
    refine hend (u := u) (c := c) (t := t) fun s hs => ⟨op, Classical.byContradiction fun hr => hno ⟨s, hs, h.called hm hs hc, hr⟩⟩

end ends

end InfSysExec

end Verif
