import Verif.Weak.SwapHangs
import Verif.Weak.Stalled
import Verif.Weak.SpecLock

/-!
# Calls that wait for an element that is never unlocked, under weak memory

Helper file (no property statements).
-/

namespace Verif.Weak

variable {α β : Type} {D : Mode} {mx n : Nat} {m : Mem α} {l : List α}

/-- A call relies on the elements it was given references to. -/
theorem Reach.counted_needs {κ : Cfg α β} (h : Reach m κ) {c : Cid} {r : Rec α β} (hc : κ.calls c = some r) {i : Nat} (hi : i ∈ r.op.needs) :
    κ.Counted n c i := by
  induction h generalizing c r with
  | init => cases hc
  | @step κ κ' hre hs ih =>
    rcases hcd : κ.calls c with _ | q
    · cases hs with
      | call op H V hH hn hp =>
        change upd _ _ _ _ = _ at hc
        rw [upd_apply] at hc
        split at hc
        · next e =>
          cases hc
          obtain ⟨d, hd, r, x, h6, h7, h8⟩ := hn i hi
          have hne : d ≠ κ.next := fun e => by rw [e, hre.new _ (Nat.le_refl _)] at h6; cases h6
          refine .inr ⟨d, r.op, x, .one (d := c) (r := ⟨op, H, V, V, .running op.prog⟩) (by show upd _ _ _ _ = _; rw [e]; exact upd_same _ _ _) hd,
            ⟨r, by show upd _ _ _ _ = _; rw [upd_apply, if_neg hne]; exact h6, rfl, h7⟩, .inl h8⟩
        · rw [hcd] at hc; cases hc
      | act d q a again k t V m b hd hq he =>
        change upd _ _ _ _ = _ at hc
        rw [upd_apply] at hc
        split at hc
        · next e => rw [← e, hcd] at hd; cases hd
        · rw [hcd] at hc; cases hc
      | bad d q a again k t x hd hq he => rw [hcd] at hc; cases hc
      | ret d q x hd hq =>
        change upd _ _ _ _ = _ at hc
        rw [upd_apply] at hc
        split at hc
        · next e => rw [← e, hcd] at hd; cases hd
        · rw [hcd] at hc; cases hc
      | panic d q k hd hq =>
        change upd _ _ _ _ = _ at hc
        rw [upd_apply] at hc
        split at hc
        · next e => rw [← e, hcd] at hd; cases hd
        · rw [hcd] at hc; cases hc
      | reserveMax q hi => rw [hcd] at hc; cases hc
    · obtain ⟨r', h1, h2, -⟩ := (hs.extends hre.new).2 _ _ hcd
      rw [hc] at h1; cases h1
      exact (ih hcd (h2 ▸ hi)).step hre.new hs

/-- A method of an element that has not started stays where it is while somebody else has the element. -/
theorem methodOf_stays {κ κ' : Cfg α β} {K K0 : Cid → Know} (hw : WInv D mx n κ K K0) (hre : Reach m κ) (hs : Step κ κ') {c d : Cid}
    (hcd : c ≠ d) {i : Nat} (hL : (K c).L i) {op : Op α β} (hop : op.MethodOf i) {r : Rec α β} (hd : κ.calls d = some r) (ho : r.op = op)
    (hr : r.status = .running op.prog) {r' : Rec α β} (hd' : κ'.calls d = some r') : r'.status = .running op.prog := by
  have hneed : i ∈ r.op.needs := by
    rw [ho]
    cases op <;> first | exact hop.elim | (obtain rfl := hop; exact List.mem_singleton.2 rfl)
  have hv : (K d).V i := hw.counted_v hd (hre.counted_needs hd hneed)
  obtain ⟨ok, fl, g, hp⟩ : ∃ (ok fl : MOrd) (g : Option CState → Prog α (Ret α β)),
      op.prog = .step (.stCas i .SOME .RESERVED ok fl) (fun (s : Option CState) => s == some .RESERVED) g := by
    cases op <;> first | exact hop.elim | (obtain rfl := hop; exact ⟨_, _, _, rfl⟩)
  rw [hp] at hr ⊢
  have other : ∀ {e : Cid} {q}, d ≠ e → upd κ.calls e q d = some r' → r'.status = r.status := by
    intro e q he h
    rw [upd_apply, if_neg he, hd] at h; cases h; rfl
  have same : κ.calls d = some r' → r'.status = r.status := fun h => by rw [hd] at h; cases h; rfl
  rw [← hr]
  cases hs with
  | call op H V hH hn' hp =>
    refine other ?_ hd'
    intro he; rw [he, (hw.new _ (Nat.le_refl _)).1] at hd; cases hd
  | act e q a again f t V μ b hd2 hq he =>
    by_cases hde : d = e
    · subst hde
      rw [hd] at hd2; cases hd2
      rw [hr] at hq; cases hq
      have hgood := exec_good hw.g hw.k (hw.pre hd hr) (by rw [Cfg.viewOf_some hd]; exact he)
      have hcan := hgood.can
      change Option CState at b
      have hb : b = some .RESERVED := by
        rcases b with _ | s
        · exfalso
          refine hcd (hgood.g.disjL c d i ?_ ?_)
          · rw [upd_apply, if_neg hcd]; exact hL
          · rw [upd_same]; exact .inr rfl
        · have hcan : s ≠ .SOME ∧ ((K d).V i → s ≠ .NONE) := hcan
          cases s with
          | NONE => exact absurd rfl (hcan.2 hv)
          | SOME => exact absurd rfl hcan.1
          | RESERVED => rfl
      subst hb
      change upd _ _ _ _ = _ at hd'
      rw [upd_same] at hd'
      cases hd'
      exact hr.symm
    · exact other hde hd'
  | bad e q a again f t x hd2 hq he => exact same hd'
  | ret e q x hd2 hq =>
    refine other ?_ hd'
    rintro rfl; rw [hd] at hd2; cases hd2; rw [hr] at hq; cases hq
  | panic e q x hd2 hq =>
    refine other ?_ hd'
    rintro rfl; rw [hd] at hd2; cases hd2; rw [hr] at hq; cases hq
  | reserveMax q hi => exact same hd'

theorem Cfg.Moves.calls_other {κ κ' : Cfg α β} {c : Cid} (h : κ.Moves c κ') {d : Cid} (hd : d ≠ c) : κ'.calls d = κ.calls d := by
  obtain ⟨r, -, ⟨a, again, k, t, V, m, b, -, -, rfl⟩ | ⟨x, -, rfl⟩ | ⟨k, -, rfl⟩⟩ := h <;> exact upd_other _ _ hd

variable {κ : Nat → Cfg α β}

theorem InfExec.own_element (hm : InitMem m l) (h : InfExec m κ) (ho : ∀ t c op, (κ t).Called c op → Allowed D op) (hx : ∀ t, (κ t).Exceeds mx)
    {s : Nat} {c d : Cid} {i : Nat} {op : Op α β} (hl : HasLocked κ s c i) (hd : (κ s).calls d = none) (hop : op.MethodOf i)
    (hw : ∀ t, s ≤ t → ¬ (κ t).Over d op → (κ (t + 1)).calls c = (κ t).calls c) {t : Nat} (ht : s ≤ t) {r : Rec α β}
    (hr : (κ t).calls d = some r) (hrop : r.op = op) : r.status = .running op.prog := by
  obtain ⟨K, K0, -, hgh⟩ := h.ghost hm ho hx
  have hW := fun t => (hgh t).1
  have hP := fun t => (hgh t).2.1
  have hla := fun t => (hgh t).2.2
  -- who locked the element has it
  have hLs : (K s c).L i := by
    obtain ⟨t0, ht0, hmv, ⟨q, hq, hqs⟩, hu⟩ := hl
    have h1 : (K (t0 + 1) c).L i := by
      obtain ⟨e, he⟩ := (hP (t0 + 1)).held i (hu _ (Nat.lt_succ_self _) ht0)
      by_cases hec : e = c
      · exact hec ▸ he
      · rw [(hla t0).own e (hmv.calls_other hec)] at he
        obtain ⟨q', hq', hqs'⟩ := ((hW t0).k e).l_last i he
        rw [hq] at hq'; cases hq'
        rw [hqs] at hqs'; cases hqs'
    have : ∀ u, t0 + 1 ≤ u → u ≤ s → (K u c).L i := by
      intro u hu1
      induction hu1 with
      | refl => exact fun _ => h1
      | @step u hu1 ih => exact fun hus => (hla u).l c i (ih (Nat.le_of_succ_le hus)) (hu (u + 1) (Nat.le_succ_of_le hu1) hus)
    exact this s ht0 (Nat.le_refl _)
  have hcd : c ≠ d := by
    rintro rfl
    exact ((hP s).idle c hd i).2 hLs
  have key : ∀ t, s ≤ t → (K t c).L i ∧ ∀ r, (κ t).calls d = some r → r.op = op → r.status = .running op.prog := by
    intro t ht
    induction ht with
    | refl => exact ⟨hLs, fun r hr => by rw [hd] at hr; cases hr⟩
    | @step t ht ih =>
      obtain ⟨h1, h2⟩ := ih
      have hnot : ¬ (κ t).Over d op := by
        rintro (⟨x, r, hr, hr1, hr2⟩ | ⟨x, r, hr, hr1, hr2⟩) <;> rw [h2 r hr hr1] at hr2 <;> cases hr2
      refine ⟨by rw [(hla t).own c (hw t ht hnot)]; exact h1, fun r hr hro => ?_⟩
      rcases h.next t with he | hs
      · rw [he] at hr; exact h2 r hr hro
      · rcases hcd' : (κ t).calls d with _ | q
        · generalize κ (t + 1) = κ' at hs hr
          have none : ∀ {e : Cid} {q q' : Rec α β}, (κ t).calls e = some q' → upd (κ t).calls e q d = some r → False := by
            intro e q q' he h
            rw [upd_apply] at h
            split at h
            · next e' => rw [← e', hcd'] at he; cases he
            · rw [hcd'] at h; cases h
          cases hs with
          | call op' H V hH hn' hp =>
            change upd _ _ _ _ = _ at hr
            rw [upd_apply] at hr
            split at hr
            · cases hr; rw [← hro]
            · rw [hcd'] at hr; cases hr
          | act e q a again f t' V μ b hd2 hq he => exact (none hd2 hr).elim
          | bad e q a again f t' x hd2 hq he => rw [hcd'] at hr; cases hr
          | ret e q x hd2 hq => exact (none hd2 hr).elim
          | panic e q x hd2 hq => exact (none hd2 hr).elim
          | reserveMax q hi => rw [hcd'] at hr; cases hr
        · obtain ⟨r', g1, g2, -⟩ := (hs.extends (h.reach t).new).2 _ _ hcd'
          rw [hr] at g1; cases g1
          have hqo : q.op = op := by rw [← g2, hro]
          exact methodOf_stays (hW t) (h.reach t) hs hcd h1 hop hcd' hqo (h2 q hcd' hqo) hr
  exact (key t ht).2 r hr hrop

end Verif.Weak
