import Verif.Weak.CompareElem
import Verif.Weak.CompareEnds
import Verif.Weak.Alone
import Verif.Weak.SpecSwap

/-!
# Swaps that wait for each other, under weak memory, for C22

Helper file (no property statements).
-/

namespace Verif.Weak

variable {α β : Type} {D : Mode} {mx n : Nat} {κ κ' : Cfg α β} {K K0 : Cid → Know} {m : Mem α} {l : List α} {c d : Cid} {i j : Nat}
  {op op' : Op α β}

theorem WInv.counted (h : WInv D mx n κ K K0) {r : Rec α β} (hc : κ.calls c = some r) (hi : κ.Counted n c i) : i < (K0 c).wn := by
  rcases hi with hi | ⟨d, op, x, hb, hr, hi⟩
  · exact Nat.lt_of_lt_of_le hi (Nat.le_trans h.zwn (h.base c r hc).wn)
  · refine Nat.lt_of_lt_of_le ?_ (h.hb_le hb).2.wn
    rcases hi with hi | ⟨len, hl, hi⟩
    · exact (h.done hr).cn i hi
    · exact Nat.lt_of_lt_of_le hi ((h.done hr).len len hl).2.1

theorem WInv.counted_v (h : WInv D mx n κ K K0) {r : Rec α β} (hc : κ.calls c = some r) (hi : κ.Counted n c i) : (K c).V i := by
  refine (h.now c r hc).v i ?_
  rcases hi with hi | ⟨d, op, x, hb, hr, hi⟩
  · exact (h.base c r hc).v i (h.zero i hi).1
  · refine (h.hb_le hb).2.v i ?_
    rcases hi with hi | ⟨len, hl, hi⟩
    · exact ((h.done hr).el i hi).1
    · exact (((h.done hr).len len hl).2.2.1 i hi).1

/-- A swap that has the handle of `i` and waits for that of `j` (`src/mut_elem.rs:30-43`, before the second `mut_handle`). -/
def SecondHandle (κ : Cfg α β) (c : Cid) (op : Op α β) (i j : Nat) : Prop :=
  ∃ (r : Rec α β) (ok fl : MOrd) (g : Option CState → Prog α (Ret α β)) (ag : Unit → Bool) (k : Unit → Prog α (Ret α β)),
    κ.calls c = some r ∧ r.op = op ∧
    r.status = .running (.step (.stCas j .SOME .RESERVED ok fl) (fun (s : Option CState) => s == some .RESERVED) g) ∧
    g none = .step (.valSwap i j) ag k

theorem SecondHandle.running (h : SecondHandle κ c op i j) : κ.Running c op := by
  obtain ⟨r, _, _, _, _, _, h1, h2, h3, _⟩ := h
  exact ⟨r, _, h1, h2, h3⟩

theorem SecondHandle.same (h : SecondHandle κ c op i j) (hs : κ'.calls c = κ.calls c) : SecondHandle κ' c op i j := by
  obtain ⟨r, ok, fl, g, ag, k, h1, h2⟩ := h
  exact ⟨r, ok, fl, g, ag, k, hs.trans h1, h2⟩

/-- It has the handle of `i`, or that of `j` already. -/
theorem SecondHandle.has (h : SecondHandle κ c op i j) (hw : WInv D mx n κ K K0) (hij : i ≠ j) (hj : ¬ HasElem K c j) : HasElem K c i := by
  obtain ⟨r, ok, fl, g, ag, k, h1, h2, h3, h4⟩ := h
  have hf := hw.fits c r h1
  unfold Fits at hf
  rw [h3] at hf
  have hs := (hf.2 none ⟨fun h => hj (.inl h), fun h => hj (.inr h)⟩).2 rfl
  rw [h4] at hs
  have hL : (next (K c) (.stCas j .SOME .RESERVED ok fl : Act α) none).L i := hs.1.2.2.1
  exact .inl (hL.resolve_right hij)

/-- A swap that waits for its second handle stays where it is while another one waits for the opposite handle. -/
theorem SecondHandle.stays (hc : SecondHandle κ c op i j) (hd : SecondHandle κ d op' j i) (hij : i ≠ j) (hcd : c ≠ d)
    (hw : WInv D mx n κ K K0) {D' : Mode} {mx' : Nat} {K' K0' : Cid → Know} (hw' : WInv D' mx' n κ' K' K0') (hj : κ.Counted n c j) (hs : Step κ κ')
    (hsame : κ'.calls d = κ.calls d) : SecondHandle κ' c op i j := by
  have hd' := hd.same hsame
  obtain ⟨r, ok, fl, g, ag, k, h1, h2, h3, h4⟩ := hc
  have other : ∀ {e q}, c ≠ e → upd κ.calls e q c = some r := by
    intro e q he
    rw [upd_apply, if_neg he]; exact h1
  cases hs with
  | call op H V hH hn' hp =>
    refine ⟨r, ok, fl, g, ag, k, other ?_, h2, h3, h4⟩
    intro he; rw [he, (hw.new _ (Nat.le_refl _)).1] at h1; cases h1
  | act e r' a again f t V μ b hd2 hr he =>
    by_cases hce : c = e
    · subst hce
      rw [h1] at hd2; cases hd2
      rw [h3] at hr; cases hr
      have hf := hw.fits c r h1
      unfold Fits at hf
      rw [h3] at hf
      have hcan := (exec_good hw.g hw.k hf.1 (by rw [Cfg.viewOf_some h1]; exact he)).can
      change Option CState at b
      have hb : b = some .RESERVED := by
        rcases b with _ | s
        · exfalso
          have hp := hw'.pre (c := c) (upd_same _ _ _) (congrArg Status.running h4)
          have hL : (K' c).L i ∧ (K' c).L j := ⟨hp.2.2.1, hp.2.2.2.1⟩
          have hdi : ¬ HasElem K' d i := fun hh => hcd (hw'.owner (.inl hL.1) hh)
          exact hcd (hw'.owner (.inl hL.2) (hd'.has hw' (Ne.symm hij) hdi))
        · have hcan : s ≠ .SOME ∧ ((K c).V j → s ≠ .NONE) := hcan
          have hv : (K c).V j := hw.counted_v h1 hj
          cases s with
          | NONE => exact absurd rfl (hcan.2 hv)
          | SOME => exact absurd rfl hcan.1
          | RESERVED => rfl
      subst hb
      exact ⟨_, ok, fl, g, ag, k, upd_same _ _ _, h2, rfl, h4⟩
    · exact ⟨r, ok, fl, g, ag, k, other hce, h2, h3, h4⟩
  | bad e r' a again f t x hd2 hr he => exact ⟨r, ok, fl, g, ag, k, h1, h2, h3, h4⟩
  | ret e r' x hd2 hr =>
    refine ⟨r, ok, fl, g, ag, k, other ?_, h2, h3, h4⟩
    rintro rfl; rw [h1] at hd2; cases hd2; rw [h3] at hr; cases hr
  | panic e r' x hd2 hr =>
    refine ⟨r, ok, fl, g, ag, k, other ?_, h2, h3, h4⟩
    rintro rfl; rw [h1] at hd2; cases hd2; rw [h3] at hr; cases hr
  | reserveMax q hi => exact ⟨r, ok, fl, g, ag, k, h1, h2, h3, h4⟩

theorem Cfg.Counted.step (h : κ.Counted n c i) (hn : ∀ d, κ.next ≤ d → κ.calls d = none) (hs : Step κ κ') : κ'.Counted n c i := by
  rcases h with h | ⟨d, op, x, hb, hr, hi⟩
  · exact .inl h
  · exact .inr ⟨d, op, x, (hs.extends hn).hb hb, hs.returned hn hr, hi⟩

theorem InfExec.counted {κ : Nat → Cfg α β} (h : InfExec m κ) {t t' : Nat} (ht : t ≤ t') (hi : (κ t).Counted n c i) : (κ t').Counted n c i := by
  induction ht with
  | refl => exact hi
  | @step s _ ih =>
    rcases h.next s with he | hs
    · rw [he]; exact ih
    · exact ih.step (h.reach s).new hs

/-- Two swaps that wait for each other do so forever. -/
theorem SecondHandle.forever (hm : InitMem m l) (h : Reach m κ) (hc : SecondHandle κ c op i j) (hd : SecondHandle κ d op' j i) (hij : i ≠ j)
    (hcd : c ≠ d) (hi : κ.Counted l.length d i) (hj : κ.Counted l.length c j) (hl : κ.Leads κ') (hdis : κ'.Disciplined) :
    SecondHandle κ' c op i j ∧ SecondHandle κ' d op' j i ∧ κ'.Counted l.length d i ∧ κ'.Counted l.length c j := by
  induction hl with
  | refl => exact ⟨hc, hd, hi, hj⟩
  | @step κ1 κ2 hl hs ih =>
    have hR : Reach m κ1 := Leads.reach h hl
    have hn : ∀ d, κ1.next ≤ d → κ1.calls d = none := hR.new
    have hd1 := hs.disciplined hn hdis
    obtain ⟨g1, g2, g3, g4⟩ := ih hd1
    obtain ⟨K, K0, hw⟩ := winv_of hm hR hd1
    obtain ⟨K', K0', hw'⟩ := winv_of hm (.step hR hs) hdis
    refine ⟨?_, ?_, g3.step hn hs, g4.step hn hs⟩
    · obtain ⟨e, he⟩ := hs.one
      by_cases hde : d = e
      · exact g1.same (he c fun h => hcd (h.trans hde.symm))
      · exact g1.stays g2 hij hcd hw hw' g4 hs (he d hde)
    · obtain ⟨e, he⟩ := hs.one
      by_cases hce : c = e
      · exact g2.same (he d fun h => hcd (hce.trans h.symm))
      · exact g2.stays g1 (Ne.symm hij) (Ne.symm hcd) hw hw' g3 hs (he c hce)

end Verif.Weak
