import Verif.Proof.SoloRun
import Verif.Props.DemoViews

/-!
# Sequential use

C39: calls that do not overlap in time behave like the operations on a plain list (`Spec/ListSpec.lean`).
-/

namespace Verif

variable {α β : Type} {m : Mem α} {l : List α} {κ : Cfg α β}

/-! ## C39 -/

/-- **C39.** Any sequence of operations, performed one after the other: if every operation `ops[k]` is one a list can follow
(`Fits`: growth stays within the maximum capacity and stores values; no position is swapped with itself), then every result
is the result of the operation on the list of the elements at that time, and so is the content whenever no call is
running. -/
theorem C39_sequential (hm : InitMem m l) (h : Reach m l κ) {ops : List (Op α β)}
    (hno : ∀ c d, c ≠ d → ¬ κ.Overlap c d)
    (hops : ∀ (k : Nat) op, κ.Called (k + 1) op ↔ ops[k]? = some op)
    (hfit : ∀ (k : Nat) op mem, ops[k]? = some op → κ.AtStart (k + 1) mem → op.Fits (contentAfter l (ops.take k)) mem.maxCap) :
    (∀ (k : Nat) op x, κ.Returned (k + 1) op x → op.Gives (contentAfter l (ops.take k)) (.ok x)) ∧
    (∀ (k : Nat) op p, κ.Panicked (k + 1) op p → op.Gives (contentAfter l (ops.take k)) (.error p)) ∧
    (∀ (k : Nat) mem, κ.AtStart (k + 1) mem → mem.Holds (contentAfter l (ops.take k))) ∧
    (κ.Idle → κ.w.mem.Holds (contentAfter l ops)) := by
  obtain ⟨n, f, hf, rfl⟩ := h.exec
  have hI := hf.inv hm (Nat.le_refl n)
  have hpos : ∀ {c op}, (f n).Called c op → c - 1 + 1 = c := by
    rintro c op ⟨ct, st, s, hc⟩
    exact Nat.sub_add_cancel (hI.next _ _ hc).1
  have hops' : ∀ c op, (f n).Called c op → ops[c - 1]? = some op := by
    intro c op hc
    have := hpos hc
    exact (hops _ _).1 (by rw [this]; exact hc)
  have hfit' : ∀ c op mem, (f n).Called c op → (f n).AtStart c mem →
      op.Fits (contentAfter l (ops.take (c - 1))) mem.maxCap := by
    intro c op mem hc ha
    have := hpos hc
    exact hfit _ _ _ (hops' c op hc) (by rw [this]; exact ha)
  have halone : ∀ c, (f n).Alone c := fun c d hd => hno c d (Ne.symm hd)
  obtain ⟨s1, s2, s3⟩ := hf.sequential hm hno hops' hfit' n (Nat.le_refl n)
  have hrun : ∀ {k r}, (f n).calls (k + 1) = some r → SoloOK (contentAfter l (ops.take k)) r (f n).w.mem := by
    intro k r hc
    obtain ⟨op, ct, st, s⟩ := r
    have hcall : (f n).Called (k + 1) op := ⟨_, _, _, hc⟩
    have hlt := (hf.called_at hm hc).1
    have hs := s1 _ _ hc
    have hfi := hfit' _ _ _ hcall ⟨_, hc, rfl⟩
    obtain ⟨r', g1, g2, g3⟩ := hf.alone_run hm (halone _) hc hs hfi n hlt (Nat.le_refl n)
    rw [hc] at g1; cases g1
    exact g3
  refine ⟨?_, ?_, ?_, ?_⟩
  · rintro k op x ⟨ct, st, et, fin, hc⟩
    exact (hrun hc).2
  · rintro k op p ⟨ct, st, et, fin, hc⟩
    exact (hrun hc).2
  · rintro k mem ⟨r, hc, rfl⟩
    exact (s1 _ _ hc).holds
  · intro hidle
    have := (s2 hidle).holds
    suffices hle : ops.length ≤ (f n).next - 1 by rwa [List.take_of_length_le hle] at this
    rcases Nat.eq_zero_or_pos ops.length with h0 | hpos
    · omega
    obtain ⟨ct, st, s, hc⟩ := (hops (ops.length - 1) _).2 (List.getElem?_eq_getElem (by omega))
    have := (hI.next _ _ hc).2
    have : ops.length - 1 + 1 < (f n).next := this
    omega

/-- **C39.** A call that overlaps with no other call, whatever happened before (calls of any threads, overlapping in any way),
if all growth calls before it returned: there is a list `vs`, the content of the vector at the invocation, such that the
call can always end, its result is that of the operation on `vs`, and the content at its end is that of the list afterwards. -/
theorem C39_alone (hm : InitMem m l) (h : Reach m l κ) {c : Cid} {op : Op α β} {mem : Mem α} (hc : κ.Called c op)
    (ha : κ.Alone c) (hst : κ.AtStart c mem)
    (hall : ∀ d op' n, κ.Called d op' → op'.size = some n → κ.Before d c → ∃ x, κ.Returned d op' x) :
    ∃ vs, mem.Holds vs ∧ (op.Fits vs mem.maxCap →
      (∀ x, κ.Returned c op x → op.Gives vs (.ok x)) ∧
      (∀ k, κ.Panicked c op k → op.Gives vs (.error k)) ∧
      (∀ mem', κ.AtEnd c mem' → mem'.Holds (op.next vs)) ∧
      (κ.Running c op → ∃ κ', κ.Leads κ' ∧
        ((∃ x, op.Gives vs (.ok x) ∧ κ'.Returned c op x) ∨ ∃ k, op.Gives vs (.error k) ∧ κ'.Panicked c op k) ∧
        κ'.w.mem.Holds (op.next vs))) := by
  obtain ⟨n, f, hf, rfl⟩ := h.exec
  obtain ⟨ct, st, s, hc⟩ := hc
  obtain ⟨r, hr, rfl⟩ := hst
  rw [hc] at hr; cases hr
  obtain ⟨h1, h2, h3, h4, h5⟩ := hf.called_at hm hc
  simp only at h1 h2 h3 h4 h5
  have hI := hf.inv hm (Nat.le_of_lt h1)
  obtain ⟨vs, hrep⟩ : ∃ vs, (f ct).w.mem.Rep vs := by
    refine hI.rep (hf.alone_idle hm ha hc) fun d op' k hd hk => ?_
    obtain ⟨dt, ds, ss, hd⟩ := hd
    obtain ⟨r', g1, g2, g3, g4, g5, g6⟩ := hf.rec_mono hm hd (t := n) (Nat.le_of_lt h1) (Nat.le_refl _)
    have hidle := hf.alone_idle hm ha hc
    rcases ss with p | ⟨x, et, fin⟩ | ⟨k', et, fin⟩
    · exact absurd hd (hidle d op' dt ds p)
    · exact ⟨x, _, _, _, _, hd⟩
    · have := g5 (et, fin) rfl
      subst this
      have hb : (f n).Before d c := by
        have := ((hf.prefix (Nat.le_of_lt h1)).ended_at hm hd (et := et) (w := fin) rfl).2.1
        exact ⟨_, _, g1, hc, et, fin, rfl, this⟩
      obtain ⟨x, _, _, _, _, hx⟩ := hall d op' k ⟨_, _, _, g1⟩ hk hb
      rw [g1] at hx; cases hx
  rw [← h3] at hrep
  refine ⟨vs, hrep.holds, fun hfit => ?_⟩
  obtain ⟨r', g1, g2, g3⟩ := hf.alone_run hm ha hc hrep hfit n h1 (Nat.le_refl n)
  rw [hc] at g1; cases g1
  refine ⟨?_, ?_, ?_, ?_⟩
  · rintro x ⟨_, _, _, _, hx⟩
    rw [hc] at hx; cases hx
    exact g3.2
  · rintro k ⟨_, _, _, _, hx⟩
    rw [hc] at hx; cases hx
    exact g3.2
  · rintro mem' ⟨r, t, w, hr, he, rfl⟩
    rw [hc] at hr; cases hr
    cases s <;> cases he <;> exact g3.1.holds
  · rintro ⟨_, _, p, hx⟩
    rw [hc] at hx; cases hx
    obtain ⟨x, m', e1, e2, e3⟩ := g3
    obtain ⟨κ', et, fin, k1, k2, -, k4⟩ := Prog.solo_leads p hc rfl e1
    subst k4
    rcases x with k | x
    · exact ⟨κ', k1, .inr ⟨k, e3, _, _, _, _, k2⟩, e2.holds⟩
    · exact ⟨κ', k1, .inl ⟨x, e3, _, _, _, _, k2⟩, e2.holds⟩
section examples
open Demo

/-- Operations that are performed one after the other: one that grows the storage, a swap, one whose closure panics. -/
def someOps : List (Op Nat Nat) :=
  [.push 7, .swap .spinning 0 2, .fillWith fun i => if i < 2 then some i else none]

def oneByOne : List (Choice Nat Nat) :=
  [.call (.push 7)] ++ go 1 10 ++ [.call (.swap .spinning 0 2)] ++ go 2 17 ++
  [.call (.fillWith fun i => if i < 2 then some i else none)] ++ go 3 11

/-- The hypotheses of `C39_sequential`; the results and the content are `2`, `true`, a panic, and `[0, 1, 10]`. -/
example : ∃ κ : Cfg Nat Nat, Reach (mem [10, 20] 2 8) [10, 20] κ ∧ (∀ c d, c ≠ d → ¬ κ.Overlap c d) ∧
    (∀ (k : Nat) op, κ.Called (k + 1) op ↔ someOps[k]? = some op) ∧
    (∀ (k : Nat) op mem, someOps[k]? = some op → κ.AtStart (k + 1) mem →
      op.Fits (contentAfter [10, 20] (someOps.take k)) mem.maxCap) ∧
    κ.Idle ∧ contentAfter [10, 20] someOps = [0, 1, 10] ∧
    κ.Returned 1 (.push 7) (.nat 2) ∧ κ.Returned 2 (.swap .spinning 0 2) (.bool true) ∧
    κ.panicOf 3 = some .userCode := by
  have hp : Possible [10, 20] 2 8 oneByOne := by unfold Possible; rfl
  have hre := reach_after hp
  have hcalls : ∀ (k : Nat) r, (after [10, 20] 2 8 oneByOne).calls (k + 1) = some r → k < 3 := by
    intro k r hr
    have := known (by decide) (by decide) hre hr
    have h4 : (after [10, 20] 2 8 oneByOne).next = 4 := rfl
    rw [h4, List.mem_range] at this
    exact Nat.lt_of_succ_lt_succ this
  refine ⟨after [10, 20] 2 8 oneByOne, hre, fun c d hcd ho => ?_, fun k op => ⟨?_, ?_⟩, ?_,
    idle_of (by decide) (by decide) hre rfl, rfl, returned_of rfl rfl, returned_of rfl rfl, rfl⟩
  · have h0 : others (after [10, 20] 2 8 oneByOne) 1 = [] ∧ others (after [10, 20] 2 8 oneByOne) 2 = [] ∧
        others (after [10, 20] 2 8 oneByOne) 3 = [] := ⟨rfl, rfl, rfl⟩
    obtain ⟨r, hr⟩ := ho.1
    have h1 := (hre.inv (mem_init _ _ _ (by decide) (by decide))).next _ _ hr
    have h2 : c = 1 ∨ c = 2 ∨ c = 3 := by
      have h4 : (after [10, 20] 2 8 oneByOne).next = 4 := rfl
      rw [h4] at h1
      have : (0 : Nat) < c ∧ c < (4 : Nat) := h1
      have : ∀ c : Nat, 0 < c ∧ c < 4 → c = 1 ∨ c = 2 ∨ c = 3 := by intro c; omega
      exact this c h1
    rcases h2 with rfl | rfl | rfl
    · exact alone_of (by decide) (by decide) hre h0.1 d (Ne.symm hcd) ho
    · exact alone_of (by decide) (by decide) hre h0.2.1 d (Ne.symm hcd) ho
    · exact alone_of (by decide) (by decide) hre h0.2.2 d (Ne.symm hcd) ho
  · rintro ⟨ct, st, s, hr⟩
    have := hcalls _ _ hr
    obtain rfl | rfl | rfl : k = 0 ∨ k = 1 ∨ k = 2 := by omega
    all_goals cases hr; rfl
  · intro h
    have : k < 3 := by
      by_contra hk
      rw [List.getElem?_eq_none (by simp [someOps]; omega)] at h; cases h
    obtain rfl | rfl | rfl : k = 0 ∨ k = 1 ∨ k = 2 := by omega
    all_goals cases h; exact ⟨_, _, _, rfl⟩
  · rintro k op mem h ⟨r, hr, rfl⟩
    have := hcalls _ _ hr
    obtain rfl | rfl | rfl : k = 0 ∨ k = 1 ∨ k = 2 := by omega
    all_goals
      cases h; cases hr
      simp [Op.Fits, contentAfter, someOps]
    decide

/-- The hypotheses of `C39_alone`: calls 1 and 2 overlap, call 3 comes after them. -/
example : ∃ κ : Cfg Nat Nat, Reach (mem [10, 20] 2 8) [10, 20] κ ∧ κ.Alone 3 ∧
    (∃ mem, κ.AtStart 3 mem ∧ (List.range 8).map mem.content = [some 10, some 20, some 1, some 2, some 3, some 7, none, none] ∧
      mem.maxCap = 8) ∧
    (∀ d op' n, κ.Called d op' → op'.size = some n → κ.Before d 3 → ∃ x, κ.Returned d op' x) ∧
    κ.Overlap 1 2 ∧ κ.Returned 3 (.push 9) (.nat 6) := by
  have hre := reach_after growth_possible
  have hov : others (after [10, 20] 2 8 growth) 3 = [] := rfl
  refine ⟨after [10, 20] 2 8 growth, hre, alone_of (by decide) (by decide) hre hov, ⟨_, ⟨_, rfl, rfl⟩, rfl, rfl⟩,
    fun d op' n hd hn hb => ?_, ⟨⟨_, rfl⟩, ⟨_, rfl⟩, ?_, ?_⟩, returned_of rfl rfl⟩
  · obtain ⟨ct, st, s, hd⟩ := hd
    have hmem : d ∈ List.range 4 := known (by decide) (by decide) hre hd
    simp only [List.range, List.range.loop, List.mem_cons, List.not_mem_nil, or_false] at hmem
    rcases hmem with rfl | rfl | rfl | rfl
    · cases hd
    all_goals cases hd; exact ⟨_, _, _, _, _, rfl⟩
  all_goals
    rintro ⟨r1, r2, h1, h2, t, f, h3, h4⟩
    cases h1; cases h2; cases h3
    exact absurd h4 (by decide)

end examples

end Verif
