import Verif.Proof.Counted
import Verif.Props.StrongFair
import Verif.Spec.Views

/-!
# C20, C21: swaps of a slice, and of elements that somebody has got

Whoever has a slice knows that its elements are counted; so `slice.swap(i, j)` answers `false` exactly if an index is out of bounds.
-/

namespace Verif

variable {α β : Type} {m : Mem α} {l : List α} {κ : Cfg α β}

/-- **C20.** A blocking `swap` of a slice that returned has returned whether both indices are in bounds, whatever other calls do. -/
theorem C20_slice (hm : InitMem m l) (h : Reach m l κ) {c : Cid} {s : Slc} {i j : Nat} {x : Ret α β}
    (hr : κ.Returned c (.slSwap .spinning s i j) x) :
    (x = .bool true ∧ i < s.view.length ∧ j < s.view.length) ∨
      (x = .bool false ∧ (s.view.length ≤ i ∨ s.view.length ≤ j)) := by
  obtain ⟨ct, st, et, fin, hc⟩ := hr
  obtain ⟨d, hinfo⟩ := (h.inv hm).returned hc
  have hn := h.counted hm c _ hc
  simp only [Slc.view, List.length_map, List.length_range, Op.needs, mem_positions] at hn ⊢
  rcases hinfo.out with ⟨h1, h2, -, rfl, -⟩ | ⟨rfl, -, h1 | h1 | ⟨k, hk, h1⟩ | h1⟩
  · exact .inl ⟨rfl, h1, h2⟩
  · exact .inr ⟨rfl, .inl h1⟩
  · exact .inr ⟨rfl, .inr h1⟩
  · refine .inr ⟨rfl, ?_⟩
    have hlow := hk.low
    rcases Nat.lt_or_ge i s.len with h2 | h2
    · rcases Nat.lt_or_ge j s.len with h3 | h3
      · have h4 := hn (s.a + i) ⟨by omega, by omega⟩
        have h5 := hn (s.a + j) ⟨by omega, by omega⟩
        omega
      · exact .inr h3
    · exact .inl h2
  · cases h1

/-- **C21 is false**, also for slices: a blocking `slice.swap(i, i)` with `i` in bounds never returns and never panics, whatever other
calls do. -/
theorem C21_slice_self_hangs (hm : InitMem m l) (h : Reach m l κ) {c : Cid} {s : Slc} {i : Nat} (hi : i < s.view.length)
    (hc : κ.Called c (.slSwap .spinning s i i)) : κ.Running c (.slSwap .spinning s i i) := by
  obtain ⟨ct, st, q, hc⟩ := hc
  cases q with
  | running p => exact ⟨ct, st, p, hc⟩
  | done x et fin =>
    rcases C20_slice hm h ⟨ct, st, et, fin, hc⟩ with ⟨rfl, -⟩ | ⟨-, h2⟩
    · obtain ⟨d, hinfo⟩ := (h.inv hm).returned hc
      rcases hinfo.out with ⟨-, -, h3, -⟩ | ⟨h3, -⟩
      · exact absurd rfl h3
      · cases h3
    · omega
  | panicked k et fin =>
    obtain ⟨U, d, hinfo⟩ := (h.inv hm).panicked hc
    exact hinfo.out.elim

/-- **C21 is false**, also while other calls are made: a blocking `swap(i, i)` of an element that somebody had got before
(from `get(i)`, `iter()`, a slice, …), or below a length reported before, never returns and never panics, whatever other calls do. -/
theorem C21_counted_self_hangs (hm : InitMem m l) (h : Reach m l κ) {c d : Cid} {i : Nat} {op1 : Op α β} {x1 : Ret α β}
    (h1 : κ.Returned d op1 x1) (r1 : i ∈ x1.elements ∨ ∃ n1, op1.ReportsLen n1 x1 ∧ i < n1) (hb : κ.Before d c)
    (hc : κ.Called c (.swap .spinning i i)) : κ.Running c (.swap .spinning i i) := by
  obtain ⟨ct', st', q, hc⟩ := hc
  obtain ⟨ct, st, et, fin, hd⟩ := h1
  have hI := h.inv hm
  cases q with
  | running p => exact ⟨ct', st', p, hc⟩
  | done x et' fin' =>
    obtain ⟨e, hinfo⟩ := hI.returned hd
    obtain ⟨e', hinfo'⟩ := hI.returned hc
    obtain ⟨q1, q2, g1, g2, hb⟩ := hb
    rw [hd] at g1; rw [hc] at g2
    simp only [Option.some.injEq] at g1 g2
    subst g1 g2
    obtain ⟨t, fin1, he, hev⟩ := hI.before hd hc hb
    simp only [Status.ended, Option.some.injEq, Prod.mk.injEq] at he
    obtain ⟨rfl, rfl⟩ := he
    have hw : i < fin.mem.written := by
      rcases r1 with r1 | ⟨n1, r1, hi⟩
      · refine (hinfo.out.reveals (P := fun i => i < fin.mem.written) (fun hl i hi => Nat.lt_of_lt_of_le hi hl.written)
          fun i hi => Nat.lt_of_lt_of_le (h.counted hm d _ hd i hi) hinfo.ev1.written).1 i r1
      · exact Nat.lt_of_lt_of_le hi (hinfo.lenOK r1).1.written
    have hw' := hev.written
    rcases hinfo'.out with ⟨k, -, -, -, h3, -⟩ | ⟨-, -, ⟨k, hl', hk⟩ | hk⟩
    · exact absurd rfl h3
    · have h2 := hl'.low
      simp only at hw'
      omega
    · cases hk
  | panicked k et fin =>
    obtain ⟨U, d, hinfo⟩ := hI.panicked hc
    exact hinfo.out.elim

/-- **C21 (partial).** Under every strongly fair scheduling, `slice.swap(i, j)` of different positions of the slice returns `true`, and
`false` if an index is out of bounds, whatever other calls do. Missing for the full statement: `i = j`, for which it is false
(`C21_slice_self_hangs`), and opposite swaps (`C22_opposite_swaps_deadlock`): all blocking swaps name the smaller index first. -/
theorem C21_slice_partial (hm : InitMem m l) {κ : Nat → Cfg α β} (h : InfExec m l κ) (hf : StronglyFair κ)
    (hp : ∀ t, (κ t).GrowthIntact) (hsw : ∀ t c op, (κ t).Called c op → op.SwapsUp) {t : Nat} {c : Cid} {s : Slc} {i j : Nat}
    (hc : (κ t).Called c (.slSwap .spinning s i j)) :
    ∃ t' b, (κ t').Returned c (.slSwap .spinning s i j) (.bool b) ∧ (b = true ↔ i < s.view.length ∧ j < s.view.length) := by
  obtain ⟨t', ⟨x, hr⟩ | ⟨k, hr⟩⟩ := C22_strongly_fair hm h hf hp hsw hc
  · rcases C20_slice hm ((h.exec t').reach (Nat.le_refl _)) hr with ⟨rfl, h1, h2⟩ | ⟨rfl, h1⟩
    · exact ⟨t', true, hr, by simp [h1, h2]⟩
    · refine ⟨t', false, hr, ?_⟩
      constructor
      · intro h2; cases h2
      · omega
  · obtain ⟨ct, st, et, fin, hcc⟩ := hr
    obtain ⟨U, dd, hinfo⟩ := (h.inv hm t').panicked hcc
    exact hinfo.out.elim

/-! ## Executions that meet the hypotheses -/

section examples
open Demo

/-- `push(30)`; `as_slice()`; `get_cloned(2)` up to the moment at which it has locked the element; `slice.swap(0, 2)`, which has locked
element 0 and has to wait for element 2. -/
def Demo.sliceSwapWaits : List (Choice Nat Nat) :=
  [.call (.push 30)] ++ go 1 6 ++ [.call .asSlice] ++ go 2 10 ++ [.call (.getCloned 2)] ++ go 3 5 ++
    [.call (.slSwap .spinning ⟨0, 3⟩ 0 2)] ++ go 4 16

/-- It goes on: `get_cloned` ends, the swap ends; then `slice.swap(0, 3)`. -/
def Demo.sliceSwap : List (Choice Nat Nat) :=
  sliceSwapWaits ++ go 3 2 ++ go 4 5 ++ [.call (.slSwap .spinning ⟨0, 3⟩ 0 3)] ++ go 5 1

/-- `C20_slice`, `C21_slice_partial`: a swap that had to wait, and one that is out of bounds. (Without the slice the first one might have
answered `false`, see `C20_false_in_bounds`.) -/
example : InfExec (mem [10, 20] 3 8) [10, 20] (forever [10, 20] 3 8 sliceSwap) ∧ StronglyFair (forever [10, 20] 3 8 sliceSwap) ∧
    (∀ t, (forever [10, 20] 3 8 sliceSwap t).GrowthIntact) ∧
    (∀ t c op, (forever [10, 20] 3 8 sliceSwap t).Called c op → op.SwapsUp) ∧
    (forever [10, 20] 3 8 sliceSwap sliceSwapWaits.length).Blocked 4 ∧
    (forever [10, 20] 3 8 sliceSwap sliceSwap.length).Returned 4 (.slSwap .spinning ⟨0, 3⟩ 0 2) (.bool true) ∧
    (forever [10, 20] 3 8 sliceSwap sliceSwap.length).Returned 5 (.slSwap .spinning ⟨0, 3⟩ 0 3) (.bool false) ∧
    (⟨0, 3⟩ : Slc).view = [0, 1, 2] := by
  have hposs : Possible [10, 20] 3 8 sliceSwap := by unfold Possible; rfl
  have hi : (after [10, 20] 3 8 sliceSwap).Idle := idle_of (by decide) (by decide) (reach_after hposs) rfl
  have hops : ∀ c, c < 6 → ∀ op, ((after [10, 20] 3 8 sliceSwap).calls c).map Rec.op = some op → op.SwapsUp
    | 0, _, _, h => by cases h
    | 1, _, _, h => by cases h; trivial
    | 2, _, _, h => by cases h; trivial
    | 3, _, _, h => by cases h; trivial
    | 4, _, _, h => by cases h; exact Nat.zero_lt_two
    | 5, _, _, h => by cases h; exact Nat.zero_lt_succ 2
  refine ⟨infExec_forever hposs hi rfl, ⟨fair_forever (by decide) (by decide) hposs hi rfl, ?_⟩, ?_, ?_, ?_, ?_, ?_, rfl⟩
  · intro c hinf
    obtain ⟨t', ht', ⟨op, ct, st, p, hrun⟩, -⟩ := hinf sliceSwap.length
    exact absurd hrun (idle_forever hi ht' c op ct st p)
  · intro t
    exact .of_no_panic fun c op k hk => intact_of (by decide) (by decide) (reach_after hposs) rfl
      (panicked_forever (by decide) (by decide) hposs hk)
  · intro t c op hc
    obtain ⟨ct, st, s, hr⟩ := called_forever (by decide) (by decide) hposs hc
    exact hops c (List.mem_range.1 (known (by decide) (by decide) (reach_after hposs) hr)) op (by rw [hr]; rfl)
  · have hI := (infExec_forever hposs hi rfl).inv (mem_init _ _ _ (by decide) (by decide)) sliceSwapWaits.length
    rw [forever_le (by decide)] at hI ⊢
    refine ⟨⟨_, _, _, _, rfl⟩, fun κ' hmv => ?_⟩
    have hwf : Cfg.WaitsFor (after [10, 20] 3 8 (sliceSwap.take sliceSwapWaits.length)) 4 _ 2 := ⟨rfl, _, _, _, _, rfl, rfl⟩
    have h := hwf.moves hI rfl hmv
    exact ⟨h.2 4, by rw [h.1]⟩
  · rw [forever_le (by decide)]; exact ⟨_, _, _, _, rfl⟩
  · rw [forever_le (by decide)]; exact ⟨_, _, _, _, rfl⟩

/-- `as_slice()`, then `swap(1, 1)` of the slice and of the vector: the hypotheses of `C21_slice_self_hangs` and
`C21_counted_self_hangs`. -/
def Demo.sliceSelf : List (Choice Nat Nat) :=
  [.call .asSlice] ++ go 1 9 ++ [.call (.slSwap .spinning ⟨0, 2⟩ 1 1)] ++ go 2 5 ++ [.call (.swap .spinning 1 1)] ++ go 3 6

example : Possible [10, 20] 2 8 sliceSelf ∧ 1 < (⟨0, 2⟩ : Slc).view.length ∧
    (after [10, 20] 2 8 sliceSelf).Called 2 (.slSwap .spinning ⟨0, 2⟩ 1 1) ∧
    (after [10, 20] 2 8 sliceSelf).Called 3 (.swap .spinning 1 1) ∧
    (after [10, 20] 2 8 sliceSelf).Returned 1 .asSlice (.slc ⟨0, 2⟩) ∧ 1 ∈ (.slc ⟨0, 2⟩ : Ret Nat Nat).elements ∧
    (after [10, 20] 2 8 sliceSelf).Before 1 3 := by
  have hposs : Possible [10, 20] 2 8 sliceSelf := by unfold Possible; rfl
  exact ⟨hposs, by decide, ⟨_, _, _, rfl⟩, ⟨_, _, _, rfl⟩, ⟨_, _, _, _, rfl⟩, by decide, before_of rfl rfl (by decide)⟩

end examples

end Verif
