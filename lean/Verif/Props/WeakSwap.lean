import Verif.Props.WeakProgress
import Verif.Props.Weak
import Verif.Spec.Views
import Verif.Weak.SwapHangs

/-!
# C20, C21, C22: swaps under weak memory

What a blocking `swap` answers, and when it answers at all, in every execution with the memory orderings that the code uses.
-/

namespace Verif

variable {α β : Type} {m : Mem α} {l : List α}

/-! ## executions used below -/

namespace Weak.Show

open Verif.Demo (mem mem_init)

/-- `[10, 20]`: call 1 pushes 30; call 2, after it, reports the length 3; then, side by side, call 3 swaps 0 and 2, and call 4 takes a
slice of everything, with which call 5 swaps 1 and 2; call 3 has to wait for call 5. Call 6 tries to swap 0 and 3 of the slice. -/
def swaps : List (Choice Nat Nat) :=
  [.call (.push 30) []] ++ go 1 10 ++ [.call .len [1]] ++ go 2 6 ++ [.call (.swap .spinning 0 2) [2], .call .asSlice [2]] ++ go 3 8 ++
  go 4 9 ++ [.call (.slSwap .spinning ⟨0, 3⟩ 1 2) [4]] ++ go 5 12 ++ go 3 4 ++ go 5 4 ++
  [.call (.slSwap .spinning ⟨0, 3⟩ 0 3) [4]] ++ go 6 1 ++ go 3 5

theorem swaps_possible : Possible [10, 20] 2 8 swaps := by unfold Possible; rfl

/-- The execution `swaps`. -/
def σs : Cfg Nat Nat := after [10, 20] 2 8 swaps

theorem σs_reach : Reach (mem [10, 20] 2 8) σs := reach_after swaps_possible

theorem σs_ops : ops σs = [.push 30, .len, .swap .spinning 0 2, .asSlice, .slSwap .spinning ⟨0, 3⟩ 1 2, .slSwap .spinning ⟨0, 3⟩ 0 3] := rfl

theorem σs_disciplined : σs.Disciplined := by
  refine disciplined_of σs_reach fun op hop e => ?_
  rw [σs_ops] at hop
  simp only [List.mem_cons, List.not_mem_nil, or_false] at hop
  rintro rfl
  simp at hop

/-- Call 3 may rely on position 2, which call 2 has counted. -/
theorem σs_counted : σs.Counted 2 3 2 :=
  .inr ⟨2, .len, .nat 3, Cfg.hb_of (H := [2]) rfl (by decide), Cfg.returned_of rfl rfl, .inr ⟨3, rfl, by decide⟩⟩

end Weak.Show

/-! ## what swaps answer -/

section

variable {κ : Weak.Cfg α β}

open Weak

/-- Positions that were counted stay in bounds: `get(i)` finds the element, `vec[i]` does not panic, and neither does `split_at(i)`. -/
theorem C41_counted (hm : InitMem m l) (h : Weak.Reach m κ) (hd : κ.Disciplined) {c : Cid} {i : Nat} (hi : κ.Counted l.length c i) :
    (∀ x, κ.Returned c (.get i) x → x = .elem (some i)) ∧ (∀ k, ¬ κ.Panicked c (.index i) k) ∧
    (∀ k, ¬ κ.Panicked c (.splitAt i) k) := by
  obtain ⟨K, K0, hw⟩ := winv_of hm h hd
  refine ⟨fun x hx => ?_, fun k hk => ?_, fun k hk => ?_⟩
  · have hr := hx
    obtain ⟨r, hr, -⟩ := hr
    have := hw.counted hr hi
    rcases (hw.done hx).get i rfl with h3 | ⟨-, h3, -⟩
    · exact h3
    · omega
  · have hr := hk
    obtain ⟨r, hr, -⟩ := hr
    have := hw.counted hr hi
    have := (hw.failed hk).index i rfl
    omega
  · have hr := hk
    obtain ⟨r, hr, -⟩ := hr
    have := hw.counted hr hi
    have := (hw.failed hk).split i rfl
    omega

open Weak.Show in
/-- Call 4 of `growth` reports the length 6; call 5, after it, looks for position 4. -/
example : Show.κ.Counted 2 5 4 ∧ Show.κ.Returned 5 (.get 4) (.elem (some 4)) := by
  have hi : Show.κ.Counted 2 5 4 :=
    .inr ⟨4, .len, .nat 6, Cfg.hb_of (H := [4]) rfl (by decide), Cfg.returned_of rfl rfl, .inr ⟨6, rfl, by decide⟩⟩
  have hr : ∃ x, Show.κ.Returned 5 (.get 4) x := ⟨_, Cfg.returned_of rfl rfl⟩
  obtain ⟨x, hx⟩ := hr
  exact ⟨hi, (C41_counted Show.init Show.reach Show.disciplined hi).1 x hx ▸ hx⟩

/-- **C20 (partial), under weak memory.** A `swap` of positions that were counted before does not return `false`, whatever other calls do.
Missing for the full statement: elements that no call has counted yet (`C20_weak_false_in_bounds`). -/
theorem C20_weak_counted_partial (hm : InitMem m l) (h : Weak.Reach m κ) (hd : κ.Disciplined) {c : Cid} {i j : Nat} {x : Ret α β}
    (hi : κ.Counted l.length c i) (hj : κ.Counted l.length c j) (hr : κ.Returned c (.swap .spinning i j) x) : x = .bool true := by
  obtain ⟨K, K0, hw⟩ := winv_of hm h hd
  have hr' := hr
  obtain ⟨r, hc, -⟩ := hr'
  have h1 := hw.counted hc hi
  have h2 := hw.counted hc hj
  rcases (hw.done hr).swap _ i j rfl with ⟨rfl, -⟩ | ⟨-, h3⟩
  · rfl
  · rcases h3 rfl with h3 | h3 <;> omega

open Weak.Show in
example : σs.Returned 3 (.swap .spinning 0 2) (.bool true) := by
  have hr : ∃ x, σs.Returned 3 (.swap .spinning 0 2) x := ⟨_, Cfg.returned_of rfl rfl⟩
  obtain ⟨x, hx⟩ := hr
  exact C20_weak_counted_partial Show.init σs_reach σs_disciplined (.inl (by decide)) σs_counted hx ▸ hx

/-- **C20, under weak memory.** A blocking `swap` of a slice that returned has returned whether both indices are in bounds, whatever other
calls do. -/
theorem C20_weak_slice (hm : InitMem m l) (h : Weak.Reach m κ) (hd : κ.Disciplined) {c : Cid} {s : Slc} {i j : Nat} {x : Ret α β}
    (hr : κ.Returned c (.slSwap .spinning s i j) x) :
    (x = .bool true ∧ i < s.view.length ∧ j < s.view.length) ∨
      (x = .bool false ∧ (s.view.length ≤ i ∨ s.view.length ≤ j)) := by
  obtain ⟨K, K0, hw⟩ := winv_of hm h hd
  simp only [Slc.view, List.length_map, List.length_range]
  rcases (hw.done hr).slSwap _ s i j rfl with ⟨rfl, h1, h2, -⟩ | ⟨rfl, h1⟩
  · exact .inl ⟨rfl, h1, h2⟩
  · exact .inr ⟨rfl, h1 rfl⟩

open Weak.Show in
example : σs.Returned 5 (.slSwap .spinning ⟨0, 3⟩ 1 2) (.bool true) ∧ σs.Returned 6 (.slSwap .spinning ⟨0, 3⟩ 0 3) (.bool false) := by
  have h5 : ∃ x, σs.Returned 5 (.slSwap .spinning ⟨0, 3⟩ 1 2) x := ⟨_, Cfg.returned_of rfl rfl⟩
  have h6 : ∃ x, σs.Returned 6 (.slSwap .spinning ⟨0, 3⟩ 0 3) x := ⟨_, Cfg.returned_of rfl rfl⟩
  obtain ⟨x, hx⟩ := h5
  obtain ⟨y, hy⟩ := h6
  constructor
  · rcases C20_weak_slice Show.init σs_reach σs_disciplined hx with ⟨rfl, -⟩ | ⟨-, h⟩
    · exact hx
    · simp [Slc.view] at h
  · rcases C20_weak_slice Show.init σs_reach σs_disciplined hy with ⟨-, h⟩ | ⟨rfl, -⟩
    · simp [Slc.view] at h
    · exact hy

/-! ## swaps that never answer -/

/-- **C21 is false under weak memory.** `swap(i, i)`, blocking or not, never returns `true`. -/
theorem C21_weak_self_never_true (hm : InitMem m l) (h : Weak.Reach m κ) (hd : κ.Disciplined) {c : Cid} {mode : MutMode} {i : Nat} :
    ¬ κ.Returned c (.swap mode i i) (.bool true) ∧ ∀ s, ¬ κ.Returned c (.slSwap mode s i i) (.bool true) := by
  obtain ⟨K, K0, hw⟩ := winv_of hm h hd
  refine ⟨fun hr => ?_, fun s hr => ?_⟩
  · rcases (hw.done hr).swap _ i i rfl with ⟨-, h1⟩ | ⟨h1, -⟩
    · exact h1 rfl
    · cases h1
  · rcases (hw.done hr).slSwap _ s i i rfl with ⟨-, -, -, h1⟩ | ⟨h1, -⟩
    · exact h1 rfl
    · cases h1

/-- A non-blocking `swap(1, 1)` returns `false`, although 1 is in bounds. -/
example : ∃ κ : Weak.Cfg Nat Nat, Weak.Reach (Demo.mem [10, 20] 2 8) κ ∧ κ.Returned 1 (.swap .tryOnce 1 1) (.bool false) ∧
    ¬ κ.Returned 1 (.swap .tryOnce 1 1) (.bool true) := by
  have hp : Show.Possible [10, 20] 2 8 ([.call (.swap .tryOnce 1 1) []] ++ Show.go 1 14) := by unfold Show.Possible; rfl
  have hre := Show.reach_after hp
  refine ⟨_, hre, Cfg.returned_of rfl rfl, (C21_weak_self_never_true Show.init hre (Show.disciplined_of hre fun op hop e => ?_)).1⟩
  have : Show.ops (Show.after [10, 20] 2 8 ([.call (.swap .tryOnce 1 1) []] ++ Show.go 1 14)) = [.swap .tryOnce 1 1] := rfl
  rw [this] at hop
  rintro rfl
  simp at hop

/-- **C21 is false under weak memory.** A blocking `swap(i, i)` of a position that was counted before, and a blocking `slice.swap(i, i)`
with `i` in bounds, never return and never panic, whatever other calls do. -/
theorem C21_weak_self_hangs (hm : InitMem m l) (h : Weak.Reach m κ) (hd : κ.Disciplined) {c : Cid} {i : Nat} {op : Op α β}
    (hc : κ.Called c op) (ho : (op = .swap .spinning i i ∧ κ.Counted l.length c i) ∨
      ∃ s, op = .slSwap .spinning s i i ∧ i < s.view.length) : κ.Running c op := by
  rcases running_or_over hc with hr | ⟨x, hx⟩ | ⟨k, hk⟩
  · exact hr
  · rcases ho with ⟨rfl, hi⟩ | ⟨s, rfl, hi⟩
    · have := C20_weak_counted_partial hm h hd hi hi hx
      subst this
      exact absurd hx (C21_weak_self_never_true hm h hd).1
    · rcases C20_weak_slice hm h hd hx with ⟨rfl, -⟩ | ⟨-, h1⟩
      · exact absurd hx ((C21_weak_self_never_true hm h hd).2 s)
      · omega
  · have := C41_documented_panics hm h hd hk
    rcases ho with ⟨rfl, hi⟩ | ⟨s, rfl, hi⟩ <;> exact this.elim

end

namespace Weak.Show

open Verif.Demo (mem mem_init)

/-- `[10, 20]`: call 1 swaps 1 and 1, call 2 pushes 30 meanwhile. -/
def selfSwap : List (Choice Nat Nat) := [.call (.swap .spinning 1 1) []] ++ go 1 30 ++ [.call (.push 30) []] ++ go 2 10

theorem selfSwap_possible : Possible [10, 20] 2 8 selfSwap := by unfold Possible; rfl

/-- After 30 steps of call 1. -/
example : (after [10, 20] 2 8 selfSwap).Returned 2 (.push 30) (.nat 2) ∧
    (after [10, 20] 2 8 selfSwap).Running 1 (.swap .spinning 1 1) := by
  have hre := reach_after selfSwap_possible
  have hd : (after [10, 20] 2 8 selfSwap).Disciplined := by
    refine disciplined_of hre fun op hop e => ?_
    have : ops (after [10, 20] 2 8 selfSwap) = [.swap .spinning 1 1, .push 30] := rfl
    rw [this] at hop
    rintro rfl
    simp at hop
  exact ⟨Cfg.returned_of rfl rfl, C21_weak_self_hangs Show.init hre hd ⟨_, rfl, rfl⟩ (.inl ⟨rfl, .inl (by decide)⟩)⟩

/-- Calls 1 (`swap(0, 1)`) and 2 (`swap(1, 0)`) have one handle each. -/
def crossing : List (Choice Nat Nat) := [.call (.swap .spinning 0 1) [], .call (.swap .spinning 1 0) []] ++ go 1 11 ++ go 2 11

theorem crossing_possible : Possible [10, 20] 2 8 crossing := by unfold Possible; rfl

end Weak.Show

open Weak Weak.Show in
/-- **C22, under weak memory.** Two concurrent swaps with opposite index order can block each other forever: there is a reachable moment
from which on, whatever happens, both are unfinished. (`Disciplined` is only about calls that use raw pointers.) -/
theorem C22_weak_opposite_swaps_deadlock : ∃ κ : Weak.Cfg Nat Nat, Weak.Reach (Demo.mem [10, 20] 2 8) κ ∧ ∀ κ', κ.Leads κ' →
    κ'.Disciplined → κ'.Running 1 (.swap .spinning 0 1) ∧ κ'.Running 2 (.swap .spinning 1 0) := by
  have hre := reach_after crossing_possible
  refine ⟨_, hre, fun κ' hl hd => ?_⟩
  have := SecondHandle.forever Show.init hre (c := 1) (d := 2) (i := 0) (j := 1) (op := .swap .spinning 0 1) (op' := .swap .spinning 1 0)
    ⟨_, _, _, _, _, _, rfl, rfl, rfl, rfl⟩ ⟨_, _, _, _, _, _, rfl, rfl, rfl, rfl⟩ (by decide) (by decide) (.inl (by decide))
    (.inl (by decide)) hl hd
  exact ⟨this.1.running, this.2.1.running⟩

open Weak in
/-- **C21 (partial), under weak memory.** If the scheduler and the memory are strongly fair, then `swap(i, j)` of different positions that
were counted before returns `true`, and `slice.swap(i, j)` of different positions of the slice does so, whatever other calls do. Missing
for the full statement: `i = j`, for which it is false (`C21_weak_self_hangs`), opposite swaps (`C22_weak_opposite_swaps_deadlock`), and
elements that no call has counted yet (`C20_weak_false_in_bounds`). -/
theorem C21_weak_partial {κ : Nat → Weak.Cfg α β} (hm : InitMem m l) (h : Weak.InfExec m κ) (hf : Weak.StronglyFair κ)
    (hd : ∀ t, (κ t).Disciplined) (hs : ∀ t, (κ t).SwapsUp) {mx : Nat} (hg : ∀ t, (κ t).GrowthIntact mx) {t : Nat} {c : Cid} {op : Op α β}
    {i j : Nat} (hc : (κ t).Called c op)
    (ho : (op = .swap .spinning i j ∧ (κ t).Counted l.length c i ∧ (κ t).Counted l.length c j) ∨
      ∃ s, op = .slSwap .spinning s i j ∧ i < s.view.length ∧ j < s.view.length) :
    ∃ t', (κ t').Returned c op (.bool true) := by
  obtain ⟨t', ht, ⟨x, hx⟩ | ⟨k, hk⟩⟩ := C54_ends hm h hf hd hs hg hc
  · refine ⟨t', ?_⟩
    rcases ho with ⟨rfl, hi, hj⟩ | ⟨s, rfl, hi, hj⟩
    · exact C20_weak_counted_partial hm (h.reach t') (hd t') (h.counted ht hi) (h.counted ht hj) hx ▸ hx
    · rcases C20_weak_slice hm (h.reach t') (hd t') hx with ⟨rfl, -⟩ | ⟨-, h1⟩
      · exact hx
      · omega
  · have := C41_documented_panics hm (h.reach t') (hd t') hk
    rcases ho with ⟨rfl, -⟩ | ⟨s, rfl, -⟩ <;> exact this.elim

open Weak Weak.Show in
/-- Moment 26 of `swaps`: call 3 has been called. -/
example : ∃ t', (lasting [10, 20] 2 8 swaps t').Returned 3 (.swap .spinning 0 2) (.bool true) := by
  have hd : σs.SwapsUp := only_of σs_reach fun op hop => by
    rw [σs_ops] at hop
    simp only [List.mem_cons, List.not_mem_nil, or_false] at hop
    rcases hop with rfl | rfl | rfl | rfl | rfl | rfl <;> simp [Op.SwapsUp]
  refine C21_weak_partial (l := [10, 20]) Show.init (lasting_inf swaps_possible) (lasting_fair (idle_of σs_reach rfl))
    (fun t => lasting_disciplined swaps_possible σs_disciplined t) (fun t => lasting_only swaps_possible hd t) (mx := 8)
    (fun t => ?_) (t := 26) (c := 3) (i := 0) (j := 2) ⟨_, rfl, rfl⟩ (.inl ⟨rfl, .inl (by decide), .inr ⟨2, .len, .nat 3, ?_⟩⟩)
  · exact ⟨fun c f hc => no_panic σs_reach rfl _ _ _ (lasting_panicked swaps_possible hc),
      fun c op hc => absurd (lasting_panicked swaps_possible hc) (no_panic σs_reach rfl c op _)⟩
  · exact ⟨Cfg.hb_of (H := [2]) rfl (by decide), Cfg.returned_of rfl rfl, .inr ⟨3, rfl, by decide⟩⟩

end Verif
